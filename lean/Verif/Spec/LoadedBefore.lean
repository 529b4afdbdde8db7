import Verif.Model.Load

/-!
# Specification: what loads leave behind
-/

namespace Fmr

/-- What loads, also failed ones, do to the registry of tokens: they keep what is there, and what they add are words
of literals under their texts. -/
structure After (annot : String → Option (List Token)) (reg reg' : Registry) : Prop where
  keeps : ∀ k v, reg.lookup k = some v → reg'.lookup k = some v
  adds : ∀ k v, reg'.lookup k = some v → reg.lookup k = some v ∨ (v.text = k ∧ ∃ lit toks, annot lit = some toks ∧ v ∈ toks)

/-- In all literals the word `k` has the same lemma and, up to case, the same norm. -/
def WordFixed (annot : String → Option (List Token)) (lower : String → String) (k : String) : Prop :=
  ∀ lit toks a lit' toks' a', annot lit = some toks → a ∈ toks → a.text = k → annot lit' = some toks' → a' ∈ toks' → a'.text = k →
    a'.lemma_ = a.lemma_ ∧ lower a'.norm = lower a.norm

end Fmr
