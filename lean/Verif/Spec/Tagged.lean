import Verif.Spec.Local

/-!
# Where a document is tagged (for C104)
-/

namespace Fmr

/-- the tokens of a document from number `a` on, up to number `b` -/
def Doc.between (d : Doc) (a b : Int) : List Token := (d.tokens.drop a.toNat).take (b - a).toNat

/-- The document is tagged with `k` from token `a` to token `b`: by the annotator, or by a match of a regexp `k` that starts with
token `a` and ends before token `b`. -/
inductive Tagged (find : String → Bytes → Option (List (Nat × Nat))) (R : String → String → Prop) (d : Doc) :
    String → Int → Int → Prop
  | tag {sp : Span} {m : List (String × SpanVals)} {k : String} {vs : SpanVals} : sp ∈ d.spans → sp.ann = .map m →
      (k, vs) ∈ m → Tagged find R d k sp.start sp.stop
  | regexp {k s : String} {ms : List (Nat × Nat)} {m : Nat × Nat} {i j : Nat} {a b : Token} : R k s → find s d.text = some ms →
      m ∈ ms → d.tokens[i]? = some a → d.tokens[j]? = some b → a.startByte = m.1 → b.endByte = m.2 →
      Tagged find R d k i (j + 1)

/-- the names of the classes of tokens -/
def IsClass (k : String) : Prop := k = "word" ∨ k = "punct" ∨ k = "symbol" ∨ k = "letters"

end Fmr
