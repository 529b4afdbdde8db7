import Verif.Spec.TextTrees

/-!
# Specification: includes that are pasted in (for C118)
-/

namespace Fmr

/-- The text consists of the definitions `F` of the files `ps`, one after the other, and of the definitions `ds`, without any
directives. How they are laid out does not matter. `ps` are the files `I`. -/
structure Pastes (w : LexWorld) (F : Files) (ds : List Def) (ρ : List (String × String)) (I : String → Prop) (ps : List String)
    (text : List Char) : Prop where
  files : ∀ p, I p ↔ p ∈ ps
  text : ∃ (body : String → List Char) (r : List Char), (∀ p ∈ ps, DefsSyn w (body p) (F.defs p) [] (F.regexps p)) ∧
    DefsSyn w r ds [] ρ ∧ text = ps.flatMap body ++ r

end Fmr
