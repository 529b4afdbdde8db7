import Verif.Spec.TextTrees

/-!
# Specification: files that say more (for C117)
-/

namespace Fmr

/-- The second set of files has all alternatives and regexps of the first, in whatever files. -/
structure MoreText (ds : List Def) (F : Files) (I : String → Prop) (ρ : List (String × String))
    (ds' : List Def) (F' : Files) (I' : String → Prop) (ρ' : List (String × String)) : Prop where
  alternatives : ∀ A b, wholeWritten ds F I A b → wholeWritten ds' F' I' A b
  regexps : ∀ A s, wholeRegexps F I ρ A s → wholeRegexps F' I' ρ' A s

end Fmr
