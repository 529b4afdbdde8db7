import Verif.Spec.Whole

/-!
# Specification: the same rules in other files
-/

namespace Fmr

/-- Two sets of files say the same: the same alternatives for every rule, and the same regexps. In which file something is
written, in which order, how often, and whether the alternatives of a rule are written together or not, is left open. -/
structure SameText (ds : List Def) (F : Files) (I : String → Prop) (ρ : List (String × String))
    (ds' : List Def) (F' : Files) (I' : String → Prop) (ρ' : List (String × String)) : Prop where
  alternatives : ∀ A b, wholeWritten ds F I A b ↔ wholeWritten ds' F' I' A b
  regexps : ∀ k s, wholeRegexps F I ρ k s ↔ wholeRegexps F' I' ρ' k s

/-- The words of a literal identify it. -/
def LiteralsApart (ds : List Def) (F : Files) (I : String → Prop) (w : RefineWorld) : Prop :=
  ∀ t t', wholeLiteral ds F I t → wholeLiteral ds F I t' → literalName w "g" t.value = literalName w "g" t'.value → t.value = t'.value

end Fmr
