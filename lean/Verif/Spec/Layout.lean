import Verif.Spec.Syntax
import Verif.Model.Load

/-!
# Specification: two layouts of the same grammar text (for C115)

Nothing here refers to the parser or to the loader's functions.
-/

namespace Fmr

/-- A grammar text says: include the files `fs`, in this order; these are the definitions `ds`, and `ρ` are the
regexps in them with their names. White space and comments are not part of what it says. -/
inductive TextSays (w : LexWorld) : List Char → List String → List Def → List (String × String) → Prop
  | defs {r : List Char} {ds : List Def} {ρ : List (String × String)} : DefsSyn w r ds [] ρ → TextSays w r [] ds ρ
  | incl {t l : List Char} {f : String} {fs : List String} {ds : List Def} {ρ : List (String × String)} : IncludeSyn w t f →
      TextSays w l fs ds ρ → TextSays w (t ++ l) (f :: fs) ds ρ

/-- Two texts say the same; the alternatives in it can be hashed. -/
def SaySame (w : LexWorld) (t t' : List Char) : Prop :=
  runeError ∉ t ∧ runeError ∉ t' ∧
    ∃ fs ds ρ, TextSays w t fs ds ρ ∧ TextSays w t' fs ds ρ ∧ ∀ d ∈ ds, ∀ b ∈ d.bodies, w.hash b ≠ none

/-- The same text, in any syntax, or two texts that say the same. -/
def SameContent (w : LexWorld) (t t' : List Char) : Prop := t = t' ∨ SaySame w t t'

/-- In both worlds the same files can be read, and what they contain is the same up to layout. -/
def SameFiles (w : LexWorld) (read read' : String → Option (List Char)) : Prop :=
  ∀ p, (read p = none ∧ read' p = none) ∨ ∃ t t', read p = some t ∧ read' p = some t' ∧ SameContent w t t'

end Fmr
