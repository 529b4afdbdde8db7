import Verif.Spec.Alike

/-!
# Specification: tokens that separate a text
-/

namespace Fmr

/-- The token is matched by no literal of the rules in `R`, and no rule in `R` has an `(any)`. -/
structure Separates (R : String → Prop) (gs : List Grammar) (m : Term → Token → Bool) (sep : Token) : Prop where
  literals : ∀ t, IsLiteral R gs t → m t sep = false
  noAny : ∀ A, R A → ∀ g ∈ gs, ∀ r, g.rules.lookup A = some r → ∀ b ∈ r.bodies, ∀ t ∈ b.terms, t.type ≠ .any

end Fmr
