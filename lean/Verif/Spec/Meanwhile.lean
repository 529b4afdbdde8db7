import Verif.Model.ParseAt

/-!
# Specification: a lookup whose outcome has not been acted on
-/

namespace Fmr

/-- an event after which goroutine `j` has forgotten what it saw: a new lookup, or a write -/
def CMEv.forgets (j : Nat) : CMEv → Prop
  | .callGet i _ => i = j
  | .endWrite i _ _ => i = j
  | _ => False

/-- Goroutine `j` has seen that the registry has no token for `k`, and has neither written nor looked since. -/
def Unsettled (es : List CMEv) (j : Nat) (k : String) : Prop :=
  ∃ a b, es = a ++ .endRead j k none :: b ∧ ∀ e ∈ b, ¬ e.forgets j

/-- a literal of the grammars that is matched by its registered token: it has flags -/
def HasFlags (gs : List Grammar) (t : Term) : Prop :=
  t.type = .terminal ∧ t.meta ≠ .nil ∧ ∃ g ∈ gs, ∃ A r b, g.rules.lookup A = some r ∧ b ∈ r.bodies ∧ t ∈ b.terms

end Fmr
