import Verif.Model.Print
import Mathlib.Data.List.Forall2

/-!
# Specification: what a printed state and a printed tree show
-/

namespace Fmr

/-- Two terms look the same: type and value; of a term `(any)` only the type. Bounds and flags are not shown. -/
def Term.Alike (a b : Term) : Prop := a.type = b.type ∧ (a.type = .any ∨ a.value = b.value)

/-- Two states look the same: term, span, and the body with the dot and the text `F` of the function. -/
structure TState.Alike (F : Option FMR → List Char) (s t : TState) : Prop where
  term : s.term.Alike t.term
  start : s.start = t.start
  stop : s.stop = t.stop
  body : s.term.type = .nonterminal → ∃ rb rb', s.rb = some rb ∧ t.rb = some rb' ∧
    List.Forall₂ Term.Alike rb.terms rb'.terms ∧ F rb.f = F rb'.f
  dot : s.term.type = .nonterminal ∨ s.term.type = .list → s.dot = t.dot

mutual
/-- Two trees have the same shape, and the states at corresponding nodes are related by `R`. -/
inductive Node.Same (R : TState → TState → Prop) : Node → Node → Prop
  | mk {v v' : TState} {cs cs' : List Node} : R v v' → Node.Sames R cs cs' → Node.Same R (.mk v cs) (.mk v' cs')
inductive Node.Sames (R : TState → TState → Prop) : List Node → List Node → Prop
  | nil : Node.Sames R [] []
  | cons {a b : Node} {as bs : List Node} : Node.Same R a b → Node.Sames R as bs → Node.Sames R (a :: as) (b :: bs)
end

mutual
/-- all states of a tree -/
inductive Node.All (P : TState → Prop) : Node → Prop
  | mk {v : TState} {cs : List Node} : P v → Node.Alls P cs → Node.All P (.mk v cs)
inductive Node.Alls (P : TState → Prop) : List Node → Prop
  | nil : Node.Alls P []
  | cons {a : Node} {as : List Node} : Node.All P a → Node.Alls P as → Node.Alls P (a :: as)
end

end Fmr
