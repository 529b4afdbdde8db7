import Verif.Spec.Trees

/-!
# Specification: the right spine of a derivation tree

From a node to its last child, from there to the last child of that, and so on, until a node without
children, or one whose last child is a literal.
-/

namespace Fmr

mutual
/-- the number of steps down the right spine -/
def Node.spine : Node → Nat
  | .mk _ cs => spineL cs
def spineL : List Node → Nat
  | [] => 0
  | [c] => if c.value.term.type = .terminal then 0 else c.spine + 1
  | _ :: c :: cs => spineL (c :: cs)
end

/-- Two derivation trees for the same symbol and the same tokens have right spines of the same
length. -/
def SpinesAgree (env : Env) (L : Lang) : Prop :=
  ∀ t t' a b n n', (t.type = .any ∨ t.type = .list → env.Occurs t) →
    (t'.type = .any ∨ t'.type = .list → env.Occurs t') → t.type = t'.type → t.value = t'.value →
    TreeOK env L t a b n → TreeOK env L t' a b n' → n.spine = n'.spine

/-- the length of the right spine below a term, if nonterminal `A` always has one of length `d A` -/
def depthUnder (d : String → Nat) (t : Term) : Nat :=
  match t.type with
  | .nonterminal => d t.value + 1
  | .any => 1
  | .list => d t.value + 2
  | _ => 0

/-- A condition on the productions alone: the length of the right spine of a tree is a function of
the nonterminal. -/
def Graded (env : Env) (d : String → Nat) : Prop :=
  ∀ A rb, env.Defines A rb → ∀ t, rb.terms.getLast? = some t → d A = depthUnder d t

end Fmr
