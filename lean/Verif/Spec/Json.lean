import Verif.Model.Json

/-!
# What a grammar read from JSON can do
-/

namespace Fmr

/-- The rules of a grammar get their names back from the map that holds them. -/
def Grammar.named (g : Grammar) : Grammar :=
  { g with
    rules := g.rules.map (fun e => (e.1, { e.2 with name := e.1 }))
    frames := g.frames.map (fun e => (e.1, { e.2 with name := e.1 })) }

/-- Rules are stored under their names. -/
def Grammar.Filed (g : Grammar) : Prop :=
  (∀ e ∈ g.rules, e.2.name = e.1) ∧ ∀ e ∈ g.frames, e.2.name = e.1

/-- An alternative without ranges whose function has no arguments but strings and `@`. -/
def RuleBody.Wordy (b : RuleBody) : Prop :=
  (∀ t ∈ b.terms, t.meta = .nil ∨ ∃ s, t.meta = .flags s) ∧ ∀ f, b.f = some f → ∀ a ∈ f.args, ∃ s, a.value = .str s

/-- All alternatives are of this kind. -/
def Grammar.Wordy (g : Grammar) : Prop :=
  (∀ e ∈ g.rules, ∀ b ∈ e.2.body, b.2.Wordy) ∧ ∀ e ∈ g.frames, ∀ b ∈ e.2.body, b.2.Wordy

/-- An alternative with a range, or with a number, an index or a call as an argument of its function. -/
def RuleBody.Delicate (b : RuleBody) : Prop :=
  (∃ t ∈ b.terms, ∃ m n, t.meta = .range m n) ∨
    ∃ f, b.f = some f ∧ ∃ a ∈ f.args, a.type = "int" ∨ a.type = "float" ∨ a.type = "index" ∨ a.type = "func"

/-- An alternative of the rule `A` begins with `A`. -/
def LeftRecursiveWith (g : Grammar) (A : String) (b : RuleBody) : Prop :=
  ∃ r, g.rules.lookup A = some r ∧ b ∈ r.bodies ∧ ∃ t ts, b.terms = t :: ts ∧ t.type = .nonterminal ∧ t.value = A

end Fmr
