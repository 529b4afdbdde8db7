/-!
# Outcomes of Go calls
-/

namespace Fmr

/-- Outcome of a Go call: a value, a non-nil `error`, a panic, or not finished within the fuel. -/
inductive Out (α : Type) where
  | ok (a : α)
  | err
  | panic
  | div
  deriving DecidableEq, Repr

def Out.bind {α β : Type} : Out α → (α → Out β) → Out β
  | .ok a, f => f a
  | .err, _ => .err
  | .panic, _ => .panic
  | .div, _ => .div

instance : Monad Out where
  pure := .ok
  bind := Out.bind

@[simp] theorem Out.pure_eq {α : Type} (a : α) : (pure a : Out α) = .ok a := rfl
@[simp] theorem Out.bind_ok {α β : Type} (a : α) (f : α → Out β) : (Out.ok a >>= f) = f a := rfl
@[simp] theorem Out.bind_err {α β : Type} (f : α → Out β) : ((Out.err : Out α) >>= f) = .err := rfl
@[simp] theorem Out.bind_panic {α β : Type} (f : α → Out β) : ((Out.panic : Out α) >>= f) = .panic := rfl
@[simp] theorem Out.bind_div {α β : Type} (f : α → Out β) : ((Out.div : Out α) >>= f) = .div := rfl

theorem Out.bind_eq_ok {α β : Type} {x : Out α} {f : α → Out β} {b : β} :
    (x >>= f) = .ok b ↔ ∃ a, x = .ok a ∧ f a = .ok b := by
  cases x <;> simp

theorem Out.bind_eq_err {α β : Type} {x : Out α} {f : α → Out β} :
    (x >>= f) = .err ↔ x = .err ∨ ∃ a, x = .ok a ∧ f a = .err := by
  cases x <;> simp

theorem Out.bind_eq_panic {α β : Type} {x : Out α} {f : α → Out β} :
    (x >>= f) = .panic ↔ x = .panic ∨ ∃ a, x = .ok a ∧ f a = .panic := by
  cases x <;> simp

/-- an unfinished computation (`none`) in this type -/
def Out.ofFuel {α : Type} : Option α → Out α
  | some a => .ok a
  | none => .div

/-- an index or map access that panics when absent -/
def Out.ofIndex {α : Type} : Option α → Out α
  | some a => .ok a
  | none => .panic

/-- a call that returns a value or an error -/
def Out.ofErr {α : Type} : Option α → Out α
  | some a => .ok a
  | none => .err

@[simp] theorem Out.ofFuel_eq_ok {α : Type} {x : Option α} {a : α} : Out.ofFuel x = .ok a ↔ x = some a := by
  cases x <;> simp [Out.ofFuel]
@[simp] theorem Out.ofIndex_eq_ok {α : Type} {x : Option α} {a : α} :
    Out.ofIndex x = .ok a ↔ x = some a := by
  cases x <;> simp [Out.ofIndex]
@[simp] theorem Out.ofErr_eq_ok {α : Type} {x : Option α} {a : α} : Out.ofErr x = .ok a ↔ x = some a := by
  cases x <;> simp [Out.ofErr]

def Out.map' {α β : Type} (f : α → β) : Out α → Out β
  | .ok a => .ok (f a)
  | .err => .err
  | .panic => .panic
  | .div => .div

/-- a loop appending the results of its body -/
def outFlat {α β : Type} (f : α → Out (List β)) : List α → Out (List β)
  | [] => .ok []
  | a :: l => do
    let x ← f a
    let y ← outFlat f l
    pure (x ++ y)

end Fmr
