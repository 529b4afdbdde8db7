import Verif.Spec.Lang

/-!
# Specification: a column of the chart to which nothing can be added without reading a token

`before` are the columns in front, `col` is the column itself.
-/

namespace Fmr

/-- `x` is the state `st` one step further, in column `i`. The dot of an `(any)` state counts tokens, not steps. -/
structure OneFurther (i : Nat) (st x : TState) : Prop where
  value : x.term.value = st.term.value
  type : x.term.type = st.term.type
  rb : x.rb = st.rb
  start : x.start = st.start
  stop : x.stop = i
  dot : st.term.type ≠ .any → x.dot = st.dot + 1

/-- All states that wait for a completed state of the column have been moved on, and the rules that the states of the
column wait for have been started. -/
structure ColumnClosed (env : Env) (before : List (List TState)) (col : List TState) : Prop where
  completed : ∀ s ∈ col, s.isCompleted = true →
    ∀ st ∈ (before ++ [col]).getD s.start [], ∀ t, st.getNextTerm = some t → t.type = s.term.type →
      t.type = .any ∨ t.value = s.term.value → ∃ x ∈ col, OneFurther before.length st x
  predicted : ∀ s ∈ col, ∀ t, s.getNextTerm = some t → t.type = .nonterminal →
    ∀ rb, env.Defines t.value rb → ∃ x ∈ col, x.term.value = t.value ∧ x.term.type = .nonterminal ∧ x.rb = some rb ∧
      x.start = before.length ∧ x.stop = before.length ∧ x.dot = 0

/-- Every state of the column says something true: the terms before the dot derive the tokens it covers. -/
def ColumnTrue (env : Env) (i : Nat) (col : List TState) : Prop :=
  ∀ s ∈ col, (s.term.type = .nonterminal →
      ∃ rb, s.rb = some rb ∧ Yields env.relaxedLang (rb.terms.take s.dot) ((env.tokens.take i).drop s.start)) ∧
    (s.term.type = .list → Yields env.relaxedLang
      (List.replicate s.dot { value := s.term.value, type := .nonterminal, «meta» := .nil })
      ((env.tokens.take i).drop s.start))

end Fmr
