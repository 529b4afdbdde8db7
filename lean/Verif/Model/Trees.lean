import Verif.Model.Earley

/-!
# Model of earley_ast.go: trees from the chart

A chart state is addressed by its column and row (pointer identity in Go).
-/

namespace Fmr

/-- earley_ast.go:9-14 `Node` (the back pointer `p` to the parse is not needed here). -/
inductive Node where
  | mk (value : TState) (children : List Node)

def Node.value : Node → TState | .mk v _ => v
def Node.children : Node → List Node | .mk _ c => c

/-- earley_ast.go:60-68 the rule body written into a `List` state before its trees are built. -/
def listRb (s : TState) : RuleBody :=
  { terms := List.replicate s.dot { value := s.term.value, type := .nonterminal, «meta» := .nil },
    f := some (.mk "fmr.list" ((List.range s.dot).map (fun (i : Nat) => .mk "index" (.int (i+1))))) }

/-- earley_ast.go:60-68 the state after that write. -/
def TState.listed (s : TState) : TState :=
  if s.term.type = .list then { s with rb := some (listRb s) } else s

/-- earley_ast.go:55-59 the leaf for an `Any` state: no body, `Dot` set to `End`. -/
def anyLeaf (s : TState) : Node :=
  .mk { term := s.term, rb := none, start := s.start, stop := s.stop, dot := s.stop } []

/-- earley_ast.go:105-108 the leaf for a terminal. -/
def termLeaf (s : TState) (term : Term) (termIndex : Nat) : Node :=
  .mk { term := term, rb := none, start := s.start + termIndex, stop := s.start + termIndex + 1,
        dot := 0 } []

/-- concatenation of the results of a loop whose body may fault -/
def optFlat {α β : Type} (f : α → Option (List β)) : List α → Option (List β)
  | [] => some []
  | a :: l =>
    match f a, optFlat f l with
    | some x, some y => some (x ++ y)
    | _, _ => none

/-- `p.columns[end].states`, with rows numbered; `none` is an index out of range -/
def colAt (chart : List (List TState)) (e : Int) : Option (List (TState × Nat)) :=
  if e < 0 then none else (chart[e.toNat]?).map (·.zipIdx)

/-- earley_ast.go:119-129: the rows visited before `st == state` breaks the loop. The state has
address (`c`, `r`). -/
def rowsBefore (c r : Nat) (e : Int) (rows : List (TState × Nat)) : List (TState × Nat) :=
  if e = (c : Int) then rows.take r else rows

/-- earley_ast.go:130-138 the filter on candidate children. -/
def childOK (s : TState) (term : Term) (termIndex : Nat) (st : TState) : Bool :=
  st.isCompleted && st.term.value == term.value && st.term.type == term.type &&
    (termIndex != 0 || st.start == s.start)

/-- earley_ast.go:86-155 `buildTreesHelper`. The state `s` has address (`c`, `r`), `terms` are its
`Rb.Terms`; the first explicit argument is `termIndex + 1`; `bt` is `buildTrees`.
`none` stands for a fault (index out of range) or exhausted fuel. -/
def treesHelper (chart : List (List TState)) (bt : Nat → Nat → TState → Option (List Node))
    (c r : Nat) (s : TState) (terms : List Term) :
    Nat → List Node → Int → Option (List Node)
  | 0, children, _ => some [.mk s children]
  | k+1, children, e =>
    match terms[k]? with
    | none => none
    | some term =>
      if term.type = .terminal then
        treesHelper chart bt c r s terms k (termLeaf s term k :: children) (e-1)
      else
        match colAt chart e with
        | none => none
        | some rows =>
          optFlat (fun p =>
            if childOK s term k p.1 then
              match bt e.toNat p.2 p.1 with
              | none => none
              | some subs =>
                optFlat (fun sub => treesHelper chart bt c r s terms k (sub :: children) p.1.start) subs
            else some []) (rowsBefore c r e rows)

/-- earley_ast.go:54-71 `buildTrees` of the state `s` at address (`c`, `r`). A nil `Rb` faults.
The write to `state.Rb` of a list state (61-67) is modelled by using `s.listed`; that the write is
invisible to later calls is C15. -/
def buildTrees (chart : List (List TState)) : Nat → Nat → Nat → TState → Option (List Node)
  | 0, _, _, _ => none
  | fuel+1, c, r, s =>
    if s.term.type = .any then some [anyLeaf s]
    else
      match s.listed.rb with
      | none => none
      | some rb =>
        treesHelper chart (buildTrees chart fuel) c r s.listed rb.terms rb.terms.length [] s.stop

/-- earley_ast.go:43-52 `GetTrees` of the state at address (`c`, `r`); the address of a nil pointer
does not exist. -/
def getTrees (chart : List (List TState)) (fuel c r : Nat) : Option (List Node) :=
  match chart[c]? with
  | none => none
  | some col =>
    match col[r]? with
    | none => none
    | some s => buildTrees chart fuel c r s

/-! ## the same with the write to the chart made explicit -/

/-- `p.columns[c].states[r]`, the state behind a pointer -/
def chartGet (chart : List (List TState)) (c r : Nat) : Option TState :=
  match chart[c]? with
  | none => none
  | some col => col[r]?

/-- write through the pointer to row `r` of column `c` -/
def chartSet (chart : List (List TState)) (c r : Nat) (s : TState) : List (List TState) :=
  chart.modify c (·.set r s)

/-- a loop that appends to `outputs` and may write to the chart -/
def optFlatM {α β σ : Type} (f : α → σ → Option (List β × σ)) : List α → σ → Option (List β × σ)
  | [], st => some ([], st)
  | a :: l, st =>
    match f a st with
    | none => none
    | some (x, st) =>
      match optFlatM f l st with
      | none => none
      | some (y, st) => some (x ++ y, st)

/-- earley_ast.go:86-155 `buildTreesHelper` on a chart that is written to: rows are read through
their pointers when the loop reaches them. -/
def treesHelperM (bt : Nat → Nat → List (List TState) → Option (List Node × List (List TState)))
    (c r : Nat) (s : TState) (terms : List Term) :
    Nat → List Node → Int → List (List TState) → Option (List Node × List (List TState))
  | 0, children, _, chart => some ([.mk s children], chart)
  | k+1, children, e, chart =>
    match terms[k]? with
    | none => none
    | some term =>
      if term.type = .terminal then
        treesHelperM bt c r s terms k (termLeaf s term k :: children) (e-1) chart
      else
        match colAt chart e with
        | none => none
        | some rows =>
          optFlatM (fun p chart =>
            match chartGet chart e.toNat p.2 with
            | none => none
            | some st =>
              if childOK s term k st then
                match bt e.toNat p.2 chart with
                | none => none
                | some (subs, chart) =>
                  optFlatM (fun sub chart =>
                    treesHelperM bt c r s terms k (sub :: children) st.start chart) subs chart
              else some ([], chart)) (rowsBefore c r e rows) chart

/-- earley_ast.go:54-71 `buildTrees` with the write to `state.Rb` (61-67). -/
def buildTreesM : Nat → Nat → Nat → List (List TState) → Option (List Node × List (List TState))
  | 0, _, _, _ => none
  | fuel+1, c, r, chart =>
    match chartGet chart c r with
    | none => none
    | some s =>
      if s.term.type = .any then some ([anyLeaf s], chart)
      else
        let chart := if s.term.type = .list then chartSet chart c r s.listed else chart
        match s.listed.rb with
        | none => none
        | some rb =>
          treesHelperM (buildTreesM fuel) c r s.listed rb.terms rb.terms.length [] s.stop chart

/-- A client calling `GetTrees` for a sequence of states (given by their addresses): all results and
the chart left behind. -/
def getTreesSeq (fuel : Nat) : List (Nat × Nat) → List (List TState) →
    Option (List (List Node) × List (List TState))
  | [], chart => some ([], chart)
  | (c, r) :: l, chart =>
    match buildTreesM fuel c r chart with
    | none => none
    | some (ts, chart) =>
      match getTreesSeq fuel l chart with
      | none => none
      | some (rest, chart) => some (ts :: rest, chart)

end Fmr
