import Verif.Model.Earley

/-!
# Model of `handleEpsilons` (earley.go:302-316), and of `parse` with the call in earley.go:185 that is commented out

`insert`, `predict` and `complete` of `Model/Earley.lean` give the new columns only; here they also say, as in Go,
whether the table has changed.
-/

namespace Fmr

/-- earley.go:113-133 `insert`; the flag is `st == st2` of earley.go:249, 271 and 296: the returned pointer is the new
one. -/
def insertCh (idx : Nat) (states : List TState) (st : TState) : List TState × Bool :=
  let r := insertToEnd idx states st false
  (r.1, r.2.2)

/-- earley.go:235-252 the package function `predict` for one grammar, with its result. -/
def predictGCh (g : Grammar) (order : List RuleBody → List RuleBody) (idx : Nat)
    (states : List TState) (term : Term) : List TState × Bool :=
  match lookupRule g term.value with
  | none => (states, false)
  | some r =>
    (order r.bodies).foldl (fun acc prod =>
      let x := insertCh idx acc.1 (predicted r.name prod idx)
      (x.1, acc.2 || x.2)) (states, false)

/-- earley.go:260-264 the loop over `p.grammars`, with its result. -/
def predictAllCh (order : Nat → List RuleBody → List RuleBody) (idx : Nat) (term : Term) :
    Nat → List Grammar → List TState × Bool → List TState × Bool
  | _, [], acc => acc
  | k, g :: gs, acc =>
    let x := predictGCh g (order k) idx acc.1 term
    predictAllCh order idx term (k+1) gs (x.1, x.2 || acc.2)

/-- earley.go:282-298 body of the loop in `complete`, with the flag. -/
def completeStepCh (idx : Nat) (state : TState) (acc : List TState × Bool) (st : TState) : List TState × Bool :=
  match st.getNextTerm with
  | none => acc
  | some next =>
    if completes next state then
      let x := insertCh idx acc.1 (advanced st next)
      (x.1, acc.2 || x.2)
    else acc

/-- earley.go:277-300 `complete`, with its result. -/
def completeCh (idx : Nat) (snapshot states : List TState) (state : TState) : List TState × Bool :=
  snapshot.foldl (completeStepCh idx state) (states, false)

/-- earley.go:307-313 the body of the inner loop of `handleEpsilons` for one state of column `done.length`; `acc` is
the column and `changed`. `order k` is the iteration order of the body map of grammar `k` in this call of `predict`. -/
def epsRow (env : Env) (done : List (List TState)) (order : Nat → List RuleBody → List RuleBody)
    (acc : List TState × Bool) (st : TState) : List TState × Bool :=
  let i := done.length
  let acc1 :=
    if st.isCompleted then
      let x := completeCh i (if st.start = i then acc.1 else done.getD st.start []) acc.1 st
      (x.1, x.2 || acc.2)
    else acc
  match st.getNextTerm with
  | none => acc1
  | some term =>
    if term.type = .nonterminal then
      let x := predictAllCh order i term 0 env.grammars (acc1.1, false)
      (x.1, x.2 || acc1.2)
    else acc1

/-- earley.go:306-314 the inner loop, over the states that the column has at its beginning. -/
def epsRows (env : Env) (done : List (List TState)) (ord : Nat → Nat → List RuleBody → List RuleBody) :
    Nat → List TState → List TState × Bool → List TState × Bool
  | _, [], acc => acc
  | row, st :: sts, acc => epsRows env done ord (row+1) sts (epsRow env done (ord row) acc st)

/-- earley.go:302-316 `handleEpsilons` for the column `done.length` with states `col`; `done` are the columns before.
`none` is "not finished". -/
def handleEpsilons (env : Env) (done : List (List TState)) (ord : Nat → Nat → Nat → List RuleBody → List RuleBody) :
    Nat → Nat → List TState → Option (List TState)
  | 0, _, _ => none
  | fuel+1, round, col =>
    let r := epsRows env done (ord round) 0 col (col, false)
    if r.2 then handleEpsilons env done ord fuel (round+1) r.1 else some r.1

/-- The column loop earley.go:152-186 as it would be with the call of line 185: not the code of the repository. -/
def runColsEps (env : Env) (ord : Nat → Nat → Nat → Nat → List RuleBody → List RuleBody) (fuel : Nat) :
    List Token → List (List TState) → List TState → Option (List (List TState))
  | [], done, cur =>
    match runCol env done none fuel 0 cur [] with
    | none => none
    | some (cur', _) =>
      match handleEpsilons env done (ord done.length) fuel 0 cur' with
      | none => none
      | some col => some (done ++ [col])
  | t :: ts, done, cur =>
    match runCol env done (some t) fuel 0 cur [] with
    | none => none
    | some (cur', next) =>
      match handleEpsilons env done (ord done.length) fuel 0 cur' with
      | none => none
      | some col => runColsEps env ord fuel ts (done ++ [col]) next

/-- The chart earley.go:144-186 with the call of line 185. -/
def chartOfEps (env : Env) (ord : Nat → Nat → Nat → Nat → List RuleBody → List RuleBody) (fuel : Nat) :
    Option (List (List TState)) :=
  runColsEps env ord fuel env.tokens [] (env.starts.map gammaState)

end Fmr
