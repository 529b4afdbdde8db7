import Verif.Model.Conc

/-!
# Model of a parse while other goroutines use the token registry

`terminalMatch` looks up the registry (earley_terminal_match.go:13) each time it is called, and other goroutines may change
the registry between two calls. Each row of a column is scanned at most once (earley.go:165-180), so a call is
given by its column and row.
-/

namespace Fmr

/-- earley.go:156-181 `runCol`, where the call of `terminalMatch` for row `r` of column `c` is `tm c r`. -/
def runColAt (env : Env) (tm : Nat → Nat → Term → Token → Bool) (done : List (List TState)) (tok : Option Token) :
    Nat → Nat → List TState → List TState → Option (List TState × List TState)
  | 0, _, _, _ => none
  | fuel+1, row, cur, next =>
    match cur[row]? with
    | none => some (cur, next)
    | some st =>
      let r := processRow { env with tmatch := tm done.length row } done tok row st cur next
      runColAt env tm done tok fuel (row+1) r.1 r.2

/-- earley.go:152-186 `runCols`, likewise. -/
def runColsAt (env : Env) (tm : Nat → Nat → Term → Token → Bool) (fuel : Nat) :
    List Token → List (List TState) → List TState → Option (List (List TState))
  | [], done, cur =>
    match runColAt env tm done none fuel 0 cur [] with
    | none => none
    | some (cur', _) => some (done ++ [cur'])
  | t :: ts, done, cur =>
    match runColAt env tm done (some t) fuel 0 cur [] with
    | none => none
    | some (cur', next) => runColsAt env tm fuel ts (done ++ [cur']) next

/-- earley.go:140-211 `parse`, likewise. -/
def parseAt (env : Env) (tm : Nat → Nat → Term → Token → Bool) (maxFlag : Bool) (fuel : Nat) : Option ParseResult :=
  if env.starts = [] then
    some { chart := List.replicate (env.tokens.length + 1) [], finals := [] }
  else
    match runColsAt env tm fuel env.tokens [] (env.starts.map gammaState) with
    | none => none
    | some chart => some { chart := chart, finals := finalsOf maxFlag chart }

end Fmr
