import Verif.Model.Funcs
import Verif.Model.Arith
import Verif.Model.Pow

/-!
# Model of funcs.go:17-27 `Call` and of the table of functions

`goutil.Call` calls the function under a name by reflection. It is modelled for arguments that the function can take; what it
does with others is a parameter.
-/

namespace Fmr

/-- External code of the functions.
* `sprint`        : `fmt.Sprintf("%v", ·)`
* `bigFloat`      : `fmt.Sscan` into a `*big.Float` of texts that are not decimal numbers (see Model/Arith.lean)
* `float`         : `strconv.ParseFloat` of texts that are not decimal numbers
* `frac`          : `Exp(y * Log(x))` inside `math.Pow`
* `probablyPrime` : `(*big.Int).ProbablyPrime(10)` -/
structure FuncLib where
  sprint : Value → String
  bigFloat : String → Option BF
  float : String → Option F64
  frac : ℚ → ℚ → ℚ
  probablyPrime : Int → Bool

/-- the signatures of the functions in the table: `func(...interface{})`, `func(string) string`, `func(string, string) string` -/
inductive GoFunc where
  | variadic (f : List Value → Value)
  | one (f : String → String)
  | two (f : String → String → String)

/-- `builtinFuncs`: funcs.go:11-14, math_funcs.go:10-20. The two `init` functions set different keys. -/
def builtinFuncs (lib : FuncLib) : List (String × GoFunc) :=
  [("fmr.list", .variadic fun vs => .list (fmrList vs)),
   ("fmr.entity", .variadic fun vs => entityValue (fmrEntity lib.sprint vs)),
   ("nf.math.sum", .two (mathSum lib.bigFloat)),
   ("nf.math.sub", .two (mathSub lib.bigFloat)),
   ("nf.math.mul", .two (mathMul lib.bigFloat)),
   ("nf.math.div", .two (mathDiv lib.float)),
   ("nf.math.pow", .two (mathPow lib.frac lib.float)),
   ("nf.math.neg", .one (mathNeg lib.bigFloat)),
   ("nf.math.even", .one (even goScanInt)),
   ("nf.math.odd", .one (odd goScanInt)),
   ("nf.math.prime", .one (prime goScanInt lib.probablyPrime))]

/-- A call with arguments that the function can take, and its result. (Strings that are not UTF-8 are left out: the functions
are modelled on texts.) -/
inductive GoFunc.Gives : GoFunc → List Value → Value → Prop
  | variadic {f : List Value → Value} (vs : List Value) : Gives (.variadic f) vs (f vs)
  | one {f : String → String} (x : String) : Gives (.one f) [.str (utf8 x)] (.str (utf8 (f x)))
  | two {f : String → String → String} (x y : String) : Gives (.two f) [.str (utf8 x), .str (utf8 y)] (.str (utf8 (f x y)))

open Classical in
/-- funcs.go:17-27 `Call`: an error for a name that is not in the table; else the first (and only) result of the function.
`misfit` is what `goutil.Call` does with arguments that the function cannot take. -/
noncomputable def builtinCall (lib : FuncLib) (misfit : String → List Value → Out Value) (fn : String) (vs : List Value) : Out Value :=
  match (builtinFuncs lib).lookup fn with
  | none => .err
  | some f => if h : ∃ r, f.Gives vs r then .ok h.choose else misfit fn vs

end Fmr
