import Verif.Model.Funcs
import Mathlib.Data.Int.Log
import Mathlib.Data.Rat.Floor

/-!
# Model of the arithmetic of math_funcs.go: `sum`, `sub`, `mul`, `neg`, `div`

The first four read their arguments into `*big.Float` with `fmt.Sscan`, compute there and print with
`(*big.Float).String`. The standard library is not part of the repository. The definitions follow its documented
and published behaviour: a scanned number is rounded to 64 bits, to nearest even; sums, differences and products
are the exact result rounded in the same way; `String` prints ten significant digits.

`div` reads its arguments into float64 with `strconv.ParseFloat`, divides and prints with `%f`. Reading, dividing
and printing are correctly rounded, to nearest even. `pow` is in Model/Pow.lean.

Simplifications: exponents of `big.Float` do not overflow (they have 32 bits in Go). Numbers below the normal range
of float64 keep 53 bits in the model; they are only printed, as zero with the right sign in either case. Only plain decimal numbers
and, into `big.Float`, numbers with an exponent as `String` prints them are read by the model; `ext` reads all other texts
(other exponents, base prefixes, separators, trailing text, more than 55 digits after the point, beyond which Go's own
conversion need not be correctly rounded).
-/

namespace Fmr

/-- A finite `big.Float`: zero has a sign too. -/
structure BF where
  neg : Bool
  abs : ℚ

/-- rounding to an integer, to nearest, ties to even -/
def rne (x : ℚ) : ℤ :=
  let f := ⌊x⌋
  if x - f < 1 / 2 then f
  else if 1 / 2 < x - f then f + 1
  else if f % 2 = 0 then f
  else f + 1

/-- rounding a non-negative number to a mantissa of `p` bits -/
def roundBits (p : ℕ) (q : ℚ) : ℚ :=
  if q = 0 then 0
  else
    let ulp : ℚ := 2 ^ (Int.log 2 q - p + 1)
    rne (q / ulp) * ulp

/-- rounding a non-negative number to a mantissa of 64 bits -/
def round64 (q : ℚ) : ℚ := roundBits 64 q

/-- digits, then perhaps a point and digits: value of all digits and number of digits after the point -/
def plainDec (s : List Char) : Option (Nat × Nat) :=
  let ip := s.takeWhile Char.isDigit
  let num (ds : List Char) : Nat := Nat.ofDigitChars 10 ds 0
  match s.dropWhile Char.isDigit with
  | [] => if ip = [] then none else some (num ip, 0)
  | c :: fp =>
    if c = '.' ∧ fp.all Char.isDigit ∧ ip ++ fp ≠ [] ∧ fp.length ≤ 55 then some (num (ip ++ fp), fp.length)
    else none

/-- the digits `ip.fp` followed by `e+` and the digits `es`: value of all digits and the remaining power of ten. Go's own
conversion is correctly rounded if the digits fit into 64 bits and the power of five into a word. -/
def expNum (ip fp es : List Char) : Option (Nat × Nat) :=
  let num (ds : List Char) : Nat := Nat.ofDigitChars 10 ds 0
  if ip ≠ [] ∧ es ≠ [] ∧ es.all Char.isDigit ∧ num (ip ++ fp) < 2 ^ 64 ∧ fp.length ≤ num es ∧ num es ≤ fp.length + 27 then
    some (num (ip ++ fp), num es - fp.length)
  else none

/-- digits, perhaps a point and digits, then `e+` and digits -/
def expDec (s : List Char) : Option (Nat × Nat) :=
  let ip := s.takeWhile Char.isDigit
  match s.dropWhile Char.isDigit with
  | 'e' :: '+' :: es => expNum ip [] es
  | '.' :: r =>
    match r.dropWhile Char.isDigit with
    | 'e' :: '+' :: es => expNum ip (r.takeWhile Char.isDigit) es
    | _ => none
  | _ => none

/-- `fmt.Sscan(x, *big.Float)`, `none` for an error. -/
def scanBF (ext : String → Option BF) (x : String) : Option BF :=
  let (neg, s) :=
    match x.toList.dropWhile goIsSpace with
    | '-' :: s => (true, s)
    | '+' :: s => (false, s)
    | s => (false, s)
  match plainDec s with
  | some (n, k) => some ⟨neg, round64 ((n : ℚ) / 10 ^ k)⟩
  | none =>
    match expDec s with
    | some (n, k) => some ⟨neg, round64 ((n : ℚ) * 10 ^ k)⟩
    | none => ext x

/-- `(*big.Float).Add` -/
def BF.add (x y : BF) : BF :=
  if x.abs = 0 ∧ y.abs = 0 then ⟨x.neg && y.neg, 0⟩
  else if x.abs = 0 then y
  else if y.abs = 0 then x
  else if x.neg = y.neg then ⟨x.neg, round64 (x.abs + y.abs)⟩
  else if x.abs = y.abs then ⟨false, 0⟩
  else if y.abs < x.abs then ⟨x.neg, round64 (x.abs - y.abs)⟩
  else ⟨!x.neg, round64 (y.abs - x.abs)⟩

/-- `(*big.Float).Neg` -/
def BF.negate (x : BF) : BF := ⟨!x.neg, x.abs⟩

/-- `(*big.Float).Sub` -/
def BF.sub (x y : BF) : BF := x.add y.negate

/-- `(*big.Float).Mul` -/
def BF.mul (x y : BF) : BF := ⟨x.neg != y.neg, round64 (x.abs * y.abs)⟩

/-- digits without trailing zeros -/
def trimZeros (ds : List Char) : List Char := (ds.reverse.dropWhile (· = '0')).reverse

/-- ten significant digits of a positive number: digits without trailing zeros, and the position of the decimal
point -/
def tenDigits (q : ℚ) : List Char × ℤ :=
  let x := Int.log 10 q
  let m := (rne (q / 10 ^ (x - 9))).toNat
  let ds := Nat.toDigits 10 m
  (trimZeros ds, x - 9 + ds.length)

/-- format 'f' with as many digits after the point as there are -/
def fmtF (mant : List Char) (exp : ℤ) : List Char :=
  let ip := if exp ≤ 0 then ['0'] else mant.take exp.toNat ++ List.replicate (exp.toNat - mant.length) '0'
  let fp := if exp < 0 then List.replicate (-exp).toNat '0' ++ mant else mant.drop exp.toNat
  if fp = [] then ip else ip ++ '.' :: fp

/-- format 'e' with as many digits as there are; the exponent has at least two digits -/
def fmtE (mant : List Char) (exp : ℤ) : List Char :=
  let e := exp - 1
  let es := Nat.toDigits 10 e.natAbs
  mant.take 1 ++ (if mant.length > 1 then '.' :: mant.drop 1 else []) ++ 'e' :: (if e < 0 then '-' else '+') ::
    ((if es.length < 2 then ['0'] else []) ++ es)

/-- `(*big.Float).String`, which is `Text('g', 10)`. -/
def BF.text (x : BF) : String :=
  let sign := if x.neg then ['-'] else []
  if x.abs = 0 then String.ofList (sign ++ ['0'])
  else
    let (mant, exp) := tenDigits x.abs
    String.ofList (sign ++ if exp - 1 < -4 ∨ 10 ≤ exp - 1 then fmtE mant exp else fmtF mant exp)

/-- math_funcs.go:89-108 `calc`; the third argument is the method. -/
def mathCalc (ext : String → Option BF) (x y : String) (method : BF → BF → BF) : String :=
  match scanBF ext x with
  | none => ""
  | some xf =>
    match scanBF ext y with
    | none => ""
    | some yf => (method xf yf).text

/-- math_funcs.go:22-24 `sum`. -/
def mathSum (ext : String → Option BF) (x y : String) : String := mathCalc ext x y BF.add

/-- math_funcs.go:26-28 `sub`. -/
def mathSub (ext : String → Option BF) (x y : String) : String := mathCalc ext x y BF.sub

/-- math_funcs.go:30-32 `mul`. -/
def mathMul (ext : String → Option BF) (x y : String) : String := mathCalc ext x y BF.mul

/-- math_funcs.go:57-63 `neg`. -/
def mathNeg (ext : String → Option BF) (x : String) : String :=
  match scanBF ext x with
  | none => ""
  | some xf => xf.negate.text

/-! ## float64 -/

/-- a float64 -/
inductive F64 where
  | fin (x : BF)
  | inf (neg : Bool)
  | nan

/-- numbers from here on overflow -/
def f64Max : ℚ := 2 ^ 1024

/-- rounding to float64 -/
def F64.round (neg : Bool) (q : ℚ) : F64 :=
  let r := roundBits 53 q
  if f64Max ≤ r then .inf neg else .fin ⟨neg, r⟩

/-- `strconv.ParseFloat(x, 64)`, `none` for an error. A number out of range is an error. -/
def parseF64 (ext : String → Option F64) (x : String) : Option F64 :=
  let (neg, s) :=
    match x.toList with
    | '-' :: s => (true, s)
    | '+' :: s => (false, s)
    | s => (false, s)
  match plainDec s with
  | some (n, k) =>
    match F64.round neg ((n : ℚ) / 10 ^ k) with
    | .fin f => some (.fin f)
    | _ => none
  | none => ext x

/-- division; the divisor is not zero -/
def F64.div : F64 → F64 → F64
  | .fin x, .fin y => .round (x.neg != y.neg) (x.abs / y.abs)
  | .fin x, .inf n => .fin ⟨x.neg != n, 0⟩
  | .inf n, .fin y => .inf (n != y.neg)
  | .inf _, .inf _ => .nan
  | .nan, _ => .nan
  | _, .nan => .nan

/-- comparison with zero -/
def F64.isZero : F64 → Bool
  | .fin x => x.abs = 0
  | _ => false

/-- six digits after the point -/
def fixed6 (n : ℕ) : List Char :=
  let fp := Nat.toDigits 10 (n % 10 ^ 6)
  Nat.toDigits 10 (n / 10 ^ 6) ++ '.' :: (List.replicate (6 - fp.length) '0' ++ fp)

/-- `fmt.Sprintf("%f", x)` -/
def F64.text : F64 → String
  | .fin x => String.ofList ((if x.neg then ['-'] else []) ++ fixed6 (rne (x.abs * 10 ^ 6)).toNat)
  | .inf false => "+Inf"
  | .inf true => "-Inf"
  | .nan => "NaN"

/-- math_funcs.go:34-44 `div`. -/
def mathDiv (ext : String → Option F64) (x y : String) : String :=
  match parseF64 ext x with
  | none => x ++ "/" ++ y
  | some fx =>
    match parseF64 ext y with
    | none => x ++ "/" ++ y
    | some fy => if fy.isZero then x ++ "/" ++ y else (fx.div fy).text

end Fmr
