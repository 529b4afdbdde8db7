import Verif.Model.Arith

/-!
# Model of `pow` of math_funcs.go

`pow` reads its arguments into float64 with `strconv.ParseFloat`, calls `math.Pow` and prints with `%f`. `math.Pow` is not
part of the repository. The definitions follow its published source, math/pow.go, which is used on all platforms but s390x:
special cases, `Sqrt` for the exponents ±0.5, and otherwise repeated squaring of the mantissa for the integer part of the
exponent, times `Exp(yf * Log(x))` for the remaining part `yf`. `Sqrt` is correctly rounded (IEEE 754). `Exp` and `Log`
promise no accuracy: `Exp(yf * Log(x))` is the parameter `frac`, any function.

Simplification as for `div`: results below the normal range of float64 keep 53 bits in the model; they are only printed, as zero.
-/

namespace Fmr

/-- math_funcs.go:55, multiplication of float64, for numbers whose product neither overflows nor underflows -/
def BF.mul53 (x y : BF) : BF := ⟨x.neg != y.neg, roundBits 53 (x.abs * y.abs)⟩

/-- math_funcs.go:55, the square root of a positive number, rounded to a mantissa of `p` bits, to nearest even -/
def sqrtBits (p : ℕ) (q : ℚ) : ℚ :=
  let ulp : ℚ := 2 ^ (Int.log 2 q / 2 - p + 1)
  let m := Nat.sqrt ⌊q / ulp ^ 2⌋.toNat
  let r := q / ulp ^ 2 - m ^ 2
  if r < m + 1 / 4 then m * ulp
  else if m + 1 / 4 < r then (m + 1) * ulp
  else if m % 2 = 0 then m * ulp
  else (m + 1) * ulp

/-- math_funcs.go:55, `math.Sqrt` of a finite number other than zero -/
def sqrtF64 (x : BF) : F64 := if x.neg then .nan else .fin ⟨false, sqrtBits 53 x.abs⟩

/-- math_funcs.go:55, math/pow.go `isOddInt`, for a finite number -/
def BF.isOdd (y : BF) : Bool := y.abs.den = 1 && y.abs.num % 2 = 1

/-- math_funcs.go:55, math/pow.go, the loop: `x1 * 2^xe` is squared, `a1 * 2^ae` is the result. 64 rounds are enough for an `int64`. -/
def powLoop : ℕ → ℕ → BF → ℤ → BF → ℤ → BF × ℤ
  | 0, _, _, _, a1, ae => (a1, ae)
  | fuel + 1, i, x1, xe, a1, ae =>
    if i = 0 then (a1, ae)
    else if xe < -4096 ∨ 4096 < xe then (a1, ae + xe)
    else
      let a := if i % 2 = 1 then (a1.mul53 x1, ae + xe) else (a1, ae)
      let s := x1.mul53 x1
      if s.abs < 1 / 2 then powLoop fuel (i / 2) ⟨s.neg, s.abs + s.abs⟩ (2 * xe - 1) a.1 a.2
      else powLoop fuel (i / 2) s (2 * xe) a.1 a.2

/-- math_funcs.go:55, `math.Pow` of finite numbers, not 0, 1 and ±0.5 for the exponent and not 0 and 1 for the base -/
def powFin (frac : ℚ → ℚ → ℚ) (x y : BF) : F64 :=
  let yi := ⌊y.abs⌋.toNat
  let yf := y.abs - yi
  if yf ≠ 0 ∧ x.neg = true then .nan
  else if 2 ^ 63 ≤ yi then
    if x.neg = true ∧ x.abs = 1 then .fin ⟨false, 1⟩
    else if decide (x.abs < 1) = !y.neg then .fin ⟨false, 0⟩
    else .inf false
  else
    let a : ℕ × BF :=
      if yf = 0 then (yi, ⟨false, 1⟩)
      else if 1 / 2 < yf then (yi + 1, ⟨false, frac x.abs (yf - 1)⟩)
      else (yi, ⟨false, frac x.abs yf⟩)
    -- `Frexp`
    let xe := Int.log 2 x.abs + 1
    let r := powLoop 64 a.1 ⟨x.neg, x.abs / 2 ^ xe⟩ xe a.2 0
    -- `Ldexp`
    if y.neg then F64.round r.1.neg (roundBits 53 (1 / r.1.abs) * 2 ^ (-r.2))
    else F64.round r.1.neg (r.1.abs * 2 ^ r.2)

/-- math_funcs.go:55, `math.Pow` with a base that is ±0, for an exponent other than zero: `neg` and `odd` of the exponent -/
def powZero (xneg yneg yodd : Bool) : F64 :=
  if yneg then .inf (xneg && yodd) else .fin ⟨xneg && yodd, 0⟩

/-- math_funcs.go:55, `math.Pow` -/
def F64.pow (frac : ℚ → ℚ → ℚ) : F64 → F64 → F64
  | x, .fin y =>
    if y.abs = 0 then .fin ⟨false, 1⟩
    else if y.abs = 1 ∧ y.neg = false then x
    else match x with
      | .nan => .nan
      | .inf false => if y.neg then .fin ⟨false, 0⟩ else .inf false
      | .inf true => powZero true (!y.neg) y.isOdd
      | .fin x =>
        if x.abs = 1 ∧ x.neg = false then .fin ⟨false, 1⟩
        else if x.abs = 0 then powZero x.neg y.neg y.isOdd
        else if y.abs = 1 / 2 then
          if y.neg then (F64.fin ⟨false, 1⟩).div (sqrtF64 x) else sqrtF64 x
        else powFin frac x y
  | .nan, .inf _ => .nan
  | .inf _, .inf yneg => if yneg then .fin ⟨false, 0⟩ else .inf false
  | .fin x, .inf yneg =>
    if x.abs = 1 then .fin ⟨false, 1⟩
    else if x.abs = 0 then powZero x.neg yneg false
    else if decide (x.abs < 1) = !yneg then .fin ⟨false, 0⟩ else .inf false
  | .fin x, .nan => if x.abs = 1 ∧ x.neg = false then .fin ⟨false, 1⟩ else .nan
  | _, .nan => .nan

/-- math_funcs.go:46-56 `pow`. -/
def mathPow (frac : ℚ → ℚ → ℚ) (ext : String → Option F64) (x y : String) : String :=
  match parseF64 ext x with
  | none => x ++ "^" ++ y
  | some fx =>
    match parseF64 ext y with
    | none => x ++ "^" ++ y
    | some fy => (fx.pow frac fy).text

end Fmr
