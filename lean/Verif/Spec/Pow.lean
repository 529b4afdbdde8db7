import Verif.Model.Arith

/-!
# Specification for C87: the special cases that the documentation of `math.Pow` lists
-/

namespace Fmr

/-- an odd integer -/
def OddInt (y : BF) : Prop := ∃ k : ℤ, y.abs = 2 * k + 1

/-- `PowCase x y r`: the documentation of `math.Pow`, which math_funcs.go:55 calls, says that `Pow(x, y) = r`. -/
inductive PowCase : F64 → F64 → F64 → Prop
  | zero (x : F64) (s : Bool) : PowCase x (.fin ⟨s, 0⟩) (.fin ⟨false, 1⟩)
  | one (y : F64) : PowCase (.fin ⟨false, 1⟩) y (.fin ⟨false, 1⟩)
  | self (x : F64) : PowCase x (.fin ⟨false, 1⟩) x
  | nan_left (y : BF) : y.abs ≠ 0 → PowCase .nan (.fin y) .nan
  | nan_left' (s : Bool) : PowCase .nan (.inf s) .nan
  | nan_right (x : BF) : ¬ (x.neg = false ∧ x.abs = 1) → PowCase (.fin x) .nan .nan
  | nan_right' (s : Bool) : PowCase (.inf s) .nan .nan
  | nan_both : PowCase .nan .nan .nan
  | zero_odd_neg (s : Bool) (y : BF) : y.neg = true → OddInt y → PowCase (.fin ⟨s, 0⟩) (.fin y) (.inf s)
  | zero_ninf (s : Bool) : PowCase (.fin ⟨s, 0⟩) (.inf true) (.inf false)
  | zero_pinf (s : Bool) : PowCase (.fin ⟨s, 0⟩) (.inf false) (.fin ⟨false, 0⟩)
  | zero_neg (s : Bool) (y : BF) : y.neg = true → y.abs ≠ 0 → ¬ OddInt y → PowCase (.fin ⟨s, 0⟩) (.fin y) (.inf false)
  | zero_odd (s : Bool) (y : BF) : y.neg = false → OddInt y → PowCase (.fin ⟨s, 0⟩) (.fin y) (.fin ⟨s, 0⟩)
  | zero_pos (s : Bool) (y : BF) : y.neg = false → y.abs ≠ 0 → ¬ OddInt y → PowCase (.fin ⟨s, 0⟩) (.fin y) (.fin ⟨false, 0⟩)
  | minus_one (s : Bool) : PowCase (.fin ⟨true, 1⟩) (.inf s) (.fin ⟨false, 1⟩)
  | large_pinf (x : BF) : 1 < x.abs → PowCase (.fin x) (.inf false) (.inf false)
  | large_ninf (x : BF) : 1 < x.abs → PowCase (.fin x) (.inf true) (.fin ⟨false, 0⟩)
  | small_pinf (x : BF) : x.abs < 1 → PowCase (.fin x) (.inf false) (.fin ⟨false, 0⟩)
  | small_ninf (x : BF) : x.abs < 1 → PowCase (.fin x) (.inf true) (.inf false)
  | inf_inf (s : Bool) : PowCase (.inf s) (.inf false) (.inf false)
  | inf_ninf (s : Bool) : PowCase (.inf s) (.inf true) (.fin ⟨false, 0⟩)
  | inf_pos (y : BF) : y.neg = false → y.abs ≠ 0 → PowCase (.inf false) (.fin y) (.inf false)
  | inf_neg (y : BF) : y.neg = true → y.abs ≠ 0 → PowCase (.inf false) (.fin y) (.fin ⟨false, 0⟩)
  | ninf (y : BF) (r : F64) : y.abs ≠ 0 → PowCase (.fin ⟨true, 0⟩) (.fin ⟨!y.neg, y.abs⟩) r → PowCase (.inf true) (.fin y) r
  | neg_frac (x y : BF) : x.neg = true → x.abs ≠ 0 → (¬ ∃ k : ℤ, y.abs = k) → PowCase (.fin x) (.fin y) .nan

end Fmr
