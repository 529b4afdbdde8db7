import Verif.Spec.Pow
import Verif.Props.Pow

/-!
# C87: the special cases of powers
-/

namespace Fmr

attribute [local irreducible] f64Max

theorem isOdd_iff (y : BF) : y.isOdd = true ↔ OddInt y := by
  unfold BF.isOdd OddInt
  simp only [Bool.and_eq_true, decide_eq_true_eq]
  constructor
  · rintro ⟨h1, h2⟩
    refine ⟨y.abs.num / 2, ?_⟩
    have h3 : y.abs = (y.abs.num : ℚ) := (Rat.den_eq_one_iff _).1 h1 |>.symm
    rw [h3]
    have : y.abs.num = 2 * (y.abs.num / 2) + 1 := by omega
    conv_lhs => rw [this]
    push_cast
    simp
  · rintro ⟨k, hk⟩
    have h : y.abs = ((2 * k + 1 : ℤ) : ℚ) := by rw [hk]; push_cast; rfl
    rw [h]
    exact ⟨Rat.den_intCast _, by rw [Rat.num_intCast]; omega⟩

theorem isOdd_false {y : BF} (h : ¬ OddInt y) : y.isOdd = false := by
  rw [← isOdd_iff] at h
  simpa using h

theorem OddInt.ne {y : BF} (h : OddInt y) : y.abs ≠ 0 := by
  obtain ⟨k, hk⟩ := h
  rw [hk]
  intro h
  have : (2 * k + 1 : ℤ) = 0 := by exact_mod_cast h
  omega

theorem pow_fin_of (frac : ℚ → ℚ → ℚ) {x y : BF} (hy : y.abs ≠ 0) (hx : x.abs = 0) :
    (F64.fin x).pow frac (.fin y) = powZero x.neg y.neg y.isOdd := by
  rw [F64.pow.eq_def]
  simp only []
  rw [if_neg hy]
  by_cases h1 : y.abs = 1 ∧ y.neg = false
  · rw [if_pos h1]
    have : y.isOdd = true := (isOdd_iff y).2 ⟨0, by rw [h1.1]; norm_num⟩
    rw [this, h1.2]
    unfold powZero
    obtain ⟨n, a⟩ := x
    simp only [] at hx
    subst hx
    simp
  · rw [if_neg h1, if_neg (by rw [hx]; norm_num), if_pos hx]

/-- **C87**: `math.Pow` as modelled treats all the special cases as documented. -/
theorem C87_special (frac : ℚ → ℚ → ℚ) {x y r : F64} (h : PowCase x y r) : x.pow frac y = r := by
  induction h with
  | zero x s => rw [F64.pow.eq_def]; simp
  | one y =>
    rw [F64.pow.eq_def]
    obtain y | s | _ := y
    · simp only [and_self, if_true]
      split_ifs <;> rfl
    · simp
    · simp
  | self x => rw [F64.pow.eq_def]; simp
  | nan_left y h => rw [F64.pow.eq_def]; simp only []; rw [if_neg h]; split_ifs <;> rfl
  | nan_left' s => rfl
  | nan_right x h =>
    rw [F64.pow.eq_def]
    simp only []
    rw [if_neg (fun hc => h ⟨hc.2, hc.1⟩)]
  | nan_right' s => rfl
  | nan_both => rfl
  | zero_odd_neg s y h1 h2 => rw [pow_fin_of frac h2.ne rfl, h1, (isOdd_iff y).2 h2]; simp [powZero]
  | zero_ninf s => rw [F64.pow.eq_def]; simp [powZero]
  | zero_pinf s => rw [F64.pow.eq_def]; simp [powZero]
  | zero_neg s y h1 h2 h3 => rw [pow_fin_of frac h2 rfl, h1, isOdd_false h3]; simp [powZero]
  | zero_odd s y h1 h2 => rw [pow_fin_of frac h2.ne rfl, h1, (isOdd_iff y).2 h2]; simp [powZero]
  | zero_pos s y h1 h2 h3 => rw [pow_fin_of frac h2 rfl, h1, isOdd_false h3]; simp [powZero]
  | minus_one s => rw [F64.pow.eq_def]; simp
  | large_pinf x h =>
    rw [F64.pow.eq_def]
    simp only []
    rw [if_neg h.ne', if_neg (by linarith), if_neg (by simpa using h.le)]
  | large_ninf x h =>
    rw [F64.pow.eq_def]
    simp only []
    rw [if_neg h.ne', if_neg (by linarith), if_pos (by simpa using h.le)]
  | small_pinf x h =>
    rw [F64.pow.eq_def]
    simp only []
    rw [if_neg h.ne]
    split_ifs with h1 h2
    · simp [powZero]
    · rfl
    · simp [h] at h2
  | small_ninf x h =>
    rw [F64.pow.eq_def]
    simp only []
    rw [if_neg h.ne]
    split_ifs with h1 h2
    · simp [powZero]
    · simp [h] at h2
    · rfl
  | inf_inf s => cases s <;> rfl
  | inf_ninf s => cases s <;> rfl
  | inf_pos y h1 h2 =>
    rw [F64.pow.eq_def]
    simp only []
    rw [if_neg h2, h1]
    simp
  | inf_neg y h1 h2 =>
    rw [F64.pow.eq_def]
    simp only []
    rw [if_neg h2, h1]
    simp
  | ninf y r h _ ih =>
    rw [← ih, pow_fin_of frac (y := ⟨!y.neg, y.abs⟩) h rfl, F64.pow.eq_def]
    simp only []
    rw [if_neg h]
    by_cases h1 : y.abs = 1 ∧ y.neg = false
    · rw [if_pos h1]
      have : BF.isOdd ⟨!y.neg, y.abs⟩ = true := (isOdd_iff _).2 ⟨0, by simp [h1.1]⟩
      rw [this, h1.2]
      rfl
    · rw [if_neg h1]
      rfl
  | neg_frac x y h1 h2 h3 =>
    rw [F64.pow.eq_def]
    simp only []
    have e0 : y.abs ≠ 0 := fun h => h3 ⟨0, by simp [h]⟩
    have e1 : y.abs ≠ 1 := fun h => h3 ⟨1, by simp [h]⟩
    rw [if_neg e0, if_neg (fun h => e1 h.1), if_neg (by rw [h1]; simp), if_neg h2]
    split_ifs with h4 h5
    · simp [sqrtF64, h1, F64.div]
    · simp [sqrtF64, h1]
    · unfold powFin
      simp only []
      have hf : y.abs - (⌊y.abs⌋.toNat : ℕ) ≠ 0 := fun hc => h3 ⟨(⌊y.abs⌋.toNat : ℕ), by push_cast at hc ⊢; linarith⟩
      rw [if_pos ⟨hf, h1⟩]

/-- **C87**: with an exponent of 2^63 or more, a power is zero or infinite without a sign, or one. -/
theorem C87_huge (frac : ℚ → ℚ → ℚ) {x y : BF} (hx : x.abs ≠ 0) {n : ℕ} (hy : y.abs = n) (hn : 2 ^ 63 ≤ n) :
    (F64.fin x).pow frac (.fin y) =
      if x.abs = 1 then .fin ⟨false, 1⟩ else if (1 < x.abs ∧ y.neg = false) ∨ (x.abs < 1 ∧ y.neg = true) then .inf false else .fin ⟨false, 0⟩ := by
  have hfl : ⌊y.abs⌋.toNat = n := by rw [hy, Int.floor_natCast, Int.toNat_natCast]
  have hn1 : n ≠ 0 := by omega
  have hn2 : n ≠ 1 := by omega
  rw [F64.pow.eq_def]
  simp only []
  rw [if_neg (by rw [hy]; exact_mod_cast hn1), if_neg (by rw [hy]; rintro ⟨h, -⟩; exact hn2 (by exact_mod_cast h))]
  by_cases h1 : x.abs = 1 ∧ x.neg = false
  · rw [if_pos h1, if_pos h1.1]
  rw [if_neg h1, if_neg hx, if_neg (by rw [hy]; exact natAbs_half n)]
  unfold powFin
  simp only [hfl]
  rw [hy, if_neg (by simp), if_pos hn]
  by_cases h2 : x.abs = 1
  · rw [if_pos ⟨by cases h : x.neg <;> simp_all, h2⟩, if_pos h2]
  · rw [if_neg (fun h => h2 h.2), if_neg h2]
    rcases lt_or_gt_of_ne h2 with h | h <;> cases hyn : y.neg <;> simp [h, not_lt.2 h.le]

/-! ## the rows of the table apply -/

/-- `pow(0, -3)`, `pow(-0, 3)`, `pow(-Inf, 3)`, `pow(-2, 1.5)` -/
example : PowCase (.fin ⟨false, 0⟩) (.fin ⟨true, 3⟩) (.inf false) ∧ PowCase (.fin ⟨true, 0⟩) (.fin ⟨false, 3⟩) (.fin ⟨true, 0⟩) ∧
    PowCase (.inf true) (.fin ⟨false, 3⟩) (.inf true) ∧ PowCase (.fin ⟨true, 2⟩) (.fin ⟨false, 3 / 2⟩) .nan :=
  ⟨.zero_odd_neg _ _ rfl ⟨1, by norm_num⟩, .zero_odd _ _ rfl ⟨1, by norm_num⟩,
    .ninf _ _ (by norm_num) (.zero_odd_neg _ _ rfl ⟨1, by norm_num⟩),
    .neg_frac _ _ rfl (by norm_num) (by
      rintro ⟨k, h⟩
      have : (3 : ℚ) = ((2 * k : ℤ) : ℚ) := by push_cast; simp only [] at h; linarith
      have : (3 : ℤ) = 2 * k := by exact_mod_cast this
      omega)⟩

end Fmr
