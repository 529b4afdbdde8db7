import Verif.Proofs.Arith

/-!
# C60: arithmetic of the built-in functions
-/

namespace Fmr

/-- Full statement of C60: `sum`, `sub`, `mul` and `neg` compute with integers. -/
def C60_statement : Prop :=
  ∀ (ext : String → Option BF) (x y : ℤ), mathSum ext (toString x) (toString y) = toString (x + y) ∧
    mathSub ext (toString x) (toString y) = toString (x - y) ∧
    mathMul ext (toString x) (toString y) = toString (x * y) ∧ mathNeg ext (toString x) = toString (-x)

/-- an integer as a `big.Float` -/
def BF.ofInt (n : ℤ) : BF := ⟨decide (n < 0), (n.natAbs : ℚ)⟩

theorem scanBF_small (ext : String → Option BF) {n : ℤ} (h : n.natAbs < 2 ^ 64) :
    scanBF ext (toString n) = some (BF.ofInt n) := by
  rw [scanBF_int, round64_nat h]; rfl

theorem cast_natAbs_add {x y : ℤ} (h : decide (x < 0) = decide (y < 0)) :
    (x.natAbs : ℚ) + y.natAbs = ((x + y).natAbs : ℕ) := by
  rw [decide_eq_decide] at h
  have : x.natAbs + y.natAbs = (x + y).natAbs := by omega
  exact_mod_cast this

theorem cast_natAbs_sub {x y : ℤ} (h : decide (x < 0) ≠ decide (y < 0)) (hlt : y.natAbs < x.natAbs) :
    (x.natAbs : ℚ) - y.natAbs = ((x + y).natAbs : ℕ) := by
  rw [ne_eq, decide_eq_decide] at h
  have : x.natAbs = (x + y).natAbs + y.natAbs := by omega
  rw [this]
  push_cast
  ring

theorem add_ofInt {x y : ℤ} (hx : x.natAbs < 2 ^ 64) (hy : y.natAbs < 2 ^ 64) :
    (BF.ofInt x).add (BF.ofInt y) = ⟨decide (x + y < 0), round64 ((x + y).natAbs : ℕ)⟩ := by
  have z0 : ∀ n : ℤ, ((n.natAbs : ℚ) = 0) ↔ n = 0 := fun n => by
    rw [Nat.cast_eq_zero]; exact Int.natAbs_eq_zero
  have zl : ∀ n m : ℤ, ((n.natAbs : ℚ) < m.natAbs) ↔ n.natAbs < m.natAbs := fun n m => Nat.cast_lt
  have ze : ∀ n m : ℤ, ((n.natAbs : ℚ) = m.natAbs) ↔ n.natAbs = m.natAbs := fun n m => Nat.cast_inj
  unfold BF.add BF.ofInt
  simp only [z0, zl, ze]
  split_ifs with h1 h2 h3 h4 h5 h6
  · obtain ⟨rfl, rfl⟩ := h1
    simp [round64_zero]
  · subst h2
    rw [zero_add, round64_nat hy]
  · subst h3
    rw [add_zero, round64_nat hx]
  · rw [cast_natAbs_add h4]
    congr 1
    rw [decide_eq_decide] at h4 ⊢
    omega
  · have hz : x + y = 0 := by
      rw [decide_eq_decide] at h4
      omega
    rw [hz]
    simp [round64_zero]
  · rw [cast_natAbs_sub h4 h6]
    congr 1
    rw [decide_eq_decide] at h4 ⊢
    omega
  · rw [cast_natAbs_sub (x := y) (y := x) (fun e => h4 e.symm) (by omega), add_comm y x]
    congr 1
    rw [decide_eq_decide] at h4
    by_cases hx0 : x < 0 <;> simp [hx0] <;> omega

theorem sub_ofInt {x y : ℤ} (hx : x.natAbs < 2 ^ 64) (hy : y.natAbs < 2 ^ 64) :
    (BF.ofInt x).sub (BF.ofInt y) = ⟨decide (x - y < 0), round64 ((x - y).natAbs : ℕ)⟩ := by
  by_cases h : y = 0
  · subst h
    unfold BF.sub BF.negate BF.add BF.ofInt
    by_cases h0 : x = 0
    · subst h0; simp [round64_zero]
    · have : (x.natAbs : ℚ) ≠ 0 := by
        rw [Nat.cast_ne_zero]; omega
      simp only [Int.natAbs_zero, Nat.cast_zero, this, false_and, if_false, if_true, sub_zero]
      rw [round64_nat hx]
  · have e : (BF.ofInt y).negate = BF.ofInt (-y) := by
      unfold BF.negate BF.ofInt
      simp only [Int.natAbs_neg]
      congr 1
      by_cases hy0 : y < 0
      · simp [hy0]; omega
      · simp [hy0]; omega
    rw [BF.sub, e, add_ofInt hx (by rw [Int.natAbs_neg]; exact hy)]
    rfl

/-- rounding does not bring a number down to ten digits -/
theorem round64_big {n : ℕ} (h : 10 ^ 10 ≤ n) : (10 ^ 10 : ℚ) ≤ round64 n := by
  by_cases hn : n < 2 ^ 64
  · rw [round64_nat hn]; exact_mod_cast h
  · have hn' : (2 ^ 64 : ℚ) ≤ n := by exact_mod_cast not_lt.1 hn
    have he := round64_err (q := (n : ℚ)) (by linarith [show (0 : ℚ) < 2 ^ 64 by norm_num])
    rw [abs_le] at he
    have h2 : (n : ℚ) / 2 ^ 64 ≤ n / 2 := by
      rw [div_le_div_iff₀ (by norm_num) (by norm_num)]
      nlinarith [show (2 : ℚ) ≤ 2 ^ 64 by norm_num]
    have : (10 ^ 10 : ℚ) ≤ 2 ^ 64 / 2 := by norm_num
    linarith [he.1]

/-- What is printed is the number iff it has at most ten digits. -/
theorem text_int_iff (z : ℤ) :
    BF.text ⟨decide (z < 0), round64 (z.natAbs : ℕ)⟩ = toString z ↔ z.natAbs < 10 ^ 10 := by
  constructor
  · intro h
    rcases Nat.lt_or_ge z.natAbs (10 ^ 10) with hz | hz
    · exact hz
    · exfalso
      have := text_big (neg := decide (z < 0)) (round64_big hz)
      rw [h] at this
      exact e_notMem_int z this
  · intro h
    rw [round64_nat (by omega), ← String.toList_inj, int_signed]
    by_cases h0 : z.natAbs = 0
    · have : z = 0 := by omega
      subst this
      exact text_zero _
    · exact text_nat (by omega) h

/-- C60 for `sum`: exact iff the sum has at most ten digits. For arguments below 2^64, see `C60_rounded`. -/
theorem C60_sum_partial (ext : String → Option BF) (x y : ℤ) (hx : x.natAbs < 2 ^ 64) (hy : y.natAbs < 2 ^ 64) :
    mathSum ext (toString x) (toString y) = toString (x + y) ↔ (x + y).natAbs < 10 ^ 10 := by
  unfold mathSum mathCalc
  rw [scanBF_small ext hx, scanBF_small ext hy]
  simp only []
  rw [add_ofInt hx hy]
  exact text_int_iff _

/-- C60 for `sub`: exact iff the difference has at most ten digits. -/
theorem C60_sub_partial (ext : String → Option BF) (x y : ℤ) (hx : x.natAbs < 2 ^ 64) (hy : y.natAbs < 2 ^ 64) :
    mathSub ext (toString x) (toString y) = toString (x - y) ↔ (x - y).natAbs < 10 ^ 10 := by
  unfold mathSub mathCalc
  rw [scanBF_small ext hx, scanBF_small ext hy]
  simp only []
  rw [sub_ofInt hx hy]
  exact text_int_iff _

/-- C60 for `mul`: exact iff the product has at most ten digits, except that zero times a negative number prints
`-0`. -/
theorem C60_mul_partial (ext : String → Option BF) (x y : ℤ) (hx : x.natAbs < 2 ^ 64) (hy : y.natAbs < 2 ^ 64) :
    mathMul ext (toString x) (toString y) = toString (x * y) ↔
      (x * y).natAbs < 10 ^ 10 ∧ ¬ (x = 0 ∧ y < 0) ∧ ¬ (x < 0 ∧ y = 0) := by
  unfold mathMul mathCalc
  rw [scanBF_small ext hx, scanBF_small ext hy]
  simp only [BF.mul, BF.ofInt]
  have hm : (x.natAbs : ℚ) * y.natAbs = ((x * y).natAbs : ℕ) := by rw [Int.natAbs_mul]; push_cast; rfl
  rw [hm]
  by_cases h0 : x = 0 ∨ y = 0
  · have hz : x * y = 0 := by rcases h0 with rfl | rfl <;> simp
    rw [hz, ← String.toList_inj, Int.natAbs_zero, Nat.cast_zero, round64_zero, text_zero]
    have e0 : (toString (0 : ℤ)).toList = ['0'] := by decide
    rw [e0]
    by_cases hx0 : x < 0 <;> by_cases hy0 : y < 0 <;> simp [hx0, hy0, signChars] <;> omega
  · have hs : (decide (x < 0) != decide (y < 0)) = decide (x * y < 0) := by
      rw [not_or] at h0
      rcases lt_or_gt_of_ne h0.1 with hx0 | hx0 <;> rcases lt_or_gt_of_ne h0.2 with hy0 | hy0
      · have := mul_pos_of_neg_of_neg hx0 hy0
        simp [hx0, hy0]; omega
      · have := mul_neg_of_neg_of_pos hx0 hy0
        simp [hx0, this]; omega
      · have := mul_neg_of_pos_of_neg hx0 hy0
        simp [hy0, this]; omega
      · have := mul_pos hx0 hy0
        have a1 : ¬ x < 0 := by omega
        have a2 : ¬ y < 0 := by omega
        have a3 : ¬ x * y < 0 := by omega
        simp [a1, a2, a3]
    rw [hs, text_int_iff]
    rw [not_or] at h0
    simp [h0.1, h0.2]

/-- C60 for `neg`, all integers: exact iff the number is not zero and has at most ten digits. -/
theorem C60_neg_partial (ext : String → Option BF) (x : ℤ) :
    mathNeg ext (toString x) = toString (-x) ↔ x ≠ 0 ∧ x.natAbs < 10 ^ 10 := by
  unfold mathNeg
  rw [scanBF_int]
  simp only [BF.negate]
  by_cases h0 : x = 0
  · subst h0
    have e0 : (toString (-(0 : ℤ))).toList = ['0'] := by decide
    rw [← String.toList_inj, Int.natAbs_zero, Nat.cast_zero, round64_zero, text_zero, e0]
    simp [signChars]
  · have hs : (!decide (x < 0)) = decide (-x < 0) := by
      by_cases hx0 : x < 0
      · simp [hx0]; omega
      · simp [hx0]; omega
    have := text_int_iff (-x)
    rw [Int.natAbs_neg] at this
    rw [hs, this]
    simp [h0]

/-- C60 fails: 9999999999 + 1 prints as 1e+10, the negation of 0 as -0. -/
theorem C60_false : ¬ C60_statement := by
  intro h
  have h1 := (C60_neg_partial (fun _ => none) 0).1 (h _ 0 0).2.2.2
  exact h1.1 rfl

/-- other failures: too many digits, a signed zero, arguments of more than 64 bits -/
theorem C60_rounded : mathSum (fun _ => none) "9999999999" "1" = "1e+10" ∧
    mathSum (fun _ => none) "12345678901" "1" = "1.23456789e+10" ∧ mathMul (fun _ => none) "0" "-1" = "-0" ∧
    mathSum (fun _ => none) "18446744073709551617" "-18446744073709551616" = "0" := by decide +kernel

/-- an argument that is not a number gives the empty text -/
theorem C60_unreadable (ext : String → Option BF) {x y : String} (h : scanBF ext x = none ∨ scanBF ext y = none) :
    mathSum ext x y = "" ∧ mathSub ext x y = "" ∧ mathMul ext x y = "" ∧ (scanBF ext x = none → mathNeg ext x = "") := by
  have hc : ∀ m, mathCalc ext x y m = "" := by
    intro m
    unfold mathCalc
    rcases h with h | h
    · rw [h]
    · rw [h]; split <;> rfl
  exact ⟨hc _, hc _, hc _, fun h => by unfold mathNeg; rw [h]⟩

/-- non-vacuity -/
example : scanBF (fun _ => none) "x" = none := by decide +kernel

/-- non-vacuity -/
example : (12 : ℤ).natAbs < 2 ^ 64 ∧ mathSum (fun _ => none) "12" "-30" = "-18" ∧
    mathSub (fun _ => none) "12" "30" = "-18" ∧ mathMul (fun _ => none) "12" "-30" = "-360" ∧
    mathNeg (fun _ => none) "12" = "-12" := by decide +kernel

end Fmr
