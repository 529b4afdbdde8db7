import Verif.Proofs.PowNear
import Verif.Props.PowSpecial
import Verif.Props.ArithDec

/-!
# C87: the accuracy of powers
-/

namespace Fmr

attribute [local irreducible] f64Max

/-- a relative error as a number of roundings -/
theorem near_of_abs {a b : ℝ} (hb : 0 < b) (m : ℕ) (hm : m ≤ 2 ^ 40) (h : |a - b| ≤ b * (m * ulp53)) : Near (2 * m) a b := by
  obtain ⟨h1, h2⟩ := abs_le.1 h
  have hu := ulp53_pos
  have hmu : (m : ℝ) * ulp53 ≤ 1 / 4 := by
    have : (m : ℝ) ≤ 2 ^ 40 := by exact_mod_cast hm
    calc (m : ℝ) * ulp53 ≤ 2 ^ 40 * ulp53 := mul_le_mul_of_nonneg_right this hu.le
      _ ≤ 1 / 4 := by unfold ulp53; norm_num
  have hm0 : (0 : ℝ) ≤ m * ulp53 := by positivity
  have hup := one_add_mul_le_pow (a := ulp53) (by linarith) (2 * m)
  push_cast at hup
  constructor
  · have h3 : (1 - ulp53) ^ (2 * m) ≤ 1 - m * ulp53 := by
      have h4 : (1 - ulp53) ^ (2 * m) * (1 + ulp53) ^ (2 * m) ≤ 1 := by
        rw [← mul_pow]
        exact pow_le_one₀ (mul_nonneg low_pos.le high_pos.le) (by nlinarith)
      have h5 : 0 < (1 - ulp53) ^ (2 * m) := pow_pos low_pos _
      have h6 : (1 - ulp53) ^ (2 * m) * (1 + 2 * m * ulp53) ≤ 1 := le_trans (mul_le_mul_of_nonneg_left hup h5.le) h4
      have h7 : (1 : ℝ) ≤ (1 - m * ulp53) * (1 + 2 * m * ulp53) := by nlinarith
      have h8 : 0 < 1 + 2 * m * ulp53 := by linarith
      exact le_of_mul_le_mul_right (le_trans h6 h7) h8
    have := mul_le_mul_of_nonneg_left h3 hb.le
    linarith
  · have : b * (1 + 2 * m * ulp53) ≤ b * (1 + ulp53) ^ (2 * m) := mul_le_mul_of_nonneg_left hup hb.le
    have h9 : 0 ≤ b * (m * ulp53) := by positivity
    linarith

theorem round_fin {b : Bool} {q : ℚ} {k : ℕ} {P : ℝ} (hP : 0 < P) (h : Near k (q : ℝ) P) (hk : k ≤ 2 ^ 52) (hhigh : P ≤ 10 ^ 300) :
    F64.round b q = .fin ⟨b, roundBits 53 q⟩ := by
  have hq : (0 : ℝ) < q := h.pos hP
  have hq' : 0 < q := by exact_mod_cast hq
  unfold F64.round
  simp only []
  rw [if_neg]
  have h1 : (q : ℝ) ≤ 2 * 10 ^ 300 := by have := (h.range hP hk).2; linarith
  have h2 : q ≤ 2 * 10 ^ 300 := by exact_mod_cast h1
  refine not_le.2 (round53_lt hq'.le (le_trans (mul_le_mul_of_nonneg_left h2 (by norm_num)) ?_))
  rw [f64Max_zpow]
  calc (2 : ℚ) * (2 * 10 ^ 300) = 4 * (10 ^ 3) ^ 100 := by rw [← pow_mul]; ring
    _ ≤ 4 * (2 ^ 10) ^ 100 := by gcongr; norm_num
    _ = 2 ^ (1002 : ℕ) := by rw [← pow_mul, show (4 : ℚ) = 2 ^ 2 by norm_num, ← pow_add]
    _ ≤ 2 ^ (1024 : ℤ) := by rw [← zpow_natCast]; exact zpow_le_zpow_right₀ (by norm_num) (by norm_num)

theorem big_range {Q : ℝ} (h : Q ≤ 10 ^ 300) (h0 : 0 ≤ Q) : Q ^ 2 ≤ 2 ^ 4000 := by
  calc Q ^ 2 ≤ (10 ^ 300) ^ 2 := pow_le_pow_left₀ h0 h 2
    _ = (10 ^ 3) ^ 200 := by rw [← pow_mul, ← pow_mul]
    _ ≤ (2 ^ 10) ^ 200 := pow_le_pow_left₀ (by norm_num) (by norm_num) _
    _ = 2 ^ 2000 := by rw [← pow_mul]
    _ ≤ 2 ^ 4000 := pow_le_pow_right₀ (by norm_num) (by norm_num)

theorem small_range {Q : ℝ} (h : 1 / 10 ^ 300 ≤ Q) : (1 / 2) ^ 4000 ≤ Q ^ 2 := by
  have h1 : (1 / 10 ^ 300 : ℝ) ^ 2 ≤ Q ^ 2 := pow_le_pow_left₀ (by positivity) h 2
  refine le_trans ?_ h1
  have h2 := big_range (Q := 10 ^ 300) le_rfl (by positivity)
  rw [div_pow, div_pow, one_pow, one_pow]
  exact one_div_le_one_div_of_le (by positivity) h2

/-- The loop of `math.Pow` started on a number: the result of `i` steps is the power with `i` roundings. -/
theorem frexp_near {x : BF} (hx : 0 < x.abs) {i l : ℕ} {a : BF} {A Q : ℝ} (hi : i ≤ 2 ^ 40) (hA : 0 < A) (ha : Near l ((a.abs : ℚ) : ℝ) A)
    (hlow : (1 / 2) ^ 4000 ≤ (x.abs : ℝ) ^ i) (hhigh : (x.abs : ℝ) ^ i ≤ 2 ^ 4000) (hQ : A * (x.abs : ℝ) ^ i = Q) :
    let r := powLoop 64 i ⟨x.neg, x.abs / 2 ^ (Int.log 2 x.abs + 1)⟩ (Int.log 2 x.abs + 1) a 0
    Near (l + i) ((r.1.abs * 2 ^ r.2 : ℚ) : ℝ) Q ∧ r.1.neg = (a.neg != (x.neg && decide (i % 2 = 1))) := by
  have two : (2 : ℚ) ≠ 0 := by norm_num
  have a1 : ((2 : ℕ) : ℚ) ^ (Int.log 2 x.abs) ≤ x.abs := Int.zpow_log_le_self (by norm_num) hx
  have a2 : x.abs < ((2 : ℕ) : ℚ) ^ (Int.log 2 x.abs + 1) := Int.lt_zpow_succ_log_self (by norm_num) _
  push_cast at a1 a2
  have hp := pow2_pos (Int.log 2 x.abs + 1)
  have := powLoop_near 64 i ⟨x.neg, x.abs / 2 ^ (Int.log 2 x.abs + 1)⟩ (Int.log 2 x.abs + 1) a 0 (x.abs : ℝ) A 0 l
    (lt_of_le_of_lt hi (by norm_num)) (by exact_mod_cast hx) hA
    (by
      rw [le_div_iff₀ hp, zpow_add_one₀ two]
      linarith)
    (by rw [div_le_one hp]; exact a2.le)
    (by
      simp only []
      rw [div_mul_cancel₀ _ hp.ne']
      exact Near.refl _)
    (by simpa using ha) (by omega) hlow hhigh
  rw [hQ, zero_add, one_mul] at this
  exact this

/-- What `math.Pow` does for finite numbers with neither of the special exponents. -/
theorem powFin_near {frac : ℚ → ℚ → ℚ} (hf : NearPow frac) {x y : BF} (hx : 0 < x.abs) (hy0 : 0 ≤ y.abs) (hy : y.abs ≤ 2 ^ 30)
    (hneg : x.neg = true → ∃ n : ℕ, y.abs = n) {P : ℝ} (hP : P = (x.abs : ℝ) ^ (y.val : ℝ)) (hlow : 1 / 10 ^ 300 ≤ P) (hhigh : P ≤ 10 ^ 300) :
    ∃ (s : ℚ) (sgn : Bool) (m : ℕ), powFin frac x y = .fin ⟨sgn, s⟩ ∧ (sgn = true ↔ x.neg = true ∧ OddInt y) ∧ Near m (s : ℝ) P ∧
      (m : ℝ) ≤ 2 * (y.abs : ℝ) + 2 ^ 15 + 4 ∧ ((∃ n : ℕ, y.abs = n) → (m : ℝ) ≤ 2 * (y.abs : ℝ) + 2) := by
  have hXr : (0 : ℝ) < x.abs := by exact_mod_cast hx
  have hP0 : 0 < P := lt_of_lt_of_le (by positivity) hlow
  -- the absolute exponent
  set Q : ℝ := (x.abs : ℝ) ^ (y.abs : ℝ) with hQ
  have hQ0 : 0 < Q := Real.rpow_pos_of_pos hXr _
  have hQP : P = if y.neg then 1 / Q else Q := by
    rw [hP, hQ]
    unfold BF.val
    split_ifs
    · push_cast
      rw [Real.rpow_neg hXr.le, one_div]
    · rfl
  have hQr : 1 / 10 ^ 300 ≤ Q ∧ Q ≤ 10 ^ 300 := by
    rw [hQP] at hlow hhigh
    split_ifs at hlow hhigh
    · have h300 : (0 : ℝ) < 10 ^ 300 := by positivity
      constructor
      · rw [div_le_iff₀ hQ0] at hhigh
        rw [div_le_iff₀ h300]
        linarith
      · rw [div_le_div_iff₀ h300 hQ0] at hlow
        linarith
    · exact ⟨hlow, hhigh⟩
  -- integer and fractional part
  have hfl0 : 0 ≤ ⌊y.abs⌋ := Int.floor_nonneg.2 hy0
  set yi := ⌊y.abs⌋.toNat with hyi
  have hyi' : ((yi : ℕ) : ℚ) = (⌊y.abs⌋ : ℚ) := by
    have : ((yi : ℕ) : ℤ) = ⌊y.abs⌋ := by omega
    exact_mod_cast congrArg (Int.cast : ℤ → ℚ) this
  have hf0 : 0 ≤ y.abs - yi := by rw [hyi']; have := Int.floor_le y.abs; linarith
  have hf1 : y.abs - yi < 1 := by rw [hyi']; have := Int.lt_floor_add_one y.abs; linarith
  have hyil : yi ≤ 2 ^ 30 := by
    have : ((yi : ℕ) : ℚ) ≤ 2 ^ 30 := by linarith
    exact_mod_cast this
  set f : ℚ := if 1 / 2 < y.abs - yi then y.abs - yi - 1 else y.abs - yi with hfdef
  set i : ℕ := if 1 / 2 < y.abs - yi then yi + 1 else yi with hidef
  have hfi : y.abs = f + i := by
    rw [hfdef, hidef]
    split_ifs <;> push_cast <;> ring
  have hfabs : |f| ≤ 1 / 2 := by
    rw [hfdef, abs_le]
    split_ifs with h <;> constructor <;> linarith
  have hil : i ≤ 2 ^ 40 := by rw [hidef]; split_ifs <;> omega
  have hi2 : (i : ℚ) ≤ y.abs + 1 / 2 := by
    have := (abs_le.1 hfabs).1
    linarith
  have hi3 : i ≠ 0 → (i : ℚ) ≤ 2 * y.abs := by
    intro h
    have : (1 : ℚ) ≤ i := by exact_mod_cast Nat.pos_of_ne_zero h
    linarith
  -- the range of the loop
  have hXi : (1 / 2) ^ 4000 ≤ (x.abs : ℝ) ^ i ∧ (x.abs : ℝ) ^ i ≤ 2 ^ 4000 := by
    by_cases hi0 : i = 0
    · rw [hi0, pow_zero]
      exact ⟨pow_le_one₀ (by norm_num) (by norm_num), one_le_pow₀ (by norm_num)⟩
    have h1 : (i : ℝ) ≤ 2 * (y.abs : ℝ) := by
      have := (Rat.cast_le (K := ℝ)).2 (hi3 hi0)
      push_cast at this
      exact this
    have hQ2 : Q ^ 2 = (x.abs : ℝ) ^ (2 * (y.abs : ℝ)) := by
      rw [hQ, ← Real.rpow_natCast, ← Real.rpow_mul hXr.le, mul_comm]
      norm_num
    rw [← Real.rpow_natCast (x.abs : ℝ) i]
    rcases le_total 1 (x.abs : ℝ) with h | h
    · exact ⟨le_trans (pow_le_one₀ (by norm_num) (by norm_num)) (Real.one_le_rpow h (Nat.cast_nonneg i)),
        le_trans (Real.rpow_le_rpow_of_exponent_le h h1) (by rw [← hQ2]; exact big_range hQr.2 hQ0.le)⟩
    · exact ⟨le_trans (small_range hQr.1) (by rw [hQ2]; exact Real.rpow_le_rpow_of_exponent_ge hXr h h1),
        le_trans (Real.rpow_le_one hXr.le h (Nat.cast_nonneg i)) (one_le_pow₀ (by norm_num))⟩
  -- what is left
  set A : ℝ := (x.abs : ℝ) ^ (f : ℝ) with hA
  have hA0 : 0 < A := Real.rpow_pos_of_pos hXr _
  have hAQ : A * (x.abs : ℝ) ^ i = Q := by
    rw [hA, hQ, hfi, ← Real.rpow_natCast, ← Real.rpow_add hXr]
    push_cast
    rfl
  set a : BF := if y.abs - yi = 0 then ⟨false, 1⟩ else ⟨false, frac x.abs f⟩ with hadef
  set l : ℕ := if y.abs - yi = 0 then 0 else 2 ^ 14 with hldef
  have hanear : Near l ((a.abs : ℚ) : ℝ) A := by
    by_cases h : y.abs - yi = 0
    · have hf0' : f = 0 := by rw [hfdef, h, if_neg (by norm_num)]
      simp only [hadef, hldef, if_pos h]
      rw [hA, hf0']
      simpa using Near.refl 1
    · simp only [hadef, hldef, if_neg h]
      have h1 := hf x.abs f hx hfabs
      refine near_of_abs hA0 (2 ^ 13) (by norm_num) (le_trans h1 (le_of_eq ?_))
      unfold ulp53
      rw [← hA]
      push_cast
      rw [div_eq_mul_inv]
      congr 1
      norm_num
  have hll : l ≤ 2 ^ 14 := by rw [hldef]; split_ifs <;> norm_num
  obtain ⟨r1, r2⟩ := frexp_near hx hil hA0 hanear hXi.1 hXi.2 hAQ
  set r := powLoop 64 i ⟨x.neg, x.abs / 2 ^ (Int.log 2 x.abs + 1)⟩ (Int.log 2 x.abs + 1) a 0 with hr
  have hunf : powFin frac x y = if y.neg then F64.round r.1.neg (roundBits 53 (1 / r.1.abs) * 2 ^ (-r.2)) else F64.round r.1.neg (r.1.abs * 2 ^ r.2) := by
    unfold powFin
    simp only [← hyi]
    have hnf : ¬ (y.abs - (yi : ℚ) ≠ 0 ∧ x.neg = true) := by
      rintro ⟨h1, h2⟩
      obtain ⟨n, hn⟩ := hneg h2
      apply h1
      rw [hyi, hn, Int.floor_natCast, Int.toNat_natCast, sub_self]
    rw [if_neg hnf, if_neg (by omega)]
    have hpair : (if y.abs - (yi : ℚ) = 0 then ((yi, ⟨false, 1⟩) : ℕ × BF)
        else if 1 / 2 < y.abs - (yi : ℚ) then (yi + 1, ⟨false, frac x.abs (y.abs - yi - 1)⟩)
        else (yi, ⟨false, frac x.abs (y.abs - yi)⟩)) = (i, a) := by
      by_cases h : y.abs - (yi : ℚ) = 0
      · simp only [hidef, hadef, if_pos h]
        rw [h, if_neg (by norm_num)]
      · simp only [hidef, hadef, hfdef, if_neg h]
        split_ifs <;> rfl
    rw [hpair]
  have han : a.neg = false := by rw [hadef]; split_ifs <;> rfl
  have hsgn : r.1.neg = true ↔ x.neg = true ∧ OddInt y := by
    rw [r2, han]
    simp only [Bool.bne_eq_xor, Bool.false_xor, Bool.and_eq_true, decide_eq_true_eq]
    refine and_congr_right (fun hxn => ?_)
    obtain ⟨n, hn⟩ := hneg hxn
    have hyn : yi = n := by rw [hyi, hn, Int.floor_natCast, Int.toNat_natCast]
    have hin : i = n := by rw [hidef, hyn, hn, sub_self, if_neg (by norm_num)]
    rw [hin]
    unfold OddInt
    rw [hn]
    constructor
    · intro h
      refine ⟨(n / 2 : ℕ), ?_⟩
      have : n = 2 * (n / 2) + 1 := by omega
      conv_lhs => rw [this]
      push_cast
      rfl
    · rintro ⟨k, hk⟩
      have : (n : ℤ) = 2 * k + 1 := by exact_mod_cast hk
      omega
  have hr0 : 0 < r.1.abs * 2 ^ r.2 := by
    have : (0 : ℝ) < ((r.1.abs * 2 ^ r.2 : ℚ) : ℝ) := r1.pos hQ0
    exact_mod_cast this
  have hra : 0 < r.1.abs := (mul_pos_iff_of_pos_right (pow2_pos r.2)).1 hr0
  have hcount : ∀ m : ℕ, m ≤ 2 * (l + i) + 2 → (m : ℝ) ≤ 2 * (y.abs : ℝ) + 2 ^ 15 + 4 ∧ ((∃ n : ℕ, y.abs = n) → (m : ℝ) ≤ 2 * (y.abs : ℝ) + 2) := by
    intro m hm
    have h1 : (m : ℝ) ≤ 2 * (l + i) + 2 := by exact_mod_cast hm
    have h2 : (l : ℝ) ≤ 2 ^ 14 := by exact_mod_cast hll
    constructor
    · have h3 : (i : ℝ) ≤ (y.abs : ℝ) + 1 / 2 := by
        have := (Rat.cast_le (K := ℝ)).2 hi2
        push_cast at this
        exact this
      have e1 : (2 : ℝ) ^ 15 = 2 * 2 ^ 14 := by norm_num
      rw [e1]
      linarith only [h1, h2, h3]
    · rintro ⟨n, hn⟩
      have hyn : yi = n := by rw [hyi, hn, Int.floor_natCast, Int.toNat_natCast]
      have hin : i = n := by rw [hidef, hyn, hn, sub_self, if_neg (by norm_num)]
      have hl0 : l = 0 := by rw [hldef, if_pos (by rw [hyn, hn, sub_self])]
      rw [hin, hl0] at h1
      rw [hn]
      push_cast at h1 ⊢
      linarith only [h1]
  have hbound : 2 * (l + i) + 2 ≤ 2 ^ 52 := by omega
  cases hyn : y.neg with
  | true =>
    rw [hyn, if_pos rfl] at hunf hQP
    have e1 : roundBits 53 (1 / r.1.abs) * 2 ^ (-r.2) = roundBits 53 (1 / (r.1.abs * 2 ^ r.2)) := by
      rw [← roundBits_scale (by positivity), zpow_neg]
      congr 1
      rw [one_div, one_div, mul_inv]
    rw [e1] at hunf
    have n1 : Near (2 * (l + i)) ((1 / (r.1.abs * 2 ^ r.2) : ℚ) : ℝ) P := by
      rw [hQP, Rat.cast_div, Rat.cast_one]
      exact r1.inv hQ0
    have n2 := n1.round hP0
    rw [round_fin hP0 n2 (by omega) hhigh] at hunf
    exact ⟨_, _, _, hunf, hsgn, n2.round hP0, hcount _ le_rfl⟩
  | false =>
    rw [hyn, if_neg Bool.false_ne_true] at hunf hQP
    rw [hQP] at hhigh hP0 ⊢
    rw [round_fin hQ0 r1 (by omega) hhigh] at hunf
    exact ⟨_, _, _, hunf, hsgn, r1.round hQ0, hcount _ (by omega)⟩

/-- **C87**: a power, for finite numbers with a result between 10^-300 and 10^300: the sign is right, and the relative error
is small, and smaller for exponents that are integers. -/
theorem C87_accurate {frac : ℚ → ℚ → ℚ} (hf : NearPow frac) {x y : BF} (hx : 0 < x.abs) (hy0 : 0 ≤ y.abs) (hy : y.abs ≤ 2 ^ 30)
    (hneg : x.neg = true → ∃ n : ℕ, y.abs = n) (hlow : 1 / 10 ^ 300 ≤ (x.abs : ℝ) ^ (y.val : ℝ)) (hhigh : (x.abs : ℝ) ^ (y.val : ℝ) ≤ 10 ^ 300) :
    ∃ (s : ℚ) (sgn : Bool), (F64.fin x).pow frac (.fin y) = .fin ⟨sgn, s⟩ ∧ (sgn = true ↔ x.neg = true ∧ OddInt y) ∧ 0 < s ∧
      |(s : ℝ) - (x.abs : ℝ) ^ (y.val : ℝ)| ≤ (x.abs : ℝ) ^ (y.val : ℝ) * ((2 * (y.abs : ℝ) + 2 ^ 15 + 4) / 2 ^ 52) ∧
      ((∃ n : ℕ, y.abs = n) → |(s : ℝ) - (x.abs : ℝ) ^ (y.val : ℝ)| ≤ (x.abs : ℝ) ^ (y.val : ℝ) * ((2 * (y.abs : ℝ) + 2) / 2 ^ 52)) := by
  obtain ⟨P, hP⟩ : ∃ P : ℝ, P = (x.abs : ℝ) ^ (y.val : ℝ) := ⟨_, rfl⟩
  rw [← hP] at hlow hhigh ⊢
  have hP0 : 0 < P := lt_of_lt_of_le (by positivity) hlow
  have hXr : (0 : ℝ) < x.abs := by exact_mod_cast hx
  have hyr : (y.abs : ℝ) ≤ 2 ^ 30 := by exact_mod_cast hy
  have hyr0 : (0 : ℝ) ≤ (y.abs : ℝ) := by exact_mod_cast hy0
  suffices h : ∃ (s : ℚ) (sgn : Bool) (m : ℕ), (F64.fin x).pow frac (.fin y) = .fin ⟨sgn, s⟩ ∧ (sgn = true ↔ x.neg = true ∧ OddInt y) ∧
      Near m (s : ℝ) P ∧ (m : ℝ) ≤ 2 * (y.abs : ℝ) + 2 ^ 15 + 4 ∧ ((∃ n : ℕ, y.abs = n) → (m : ℝ) ≤ 2 * (y.abs : ℝ) + 2) by
    obtain ⟨s, sgn, m, h1, h2, h3, h4, h5⟩ := h
    have hm : m ≤ 2 ^ 52 := by
      have : (m : ℝ) ≤ 2 ^ 52 := by
        refine le_trans h4 ?_
        norm_num at hyr ⊢
        linarith only [hyr]
      exact_mod_cast this
    have h6 := h3.error hP0 hm
    have hs : (0 : ℝ) < s := h3.pos hP0
    refine ⟨s, sgn, h1, h2, by exact_mod_cast hs, le_trans h6 (mul_le_mul_of_nonneg_left (by gcongr) hP0.le), fun hn => ?_⟩
    exact le_trans h6 (mul_le_mul_of_nonneg_left (by gcongr; exact h5 hn) hP0.le)
  have small : ∀ m : ℕ, m ≤ 2 → (m : ℝ) ≤ 2 * (y.abs : ℝ) + 2 ^ 15 + 4 ∧ ((∃ n : ℕ, y.abs = n) → (m : ℝ) ≤ 2 * (y.abs : ℝ) + 2) := by
    intro m hm
    have : (m : ℝ) ≤ 2 := by exact_mod_cast hm
    exact ⟨by linarith only [this, hyr0], fun _ => by linarith only [this, hyr0]⟩
  rw [F64.pow.eq_def]
  simp only []
  by_cases h0 : y.abs = 0
  · rw [if_pos h0]
    refine ⟨1, false, 0, rfl, ?_, ?_, small 0 (by norm_num)⟩
    · simp only [Bool.false_eq_true, false_iff, not_and]
      exact fun _ h => h.ne h0
    · have : P = 1 := by rw [hP]; unfold BF.val; rw [h0]; simp
      rw [this]
      simpa using Near.refl 1
  rw [if_neg h0]
  by_cases h1 : y.abs = 1 ∧ y.neg = false
  · rw [if_pos h1]
    refine ⟨x.abs, x.neg, 0, rfl, ?_, ?_, small 0 (by norm_num)⟩
    · exact ⟨fun h => ⟨h, 0, by rw [h1.1]; norm_num⟩, fun h => h.1⟩
    · have : P = x.abs := by rw [hP]; unfold BF.val; rw [h1.1, h1.2]; simp
      rw [this]
      exact Near.refl _
  rw [if_neg h1]
  by_cases h2 : x.abs = 1 ∧ x.neg = false
  · rw [if_pos h2]
    refine ⟨1, false, 0, rfl, by rw [h2.2]; simp, ?_, small 0 (by norm_num)⟩
    have : P = 1 := by rw [hP, h2.1]; simp
    rw [this]
    simpa using Near.refl 1
  rw [if_neg h2, if_neg hx.ne']
  by_cases h3 : y.abs = 1 / 2
  · rw [if_pos h3]
    have hnn : ¬ ∃ n : ℕ, y.abs = n := by
      rintro ⟨n, hn⟩
      exact natAbs_half n (by rw [← hn, h3])
    have hxn : x.neg = false := by
      cases h : x.neg with
      | false => rfl
      | true => exact absurd (hneg h) hnn
    have hsq := (sqrtBits_near (p := 53) hx).2
    have hs0 : 0 < √(x.abs : ℝ) := Real.sqrt_pos.2 hXr
    have hn : Near 2 ((sqrtBits 53 x.abs : ℚ) : ℝ) (√(x.abs : ℝ)) := by
      have := near_of_abs hs0 1 (by norm_num) (a := ((sqrtBits 53 x.abs : ℚ) : ℝ)) (le_trans hsq (le_of_eq (by unfold ulp53; push_cast; ring)))
      simpa using this
    have hsqrt : √(x.abs : ℝ) = (x.abs : ℝ) ^ ((1 / 2 : ℝ)) := Real.sqrt_eq_rpow _
    have hc : ∀ m : ℕ, m ≤ 5 → (m : ℝ) ≤ 2 * (y.abs : ℝ) + 2 ^ 15 + 4 ∧ ((∃ n : ℕ, y.abs = n) → (m : ℝ) ≤ 2 * (y.abs : ℝ) + 2) := by
      intro m hm
      have : (m : ℝ) ≤ 5 := by exact_mod_cast hm
      exact ⟨by linarith only [this, hyr0], fun h => absurd h hnn⟩
    unfold sqrtF64
    rw [hxn]
    cases hyn : y.neg with
    | false =>
      simp only [Bool.false_eq_true, if_false]
      refine ⟨_, false, 2, rfl, by simp, ?_, hc 2 (by norm_num)⟩
      have : P = √(x.abs : ℝ) := by rw [hP, hsqrt]; unfold BF.val; rw [hyn, h3]; norm_num
      rw [this]
      exact hn
    | true =>
      have hPi : P = 1 / √(x.abs : ℝ) := by
        rw [hP, hsqrt]
        unfold BF.val
        rw [hyn, h3, if_pos rfl]
        push_cast
        rw [Real.rpow_neg hXr.le, one_div ((x.abs : ℝ) ^ ((1 : ℝ) / 2))]
      have n1 : Near (2 * 2) ((1 / sqrtBits 53 x.abs : ℚ) : ℝ) P := by
        rw [hPi, Rat.cast_div, Rat.cast_one]
        exact hn.inv hs0
      simp only [Bool.false_eq_true, if_false, if_true, F64.div]
      rw [round_fin hP0 n1 (by norm_num) hhigh]
      exact ⟨_, _, 5, rfl, by simp, n1.round hP0, hc 5 (by norm_num)⟩
  · rw [if_neg h3]
    exact powFin_near hf hx hy0 hy hneg hP hlow hhigh

/-- **C87**: the text that `nf.math.pow` prints denotes a number with the error of a power plus half of 10^-6. -/
theorem C87_text {frac : ℚ → ℚ → ℚ} (hf : NearPow frac) (ext : String → Option F64) {tx ty : String} {x y : BF}
    (htx : parseF64 ext tx = some (.fin x)) (hty : parseF64 ext ty = some (.fin y)) (hx : 0 < x.abs) (hy0 : 0 ≤ y.abs) (hy : y.abs ≤ 2 ^ 30)
    (hneg : x.neg = true → ∃ n : ℕ, y.abs = n) (hlow : 1 / 10 ^ 300 ≤ (x.abs : ℝ) ^ (y.val : ℝ)) (hhigh : (x.abs : ℝ) ^ (y.val : ℝ) ≤ 10 ^ 300) :
    ∃ (v : ℚ) (sgn : Bool), Denotes (mathPow frac ext tx ty) v ∧ (sgn = true ↔ x.neg = true ∧ OddInt y) ∧
      |(v : ℝ) - (if sgn then -1 else 1) * (x.abs : ℝ) ^ (y.val : ℝ)| ≤
        1 / (2 * 10 ^ 6) + (x.abs : ℝ) ^ (y.val : ℝ) * ((2 * (y.abs : ℝ) + 2 ^ 15 + 4) / 2 ^ 52) ∧
      ((∃ n : ℕ, y.abs = n) → |(v : ℝ) - (if sgn then -1 else 1) * (x.abs : ℝ) ^ (y.val : ℝ)| ≤
        1 / (2 * 10 ^ 6) + (x.abs : ℝ) ^ (y.val : ℝ) * ((2 * (y.abs : ℝ) + 2) / 2 ^ 52)) := by
  obtain ⟨s, sgn, h1, h2, h3, h4, h5⟩ := C87_accurate hf hx hy0 hy hneg hlow hhigh
  obtain ⟨-, k, h6, h7⟩ := text_fin ⟨sgn, s⟩ h3.le
  rw [← h1, ← mathPow_some htx hty] at h6
  have h8 : |(((k : ℚ) / 10 ^ 6 : ℚ) : ℝ) - (s : ℝ)| ≤ 1 / (2 * 10 ^ 6) := by
    have := (Rat.cast_le (K := ℝ)).2 h7
    push_cast at this ⊢
    exact this
  generalize (x.abs : ℝ) ^ (y.val : ℝ) = P at *
  have h9 : ∀ e : ℝ, |(s : ℝ) - P| ≤ e → |(((if sgn then -1 else 1) * ((k : ℚ) / 10 ^ 6) : ℚ) : ℝ) - (if sgn then -1 else 1) * P| ≤ 1 / (2 * 10 ^ 6) + e := by
    intro e he
    have := abs_add_le ((((k : ℚ) / 10 ^ 6 : ℚ) : ℝ) - (s : ℝ)) ((s : ℝ) - P)
    rw [sub_add_sub_cancel] at this
    have h10 : |(((k : ℚ) / 10 ^ 6 : ℚ) : ℝ) - P| ≤ 1 / (2 * 10 ^ 6) + e := by linarith only [this, h8, he]
    cases sgn
    · simpa using h10
    · rw [← abs_neg] at h10
      push_cast at h10 ⊢
      simp only [if_true]
      have e : ((-1 : ℚ) : ℝ) * ((k : ℝ) / 10 ^ 6) - -1 * P = -((k : ℝ) / 10 ^ 6 - P) := by push_cast; ring
      rw [e]
      exact h10
  exact ⟨_, sgn, h6, h2, h9 _ h4, fun h => h9 _ (h5 h)⟩

/-- **C87**: integers to the power of integers, positive or negative, up to rounding. -/
theorem C87_int_near {frac : ℚ → ℚ → ℚ} (hf : NearPow frac) (ext : String → Option F64) {x n : ℤ} (hx0 : x ≠ 0) (hx : x.natAbs < 2 ^ 53)
    (hn : n.natAbs ≤ 2 ^ 30) (hlow : 1 / 10 ^ 300 ≤ |(x : ℝ) ^ n|) (hhigh : |(x : ℝ) ^ n| ≤ 10 ^ 300) :
    ∃ v : ℚ, Denotes (mathPow frac ext (toString x) (toString n)) v ∧
      |(v : ℝ) - (x : ℝ) ^ n| ≤ 1 / (2 * 10 ^ 6) + |(x : ℝ) ^ n| * ((n.natAbs + 1) / 2 ^ 51) := by
  have htx := parseF64_int ext (x := x) (has53_nat hx) (f64Max_small hx)
  have hn' : n.natAbs < 2 ^ 53 := lt_of_le_of_lt hn (by norm_num)
  have hty := parseF64_int ext (x := n) (has53_nat hn') (f64Max_small hn')
  have hval : (BF.val ⟨decide (n < 0), (n.natAbs : ℕ)⟩) = (n : ℚ) := by
    unfold BF.val
    simp only [Nat.cast_natAbs]
    by_cases h : n < 0
    · rw [abs_of_neg h]
      simp [h]
    · rw [abs_of_nonneg (not_lt.1 h)]
      simp [h]
  have habs : (((x.natAbs : ℕ) : ℚ) : ℝ) = |(x : ℝ)| := by
    rw [Rat.cast_natCast, Nat.cast_natAbs, Int.cast_abs]
  have hpow : (((x.natAbs : ℕ) : ℚ) : ℝ) ^ ((n : ℚ) : ℝ) = |(x : ℝ) ^ n| := by
    rw [habs, Rat.cast_intCast, Real.rpow_intCast, abs_zpow]
  have hnn : ((n.natAbs : ℕ) : ℚ) ≤ 2 ^ 30 := by exact_mod_cast hn
  have hxp : (0 : ℚ) < ((x.natAbs : ℕ) : ℚ) := by exact_mod_cast Int.natAbs_pos.2 hx0
  obtain ⟨v, sgn, h1, h2, -, h4⟩ := C87_text hf ext htx hty hxp (by positivity) hnn (fun _ => ⟨_, rfl⟩)
    (by rw [hval, hpow]; exact hlow) (by rw [hval, hpow]; exact hhigh)
  refine ⟨v, h1, ?_⟩
  have h5 := h4 ⟨_, rfl⟩
  rw [hval, hpow] at h5
  have hs : (if sgn then (-1 : ℝ) else 1) * |(x : ℝ) ^ n| = (x : ℝ) ^ n := by
    have hodd : OddInt ⟨decide (n < 0), (n.natAbs : ℕ)⟩ ↔ Odd n := by
      unfold OddInt
      obtain ⟨N, hN⟩ : ∃ N : ℕ, N = n.natAbs := ⟨_, rfl⟩
      rw [← hN, Int.odd_iff]
      constructor
      · rintro ⟨k, hk⟩
        have : (N : ℤ) = 2 * k + 1 := by
          simp only [] at hk
          exact_mod_cast hk
        omega
      · intro h
        refine ⟨(N / 2 : ℕ), ?_⟩
        have : N = 2 * (N / 2) + 1 := by omega
        simp only []
        conv_lhs => rw [this]
        push_cast
        rfl
    rw [hodd] at h2
    simp only [decide_eq_true_eq] at h2
    by_cases h : x < 0 ∧ Odd n
    · rw [if_pos (h2.2 h)]
      have hxr : (x : ℝ) < 0 := by exact_mod_cast h.1
      rw [abs_of_neg (h.2.zpow_neg hxr)]
      ring
    · rw [if_neg (fun hc => h (h2.1 hc)), one_mul, abs_of_nonneg]
      by_cases hx1 : x < 0
      · have : ¬ Odd n := fun hc => h ⟨hx1, hc⟩
        exact (Int.not_odd_iff_even.1 this).zpow_nonneg _
      · exact zpow_nonneg (by exact_mod_cast not_lt.1 hx1) _
  rw [hs] at h5
  refine le_trans h5 (le_of_eq ?_)
  rw [Rat.cast_natCast]
  ring

/-! ## all assumptions hold together -/

/-- seven to the power of a hundred has 85 digits, 1.5 to the power of 2.75 and of -0.5 -/
example : ∃ frac, NearPow frac ∧ (∃ v : ℚ, Denotes (mathPow frac (fun _ => none) "7" "100") v ∧ |(v : ℝ) - 7 ^ 100| ≤ 1 / (2 * 10 ^ 6) + 7 ^ 100 * (101 / 2 ^ 51)) ∧
    ∃ v : ℚ, Denotes (mathPow frac (fun _ => none) "4" "-0.5") v ∧ |(v : ℝ) - 1 / 2| ≤ 1 / 10 ^ 6 := by
  obtain ⟨frac, h⟩ := nearPow_exists
  refine ⟨frac, h, ?_, ?_⟩
  · have h7 : |((7 : ℤ) : ℝ) ^ (100 : ℤ)| = 7 ^ 100 := by
      rw [abs_of_pos (by positivity)]
      norm_cast
    obtain ⟨v, h1, h2⟩ := C87_int_near h (fun _ => none) (x := 7) (n := 100) (by norm_num) (by norm_num) (by norm_num)
      (by rw [h7]; exact le_trans (div_le_one_of_le₀ (one_le_pow₀ (by norm_num)) (by positivity)) (one_le_pow₀ (by norm_num)))
      (by rw [h7]; exact le_trans (pow_le_pow_left₀ (by norm_num) (by norm_num) 100) (pow_le_pow_right₀ (by norm_num : (1 : ℝ) ≤ 10) (by norm_num)))
    refine ⟨v, h1, ?_⟩
    rw [h7] at h2
    norm_num at h2 ⊢
    exact h2
  · have hp : ((4 : ℚ) : ℝ) ^ (((-(1 / 2)) : ℚ) : ℝ) = 1 / 2 := by
      push_cast
      rw [Real.rpow_neg (by norm_num), ← Real.sqrt_eq_rpow, show (4 : ℝ) = 2 ^ 2 by norm_num, Real.sqrt_sq (by norm_num), one_div]
    obtain ⟨v, sgn, h1, h2, h3, -⟩ := C87_text h (fun _ => none) (tx := "4") (ty := "-0.5") (x := ⟨false, 4⟩) (y := ⟨true, 1 / 2⟩)
      (by decide +kernel) (by decide +kernel) (by norm_num) (by norm_num) (by norm_num) (by simp)
      (by
        simp only [BF.val, if_true]
        rw [hp]
        exact one_div_le_one_div_of_le (by norm_num) (le_trans (by norm_num : (2 : ℝ) ≤ 10 ^ 1) (pow_le_pow_right₀ (by norm_num) (by norm_num))))
      (by
        simp only [BF.val, if_true]
        rw [hp]
        exact le_trans (by norm_num) (one_le_pow₀ (by norm_num : (1 : ℝ) ≤ 10)))
    have hs : sgn = false := by
      cases sgn with
      | false => rfl
      | true => exact absurd (h2.1 rfl).1 (by simp)
    subst hs
    simp only [BF.val, if_true, Bool.false_eq_true, if_false, one_mul] at h3
    rw [hp] at h3
    refine ⟨v, h1, le_trans h3 ?_⟩
    norm_num

end Fmr
