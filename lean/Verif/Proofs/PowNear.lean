import Verif.Proofs.Pow
import Mathlib.Analysis.SpecialFunctions.Pow.Real
import Mathlib.Algebra.Order.Ring.Pow

/-!
# Lemmas: the error of repeated squaring
-/

namespace Fmr

theorem rne_le {x : ℚ} {c : ℤ} (h : x ≤ (c : ℚ)) : rne x ≤ c := by
  rcases h.eq_or_lt with rfl | h
  · rw [rne_int]
  · have h1 : ⌊x⌋ < c := Int.floor_lt.2 h
    unfold rne
    simp only []
    split_ifs <;> omega

theorem roundBits_one_le {q : ℚ} (h : 1 ≤ q) : 1 ≤ roundBits 53 q := by
  have hq : 0 < q := by linarith
  have two : (2 : ℚ) ≠ 0 := by norm_num
  have a1 : ((2 : ℕ) : ℚ) ^ (Int.log 2 q) ≤ q := Int.zpow_log_le_self (by norm_num) hq
  push_cast at a1
  have hL : 0 ≤ Int.log 2 q := by
    refine (Int.zpow_le_iff_le_log (by norm_num) hq).1 ?_
    simpa using h
  unfold roundBits
  rw [if_neg hq.ne']
  simp only []
  have hp := pow2_pos (Int.log 2 q - (53 : ℕ) + 1)
  have e : (2 : ℚ) ^ Int.log 2 q = ((2 ^ 52 : ℤ) : ℚ) * 2 ^ (Int.log 2 q - (53 : ℕ) + 1) := by
    rw [Int.cast_pow, Int.cast_ofNat, ← zpow_natCast, ← zpow_add₀ two]
    congr 1
    push_cast
    ring
  have h1 : ((2 ^ 52 : ℤ) : ℚ) ≤ q / 2 ^ (Int.log 2 q - (53 : ℕ) + 1) := by
    rw [le_div_iff₀ hp, ← e]
    exact a1
  have h2 := rne_ge h1
  have h3 : ((2 ^ 52 : ℤ) : ℚ) ≤ (rne (q / 2 ^ (Int.log 2 q - (53 : ℕ) + 1)) : ℚ) := by exact_mod_cast h2
  calc (1 : ℚ) ≤ 2 ^ Int.log 2 q := one_le_zpow₀ (by norm_num) hL
    _ = _ := e
    _ ≤ _ := mul_le_mul_of_nonneg_right h3 hp.le

theorem roundBits_le_one {q : ℚ} (h0 : 0 < q) (h : q ≤ 1) : roundBits 53 q ≤ 1 := by
  rcases h.eq_or_lt with rfl | h
  · have := roundBits_nat (p := 53) (n := 1) (by norm_num)
    rw [Nat.cast_one] at this
    rw [this]
  · have two : (2 : ℚ) ≠ 0 := by norm_num
    have a2 : q < ((2 : ℕ) : ℚ) ^ (Int.log 2 q + 1) := Int.lt_zpow_succ_log_self (by norm_num) q
    push_cast at a2
    have hL : Int.log 2 q < 0 := by
      refine (Int.lt_zpow_iff_log_lt (by norm_num) h0).1 ?_
      simpa using h
    unfold roundBits
    rw [if_neg h0.ne']
    simp only []
    have hp := pow2_pos (Int.log 2 q - (53 : ℕ) + 1)
    have e : (2 : ℚ) ^ (Int.log 2 q + 1) = ((2 ^ 53 : ℤ) : ℚ) * 2 ^ (Int.log 2 q - (53 : ℕ) + 1) := by
      rw [Int.cast_pow, Int.cast_ofNat, ← zpow_natCast, ← zpow_add₀ two]
      congr 1
      push_cast
      ring
    have h1 : q / 2 ^ (Int.log 2 q - (53 : ℕ) + 1) ≤ ((2 ^ 53 : ℤ) : ℚ) := by
      rw [div_le_iff₀ hp, ← e]
      exact a2.le
    have h2 := rne_le h1
    have h3 : (rne (q / 2 ^ (Int.log 2 q - (53 : ℕ) + 1)) : ℚ) ≤ ((2 ^ 53 : ℤ) : ℚ) := by exact_mod_cast h2
    calc _ ≤ ((2 ^ 53 : ℤ) : ℚ) * 2 ^ (Int.log 2 q - (53 : ℕ) + 1) := mul_le_mul_of_nonneg_right h3 hp.le
      _ = _ := e.symm
      _ ≤ 1 := zpow_le_one_of_nonpos₀ (by norm_num) (by omega)

/-- half a unit in the last place -/
noncomputable def ulp53 : ℝ := 1 / 2 ^ 53

theorem ulp53_pos : 0 < ulp53 := by unfold ulp53; positivity
theorem ulp53_lt : ulp53 < 1 / 4 := by unfold ulp53; norm_num

/-- `a` is `b` but for `k` roundings -/
def Near (k : ℕ) (a b : ℝ) : Prop := b * (1 - ulp53) ^ k ≤ a ∧ a ≤ b * (1 + ulp53) ^ k

theorem low_pos : (0 : ℝ) < 1 - ulp53 := by have := ulp53_lt; linarith
theorem high_pos : (0 : ℝ) < 1 + ulp53 := by have := ulp53_pos; linarith

theorem Near.refl (a : ℝ) : Near 0 a a := by simp [Near]

theorem Near.weaken {k l : ℕ} {a b : ℝ} (hb : 0 < b) (h : Near k a b) (hkl : k ≤ l) : Near l a b := by
  have h1 := low_pos
  have h2 := ulp53_pos
  constructor
  · refine le_trans (mul_le_mul_of_nonneg_left ?_ hb.le) h.1
    exact pow_le_pow_of_le_one h1.le (by linarith) hkl
  · refine le_trans h.2 (mul_le_mul_of_nonneg_left ?_ hb.le)
    exact pow_le_pow_right₀ (by linarith) hkl

theorem Near.pos {k : ℕ} {a b : ℝ} (hb : 0 < b) (h : Near k a b) : 0 < a :=
  lt_of_lt_of_le (mul_pos hb (pow_pos low_pos k)) h.1

theorem Near.mul {k l : ℕ} {a b c d : ℝ} (hb : 0 < b) (hd : 0 < d) (h1 : Near k a b) (h2 : Near l c d) :
    Near (k + l) (a * c) (b * d) := by
  have ha := h1.pos hb
  have hc := h2.pos hd
  have hl := low_pos
  have hh := high_pos
  constructor
  · calc b * d * (1 - ulp53) ^ (k + l) = (b * (1 - ulp53) ^ k) * (d * (1 - ulp53) ^ l) := by rw [pow_add]; ring
      _ ≤ a * c := mul_le_mul h1.1 h2.1 (by positivity) ha.le
  · calc a * c ≤ (b * (1 + ulp53) ^ k) * (d * (1 + ulp53) ^ l) := mul_le_mul h1.2 h2.2 hc.le (by positivity)
      _ = _ := by rw [pow_add]; ring

theorem Near.round {k : ℕ} {q : ℚ} {b : ℝ} (hb : 0 < b) (h : Near k (q : ℝ) b) : Near (k + 1) ((roundBits 53 q : ℚ) : ℝ) b := by
  have hq : (0 : ℝ) < q := h.pos hb
  have hq' : 0 < q := by exact_mod_cast hq
  have he := roundBits_err (p := 53) hq'
  have he' : |((roundBits 53 q : ℚ) : ℝ) - q| ≤ q * ulp53 := by
    have := (Rat.cast_le (K := ℝ)).2 he
    push_cast at this
    unfold ulp53
    linarith
  obtain ⟨e1, e2⟩ := abs_le.1 he'
  have hl := low_pos
  have hh := high_pos
  constructor
  · calc b * (1 - ulp53) ^ (k + 1) = b * (1 - ulp53) ^ k * (1 - ulp53) := by rw [pow_succ]; ring
      _ ≤ q * (1 - ulp53) := mul_le_mul_of_nonneg_right h.1 hl.le
      _ ≤ _ := by linarith
  · calc ((roundBits 53 q : ℚ) : ℝ) ≤ q * (1 + ulp53) := by linarith
      _ ≤ b * (1 + ulp53) ^ k * (1 + ulp53) := mul_le_mul_of_nonneg_right h.2 hh.le
      _ = _ := by rw [pow_succ]; ring

theorem one_div_high : 1 - ulp53 ≤ 1 / (1 + ulp53) := by
  rw [le_div_iff₀ high_pos]
  nlinarith [ulp53_pos]

theorem one_div_low : 1 / (1 - ulp53) ≤ (1 + ulp53) ^ 2 := by
  rw [div_le_iff₀ low_pos]
  have h1 := ulp53_pos
  have h2 := ulp53_lt
  nlinarith [mul_pos h1 h1, mul_pos (mul_pos h1 h1) h1]

theorem Near.inv {k : ℕ} {a b : ℝ} (hb : 0 < b) (h : Near k a b) : Near (2 * k) (1 / a) (1 / b) := by
  have ha := h.pos hb
  have hl := low_pos
  have hh := high_pos
  constructor
  · have h1 : 1 / (b * (1 + ulp53) ^ k) ≤ 1 / a := one_div_le_one_div_of_le ha h.2
    refine le_trans ?_ h1
    rw [one_div_mul_eq_div, one_div, mul_inv, ← one_div, one_div_mul_eq_div, div_le_div_iff_of_pos_right hb]
    calc (1 - ulp53) ^ (2 * k) ≤ (1 - ulp53) ^ k := pow_le_pow_of_le_one hl.le (by linarith [ulp53_pos]) (by omega)
      _ ≤ (1 / (1 + ulp53)) ^ k := pow_le_pow_left₀ hl.le one_div_high k
      _ = _ := by rw [one_div, inv_pow]
  · have h1 : 1 / a ≤ 1 / (b * (1 - ulp53) ^ k) := one_div_le_one_div_of_le (by positivity) h.1
    refine le_trans h1 ?_
    rw [one_div_mul_eq_div b, one_div, mul_inv, ← one_div, one_div_mul_eq_div, div_le_div_iff_of_pos_right hb]
    calc ((1 - ulp53) ^ k)⁻¹ = (1 / (1 - ulp53)) ^ k := by rw [one_div, inv_pow]
      _ ≤ ((1 + ulp53) ^ 2) ^ k := pow_le_pow_left₀ (by positivity) one_div_low k
      _ = _ := by rw [← pow_mul]

/-- at most `2^52` roundings change a number by a factor of at most 2 -/
theorem low_half {k : ℕ} (h : k ≤ 2 ^ 52) : 1 / 2 ≤ (1 - ulp53) ^ k := by
  have h1 := one_add_mul_le_pow (a := -ulp53) (by have := ulp53_lt; linarith) k
  have h2 : (k : ℝ) ≤ 2 ^ 52 := by exact_mod_cast h
  have h3 : (k : ℝ) * ulp53 ≤ 1 / 2 := by
    calc (k : ℝ) * ulp53 ≤ 2 ^ 52 * ulp53 := mul_le_mul_of_nonneg_right h2 ulp53_pos.le
      _ = 1 / 2 := by unfold ulp53; norm_num
  have h4 : 1 + (k : ℝ) * -ulp53 ≤ (1 - ulp53) ^ k := by rw [sub_eq_add_neg]; exact h1
  linarith

theorem high_inv (k : ℕ) : (1 + ulp53) ^ k ≤ 1 / (1 - ulp53) ^ k := by
  rw [le_div_iff₀ (pow_pos low_pos k), ← mul_pow]
  refine pow_le_one₀ (mul_nonneg high_pos.le low_pos.le) ?_
  nlinarith [ulp53_pos]

theorem high_two {k : ℕ} (h : k ≤ 2 ^ 52) : (1 + ulp53) ^ k ≤ 2 := by
  refine le_trans (high_inv k) ?_
  rw [div_le_iff₀ (pow_pos low_pos k)]
  have := low_half h
  linarith

/-- the relative error after `k` roundings -/
theorem Near.error {k : ℕ} {a b : ℝ} (hb : 0 < b) (h : Near k a b) (hk : k ≤ 2 ^ 52) : |a - b| ≤ b * (k / 2 ^ 52) := by
  have h1 := one_add_mul_le_pow (a := -ulp53) (by have := ulp53_lt; linarith) k
  have h4 : 1 - (k : ℝ) * ulp53 ≤ (1 - ulp53) ^ k := by rw [sub_eq_add_neg, sub_eq_add_neg, ← mul_neg]; exact h1
  have hu : (k : ℝ) * ulp53 * 2 = k / 2 ^ 52 := by unfold ulp53; ring
  have hk0 : (0 : ℝ) ≤ k * ulp53 := mul_nonneg (Nat.cast_nonneg k) ulp53_pos.le
  have h5 : (1 + ulp53) ^ k ≤ 1 + k * ulp53 * 2 := by
    refine le_trans (high_inv k) ?_
    rw [div_le_iff₀ (pow_pos low_pos k)]
    have h6 := low_half hk
    have h7 : (k : ℝ) * ulp53 ≤ 1 / 2 := by
      have h2 : (k : ℝ) ≤ 2 ^ 52 := by exact_mod_cast hk
      calc (k : ℝ) * ulp53 ≤ 2 ^ 52 * ulp53 := mul_le_mul_of_nonneg_right h2 ulp53_pos.le
        _ = 1 / 2 := by unfold ulp53; norm_num
    nlinarith
  rw [abs_le]
  constructor
  · have := mul_le_mul_of_nonneg_left h4 hb.le
    have h8 := h.1
    have : b * (k / 2 ^ 52) ≥ b * (k * ulp53) := mul_le_mul_of_nonneg_left (by rw [← hu]; linarith) hb.le
    linarith
  · have := mul_le_mul_of_nonneg_left h5 hb.le
    have h8 := h.2
    rw [← hu]
    linarith

/-- what approximates a number in a range is in a range of twice the size -/
theorem Near.range {k : ℕ} {a b : ℝ} (hb : 0 < b) (h : Near k a b) (hk : k ≤ 2 ^ 52) : b / 2 ≤ a ∧ a ≤ 2 * b := by
  have h1 := mul_le_mul_of_nonneg_left (low_half hk) hb.le
  have h2 := mul_le_mul_of_nonneg_left (high_two hk) hb.le
  exact ⟨by linarith [h.1], by linarith [h.2]⟩

/-- Repeated squaring: one rounding for each multiplication by the base. -/
theorem powLoop_near : ∀ (fuel i : ℕ) (x1 : BF) (xe : ℤ) (a1 : BF) (ae : ℤ) (X A : ℝ) (k l : ℕ), i < 2 ^ fuel →
    0 < X → 0 < A → 1 / 2 ≤ x1.abs → x1.abs ≤ 1 → Near k ((x1.abs * 2 ^ xe : ℚ) : ℝ) X → Near l ((a1.abs * 2 ^ ae : ℚ) : ℝ) A →
    (k + 1) * i ≤ 2 ^ 52 → (1 / 2) ^ 4000 ≤ X ^ i → X ^ i ≤ 2 ^ 4000 →
    Near (l + (k + 1) * i) (((powLoop fuel i x1 xe a1 ae).1.abs * 2 ^ (powLoop fuel i x1 xe a1 ae).2 : ℚ) : ℝ) (A * X ^ i) ∧
      (powLoop fuel i x1 xe a1 ae).1.neg = (a1.neg != (x1.neg && decide (i % 2 = 1)))
  | 0, i, x1, xe, a1, ae, X, A, k, l, hi, _, _, _, _, _, ha, _, _, _ => by
    have : i = 0 := by simpa using hi
    subst this
    simpa [powLoop] using ha
  | fuel + 1, i, x1, xe, a1, ae, X, A, k, l, hi, hX, hA, hx1, hx2, hx, ha, hk, hlow, hhigh => by
    by_cases hi0 : i = 0
    · subst hi0
      rw [powLoop_zero]
      simpa using ha
    have two : (2 : ℚ) ≠ 0 := by norm_num
    have hk' : k ≤ 2 ^ 52 := by nlinarith [Nat.pos_of_ne_zero hi0]
    -- the base is in range
    have hXr : (1 / 2 : ℝ) ^ 4000 ≤ X ∧ X ≤ 2 ^ 4000 := by
      rcases le_total 1 X with h | h
      · exact ⟨le_trans (pow_le_one₀ (by norm_num) (by norm_num)) h, le_trans (le_self_pow₀ h hi0) hhigh⟩
      · exact ⟨le_trans hlow (pow_le_of_le_one hX.le h hi0), le_trans h (one_le_pow₀ (by norm_num))⟩
    have hxr := hx.range hX hk'
    have hxe : ¬ (xe < -4096 ∨ 4096 < xe) := by
      push_cast at hxr
      have c1 : (1 / 2 : ℝ) ≤ (x1.abs : ℝ) := by
        have := (Rat.cast_le (K := ℝ)).2 hx1
        push_cast at this
        exact this
      have c2 : (x1.abs : ℝ) ≤ 1 := by exact_mod_cast hx2
      have hp : (0 : ℝ) < (2 : ℝ) ^ xe := zpow_pos (by norm_num) xe
      rintro (h | h)
      · have h1 : (2 : ℝ) ^ xe ≤ 2 ^ (-4002 : ℤ) := zpow_le_zpow_right₀ (by norm_num) (by omega)
        have h2 : (2 : ℝ) ^ (-4002 : ℤ) = (1 / 2) ^ 4000 / 4 := by
          rw [show (-4002 : ℤ) = -((4000 : ℕ) : ℤ) + -2 by norm_num, zpow_add₀ (by norm_num), zpow_neg, zpow_natCast, one_div, inv_pow]
          norm_num [div_eq_mul_inv]
        have h3 : (x1.abs : ℝ) * 2 ^ xe ≤ 1 * 2 ^ xe := mul_le_mul_of_nonneg_right c2 hp.le
        have h4 : (0 : ℝ) < (1 / 2) ^ 4000 := by positivity
        have h5 := hxr.1
        have h6 := hXr.1
        rw [h2] at h1
        generalize (1 / 2 : ℝ) ^ 4000 = e at *
        linarith
      · have h1 : (2 : ℝ) ^ (4003 : ℤ) ≤ 2 ^ xe := zpow_le_zpow_right₀ (by norm_num) (by omega)
        have h2 : (2 : ℝ) ^ (4003 : ℤ) = 2 ^ 4000 * 8 := by
          rw [show (4003 : ℤ) = ((4000 : ℕ) : ℤ) + 3 by norm_num, zpow_add₀ (by norm_num), zpow_natCast]
          norm_num
        have h3 : 1 / 2 * (2 : ℝ) ^ xe ≤ (x1.abs : ℝ) * 2 ^ xe := mul_le_mul_of_nonneg_right c1 hp.le
        have h4 : (0 : ℝ) < 2 ^ 4000 := by positivity
        have h5 := hxr.2
        have h6 := hXr.2
        rw [h2] at h1
        generalize (2 : ℝ) ^ 4000 = e at *
        linarith
    have hi2 : i / 2 < 2 ^ fuel := by
      rw [pow_succ] at hi
      omega
    -- the square
    have hs0 : 0 < x1.abs * x1.abs := by positivity
    have hsnear : Near (2 * k + 1) ((roundBits 53 (x1.abs * x1.abs) * 2 ^ (2 * xe) : ℚ) : ℝ) (X * X) := by
      have h1 : Near (k + k) (((x1.abs * x1.abs) * 2 ^ (2 * xe) : ℚ) : ℝ) (X * X) := by
        have := hx.mul hX hX hx
        rw [← Rat.cast_mul] at this
        rw [show (x1.abs * x1.abs) * (2 : ℚ) ^ (2 * xe) = x1.abs * 2 ^ xe * (x1.abs * 2 ^ xe) by
          rw [two_mul, zpow_add₀ two]; ring]
        exact this
      have h2 := h1.round (mul_pos hX hX)
      rw [roundBits_scale hs0.le, show k + k + 1 = 2 * k + 1 by ring] at h2
      exact h2
    have hs1 : roundBits 53 (x1.abs * x1.abs) ≤ 1 := roundBits_le_one hs0 (by nlinarith)
    have hs2 : 1 / 4 ≤ roundBits 53 (x1.abs * x1.abs) := by
      have h1 : 1 ≤ (x1.abs * x1.abs) * 2 ^ (2 : ℤ) := by norm_num; nlinarith
      have h2 := roundBits_one_le h1
      rw [roundBits_scale hs0.le] at h2
      norm_num at h2
      linarith
    have hXX : 0 < X * X := mul_pos hX hX
    have hXi : (X * X) ^ (i / 2) = X ^ (2 * (i / 2)) := by rw [← pow_two, ← pow_mul]
    have hlow' : (1 / 2 : ℝ) ^ 4000 ≤ (X * X) ^ (i / 2) := by
      rw [hXi]
      rcases le_total 1 X with h | h
      · exact le_trans (pow_le_one₀ (by norm_num) (by norm_num)) (one_le_pow₀ h)
      · exact le_trans hlow (pow_le_pow_of_le_one hX.le h (by omega))
    have hhigh' : (X * X) ^ (i / 2) ≤ 2 ^ 4000 := by
      rw [hXi]
      rcases le_total 1 X with h | h
      · exact le_trans (pow_le_pow_right₀ h (by omega)) hhigh
      · exact le_trans (pow_le_one₀ hX.le h) (one_le_pow₀ (by norm_num))
    have hki : (2 * k + 1 + 1) * (i / 2) ≤ (k + 1) * (2 * (i / 2)) := by
      rw [show 2 * k + 1 + 1 = (k + 1) * 2 by ring, mul_assoc]
    have hk2 : (2 * k + 1 + 1) * (i / 2) ≤ 2 ^ 52 :=
      le_trans hki (le_trans (Nat.mul_le_mul_left _ (by omega)) hk)
    -- the multiplication
    set a : BF × ℤ := if i % 2 = 1 then (a1.mul53 x1, ae + xe) else (a1, ae) with hadef
    set l' : ℕ := if i % 2 = 1 then l + (k + 1) else l with hl'
    set A' : ℝ := if i % 2 = 1 then A * X else A with hA'
    have hApos : 0 < A' := by rw [hA']; split_ifs; exacts [mul_pos hA hX, hA]
    have hanear : Near l' ((a.1.abs * 2 ^ a.2 : ℚ) : ℝ) A' := by
      by_cases h : i % 2 = 1
      · simp only [hadef, hl', hA', if_pos h]
        have h1 : Near (l + k) (((a1.abs * x1.abs) * 2 ^ (ae + xe) : ℚ) : ℝ) (A * X) := by
          have := ha.mul hA hX hx
          rw [← Rat.cast_mul] at this
          rw [show (a1.abs * x1.abs) * (2 : ℚ) ^ (ae + xe) = a1.abs * 2 ^ ae * (x1.abs * 2 ^ xe) by
            rw [zpow_add₀ two]; ring]
          exact this
        have h2 := h1.round (mul_pos hA hX)
        have ha0 : 0 ≤ a1.abs := by
          have h3 : (0 : ℝ) < ((a1.abs * 2 ^ ae : ℚ) : ℝ) := ha.pos hA
          have h4 : 0 < a1.abs * 2 ^ ae := by exact_mod_cast h3
          exact ((mul_pos_iff_of_pos_right (pow2_pos ae)).1 h4).le
        rw [roundBits_scale (mul_nonneg ha0 (by linarith))] at h2
        exact h2
      · simp only [hadef, hl', hA', if_neg h]
        exact ha
    have hneg : ∀ b : Bool, (a.1.neg != (b && decide (i / 2 % 2 = 1))) = (a1.neg != (x1.neg && decide (i % 2 = 1))) ∨ b = true := by
      intro b
      cases b
      · left
        by_cases h : i % 2 = 1
        · simp [hadef, h, BF.mul53]
        · simp [hadef, h]
      · right; rfl
    have hsneg : (x1.mul53 x1).neg = false := by simp [BF.mul53]
    have hsabs : (x1.mul53 x1).abs = roundBits 53 (x1.abs * x1.abs) := rfl
    have hcount : l' + (2 * k + 1 + 1) * (i / 2) = l + (k + 1) * i := by
      rw [show 2 * k + 1 + 1 = (k + 1) * 2 by ring, mul_assoc]
      by_cases h : i % 2 = 1
      · simp only [hl', if_pos h]
        rw [add_assoc]
        congr 1
        calc (k + 1) + (k + 1) * (2 * (i / 2)) = (k + 1) * (2 * (i / 2) + 1) := by ring
          _ = _ := by congr 1; omega
      · simp only [hl', if_neg h]
        congr 2
        omega
    have hval : A' * (X * X) ^ (i / 2) = A * X ^ i := by
      rw [hXi]
      by_cases h : i % 2 = 1
      · simp only [hA', if_pos h]
        rw [mul_assoc, ← pow_succ', show 2 * (i / 2) + 1 = i by omega]
      · simp only [hA', if_neg h]
        rw [show 2 * (i / 2) = i by omega]
    rw [powLoop, if_neg hi0, if_neg hxe]
    simp only []
    rw [← hadef]
    rw [hsabs, hsneg]
    split_ifs with hlt
    · have hdn : Near (2 * k + 1) (((roundBits 53 (x1.abs * x1.abs) + roundBits 53 (x1.abs * x1.abs)) * 2 ^ (2 * xe - 1) : ℚ) : ℝ) (X * X) := by
        rw [show (roundBits 53 (x1.abs * x1.abs) + roundBits 53 (x1.abs * x1.abs)) * (2 : ℚ) ^ (2 * xe - 1) =
          roundBits 53 (x1.abs * x1.abs) * 2 ^ (2 * xe) by rw [zpow_sub_one₀ two]; ring]
        exact hsnear
      have := powLoop_near fuel (i / 2) ⟨false, roundBits 53 (x1.abs * x1.abs) + roundBits 53 (x1.abs * x1.abs)⟩ (2 * xe - 1) a.1 a.2
        (X * X) A' (2 * k + 1) l' hi2 hXX hApos (by simp only; linarith) (by simp only; linarith) hdn hanear hk2 hlow' hhigh'
      rw [hcount, hval] at this
      refine ⟨this.1, ?_⟩
      rw [this.2]
      rcases hneg false with h | h
      · exact h
      · cases h
    · have hms : x1.mul53 x1 = ⟨false, roundBits 53 (x1.abs * x1.abs)⟩ := by rw [← hsneg]; rfl
      rw [hms]
      have := powLoop_near fuel (i / 2) ⟨false, roundBits 53 (x1.abs * x1.abs)⟩ (2 * xe) a.1 a.2
        (X * X) A' (2 * k + 1) l' hi2 hXX hApos (by simp only; linarith) hs1 hsnear hanear hk2 hlow' hhigh'
      rw [hcount, hval] at this
      refine ⟨this.1, ?_⟩
      rw [this.2]
      rcases hneg false with h | h
      · exact h
      · cases h

end Fmr
