import Verif.Model.Pow
import Verif.Props.Overflow
import Mathlib.Data.Nat.Factorization.Basic

/-!
# Lemmas: powers
-/

namespace Fmr

theorem log_scale {q : ℚ} (h : 0 < q) (k : ℤ) : Int.log 2 (q * 2 ^ k) = Int.log 2 q + k := by
  have hk := pow2_pos k
  have h' : 0 < q * 2 ^ k := mul_pos h hk
  have two : (2 : ℚ) ≠ 0 := by norm_num
  have a1 : ((2 : ℕ) : ℚ) ^ (Int.log 2 q) ≤ q := Int.zpow_log_le_self (by norm_num) h
  have a2 : q < ((2 : ℕ) : ℚ) ^ (Int.log 2 q + 1) := Int.lt_zpow_succ_log_self (by norm_num) q
  push_cast at a1 a2
  refine le_antisymm (Int.lt_add_one_iff.1 ?_) ?_
  · refine (Int.lt_zpow_iff_log_lt (by norm_num) h').1 ?_
    push_cast
    rw [show Int.log 2 q + k + 1 = (Int.log 2 q + 1) + k by ring, zpow_add₀ two]
    exact mul_lt_mul_of_pos_right a2 hk
  · refine (Int.zpow_le_iff_le_log (by norm_num) h').1 ?_
    push_cast
    rw [zpow_add₀ two]
    exact mul_le_mul_of_nonneg_right a1 hk.le

/-- rounding does not depend on the exponent -/
theorem roundBits_scale {p : ℕ} {q : ℚ} (h : 0 ≤ q) (k : ℤ) : roundBits p (q * 2 ^ k) = roundBits p q * 2 ^ k := by
  rcases h.eq_or_lt with rfl | h
  · rw [zero_mul, roundBits_zero, zero_mul]
  · have hk := pow2_pos k
    have two : (2 : ℚ) ≠ 0 := by norm_num
    unfold roundBits
    rw [if_neg h.ne', if_neg (mul_pos h hk).ne']
    simp only []
    rw [log_scale h, show Int.log 2 q + k - (p : ℤ) + 1 = (Int.log 2 q - p + 1) + k by ring, zpow_add₀ two,
      mul_div_mul_right _ _ hk.ne', mul_assoc]

/-- `q` is `u * 2^k` with a natural number `u` of 53 bits. -/
def Has53 (q : ℚ) : Prop := ∃ (u : ℕ) (k : ℤ), u < 2 ^ 53 ∧ q = u * 2 ^ k

theorem Has53.exact {q : ℚ} (h : Has53 q) : roundBits 53 q = q := by
  obtain ⟨u, k, hu, rfl⟩ := h
  rw [roundBits_scale (by positivity), roundBits_nat hu]

/-- rounding gives a number of 53 bits -/
theorem roundBits_idem {q : ℚ} (h : 0 ≤ q) : roundBits 53 (roundBits 53 q) = roundBits 53 q := by
  rcases h.eq_or_lt with rfl | h
  · rw [roundBits_zero, roundBits_zero]
  · have two : (2 : ℚ) ≠ 0 := by norm_num
    have hle : roundBits 53 q ≤ 2 ^ (Int.log 2 q + 1) := by
      by_contra hlt
      rw [not_le] at hlt
      have a2 : q < ((2 : ℕ) : ℚ) ^ (Int.log 2 q + 1) := Int.lt_zpow_succ_log_self (by norm_num) q
      push_cast at a2
      unfold roundBits at hlt
      rw [if_neg h.ne'] at hlt
      simp only [] at hlt
      have hp := pow2_pos (Int.log 2 q - (53 : ℕ) + 1)
      have e : (2 : ℚ) ^ (Int.log 2 q + 1) = ((2 ^ 53 : ℕ) : ℚ) * 2 ^ (Int.log 2 q - (53 : ℕ) + 1) := by
        rw [Nat.cast_pow, ← zpow_natCast, Nat.cast_ofNat, ← zpow_add₀ two]
        congr 1
        ring
      rw [e] at hlt a2
      have h1 : ((2 ^ 53 : ℕ) : ℚ) < rne (q / 2 ^ (Int.log 2 q - (53 : ℕ) + 1)) := lt_of_mul_lt_mul_right hlt hp.le
      have h2 : q / 2 ^ (Int.log 2 q - (53 : ℕ) + 1) < ((2 ^ 53 : ℕ) : ℚ) := by rwa [div_lt_iff₀ hp]
      have h3 := abs_le.1 (rne_err (q / 2 ^ (Int.log 2 q - (53 : ℕ) + 1)))
      generalize rne (q / 2 ^ (Int.log 2 q - (53 : ℕ) + 1)) = z at *
      have h4 : ((2 ^ 53 : ℕ) : ℤ) + 1 ≤ z := by exact_mod_cast h1
      have h5 : (((2 ^ 53 : ℕ) : ℤ) : ℚ) + 1 ≤ (z : ℚ) := by exact_mod_cast h4
      push_cast at h5 h2 h3
      linarith [h3.2]
    rcases hle.eq_or_lt with e | hlt
    · rw [e]
      exact Has53.exact ⟨1, Int.log 2 q + 1, by norm_num, by simp⟩
    · have hp := pow2_pos (Int.log 2 q - (53 : ℕ) + 1)
      have h0 := (roundBits_pos (p := 53) (by norm_num) h)
      unfold roundBits at hlt h0
      rw [if_neg h.ne'] at hlt h0
      simp only [] at hlt h0
      have e : roundBits 53 q = rne (q / 2 ^ (Int.log 2 q - (53 : ℕ) + 1)) * 2 ^ (Int.log 2 q - (53 : ℕ) + 1) := by
        unfold roundBits
        rw [if_neg h.ne']
      have e2 : (2 : ℚ) ^ (Int.log 2 q + 1) = ((2 ^ 53 : ℕ) : ℚ) * 2 ^ (Int.log 2 q - (53 : ℕ) + 1) := by
        rw [Nat.cast_pow, ← zpow_natCast, Nat.cast_ofNat, ← zpow_add₀ two]
        congr 1
        ring
      rw [e2] at hlt
      rw [e]
      generalize rne (q / 2 ^ (Int.log 2 q - (53 : ℕ) + 1)) = z at *
      have h1 : (z : ℚ) < ((2 ^ 53 : ℕ) : ℚ) := lt_of_mul_lt_mul_right hlt hp.le
      have h2 : (0 : ℚ) < z := by
        by_contra hz
        exact absurd h0 (not_lt.2 (mul_nonpos_of_nonpos_of_nonneg (not_lt.1 hz) hp.le))
      have h3 : 0 < z := by exact_mod_cast h2
      have h4 : z < ((2 ^ 53 : ℕ) : ℤ) := by exact_mod_cast h1
      refine Has53.exact ⟨z.toNat, Int.log 2 q - (53 : ℕ) + 1, by omega, ?_⟩
      have hz : ((z.toNat : ℕ) : ℚ) = z := by exact_mod_cast Int.toNat_of_nonneg h3.le
      rw [hz]

/-! ## the loop -/

theorem powLoop_zero (fuel : ℕ) (x1 : BF) (xe : ℤ) (a1 : BF) (ae : ℤ) : powLoop fuel 0 x1 xe a1 ae = (a1, ae) := by
  cases fuel <;> simp [powLoop]

theorem loop_step_even {i : ℕ} {a b : ℚ} (h : i % 2 = 0) : a * b ^ i = a * (b * b) ^ (i / 2) := by
  rw [← pow_two, ← pow_mul, show 2 * (i / 2) = i by omega]

theorem loop_step_odd {i : ℕ} {a b : ℚ} (h : i % 2 = 1) : a * b ^ i = a * b * (b * b) ^ (i / 2) := by
  rw [← pow_two, ← pow_mul, mul_assoc, ← pow_succ', show 2 * (i / 2) + 1 = i by omega]

/-- Repeated squaring is exact if the result has 53 bits. -/
theorem powLoop_exact {E : ℤ} (hE : E ≤ 4095) : ∀ (fuel i : ℕ) (x1 : BF) (xe : ℤ) (a1 : BF) (ae : ℤ) (u v : ℕ) (k l : ℤ), i < 2 ^ fuel →
    0 < u → 0 < v → v * u ^ i < 2 ^ 53 → x1.abs * 2 ^ xe = u * 2 ^ k → a1.abs * 2 ^ ae = v * 2 ^ l →
    1 / 2 ≤ x1.abs → x1.abs < 1 → 1 ≤ x1.abs * 2 ^ xe → 1 ≤ a1.abs * 2 ^ ae → a1.abs * 2 ^ ae * (x1.abs * 2 ^ xe) ^ i < 2 ^ E →
    (powLoop fuel i x1 xe a1 ae).1.abs * 2 ^ (powLoop fuel i x1 xe a1 ae).2 = a1.abs * 2 ^ ae * (x1.abs * 2 ^ xe) ^ i ∧
      (powLoop fuel i x1 xe a1 ae).1.neg = (a1.neg != (x1.neg && decide (i % 2 = 1)))
  | 0, i, x1, xe, a1, ae, u, v, k, l, hi, _, _, _, _, _, _, _, _, _, _ => by
    have : i = 0 := by simpa using hi
    subst this
    simp [powLoop]
  | fuel + 1, i, x1, xe, a1, ae, u, v, k, l, hi, hu, hv, h53, hx, ha, hx1, hx2, hb, hal, hm => by
    by_cases hi0 : i = 0
    · subst hi0
      rw [powLoop_zero]
      simp
    have two : (2 : ℚ) ≠ 0 := by norm_num
    have hbi : x1.abs * 2 ^ xe ≤ a1.abs * 2 ^ ae * (x1.abs * 2 ^ xe) ^ i := by
      calc x1.abs * 2 ^ xe ≤ (x1.abs * 2 ^ xe) ^ i := le_self_pow₀ hb hi0
        _ ≤ _ := le_mul_of_one_le_left (by positivity) hal
    have hxe : ¬ (xe < -4096 ∨ 4096 < xe) := by
      rintro (h | h)
      · have h1 : (2 : ℚ) ^ xe ≤ 2 ^ (0 : ℤ) := zpow_le_zpow_right₀ (by norm_num) (by omega)
        rw [zpow_zero] at h1
        have : x1.abs * 2 ^ xe ≤ x1.abs * 1 := mul_le_mul_of_nonneg_left h1 (by linarith)
        linarith
      · have h1 : (2 : ℚ) ^ E ≤ 2 ^ (xe - 1) := zpow_le_zpow_right₀ (by norm_num) (by omega)
        have h2 : 1 / 2 * (2 : ℚ) ^ xe ≤ x1.abs * 2 ^ xe := mul_le_mul_of_nonneg_right hx1 (pow2_pos xe).le
        rw [zpow_sub_one₀ two] at h1
        linarith
    have hu1 : u ≤ u ^ i := Nat.le_self_pow hi0 u
    have hpu : 0 < u ^ i := Nat.pow_pos hu
    -- the product
    have hprod : (a1.mul53 x1).abs = a1.abs * x1.abs := by
      refine Has53.exact ⟨v * u, k + l - xe - ae, lt_of_le_of_lt (Nat.mul_le_mul_left v hu1) h53, ?_⟩
      have e1 : a1.abs = v * 2 ^ l / 2 ^ ae := by rw [← ha, mul_div_cancel_right₀ _ (pow2_pos ae).ne']
      have e2 : x1.abs = u * 2 ^ k / 2 ^ xe := by rw [← hx, mul_div_cancel_right₀ _ (pow2_pos xe).ne']
      rw [e1, e2, zpow_sub₀ two, zpow_sub₀ two, zpow_add₀ two]
      push_cast
      field_simp
    generalize hA : (if i % 2 = 1 then (a1.mul53 x1, ae + xe) else (a1, ae)) = A
    -- the new product
    obtain ⟨v', l', hv', hvu, hA1, hA2, hA3, hA4⟩ : ∃ (v' : ℕ) (l' : ℤ), 0 < v' ∧ v' * (u * u) ^ (i / 2) = v * u ^ i ∧
        A.1.abs * 2 ^ A.2 = v' * 2 ^ l' ∧ 1 ≤ A.1.abs * 2 ^ A.2 ∧
        A.1.abs * 2 ^ A.2 * (x1.abs * 2 ^ xe * (x1.abs * 2 ^ xe)) ^ (i / 2) = a1.abs * 2 ^ ae * (x1.abs * 2 ^ xe) ^ i ∧
        A.1.neg = (a1.neg != (x1.neg && decide (i % 2 = 1))) := by
      by_cases ho : i % 2 = 1
      · rw [if_pos ho] at hA
        subst hA
        have e : (a1.mul53 x1).abs * 2 ^ (ae + xe) = a1.abs * 2 ^ ae * (x1.abs * 2 ^ xe) := by
          rw [hprod, zpow_add₀ two]
          ring
        refine ⟨v * u, l + k, Nat.mul_pos hv hu, ?_, ?_, ?_, ?_, ?_⟩
        · rw [← pow_two, ← pow_mul, mul_assoc, ← pow_succ', show 2 * (i / 2) + 1 = i by omega]
        · simp only []
          rw [e, ha, hx, zpow_add₀ two]
          push_cast
          ring
        · simp only []
          rw [e]
          exact one_le_mul_of_one_le_of_one_le hal hb
        · simp only []
          rw [e, loop_step_odd ho]
        · simp [BF.mul53, ho]
      · rw [if_neg ho] at hA
        subst hA
        refine ⟨v, l, hv, ?_, ha, hal, ?_, ?_⟩
        · rw [← pow_two, ← pow_mul, show 2 * (i / 2) = i by omega]
        · rw [loop_step_even (by omega : i % 2 = 0)]
        · simp [ho]
    have unf : powLoop (fuel + 1) i x1 xe a1 ae =
        if (x1.mul53 x1).abs < 1 / 2 then
          powLoop fuel (i / 2) ⟨(x1.mul53 x1).neg, (x1.mul53 x1).abs + (x1.mul53 x1).abs⟩ (2 * xe - 1) A.1 A.2
        else powLoop fuel (i / 2) (x1.mul53 x1) (2 * xe) A.1 A.2 := by
      rw [← hA]
      conv => lhs; unfold powLoop
      rw [if_neg hi0, if_neg hxe]
    by_cases hi1 : i / 2 = 0
    · rw [unf, hi1, powLoop_zero, powLoop_zero, ite_self]
      rw [hi1, pow_zero, mul_one] at hA3
      exact ⟨hA3, hA4⟩
    · -- the square
      have hu2 : u * u ≤ (u * u) ^ (i / 2) := Nat.le_self_pow hi1 _
      have huv : u * u < 2 ^ 53 := by
        refine lt_of_le_of_lt hu2 (lt_of_le_of_lt ?_ h53)
        rw [← hvu]
        exact Nat.le_mul_of_pos_left _ hv'
      have hsq : (x1.mul53 x1).abs = x1.abs * x1.abs := by
        refine Has53.exact ⟨u * u, k + k - xe - xe, huv, ?_⟩
        have e2 : x1.abs = u * 2 ^ k / 2 ^ xe := by rw [← hx, mul_div_cancel_right₀ _ (pow2_pos xe).ne']
        rw [e2, zpow_sub₀ two, zpow_sub₀ two, zpow_add₀ two]
        push_cast
        field_simp
      have hsn : (x1.mul53 x1).neg = false := by simp [BF.mul53]
      have hsv : x1.abs * x1.abs * 2 ^ (2 * xe) = x1.abs * 2 ^ xe * (x1.abs * 2 ^ xe) := by
        rw [two_mul, zpow_add₀ two]
        ring
      have hxx : x1.abs * 2 ^ xe * (x1.abs * 2 ^ xe) = ((u * u : ℕ) : ℚ) * 2 ^ (k + k) := by
        rw [hx, zpow_add₀ two]
        push_cast
        ring
      have hbb : 1 ≤ x1.abs * 2 ^ xe * (x1.abs * 2 ^ xe) := one_le_mul_of_one_le_of_one_le hb hb
      have hlt : i / 2 < 2 ^ fuel := by
        rw [Nat.div_lt_iff_lt_mul (by norm_num), ← pow_succ]
        exact hi
      rw [unf]
      split_ifs with hs
      · rw [hsq] at hs
        have e3 : (x1.abs * x1.abs + x1.abs * x1.abs) * 2 ^ (2 * xe - 1) = x1.abs * 2 ^ xe * (x1.abs * 2 ^ xe) := by
          rw [← hsv, zpow_sub_one₀ two]
          ring
        have hmul : 1 / 2 * (1 / 2) ≤ x1.abs * x1.abs := mul_le_mul hx1 hx1 (by norm_num) (by linarith)
        have ih := powLoop_exact hE fuel (i / 2) ⟨(x1.mul53 x1).neg, (x1.mul53 x1).abs + (x1.mul53 x1).abs⟩ (2 * xe - 1) A.1 A.2 (u * u) v'
          (k + k) l' hlt (Nat.mul_pos hu hu) hv' (hvu ▸ h53) (by simp only []; rw [hsq, e3, hxx]) hA1
          (by simp only []; rw [hsq]; linarith) (by simp only []; rw [hsq]; linarith) (by simp only []; rw [hsq, e3]; exact hbb) hA2
          (by simp only []; rw [hsq, e3, hA3]; exact hm)
        rw [ih.1, ih.2]
        simp only []
        rw [hsq, e3, hA3, hA4, hsn]
        simp
      · rw [hsq] at hs
        have hmul : x1.abs * x1.abs < 1 := mul_lt_one_of_nonneg_of_lt_one_left (by linarith) hx2 hx2.le
        have ih := powLoop_exact hE fuel (i / 2) (x1.mul53 x1) (2 * xe) A.1 A.2 (u * u) v' (k + k) l' hlt (Nat.mul_pos hu hu) hv' (hvu ▸ h53)
          (by rw [hsq, hsv, hxx]) hA1 (by rw [hsq]; linarith) (by rw [hsq]; exact hmul) (by rw [hsq, hsv]; exact hbb) hA2
          (by rw [hsq, hsv, hA3]; exact hm)
        rw [ih.1, ih.2, hsq, hsv, hA3, hA4, hsn]
        simp

/-! ## integers -/

theorem text_int {m : ℤ} : F64.text (.fin ⟨decide (m < 0), (m.natAbs : ℕ)⟩) = toString m ++ ".000000" := by
  rw [← String.toList_inj, String.toList_append, int_signed]
  show (String.ofList _).toList = _
  have e1 : ((m.natAbs : ℕ) : ℚ) * 10 ^ 6 = ((m.natAbs * 10 ^ 6 : ℕ) : ℤ) := by
    generalize m.natAbs = M
    push_cast
    rfl
  rw [String.toList_ofList, e1, rne_int, Int.toNat_natCast, List.append_assoc]
  congr 1
  unfold fixed6
  simp only []
  rw [Nat.mul_div_cancel _ (by norm_num), Nat.mul_mod_left]
  rfl

theorem parseF64_int (ext : String → Option F64) {x : ℤ} (h : Has53 (x.natAbs : ℕ)) (hm : ((x.natAbs : ℕ) : ℚ) < f64Max) :
    parseF64 ext (toString x) = some (.fin ⟨decide (x < 0), (x.natAbs : ℕ)⟩) := by
  obtain ⟨c, l, hc⟩ := List.exists_cons_of_ne_nil (Nat.toDigits_ne_nil (b := 10) (n := x.natAbs))
  refine parseF64_out ext (int_signed x) ⟨c, l, hc, ?_⟩ (plainDec_nat _) ?_
  · exact digit_toDigits (n := x.natAbs) (by rw [hc]; exact List.mem_cons_self)
  · rw [pow_zero, div_one]
    unfold F64.round
    simp only []
    rw [h.exact, if_neg (not_le.2 hm)]

theorem has53_nat {n : ℕ} (h : n < 2 ^ 53) : Has53 (n : ℕ) := ⟨n, 0, h, by simp⟩

/-- A number of which a power has 53 bits has an odd part with a power of 53 bits. -/
theorem odd_part {x n u k : ℕ} (hx : 0 < x) (h : x ^ n = u * 2 ^ k) (hu : u < 2 ^ 53) :
    ∃ v l : ℕ, 0 < v ∧ v ^ n < 2 ^ 53 ∧ x = v * 2 ^ l := by
  obtain ⟨l, v, hv, rfl⟩ := Nat.exists_eq_two_pow_mul_odd hx.ne'
  have hv0 : 0 < v := hv.pos
  have hu0 : 0 < u := by
    rcases Nat.eq_zero_or_pos u with rfl | h0
    · rw [Nat.zero_mul] at h
      exact absurd h (Nat.pow_pos hx).ne'
    · exact h0
  refine ⟨v, l, hv0, lt_of_le_of_lt (Nat.le_of_dvd hu0 ?_) hu, mul_comm _ _⟩
  have h1 : v ^ n ∣ u * 2 ^ k := by
    rw [← h, mul_pow]
    exact Dvd.intro_left _ rfl
  exact (Nat.Coprime.pow_right k (Nat.Coprime.pow_left n (Nat.coprime_two_right.2 hv))).dvd_of_dvd_mul_right h1

/-- The loop for an integer and a natural exponent. -/
theorem powLoop_int {E : ℤ} (hE : E ≤ 4095) {x : ℤ} (hx : x ≠ 0) {n v l : ℕ} (hv : 0 < v) (hxv : x.natAbs = v * 2 ^ l) (h53 : v ^ n < 2 ^ 53)
    (hlt : ((x.natAbs : ℕ) : ℚ) ^ n < 2 ^ E) (hn : n < 2 ^ 64) :
    let r := powLoop 64 n ⟨decide (x < 0), ((x.natAbs : ℕ) : ℚ) / 2 ^ (Int.log 2 ((x.natAbs : ℕ) : ℚ) + 1)⟩
      (Int.log 2 ((x.natAbs : ℕ) : ℚ) + 1) ⟨false, 1⟩ 0
    r.1.abs * 2 ^ r.2 = (((x ^ n).natAbs : ℕ) : ℚ) ∧ r.1.neg = decide (x ^ n < 0) := by
  intro r
  have two : (2 : ℚ) ≠ 0 := by norm_num
  have hpos : (0 : ℚ) < (x.natAbs : ℕ) := by exact_mod_cast Int.natAbs_pos.2 hx
  have hone : (1 : ℚ) ≤ (x.natAbs : ℕ) := by exact_mod_cast Int.natAbs_pos.2 hx
  set L := Int.log 2 ((x.natAbs : ℕ) : ℚ) + 1 with hL
  have hp := pow2_pos L
  have e : ((x.natAbs : ℕ) : ℚ) / 2 ^ L * 2 ^ L = (x.natAbs : ℕ) := div_mul_cancel₀ _ hp.ne'
  have a1 : ((2 : ℕ) : ℚ) ^ (Int.log 2 ((x.natAbs : ℕ) : ℚ)) ≤ (x.natAbs : ℕ) := Int.zpow_log_le_self (by norm_num) hpos
  have a2 : ((x.natAbs : ℕ) : ℚ) < ((2 : ℕ) : ℚ) ^ (Int.log 2 ((x.natAbs : ℕ) : ℚ) + 1) := Int.lt_zpow_succ_log_self (by norm_num) _
  rw [Nat.cast_ofNat] at a1 a2
  have key := powLoop_exact hE 64 n ⟨decide (x < 0), ((x.natAbs : ℕ) : ℚ) / 2 ^ L⟩ L ⟨false, 1⟩ 0 v 1 l 0 hn hv (by norm_num)
    (by rw [one_mul]; exact h53) (by simp only []; rw [e, hxv]; push_cast; rw [zpow_natCast]) (by simp)
    (by
      simp only []
      rw [le_div_iff₀ hp, hL, zpow_add_one₀ two]
      linarith)
    (by simp only []; rw [div_lt_one hp]; exact a2) (by simp only []; rw [e]; exact hone) (by simp)
    (by simp only []; rw [e]; simpa using hlt)
  simp only [] at key
  rw [e] at key
  refine ⟨?_, ?_⟩
  · rw [key.1, Int.natAbs_pow]
    push_cast
    simp
  · rw [key.2]
    by_cases h0 : x < 0
    · rcases Nat.even_or_odd n with hn | hn
      · have h1 : ¬ x ^ n < 0 := not_lt.2 (hn.pow_nonneg x)
        have h2 : ¬ n % 2 = 1 := by rw [Nat.even_iff] at hn; omega
        simp [h0, h1, h2]
      · have h1 : x ^ n < 0 := hn.pow_neg h0
        have h2 : n % 2 = 1 := Nat.odd_iff.1 hn
        simp [h0, h1, h2]
    · have h1 : ¬ x ^ n < 0 := not_lt.2 (pow_nonneg (not_lt.1 h0) n)
      simp [h0, h1]

end Fmr
