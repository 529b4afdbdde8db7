import Verif.Props.Div

/-!
# C62: the range of `div`, exactly
-/

namespace Fmr

theorem rne_even {N : ℤ} (h : N % 2 = 0) (x : ℚ) : N ≤ rne x ↔ (N : ℚ) - 1 / 2 ≤ x := by
  unfold rne
  simp only []
  have h1 : (⌊x⌋ : ℚ) ≤ x := Int.floor_le x
  have h2 : x < ⌊x⌋ + 1 := Int.lt_floor_add_one x
  generalize ⌊x⌋ = f at h1 h2
  have up : ∀ {m : ℤ}, N ≤ m → (N : ℚ) ≤ m := fun h => by exact_mod_cast h
  have dn : ∀ {m : ℤ}, (N : ℚ) < m + 1 → N ≤ m := fun {m} h => by
    have : N < m + 1 := by exact_mod_cast h
    omega
  split_ifs with c1 c2 c3
  · exact ⟨fun h => by linarith [up h], fun h => dn (by linarith)⟩
  · refine ⟨fun h => ?_, fun h => dn ?_⟩
    · have := up h
      push_cast at this
      linarith
    · push_cast
      linarith
  · refine ⟨fun h => by linarith [up h], fun h => ?_⟩
    have h3 : N ≤ f + 1 := dn (by push_cast; linarith)
    omega
  · refine ⟨fun h => ?_, fun h => dn ?_⟩
    · have := up h
      push_cast at this
      linarith
    · push_cast
      linarith

/-- rounding reaches a power of two from half a unit below it on -/
theorem roundBits_ge {p : ℕ} (hp : 0 < p) {q : ℚ} (hq : 0 < q) (E : ℤ) :
    (2 : ℚ) ^ E ≤ roundBits p q ↔ (2 : ℚ) ^ E - 2 ^ (E - p - 1) ≤ q := by
  have hl : (2 : ℚ) ^ Int.log 2 q ≤ q := by
    have := Int.zpow_log_le_self (b := 2) (by norm_num) hq
    exact_mod_cast this
  have hu : q < (2 : ℚ) ^ (Int.log 2 q + 1) := by
    have := Int.lt_zpow_succ_log_self (b := 2) (by norm_num) q
    exact_mod_cast this
  unfold roundBits
  rw [if_neg hq.ne']
  simp only []
  generalize Int.log 2 q = L at hl hu
  have two : (2 : ℚ) ≠ 0 := by norm_num
  have key : ∀ {a b : ℤ}, a ≤ b → (2 : ℚ) ^ a ≤ 2 ^ b := fun h => zpow_le_zpow_right₀ (by norm_num) h
  have hpu := pow2_pos (L - p + 1)
  have hgood : ∀ n : ℕ, 0 < n → ((2 : ℚ) ^ (L - p + 1 + n) ≤ rne (q / 2 ^ (L - p + 1)) * 2 ^ (L - p + 1) ↔
      (2 : ℚ) ^ (L - p + 1 + n) - 2 ^ (L - p) ≤ q) := by
    intro n hn
    rw [zpow_add₀ two, mul_comm ((2 : ℚ) ^ (L - p + 1)), mul_le_mul_iff_left₀ hpu, zpow_natCast]
    have e : ((2 ^ n : ℤ) : ℚ) = 2 ^ n := by push_cast; rfl
    rw [← e, Int.cast_le, rne_even (by obtain ⟨m, rfl⟩ := Nat.exists_eq_add_of_lt hn; rw [pow_succ]; omega), le_div_iff₀ hpu, sub_mul]
    have e2 : (1 / 2 : ℚ) * 2 ^ (L - p + 1) = 2 ^ (L - p) := by
      rw [zpow_add₀ two, zpow_one]; ring
    rw [e2]
  by_cases h1 : E ≤ L
  · refine ⟨fun _ => ?_, fun _ => ?_⟩
    · have := key h1
      have := pow2_pos (E - p - 1)
      linarith
    · refine (key h1).trans ?_
      -- the mantissa is at least `2 ^ (p - 1)`
      have e : (2 : ℚ) ^ L = (2 ^ (p - 1) : ℤ) * 2 ^ (L - p + 1) := by
        push_cast
        rw [← zpow_natCast, ← zpow_add₀ two]
        congr 1
        omega
      rw [e, mul_le_mul_iff_left₀ hpu, Int.cast_le]
      have h3 : ((2 ^ (p - 1) : ℤ) : ℚ) ≤ q / 2 ^ (L - p + 1) := by
        rw [le_div_iff₀ hpu, ← e]
        exact hl
      have h4 := Int.le_floor.2 h3
      refine h4.trans ?_
      unfold rne
      simp only []
      split_ifs <;> omega
  · by_cases h2 : E = L + 1
    · subst h2
      have e1 : (L + 1 : ℤ) = L - p + 1 + (p : ℕ) := by omega
      have e2 : (L + 1 : ℤ) - p - 1 = L - p := by omega
      rw [e2]
      have := hgood p hp
      rw [← e1] at this
      exact this
    · have h3 : L + 2 ≤ E := by omega
      refine ⟨fun h => ?_, fun h => ?_⟩
      · exfalso
        have h4 := (hgood (p + 1) (by omega)).1 ((key (show L - p + 1 + ((p + 1 : ℕ) : ℤ) ≤ E by omega)).trans h)
        have e : (2 : ℚ) ^ (L - p + 1 + ((p + 1 : ℕ) : ℤ)) = 2 ^ (L + 1) + 2 ^ (L + 1) := by
          rw [show L - p + 1 + ((p + 1 : ℕ) : ℤ) = L + 1 + 1 by omega, zpow_add₀ two (L + 1) 1, zpow_one]
          ring
        have h5 : (2 : ℚ) ^ (L - p) ≤ 2 ^ (L + 1) := key (by omega)
        rw [e] at h4
        linarith
      · exfalso
        have h4 : (2 : ℚ) ^ (E - p - 1) ≤ 2 ^ (E - 1) := key (by omega)
        have e : (2 : ℚ) ^ E = 2 ^ (E - 1) + 2 ^ (E - 1) := by
          have := zpow_add₀ two (E - 1) 1
          rw [show E - 1 + 1 = E by omega, zpow_one] at this
          linarith
        have h5 : (2 : ℚ) ^ (L + 1) ≤ 2 ^ (E - 1) := key (by omega)
        linarith

set_option exponentiation.threshold 1100 in
/-- rounding to float64 overflows exactly from `2^1024 - 2^970` on -/
theorem f64_overflow {q : ℚ} (hq : 0 ≤ q) : f64Max ≤ roundBits 53 q ↔ (2 : ℚ) ^ 1024 - 2 ^ 970 ≤ q := by
  rcases hq.eq_or_lt with rfl | hq
  · rw [roundBits_zero]
    constructor
    · intro h
      exact absurd f64Max_pos (not_lt.2 h)
    · intro h
      norm_num at h
  · have := roundBits_ge (p := 53) (by norm_num) hq 1024
    rw [show (2 : ℚ) ^ (1024 : ℤ) = 2 ^ 1024 from zpow_natCast _ _,
      show (2 : ℚ) ^ ((1024 : ℤ) - ((53 : ℕ) : ℤ) - 1) = 2 ^ 970 from zpow_natCast _ 970] at this
    exact this

theorem denotes_out (ext : String → Option F64) {x : String} {v : ℚ} (h : Denotes x v) :
    ∃ neg, parseF64 ext x = (if f64Max ≤ roundBits 53 |v| then none else some (.fin ⟨neg, roundBits 53 |v|⟩)) := by
  obtain ⟨neg, ip, fp, h0, hd, hl, hx, hv'⟩ := h
  have hp := plainDec_dec h0 hd hl
  obtain ⟨c, l, hc⟩ := List.exists_cons_of_ne_nil h0
  have hn : (0 : ℚ) ≤ (digitsVal (ip ++ fp) : ℚ) / 10 ^ fp.length := by positivity
  have ha : |v| = (digitsVal (ip ++ fp) : ℚ) / 10 ^ fp.length := by
    rw [hv']
    cases neg with
    | true => rw [if_pos rfl, neg_one_mul, abs_neg, abs_of_nonneg hn]
    | false => rw [if_neg (by decide), one_mul, abs_of_nonneg hn]
  rw [ha]
  refine ⟨neg, parseF64_out ext (neg := neg) (by rw [hx, List.append_assoc]; rfl)
    ⟨c, l ++ _, by rw [hc, List.cons_append], hd c (by rw [hc]; simp)⟩ hp ?_⟩
  unfold F64.round
  simp only []
  split_ifs <;> rfl

/-- **C62**, the range: a decimal number is out of range exactly from `2^1024 - 2^970` on, the middle between the
largest float64 and `2^1024`. -/
theorem C62_overflow (ext : String → Option F64) {x : String} {v : ℚ} (h : Denotes x v) :
    parseF64 ext x = none ↔ (2 : ℚ) ^ 1024 - 2 ^ 970 ≤ |v| := by
  obtain ⟨neg, e⟩ := denotes_out ext h
  rw [e, ← f64_overflow (abs_nonneg v)]
  split_ifs with h
  · simp [h]
  · simp [h]

/-- **C62**: arguments that are out of range are returned as they are. -/
theorem C62_out_of_range (ext : String → Option F64) {x y : String} {v : ℚ}
    (h : Denotes x v ∨ Denotes y v) (hv : (2 : ℚ) ^ 1024 - 2 ^ 970 ≤ |v|) : mathDiv ext x y = x ++ "/" ++ y := by
  rcases h with h | h
  · exact C62_unreadable ext x y (.inl ((C62_overflow ext h).2 hv))
  · exact C62_unreadable ext x y (.inr (.inl ((C62_overflow ext h).2 hv)))

theorem f64Max_eq : f64Max = (2 : ℚ) ^ 1024 := rfl

/-- **C62**, the error: half a unit of the sixth digit, and a relative `5 / 2^53`. -/
theorem C62_error (ext : String → Option F64) {x y : String} {a b : ℚ} (hx : Denotes x a) (hy : Denotes y b)
    (hb : b ≠ 0) (h1 : 2 * |a| ≤ 2 ^ 1024) (h2 : 2 * |b| ≤ 2 ^ 1024) (h3 : 8 * |a / b| ≤ 2 ^ 1024) :
    SixDigits (mathDiv ext x y) ∧ ∃ v, Denotes (mathDiv ext x y) v ∧
      |v - a / b| ≤ 1 / (2 * 10 ^ 6) + 5 * |a / b| / 2 ^ 53 := by
  rw [← f64Max_eq] at h1 h2 h3
  exact div_error ext hx hy hb h1 h2 h3

set_option exponentiation.threshold 1100 in
/-- non-vacuity: the largest float64 can be read, the next number with 53 bits cannot -/
example (ext : String → Option F64) : parseF64 ext (toString (2 ^ 1024 - 2 ^ 971 : ℤ)) ≠ none ∧
    parseF64 ext (toString (2 ^ 1024 : ℤ)) = none := by
  constructor
  · rw [ne_eq, C62_overflow ext (denotes_int _)]
    rw [abs_of_nonneg (by norm_num)]
    norm_num
  · rw [C62_overflow ext (denotes_int _), abs_of_nonneg (by positivity)]
    norm_num

end Fmr
