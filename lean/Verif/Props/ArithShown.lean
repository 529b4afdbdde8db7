import Verif.Proofs.Printed

/-!
# C60: what the built-in functions print beyond ten digits
-/

namespace Fmr

theorem text_signed (neg : Bool) (q : ℚ) : (BF.text ⟨neg, q⟩).toList = signChars neg ++ (BF.text ⟨false, q⟩).toList := by
  unfold BF.text
  simp only []
  split_ifs <;> simp_all [signChars]

theorem text_shown (neg : Bool) {n : ℕ} (h : n < 2 ^ 64) :
    ∃ s, TenDigitText n s ∧ (BF.text ⟨neg, round64 n⟩).toList = (if neg then ['-'] else []) ++ s.toList :=
  ⟨_, printed_shown n, by rw [round64_nat h, text_signed, numText, signChars]⟩

/-- C60 for `sum`, `sub`, `mul` and `neg` of integers below 2^64 with a result below 2^64: the sign and the ten significant
digits of the result. A product is negative if one factor is, even if it is zero. -/
theorem C60_shown (ext : String → Option BF) (x y : ℤ) (hx : x.natAbs < 2 ^ 64) (hy : y.natAbs < 2 ^ 64) :
    ((x + y).natAbs < 2 ^ 64 → ∃ s, TenDigitText (x + y).natAbs s ∧
      (mathSum ext (toString x) (toString y)).toList = (if x + y < 0 then ['-'] else []) ++ s.toList) ∧
    ((x - y).natAbs < 2 ^ 64 → ∃ s, TenDigitText (x - y).natAbs s ∧
      (mathSub ext (toString x) (toString y)).toList = (if x - y < 0 then ['-'] else []) ++ s.toList) ∧
    ((x * y).natAbs < 2 ^ 64 → ∃ s, TenDigitText (x * y).natAbs s ∧
      (mathMul ext (toString x) (toString y)).toList = (if (x < 0) = (y < 0) then [] else ['-']) ++ s.toList) ∧
    (∃ s, TenDigitText x.natAbs s ∧ (mathNeg ext (toString x)).toList = (if 0 ≤ x then ['-'] else []) ++ s.toList) := by
  refine ⟨fun h => ?_, fun h => ?_, fun h => ?_, ?_⟩
  · unfold mathSum mathCalc
    rw [scanBF_small ext hx, scanBF_small ext hy]
    simp only [add_ofInt hx hy]
    simpa using text_shown (decide (x + y < 0)) h
  · unfold mathSub mathCalc
    rw [scanBF_small ext hx, scanBF_small ext hy]
    simp only [sub_ofInt hx hy]
    simpa using text_shown (decide (x - y < 0)) h
  · unfold mathMul mathCalc
    rw [scanBF_small ext hx, scanBF_small ext hy]
    simp only [BF.mul, BF.ofInt]
    obtain ⟨s, h1, h2⟩ := text_shown (decide (x < 0) != decide (y < 0)) h
    refine ⟨s, h1, ?_⟩
    rw [← Nat.cast_mul, ← Int.natAbs_mul, h2]
    by_cases a : x < 0 <;> by_cases b : y < 0 <;> simp [a, b]
  · unfold mathNeg
    rw [scanBF_small ext hx]
    obtain ⟨s, h1, h2⟩ := text_shown (!decide (x < 0)) hx
    refine ⟨s, h1, ?_⟩
    rw [round64_nat hx] at h2
    simp only [BF.negate, BF.ofInt]
    rw [h2]
    by_cases a : x < 0
    · simp [a]
    · simp [a, not_lt.1 a]

/-- A printed number of at most ten significant digits below 10^17 is read back as this number. -/
theorem C60_chained (ext : String → Option BF) {x y : ℕ} {s t : String} (hs : TenDigitText x s) (ht : TenDigitText y t)
    (hx : x < 10 ^ 10 ∨ x % 10 ^ 7 = 0 ∧ x < 10 ^ 17) (hy : y < 10 ^ 10 ∨ y % 10 ^ 7 = 0 ∧ y < 10 ^ 17) :
    (x + y < 2 ^ 64 → TenDigitText (x + y) (mathSum ext s t)) ∧ (x * y < 2 ^ 64 → TenDigitText (x * y) (mathMul ext s t)) := by
  obtain rfl := hs.unique (printed_shown x)
  obtain rfl := ht.unique (printed_shown y)
  exact ⟨fun h => sum_printed ext hx hy h ▸ printed_shown _, fun h => mul_printed ext hx hy h ▸ printed_shown _⟩

/-- non-vacuity -/
example : (5 : ℤ).natAbs < 2 ^ 64 ∧ mathMul (fun _ => none) "9999999999" "9999999999" = "9.999999998e+19" ∧
    mathSum (fun _ => none) "9999999999" "12345678901" = "2.23456789e+10" ∧
    mathSum (fun _ => none) "1.234e+13" "50000" = "1.234000005e+13" := by decide +kernel

/-- non-vacuity -/
example : TenDigitText 22345678900 "2.23456789e+10" := by
  have := printed_shown 22345678900
  rwa [show numText 22345678900 = "2.23456789e+10" by decide +kernel] at this

end Fmr
