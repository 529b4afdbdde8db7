import Verif.Proofs.Pow
import Mathlib.Analysis.SpecialFunctions.Pow.Real
import Mathlib.Analysis.SpecialFunctions.Log.Deriv

/-!
# C87: powers and roots
-/

namespace Fmr

deriving instance DecidableEq for BF
deriving instance DecidableEq for F64

/-- C87, full statement: `nf.math.pow` of an integer and a natural number is the power. -/
def C87_statement : Prop :=
  ∀ (frac : ℚ → ℚ → ℚ) (ext : String → Option F64) (x : ℤ) (n : ℕ),
    mathPow frac ext (toString x) (toString (n : ℤ)) = toString (x ^ n) ++ ".000000"

attribute [local irreducible] f64Max

theorem f64Max_zpow : f64Max = (2 : ℚ) ^ (1024 : ℤ) := by
  unfold f64Max
  exact (zpow_natCast (2 : ℚ) 1024).symm

theorem f64Max_nat {n : ℕ} (h : n < 2 ^ 1024) : (n : ℚ) < f64Max := by
  have h1 : (n : ℚ) < ((2 ^ 1024 : ℕ) : ℚ) := Nat.cast_lt.2 h
  rw [Nat.cast_pow, Nat.cast_ofNat] at h1
  unfold f64Max
  exact h1

theorem f64Max_small {n : ℕ} (h : n < 2 ^ 53) : (n : ℚ) < f64Max := by
  have h1 : (n : ℚ) < 2 ^ 60 := by exact_mod_cast lt_trans h (by norm_num)
  exact lt_of_lt_of_le h1 f64Max_big

theorem mathPow_some {frac : ℚ → ℚ → ℚ} {ext : String → Option F64} {x y : String} {fx fy : F64} (hx : parseF64 ext x = some fx)
    (hy : parseF64 ext y = some fy) : mathPow frac ext x y = (fx.pow frac fy).text := by
  unfold mathPow
  rw [hx, hy]

theorem natAbs_half (n : ℕ) : ¬ ((n : ℚ) = 1 / 2) := by
  intro h
  have : ((2 * n : ℕ) : ℚ) = (1 : ℕ) := by push_cast; linarith
  have : 2 * n = 1 := by exact_mod_cast this
  omega

/-- `math.Pow` of an integer other than 0 and an integer other than 0 -/
theorem pow_int (frac : ℚ → ℚ → ℚ) {x : ℤ} (hx : x ≠ 0) {n v l : ℕ} (hn : 0 < n) (hn' : n < 2 ^ 53) (hv : 0 < v)
    (hxv : x.natAbs = v * 2 ^ l) (h53 : v ^ n < 2 ^ 53) (hlt : (((x ^ n).natAbs : ℕ) : ℚ) < f64Max) (yneg : Bool) :
    (F64.fin ⟨decide (x < 0), (x.natAbs : ℕ)⟩).pow frac (.fin ⟨yneg, (n : ℕ)⟩) =
      if yneg then F64.round (decide (x ^ n < 0)) (1 / ((x ^ n).natAbs : ℕ)) else .fin ⟨decide (x ^ n < 0), ((x ^ n).natAbs : ℕ)⟩ := by
  have hpos : 0 < x.natAbs := Int.natAbs_pos.2 hx
  have hpow : (x ^ n).natAbs = v ^ n * 2 ^ (l * n) := by rw [Int.natAbs_pow, hxv, mul_pow, pow_mul]
  have hexact : Has53 ((x ^ n).natAbs : ℕ) := ⟨v ^ n, ((l * n : ℕ) : ℤ), h53, by rw [hpow, zpow_natCast]; push_cast; rfl⟩
  have hround : F64.round (decide (x ^ n < 0)) ((x ^ n).natAbs : ℕ) = .fin ⟨decide (x ^ n < 0), ((x ^ n).natAbs : ℕ)⟩ := by
    unfold F64.round
    simp only []
    rw [hexact.exact, if_neg (not_le.2 hlt)]
  rw [F64.pow.eq_def]
  simp only []
  rw [if_neg (by exact_mod_cast hn.ne')]
  by_cases h1 : ((n : ℕ) : ℚ) = 1 ∧ yneg = false
  · obtain ⟨h1, rfl⟩ := h1
    have : n = 1 := by exact_mod_cast h1
    subst this
    rw [if_pos ⟨by norm_num, rfl⟩, pow_one]
    simp
  rw [if_neg h1]
  by_cases h2 : ((x.natAbs : ℕ) : ℚ) = 1 ∧ decide (x < 0) = false
  · rw [if_pos h2]
    obtain ⟨h2, h3⟩ := h2
    have h2 : x.natAbs = 1 := by exact_mod_cast h2
    have h3 : ¬ x < 0 := by simpa using h3
    have : x = 1 := by omega
    subst this
    have hr : roundBits 53 (1 : ℚ) = 1 := Has53.exact ⟨1, 0, by norm_num, by simp⟩
    have hm : ¬ f64Max ≤ 1 := not_le.2 (lt_of_lt_of_le (by norm_num) f64Max_big)
    cases yneg <;> simp [F64.round, hr, hm]
  rw [if_neg h2, if_neg (by exact_mod_cast hpos.ne'), if_neg (natAbs_half n)]
  have hfl : ⌊((n : ℕ) : ℚ)⌋.toNat = n := by rw [Int.floor_natCast, Int.toNat_natCast]
  have key := powLoop_int (E := 1024) (by norm_num) hx hv hxv h53 (n := n)
    (by rw [← f64Max_zpow, ← Nat.cast_pow, ← Int.natAbs_pow]; exact hlt) (by omega)
  unfold powFin
  simp only [hfl, sub_self]
  rw [if_neg (by simp), if_neg (by omega)]
  simp only [if_true]
  simp only [] at key
  generalize powLoop 64 n _ _ _ _ = r at key ⊢
  obtain ⟨k1, k2⟩ := key
  rw [k2, k1, hround]
  have two : (2 : ℚ) ≠ 0 := by norm_num
  have hp : (0 : ℚ) < ((x ^ n).natAbs : ℕ) := by exact_mod_cast Int.natAbs_pos.2 (pow_ne_zero n hx)
  have hr : 0 < r.1.abs := by
    have := pow2_pos r.2
    rw [← k1] at hp
    exact (mul_pos_iff_of_pos_right this).1 hp
  cases yneg with
  | false => rfl
  | true =>
    rw [if_pos rfl, if_pos rfl, ← roundBits_scale (by positivity)]
    have : 1 / r.1.abs * 2 ^ (-r.2) = 1 / ((x ^ n).natAbs : ℕ) := by
      rw [← k1, zpow_neg]
      field_simp
    rw [this]
    unfold F64.round
    simp only []
    rw [roundBits_idem (by positivity)]

/-- The arguments of the theorems on integers. -/
theorem pow_args (ext : String → Option F64) {x : ℤ} {n : ℕ} (hx : x ≠ 0) (hn : 0 < n) (hn' : n < 2 ^ 53)
    (h53 : ∃ u k : ℕ, u < 2 ^ 53 ∧ x.natAbs ^ n = u * 2 ^ k) (hlt : x.natAbs ^ n < 2 ^ 1024) :
    (∃ v l : ℕ, 0 < v ∧ x.natAbs = v * 2 ^ l ∧ v ^ n < 2 ^ 53) ∧ (((x ^ n).natAbs : ℕ) : ℚ) < f64Max ∧ Has53 ((x ^ n).natAbs : ℕ) ∧
      parseF64 ext (toString x) = some (.fin ⟨decide (x < 0), (x.natAbs : ℕ)⟩) := by
  have hpos : 0 < x.natAbs := Int.natAbs_pos.2 hx
  obtain ⟨u, k, hu, e⟩ := h53
  obtain ⟨v, l, hv, hvn, hxv⟩ := odd_part hpos e hu
  have hv1 : v < 2 ^ 53 := lt_of_le_of_lt (Nat.le_self_pow hn.ne' v) hvn
  refine ⟨⟨v, l, hv, hxv, hvn⟩, f64Max_nat (by rw [Int.natAbs_pow]; exact hlt),
    ⟨u, k, hu, by rw [Int.natAbs_pow, e]; push_cast; rw [zpow_natCast]⟩, parseF64_int ext
      ⟨v, l, hv1, by rw [hxv]; push_cast; rw [zpow_natCast]⟩ (f64Max_nat (lt_of_le_of_lt (Nat.le_self_pow hn.ne' _) hlt))⟩

/-- **C87** if the power has 53 bits, up to a power of two, and is in the range of float64. -/
theorem C87_partial (frac : ℚ → ℚ → ℚ) (ext : String → Option F64) {x : ℤ} {n : ℕ} (hn : 0 < n) (hn' : n < 2 ^ 53)
    (h53 : ∃ u k : ℕ, u < 2 ^ 53 ∧ x.natAbs ^ n = u * 2 ^ k) (hlt : x.natAbs ^ n < 2 ^ 1024) :
    mathPow frac ext (toString x) (toString (n : ℤ)) = toString (x ^ n) ++ ".000000" := by
  have hy : parseF64 ext (toString (n : ℤ)) = some (.fin ⟨false, (n : ℕ)⟩) := by
    have := parseF64_int ext (x := (n : ℤ)) (has53_nat (by rw [Int.natAbs_natCast]; exact hn'))
      (by rw [Int.natAbs_natCast]; exact f64Max_small hn')
    rw [this, Int.natAbs_natCast, show decide ((n : ℤ) < 0) = false by simp]
  by_cases hx : x = 0
  · subst hx
    have hx0 := parseF64_int ext (x := 0) ⟨0, 0, by norm_num, by simp⟩ (by simpa using f64Max_pos)
    rw [mathPow_some hx0 hy, zero_pow hn.ne', ← text_int]
    congr 1
    rw [F64.pow.eq_def]
    simp only []
    rw [if_neg (by exact_mod_cast hn.ne')]
    split_ifs <;> simp_all [powZero]
  · obtain ⟨⟨v, l, hv, hxv, hvn⟩, hm, -, hp⟩ := pow_args ext hx hn hn' h53 hlt
    rw [mathPow_some hp hy, pow_int frac hx hn hn' hv hxv hvn hm, if_neg (by decide), text_int]

/-- **C87**: with a negative exponent, `nf.math.pow` gives the text that `nf.math.div` gives for one divided by the power. -/
theorem C87_negative (frac : ℚ → ℚ → ℚ) (ext : String → Option F64) {x : ℤ} (hx : x ≠ 0) {n : ℕ} (hn : 0 < n) (hn' : n < 2 ^ 53)
    (h53 : ∃ u k : ℕ, u < 2 ^ 53 ∧ x.natAbs ^ n = u * 2 ^ k) (hlt : x.natAbs ^ n < 2 ^ 1024) :
    mathPow frac ext (toString x) (toString (-(n : ℤ))) = mathDiv ext "1" (toString (x ^ n)) := by
  have hy : parseF64 ext (toString (-(n : ℤ))) = some (.fin ⟨true, (n : ℕ)⟩) := by
    have := parseF64_int ext (x := -(n : ℤ)) (has53_nat (by rw [Int.natAbs_neg, Int.natAbs_natCast]; exact hn'))
      (by rw [Int.natAbs_neg, Int.natAbs_natCast]; exact f64Max_small hn')
    rw [this, Int.natAbs_neg, Int.natAbs_natCast, show decide (-(n : ℤ) < 0) = true by simpa using hn]
  obtain ⟨⟨v, l, hv, hxv, hvn⟩, hm, he, hp⟩ := pow_args ext hx hn hn' h53 hlt
  have h1 : parseF64 ext "1" = some (.fin ⟨false, ((1 : ℕ) : ℚ)⟩) :=
    parseF64_int ext (x := 1) (has53_nat (by norm_num)) (lt_of_lt_of_le (by norm_num) f64Max_big)
  have h2 := parseF64_int ext he hm
  have h0 : ((x ^ n).natAbs : ℕ) ≠ 0 := (Int.natAbs_pos.2 (pow_ne_zero n hx)).ne'
  rw [mathPow_some hp hy, pow_int frac hx hn hn' hv hxv hvn hm, if_pos rfl]
  unfold mathDiv
  rw [h1, h2]
  simp only []
  rw [if_neg (by simpa [F64.isZero] using pow_ne_zero n hx)]
  unfold F64.div
  simp

/-- **C87**: a text that is not a number, or out of range, is returned as it is. -/
theorem C87_unreadable (frac : ℚ → ℚ → ℚ) (ext : String → Option F64) (x y : String)
    (h : parseF64 ext x = none ∨ parseF64 ext y = none) : mathPow frac ext x y = x ++ "^" ++ y := by
  unfold mathPow
  rcases h with h | h
  · rw [h]
  · rw [h]; split <;> rfl

/-! ## square roots -/

theorem parse_half (ext : String → Option F64) : parseF64 ext "0.5" = some (.fin ⟨false, 1 / 2⟩) := by
  refine parseF64_out ext (neg := false) (s := "0.5".toList) rfl ⟨'0', ".5".toList, by decide, by decide⟩ (n := 5) (k := 1)
    (by decide +kernel) ?_
  have hr : roundBits 53 ((5 : ℕ) / 10 ^ 1 : ℚ) = 1 / 2 := by
    have : ((5 : ℕ) / 10 ^ 1 : ℚ) = 1 / 2 := by norm_num
    rw [this]
    exact Has53.exact ⟨1, -1, by norm_num, by norm_num⟩
  unfold F64.round
  simp only []
  rw [hr, if_neg (not_le.2 (lt_of_lt_of_le (by norm_num) f64Max_big))]

theorem sqrt_log {q : ℚ} (hq : 0 < q) : (2 : ℚ) ^ (2 * (Int.log 2 q / 2)) ≤ q ∧ q < 2 ^ (2 * (Int.log 2 q / 2) + 2) := by
  have a1 : ((2 : ℕ) : ℚ) ^ (Int.log 2 q) ≤ q := Int.zpow_log_le_self (by norm_num) hq
  have a2 : q < ((2 : ℕ) : ℚ) ^ (Int.log 2 q + 1) := Int.lt_zpow_succ_log_self (by norm_num) _
  push_cast at a1 a2
  exact ⟨le_trans (zpow_le_zpow_right₀ (by norm_num) (by omega)) a1, lt_of_lt_of_le a2 (zpow_le_zpow_right₀ (by norm_num) (by omega))⟩

/-- The square root is rounded to nearest. -/
theorem sqrtBits_near {p : ℕ} {q : ℚ} (hq : 0 < q) : 0 ≤ sqrtBits p q ∧
    |(sqrtBits p q : ℝ) - √(q : ℝ)| ≤ √(q : ℝ) / 2 ^ p := by
  unfold sqrtBits
  simp only []
  set u : ℚ := 2 ^ (Int.log 2 q / 2 - p + 1) with hu
  have hup : 0 < u := pow2_pos _
  have hu2 : 0 < u ^ 2 := by positivity
  set m := Nat.sqrt ⌊q / u ^ 2⌋.toNat with hm
  have hz : 0 ≤ ⌊q / u ^ 2⌋ := Int.floor_nonneg.2 (by positivity)
  -- `m ≤ √q / u < m + 1`
  have b1 : ((m : ℚ)) ^ 2 ≤ q / u ^ 2 := by
    have h1 : m * m ≤ ⌊q / u ^ 2⌋.toNat := Nat.sqrt_le _
    have h2 : ((m * m : ℕ) : ℤ) ≤ ⌊q / u ^ 2⌋ := by omega
    have h3 : (((m * m : ℕ) : ℤ) : ℚ) ≤ q / u ^ 2 := le_trans (by exact_mod_cast h2) (Int.floor_le _)
    push_cast at h3
    linarith [sq (m : ℚ)]
  have b2 : q / u ^ 2 < ((m : ℚ) + 1) ^ 2 := by
    have h1 : ⌊q / u ^ 2⌋.toNat < (m + 1) * (m + 1) := Nat.sqrt_lt'.1 (by rw [← hm]; exact Nat.lt_succ_self _) |> fun h => by rw [← pow_two]; exact h
    have h2 : ⌊q / u ^ 2⌋ + 1 ≤ (((m + 1) * (m + 1) : ℕ) : ℤ) := by omega
    have h3 : ((⌊q / u ^ 2⌋ : ℤ) : ℚ) + 1 ≤ ((((m + 1) * (m + 1) : ℕ) : ℤ) : ℚ) := by exact_mod_cast h2
    have h4 := Int.lt_floor_add_one (q / u ^ 2)
    push_cast at h3
    nlinarith
  -- the real square root
  have hsu : (√(q : ℝ)) = √((q / u ^ 2 : ℚ) : ℝ) * u := by
    push_cast
    rw [Real.sqrt_div (by exact_mod_cast hq.le), Real.sqrt_sq (by exact_mod_cast hup.le), div_mul_cancel₀ _ (by exact_mod_cast hup.ne')]
  set t : ℝ := √((q / u ^ 2 : ℚ) : ℝ) with ht
  have ht0 : 0 ≤ t := Real.sqrt_nonneg _
  have htt : t * t = ((q / u ^ 2 : ℚ) : ℝ) := Real.mul_self_sqrt (by exact_mod_cast (by positivity : (0 : ℚ) ≤ q / u ^ 2))
  have c1 : (m : ℝ) ^ 2 ≤ t * t := by rw [htt]; exact_mod_cast b1
  have c2 : t * t < ((m : ℝ) + 1) ^ 2 := by rw [htt]; exact_mod_cast b2
  have hm0 : (0 : ℝ) ≤ m := Nat.cast_nonneg m
  have d1 : (m : ℝ) ≤ t := by nlinarith
  have d2 : t < (m : ℝ) + 1 := by nlinarith
  -- the unit
  have hun : (1 : ℝ) / 2 ≤ t / 2 ^ p := by
    have h1 : (2 : ℚ) ^ (p - 1 : ℤ) * u = 2 ^ (Int.log 2 q / 2) := by
      rw [hu, ← zpow_add₀ (by norm_num)]
      congr 1
      ring
    have h2 : ((2 : ℚ) ^ (Int.log 2 q / 2)) ^ 2 ≤ q := by
      rw [← zpow_natCast, ← zpow_mul, mul_comm]
      exact (sqrt_log hq).1
    rw [← h1, mul_pow] at h2
    have h3 : ((2 : ℚ) ^ (p - 1 : ℤ)) ^ 2 ≤ q / u ^ 2 := by rwa [le_div_iff₀ hu2]
    have h4 : (((2 : ℚ) ^ (p - 1 : ℤ) : ℚ) : ℝ) ^ 2 ≤ t * t := by rw [htt]; exact_mod_cast h3
    have h5 : (((2 : ℚ) ^ (p - 1 : ℤ) : ℚ) : ℝ) ≤ t := by
      have : (0 : ℝ) ≤ (((2 : ℚ) ^ (p - 1 : ℤ) : ℚ) : ℝ) := by exact_mod_cast (pow2_pos _).le
      nlinarith
    rw [le_div_iff₀ (by positivity)]
    refine le_trans (le_of_eq ?_) h5
    push_cast
    rw [zpow_sub_one₀ (by norm_num), zpow_natCast]
    ring
  have hmain : ∀ w : ℚ, |(w : ℝ) - t| ≤ 1 / 2 → 0 ≤ w → 0 ≤ w * u ∧ |((w * u : ℚ) : ℝ) - √(q : ℝ)| ≤ √(q : ℝ) / 2 ^ p := by
    intro w hw hw0
    refine ⟨mul_nonneg hw0 hup.le, ?_⟩
    have hur : (0 : ℝ) < u := by exact_mod_cast hup
    rw [hsu]
    push_cast
    rw [← sub_mul, abs_mul, abs_of_pos hur, mul_div_right_comm]
    exact mul_le_mul_of_nonneg_right (hw.trans hun) hur.le
  have htt' : (q : ℝ) / u ^ 2 = t * t := by rw [htt]; push_cast; rfl
  have lo : q / u ^ 2 - (m : ℚ) ^ 2 ≤ m + 1 / 4 → |((m : ℚ) : ℝ) - t| ≤ 1 / 2 := by
    intro h
    have h1 : t * t - (m : ℝ) ^ 2 ≤ m + 1 / 4 := by
      have := (Rat.cast_le (K := ℝ)).2 h
      push_cast at this
      rwa [htt'] at this
    rw [abs_le]
    constructor
    · push_cast; nlinarith
    · push_cast; linarith
  have hi : (m : ℚ) + 1 / 4 ≤ q / u ^ 2 - (m : ℚ) ^ 2 → |(((m : ℚ) + 1 : ℚ) : ℝ) - t| ≤ 1 / 2 := by
    intro h
    have h1 : (m : ℝ) + 1 / 4 ≤ t * t - (m : ℝ) ^ 2 := by
      have := (Rat.cast_le (K := ℝ)).2 h
      push_cast at this
      rwa [htt'] at this
    rw [abs_le]
    constructor
    · push_cast; linarith
    · push_cast; nlinarith
  split_ifs with h1 h2 h3
  · exact hmain _ (lo h1.le) (by positivity)
  · exact hmain _ (hi h2.le) (by positivity)
  · exact hmain _ (lo (not_lt.1 h2)) (by positivity)
  · exact hmain _ (hi (not_lt.1 h1)) (by positivity)

theorem pow_half (frac : ℚ → ℚ → ℚ) (ext : String → Option F64) {a : ℕ} (ha : a < 2 ^ 53) :
    ∃ s : ℚ, mathPow frac ext (toString (a : ℤ)) "0.5" = F64.text (.fin ⟨false, s⟩) ∧ 0 ≤ s ∧ |(s : ℝ) - √(a : ℝ)| ≤ √(a : ℝ) / 2 ^ 53 := by
  have hx : parseF64 ext (toString (a : ℤ)) = some (.fin ⟨false, (a : ℕ)⟩) := by
    have := parseF64_int ext (x := (a : ℤ)) (has53_nat (by rw [Int.natAbs_natCast]; exact ha))
      (by rw [Int.natAbs_natCast]; exact f64Max_small ha)
    rw [this, Int.natAbs_natCast, show decide ((a : ℤ) < 0) = false by simp]
  rw [mathPow_some hx (parse_half ext), F64.pow.eq_def]
  simp only []
  rw [if_neg (by norm_num), if_neg (by norm_num)]
  by_cases h1 : a = 1
  · subst h1
    exact ⟨1, by simp, by norm_num, by simp⟩
  rw [if_neg (by rintro ⟨h, -⟩; exact h1 (by exact_mod_cast h))]
  by_cases h0 : a = 0
  · subst h0
    exact ⟨0, by simp [powZero], le_refl _, by simp⟩
  rw [if_neg (by exact_mod_cast h0), if_pos trivial]
  have hq : (0 : ℚ) < (a : ℕ) := by exact_mod_cast Nat.pos_of_ne_zero h0
  obtain ⟨k1, k2⟩ := sqrtBits_near (p := 53) hq
  exact ⟨_, by simp [sqrtF64], k1, by simpa using k2⟩

/-- **C87**: the square root of a natural number below 2^53 is right up to the rounding to six digits after the point. -/
theorem C87_root (frac : ℚ → ℚ → ℚ) (ext : String → Option F64) {a : ℕ} (ha : a < 2 ^ 53) :
    ∃ v : ℚ, Denotes (mathPow frac ext (toString (a : ℤ)) "0.5") v ∧ |(v : ℝ) - √(a : ℝ)| ≤ 1 / (2 * 10 ^ 6) + √(a : ℝ) / 2 ^ 53 := by
  obtain ⟨s, h1, h2, h3⟩ := pow_half frac ext ha
  obtain ⟨-, k, h4, h5⟩ := text_fin ⟨false, s⟩ h2
  rw [if_neg Bool.false_ne_true, one_mul] at h4
  refine ⟨_, by rw [h1]; exact h4, ?_⟩
  have h6 : |(((k : ℚ) / 10 ^ 6 : ℚ) : ℝ) - (s : ℝ)| ≤ 1 / (2 * 10 ^ 6) := by
    have := (Rat.cast_le (K := ℝ)).2 h5
    push_cast at this ⊢
    exact this
  have := abs_add_le ((((k : ℚ) / 10 ^ 6 : ℚ) : ℝ) - (s : ℝ)) ((s : ℝ) - √(a : ℝ))
  rw [sub_add_sub_cancel] at this
  linarith

/-- **C87**: the square root of a square is exact. -/
theorem C87_square (frac : ℚ → ℚ → ℚ) (ext : String → Option F64) {n : ℕ} (h : n ^ 2 < 2 ^ 53) :
    mathPow frac ext (toString ((n ^ 2 : ℕ) : ℤ)) "0.5" = toString (n : ℤ) ++ ".000000" := by
  obtain ⟨s, h1, h2, h3⟩ := pow_half frac ext h
  have hn : n < 2 ^ 27 := by
    by_contra hc
    have := Nat.pow_le_pow_left (not_lt.1 hc) 2
    omega
  push_cast at h3
  rw [Real.sqrt_sq (Nat.cast_nonneg n)] at h3
  have h4 : |s - n| ≤ n / 2 ^ 53 := by
    refine (Rat.cast_le (K := ℝ)).1 ?_
    push_cast
    exact h3
  have hn' : (n : ℚ) < 2 ^ 27 := by exact_mod_cast hn
  have h5 : rne (s * 10 ^ 6) = ((n * 10 ^ 6 : ℕ) : ℤ) := by
    refine rne_near ?_
    have e : s * 10 ^ 6 - (((n * 10 ^ 6 : ℕ) : ℤ) : ℚ) = (s - n) * 10 ^ 6 := by push_cast; ring
    rw [e, abs_mul, abs_of_pos (by norm_num : (0 : ℚ) < 10 ^ 6)]
    linarith
  have h6 : rne ((n : ℚ) * 10 ^ 6) = ((n * 10 ^ 6 : ℕ) : ℤ) := by
    rw [← rne_int ((n * 10 ^ 6 : ℕ) : ℤ)]
    congr 1
    push_cast
    rfl
  rw [h1, ← text_int, Int.natAbs_natCast, show decide ((n : ℤ) < 0) = false by simp]
  unfold F64.text
  simp only []
  rw [h5, h6]

/-! ## cube roots -/

/-- `Exp(y * Log(x))` is the power with a relative error of 2^-40. -/
def NearPow (frac : ℚ → ℚ → ℚ) : Prop :=
  ∀ x y : ℚ, 0 < x → |y| ≤ 1 / 2 → |(frac x y : ℝ) - (x : ℝ) ^ (y : ℝ)| ≤ (x : ℝ) ^ (y : ℝ) / 2 ^ 40

/-- There are such functions. -/
theorem nearPow_exists : ∃ frac, NearPow frac := by
  have : ∀ x y : ℚ, ∃ r : ℚ, 0 < x → |(r : ℝ) - (x : ℝ) ^ (y : ℝ)| ≤ (x : ℝ) ^ (y : ℝ) / 2 ^ 40 := by
    intro x y
    by_cases hx : 0 < x
    · have hp : (0 : ℝ) < (x : ℝ) ^ (y : ℝ) := Real.rpow_pos_of_pos (by exact_mod_cast hx) _
      obtain ⟨r, h1, h2⟩ := exists_rat_btwn (show (x : ℝ) ^ (y : ℝ) < (x : ℝ) ^ (y : ℝ) + (x : ℝ) ^ (y : ℝ) / 2 ^ 40 by
        have : 0 < (x : ℝ) ^ (y : ℝ) / 2 ^ 40 := by positivity
        linarith)
      exact ⟨r, fun _ => abs_le.2 ⟨by have : 0 < (x : ℝ) ^ (y : ℝ) / 2 ^ 40 := by positivity
                                      linarith, by linarith⟩⟩
    · exact ⟨0, fun h => absurd h hx⟩
  choose f hf using this
  exact ⟨f, fun x y hx _ => hf x y hx⟩

/-- the text of a third -/
theorem div_third (ext : String → Option F64) : mathDiv ext "1" "3" = "0.333333" := by
  have h : mathDiv (fun _ => none) "1" "3" = "0.333333" := by decide +kernel
  have h1 : parseF64 ext "1" = parseF64 (fun _ => none) "1" := rfl
  have h2 : parseF64 ext "3" = parseF64 (fun _ => none) "3" := rfl
  unfold mathDiv at h ⊢
  rw [h1, h2]
  exact h

theorem parse_third (ext : String → Option F64) : ∃ y : ℚ, parseF64 ext "0.333333" = some (.fin ⟨false, y⟩) ∧ 333 / 1000 < y ∧ y < 3333331 / 10 ^ 7 := by
  refine ⟨roundBits 53 ((333333 : ℕ) / 10 ^ 6 : ℚ), ?_, ?_⟩
  · refine parseF64_out ext (neg := false) (s := "0.333333".toList) rfl ⟨'0', ".333333".toList, by decide, by decide⟩ (n := 333333) (k := 6)
      (by decide +kernel) ?_
    have := round53_lt (q := (333333 : ℕ) / 10 ^ 6) (by positivity) (le_trans (by norm_num) f64Max_big)
    unfold F64.round
    simp only []
    rw [if_neg (not_le.2 this)]
  · have := abs_le.1 (roundBits_err (p := 53) (q := (333333 : ℕ) / 10 ^ 6) (by norm_num))
    norm_num at this ⊢
    constructor <;> linarith

theorem pow_third (frac : ℚ → ℚ → ℚ) (ext : String → Option F64) : ∃ y : ℚ, 333 / 1000 < y ∧ y < 3333331 / 10 ^ 7 ∧
    ∀ x : ℤ, x ≠ 0 → x ≠ 1 → x.natAbs < 2 ^ 53 → mathPow frac ext (toString x) (mathDiv ext "1" "3") =
      if x < 0 then "NaN" else (F64.round false (frac (x.natAbs : ℕ) y)).text := by
  obtain ⟨y, h1, h2, h3⟩ := parse_third ext
  refine ⟨y, h2, h3, fun x hx0 hx1 hx => ?_⟩
  norm_num at h3
  have hy : 0 < y := by linarith
  have hfl : ⌊y⌋.toNat = 0 := by
    have : ⌊y⌋ = 0 := Int.floor_eq_iff.2 ⟨by push_cast; linarith, by push_cast; linarith⟩
    rw [this]
    rfl
  have hx' := parseF64_int ext (x := x) (has53_nat hx) (f64Max_small hx)
  rw [div_third, mathPow_some hx' h1, F64.pow.eq_def]
  simp only []
  rw [if_neg hy.ne', if_neg (by rintro ⟨h, -⟩; linarith)]
  by_cases hn : x < 0
  · have hd : decide (x < 0) = true := by simpa using hn
    rw [if_neg (by rintro ⟨-, h⟩; rw [hd] at h; cases h), if_neg (by exact_mod_cast (Int.natAbs_pos.2 hx0).ne'), if_neg (by linarith), if_pos hn]
    unfold powFin
    simp only [hfl]
    rw [if_pos ⟨by simpa using hy.ne', hd⟩]
    rfl
  · have hd : decide (x < 0) = false := by simpa using hn
    rw [if_neg (by
      rintro ⟨h, -⟩
      have : x.natAbs = 1 := by exact_mod_cast h
      omega), if_neg (by exact_mod_cast (Int.natAbs_pos.2 hx0).ne'), if_neg (by linarith), if_neg hn]
    unfold powFin
    simp only [hfl]
    rw [if_neg (by rw [hd]; simp), if_neg (by norm_num)]
    simp only [Nat.cast_zero, sub_zero]
    rw [if_neg Bool.false_ne_true, if_neg hy.ne', if_neg (show ¬ (1 / 2 < y) by linarith), powLoop_zero]
    simp

/-- **C87**: there are no cube roots of negative numbers. -/
theorem C87_cube_negative (frac : ℚ → ℚ → ℚ) (ext : String → Option F64) {x : ℤ} (hx : x < 0) (h : x.natAbs < 2 ^ 53) :
    mathPow frac ext (toString x) (mathDiv ext "1" "3") = "NaN" := by
  obtain ⟨y, -, -, h1⟩ := pow_third frac ext
  rw [h1 x (by omega) (by omega) h, if_pos hx]

/-- **C87**: the cube root of a cube, computed as the shipped grammars do, is below it and never exact. -/
theorem C87_cube {frac : ℚ → ℚ → ℚ} (hf : NearPow frac) (ext : String → Option F64) {n : ℕ} (hn : 2 ≤ n) (h : n ^ 3 < 2 ^ 53) :
    ∃ v : ℚ, Denotes (mathPow frac ext (toString ((n ^ 3 : ℕ) : ℤ)) (mathDiv ext "1" "3")) v ∧ v < n := by
  obtain ⟨y, y1, y2, h1⟩ := pow_third frac ext
  have hn1 : n ≠ 1 := by omega
  have h2 := h1 ((n ^ 3 : ℕ) : ℤ) (by positivity) (by
      intro hc
      have : n ^ 3 = 1 := by exact_mod_cast hc
      have := Nat.pow_le_pow_left hn 3
      omega) (by rw [Int.natAbs_natCast]; exact h)
  rw [Int.natAbs_natCast, if_neg (not_lt.2 (Int.natCast_nonneg _))] at h2
  norm_num at y2
  have hq : (0 : ℚ) < ((n ^ 3 : ℕ) : ℚ) := by positivity
  have hnear := hf _ y hq (by rw [abs_of_pos (by linarith)]; linarith)
  -- the power
  have hN : (2 : ℝ) ≤ n := by exact_mod_cast hn
  have hN0 : (0 : ℝ) < n := by linarith
  set P : ℝ := (((n ^ 3 : ℕ) : ℚ) : ℝ) ^ (y : ℝ) with hP
  have hPpos : 0 < P := Real.rpow_pos_of_pos (by exact_mod_cast hq) _
  have hyr : (y : ℝ) < 3333331 / 10 ^ 7 := by
    have := (Rat.cast_lt (K := ℝ)).2 y2
    push_cast at this
    norm_num at this ⊢
    exact this
  have hP1 : P * (1 + 35 / 10 ^ 8) ≤ n := by
    have e1 : P = (n : ℝ) ^ (3 * (y : ℝ)) := by
      rw [hP, Real.rpow_mul hN0.le]
      congr 1
      push_cast
      rw [show (3 : ℝ) = ((3 : ℕ) : ℝ) by norm_num, Real.rpow_natCast]
    have e2 : (n : ℝ) = (n : ℝ) ^ (3 * (y : ℝ)) * (n : ℝ) ^ (1 - 3 * (y : ℝ)) := by
      rw [← Real.rpow_add hN0]
      simp
    have e3 : (1 : ℝ) + 35 / 10 ^ 8 ≤ (n : ℝ) ^ (1 - 3 * (y : ℝ)) := by
      rw [Real.rpow_def_of_pos hN0]
      refine le_trans ?_ (Real.add_one_le_exp _)
      have l1 : Real.log 2 ≤ Real.log n := Real.log_le_log (by norm_num) hN
      have l2 : (1 / 2 : ℝ) ≤ Real.log 2 := le_trans (by norm_num) (Real.one_sub_inv_le_log_of_pos (by norm_num : (0 : ℝ) < 2))
      have l3 : (7 / 10 ^ 7 : ℝ) ≤ 1 - 3 * (y : ℝ) := by norm_num at hyr ⊢; linarith
      have l4 : (1 / 2 : ℝ) * (7 / 10 ^ 7) ≤ Real.log n * (1 - 3 * (y : ℝ)) :=
        mul_le_mul (by linarith) l3 (by norm_num) (by linarith)
      norm_num at l4 ⊢
      linarith
    conv_rhs => rw [e2]
    rw [e1]
    exact mul_le_mul_of_nonneg_left e3 (Real.rpow_pos_of_pos hN0 _).le
  -- the rounded power
  obtain ⟨f1, f2⟩ := abs_le.1 hnear
  have hfpos : (0 : ℝ) < (frac ((n ^ 3 : ℕ) : ℚ) y : ℝ) := by
    have : P / 2 ^ 40 < P := div_lt_self hPpos (by norm_num)
    linarith
  have hfq : 0 < frac ((n ^ 3 : ℕ) : ℚ) y := by exact_mod_cast hfpos
  set g := frac ((n ^ 3 : ℕ) : ℚ) y with hg
  have hgn : (g : ℝ) ≤ n := by
    have : P / 2 ^ 40 ≤ P * (35 / 10 ^ 8) := by rw [div_eq_mul_inv]; exact mul_le_mul_of_nonneg_left (by norm_num) hPpos.le
    linarith
  have hgn' : g ≤ n := by exact_mod_cast hgn
  have hnb : (n : ℚ) < 2 ^ 53 := by exact_mod_cast lt_of_le_of_lt (Nat.le_self_pow (by norm_num) n) h
  have hr : F64.round false g = .fin ⟨false, roundBits 53 g⟩ := by
    unfold F64.round
    simp only []
    rw [if_neg (not_le.2 (round53_lt hfq.le (le_trans (by linarith) f64Max_big)))]
  obtain ⟨-, k, h4, h5⟩ := text_fin ⟨false, roundBits 53 g⟩ (roundBits_nonneg (by norm_num) hfq.le)
  rw [if_neg Bool.false_ne_true, one_mul] at h4
  refine ⟨_, by rw [h2, hr]; exact h4, ?_⟩
  have h6 := (abs_le.1 h5).2
  have h7 := (abs_le.1 (roundBits_err (p := 53) hfq)).2
  simp only [] at h6
  have h8 : (((k : ℚ) / 10 ^ 6 : ℚ) : ℝ) ≤ (g : ℝ) + (g : ℝ) / 2 ^ 53 + 1 / (2 * 10 ^ 6) := by
    have : (k : ℚ) / 10 ^ 6 ≤ g + g / 2 ^ 53 + 1 / (2 * 10 ^ 6) := by linarith
    have := (Rat.cast_le (K := ℝ)).2 this
    push_cast at this ⊢
    exact this
  have h9 : (((k : ℚ) / 10 ^ 6 : ℚ) : ℝ) < n := by
    norm_num at f2 hP1 h8 ⊢
    linarith
  exact_mod_cast h9

/-! ## false -/

/-- Powers with an integer as exponent, square roots and powers of zero do not use `Exp` and `Log`. -/
theorem pow_frac (frac frac' : ℚ → ℚ → ℚ) {x y : BF} (h : y.abs - (⌊y.abs⌋.toNat : ℕ) = 0 ∨ y.abs = 1 / 2 ∨ x.abs = 0) :
    (F64.fin x).pow frac (.fin y) = (F64.fin x).pow frac' (.fin y) := by
  rw [F64.pow.eq_def, F64.pow.eq_def]
  simp only []
  rcases h with h | h | h
  · have : powFin frac x y = powFin frac' x y := by
      unfold powFin
      simp only []
      rw [if_pos h, if_pos h]
    rw [this]
  · simp only [if_pos h]
  · simp only [if_pos h]

theorem mathPow_frac (frac frac' : ℚ → ℚ → ℚ) (ext : String → Option F64) {x y : String} {fx fy : BF}
    (hx : parseF64 ext x = some (.fin fx)) (hy : parseF64 ext y = some (.fin fy))
    (h : fy.abs - (⌊fy.abs⌋.toNat : ℕ) = 0 ∨ fy.abs = 1 / 2 ∨ fx.abs = 0) : mathPow frac ext x y = mathPow frac' ext x y := by
  rw [mathPow_some hx hy, mathPow_some hx hy, pow_frac frac frac' h]

theorem parse_concrete (ext : String → Option F64) {t : String} {r : Option F64} (h : parseF64 (fun _ => none) t = r)
    (h' : parseF64 ext t = parseF64 (fun _ => none) t) : parseF64 ext t = r := h'.trans h

/-- **C87** fails beyond 53 bits: three to the power of forty. -/
theorem C87_large (frac : ℚ → ℚ → ℚ) (ext : String → Option F64) :
    mathPow frac ext "3" "40" = "12157665459056928768.000000" ∧ (3 : ℤ) ^ 40 = 12157665459056928801 := by
  refine ⟨?_, by norm_num⟩
  have h : mathPow (fun _ _ => 0) (fun _ => none) "3" "40" = "12157665459056928768.000000" := by decide +kernel
  rw [← h, mathPow_frac frac (fun _ _ => 0) ext (parse_concrete ext (by decide +kernel : parseF64 (fun _ => none) "3" = some (.fin ⟨false, 3⟩)) rfl)
    (parse_concrete ext (by decide +kernel : parseF64 (fun _ => none) "40" = some (.fin ⟨false, 40⟩)) rfl) (.inl (by decide +kernel))]
  rfl

theorem C87_false : ¬ C87_statement := by
  intro h
  have h1 := h (fun _ _ => 0) (fun _ => none) 3 40
  rw [show toString (3 : ℤ) = "3" by decide +kernel, show toString ((40 : ℕ) : ℤ) = "40" by decide +kernel, (C87_large _ _).1,
    (C87_large (fun _ _ => 0) (fun _ => none)).2] at h1
  exact absurd h1 (by decide +kernel)

/-- **C87**: odd exponents beyond 53 bits are read as even ones, and zero has reciprocals. -/
theorem C87_edge (frac : ℚ → ℚ → ℚ) (ext : String → Option F64) :
    mathPow frac ext "-1" "9007199254740993" = "1.000000" ∧ mathPow frac ext "0" "-1" = "+Inf" ∧ mathPow frac ext "-9" "0.5" = "NaN" := by
  have h1 : mathPow (fun _ _ => 0) (fun _ => none) "-1" "9007199254740993" = "1.000000" := by decide +kernel
  have h2 : mathPow (fun _ _ => 0) (fun _ => none) "0" "-1" = "+Inf" := by decide +kernel
  have h3 : mathPow (fun _ _ => 0) (fun _ => none) "-9" "0.5" = "NaN" := by decide +kernel
  refine ⟨?_, ?_, ?_⟩
  · rw [← h1, mathPow_frac frac (fun _ _ => 0) ext (parse_concrete ext (by decide +kernel : parseF64 (fun _ => none) "-1" = some (.fin ⟨true, 1⟩)) rfl)
      (parse_concrete ext (by decide +kernel : parseF64 (fun _ => none) "9007199254740993" = some (.fin ⟨false, 9007199254740992⟩)) rfl)
      (.inl (by decide +kernel))]
    rfl
  · rw [← h2, mathPow_frac frac (fun _ _ => 0) ext (parse_concrete ext (by decide +kernel : parseF64 (fun _ => none) "0" = some (.fin ⟨false, 0⟩)) rfl)
      (parse_concrete ext (by decide +kernel : parseF64 (fun _ => none) "-1" = some (.fin ⟨true, 1⟩)) rfl) (.inr (.inr rfl))]
    rfl
  · rw [← h3, mathPow_frac frac (fun _ _ => 0) ext (parse_concrete ext (by decide +kernel : parseF64 (fun _ => none) "-9" = some (.fin ⟨true, 9⟩)) rfl)
      (parse_concrete ext (by decide +kernel : parseF64 (fun _ => none) "0.5" = some (.fin ⟨false, 1 / 2⟩)) rfl) (.inr (.inl (by norm_num)))]
    rfl

/-! ## all assumptions hold together -/

/-- seven to the power of eighteen, two to the power of a hundred -/
example (frac : ℚ → ℚ → ℚ) (ext : String → Option F64) : mathPow frac ext "7" "18" = "1628413597910449.000000" ∧
    mathPow frac ext "-2" "101" = "-2535301200456458802993406410752.000000" ∧ mathPow frac ext "10" "-3" = "0.001000" := by
  have h1 := C87_partial frac ext (x := 7) (n := 18) (by norm_num) (by norm_num) ⟨7 ^ 18, 0, by norm_num, by norm_num⟩ (by
    exact lt_of_lt_of_le (by norm_num : 7 ^ 18 < 2 ^ 53) (Nat.pow_le_pow_right (by norm_num) (by norm_num)))
  have h2 := C87_partial frac ext (x := -2) (n := 101) (by norm_num) (by norm_num) ⟨1, 101, by norm_num, by norm_num⟩ (by
    exact Nat.pow_lt_pow_right (by norm_num) (by norm_num))
  have h3 := C87_negative frac ext (x := 10) (by norm_num) (n := 3) (by norm_num) (by norm_num) ⟨10 ^ 3, 0, by norm_num, by norm_num⟩ (by
    exact lt_of_lt_of_le (by norm_num : 10 ^ 3 < 2 ^ 53) (Nat.pow_le_pow_right (by norm_num) (by norm_num)))
  refine ⟨h1.trans (by decide +kernel), h2.trans (by decide +kernel), h3.trans ?_⟩
  have h : mathDiv (fun _ => none) "1" (toString ((10 : ℤ) ^ 3)) = "0.001000" := by decide +kernel
  exact h

/-- the cube root of 27 -/
example : ∃ frac, NearPow frac ∧ ∃ v : ℚ, Denotes (mathPow frac (fun _ => none) "27" (mathDiv (fun _ => none) "1" "3")) v ∧ v < 3 := by
  obtain ⟨frac, h⟩ := nearPow_exists
  exact ⟨frac, h, C87_cube h _ (n := 3) (by norm_num) (by norm_num)⟩

end Fmr
