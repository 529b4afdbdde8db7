import Verif.Props.Pow

/-!
# C106: a fraction of a number
-/

namespace Fmr

/-- C106 as claimed: `mul(n, div(a, b))`, which the shipped grammars write for "n 的 b 分之 a", is `a / b` times `n`, if that has at
most ten digits. -/
def C106_statement : Prop :=
  ∀ (ext : String → Option BF) (ext' : String → Option F64) (n a b : ℤ), b ≠ 0 → TenSig ((n : ℚ) * (a / b)) →
    1 / 10 ^ 4 ≤ |(n : ℚ) * (a / b)| → |(n : ℚ) * (a / b)| < 10 ^ 10 →
    Denotes (mathMul ext (toString n) (mathDiv ext' (toString a) (toString b))) ((n : ℚ) * (a / b))

/-- a text with six digits after the point denotes a number of millionths -/
theorem sixDigits_millionths {s : String} {v : ℚ} (h6 : SixDigits s) (hv : Denotes s v) : ∃ k : ℤ, v = k / 10 ^ 6 := by
  obtain ⟨ip, fp, e, hl, hd⟩ := h6
  obtain ⟨neg, ip', fp', h0, hd', hl', e', rfl⟩ := hv
  have hdot : ('.').isDigit = false := by decide
  have hne : fp' ≠ [] := by
    rintro rfl
    have hm : '.' ∈ s.toList := by rw [e]; simp
    rw [e', if_pos rfl, List.append_nil] at hm
    rcases List.mem_append.1 hm with hm | hm
    · cases neg <;> simp at hm
    · have := hd' '.' (by simpa using hm)
      rw [hdot] at this
      cases this
  rw [if_neg hne] at e'
  have hfp : fp' = fp := by
    have he : ip ++ '.' :: fp = ((if neg then ['-'] else []) ++ ip') ++ '.' :: fp' := e.symm.trans e'
    have aux : ∀ (x y u v : List Char), '.' ∉ u → '.' ∉ v → x ++ '.' :: u = y ++ '.' :: v → v = u := by
      intro x y u v hu hv h
      rcases List.append_eq_append_iff.1 h with ⟨l, h1, h2⟩ | ⟨l, h1, h2⟩
      · cases l with
        | nil => simpa using h2.symm
        | cons c l =>
          rw [List.cons_append, List.cons.injEq] at h2
          exact absurd (by rw [h2.2]; simp) hu
      · cases l with
        | nil => simpa using h2
        | cons c l =>
          rw [List.cons_append, List.cons.injEq] at h2
          exact absurd (by rw [h2.2]; simp) hv
    refine aux _ _ _ _ (fun hm => ?_) (fun hm => ?_) he
    · have := hd _ hm
      rw [hdot] at this
      cases this
    · have := hd' _ (List.mem_append_right _ hm)
      rw [hdot] at this
      cases this
  subst hfp
  rw [hl]
  cases neg
  · exact ⟨digitsVal (ip' ++ fp'), by simp⟩
  · exact ⟨-digitsVal (ip' ++ fp'), by push_cast; simp; ring⟩

/-- the quotient that is passed on: `a / b` in millionths, which is exact if and only if `b` divides `10^6 * a` -/
theorem div_millionths (ext : String → Option F64) {a b : ℤ} (hb : b ≠ 0) (h1 : |a| ≤ 4500000000) (h2 : |b| < 2 ^ 53) :
    ∃ k : ℤ, Denotes (mathDiv ext (toString a) (toString b)) ((k : ℚ) / 10 ^ 6) ∧ |(k : ℚ) / 10 ^ 6 - a / b| ≤ 1 / (2 * 10 ^ 6) ∧
      ((k : ℚ) / 10 ^ 6 = a / b ↔ b ∣ 10 ^ 6 * a) := by
  obtain ⟨h6, v, hv, herr⟩ := C62_partial ext hb h1 h2
  obtain ⟨k, rfl⟩ := sixDigits_millionths h6 hv
  have hb' : (b : ℚ) ≠ 0 := by exact_mod_cast hb
  refine ⟨k, hv, herr, ?_, ?_⟩
  · intro e
    rw [div_eq_div_iff (by norm_num) hb'] at e
    refine ⟨k, ?_⟩
    have : ((k * b : ℤ) : ℚ) = ((a * 10 ^ 6 : ℤ) : ℚ) := by push_cast; exact e
    have := Int.cast_injective this
    linarith
  · rintro ⟨c, hc⟩
    have hq : (a : ℚ) / b = c / 10 ^ 6 := by
      rw [div_eq_div_iff hb' (by norm_num)]
      have : ((10 ^ 6 * a : ℤ) : ℚ) = ((b * c : ℤ) : ℚ) := by rw [hc]
      push_cast at this
      linarith
    rw [hq] at herr ⊢
    have hkc : |(k : ℚ) - c| < 1 := by
      rw [← sub_div, abs_div, abs_of_pos (by norm_num : (0 : ℚ) < 10 ^ 6), div_le_div_iff₀ (by norm_num) (by norm_num)] at herr
      linarith
    have : |k - c| < 1 := by exact_mod_cast hkc
    rw [Int.abs_lt_one_iff, sub_eq_zero] at this
    rw [this]

/-- C106, exactly: the result is `n` times the quotient in millionths, so it is right if and only if `b` divides `10^6 * a`. -/
theorem C106_exact (ext : String → Option BF) (ext' : String → Option F64) {n a b : ℤ} (hn : n ≠ 0) (hb : b ≠ 0)
    (h1 : |a| ≤ 4500000000) (h2 : |b| < 2 ^ 53) :
    ∃ k : ℤ, |(k : ℚ) / 10 ^ 6 - a / b| ≤ 1 / (2 * 10 ^ 6) ∧
      (TenSig ((n : ℚ) * (k / 10 ^ 6)) → 1 / 10 ^ 4 ≤ |(n : ℚ) * (k / 10 ^ 6)| → |(n : ℚ) * (k / 10 ^ 6)| < 10 ^ 10 →
        Denotes (mathMul ext (toString n) (mathDiv ext' (toString a) (toString b))) ((n : ℚ) * (k / 10 ^ 6)) ∧
        (Denotes (mathMul ext (toString n) (mathDiv ext' (toString a) (toString b))) ((n : ℚ) * (a / b)) ↔ b ∣ 10 ^ 6 * a)) := by
  obtain ⟨k, hk, herr, hdiv⟩ := div_millionths ext' hb h1 h2
  refine ⟨k, herr, fun t1 t2 t3 => ?_⟩
  have hm := C61_mul_partial ext (denotes_int n) hk (.inr ⟨t1, t2, t3⟩)
  refine ⟨hm, fun h => ?_, fun h => ?_⟩
  · have hn' : (n : ℚ) ≠ 0 := by exact_mod_cast hn
    exact hdiv.1 (mul_left_cancel₀ hn' (hm.unique h))
  · rw [← hdiv.2 h]
    exact hm

/-- C106 if the quotient has at most six digits after the point. -/
theorem C106_partial (ext : String → Option BF) (ext' : String → Option F64) {n a b : ℤ} (hb : b ≠ 0)
    (h1 : |a| ≤ 4500000000) (h2 : |b| < 2 ^ 53) (h6 : b ∣ 10 ^ 6 * a)
    (t1 : TenSig ((n : ℚ) * (a / b))) (t2 : 1 / 10 ^ 4 ≤ |(n : ℚ) * (a / b)|) (t3 : |(n : ℚ) * (a / b)| < 10 ^ 10) :
    Denotes (mathMul ext (toString n) (mathDiv ext' (toString a) (toString b))) ((n : ℚ) * (a / b)) := by
  obtain ⟨k, hk, -, hdiv⟩ := div_millionths ext' hb h1 h2
  rw [hdiv.2 h6] at hk
  exact C61_mul_partial ext (denotes_int n) hk (.inr ⟨t1, t2, t3⟩)

/-- A third of three times `k` is less than `k`, by `k` millionths. -/
theorem C106_thirds (ext : String → Option BF) (ext' : String → Option F64) {k : ℕ} (h0 : 0 < k) (h : k ≤ 10000) :
    Denotes (mathMul ext (toString (3 * k : ℤ)) (mathDiv ext' "1" "3")) (k - k / 10 ^ 6) ∧
    ¬ Denotes (mathMul ext (toString (3 * k : ℤ)) (mathDiv ext' "1" "3")) k := by
  have hd : Denotes (mathDiv ext' "1" "3") (333333 / 10 ^ 6) := by
    rw [div_third]
    exact ⟨false, ['0'], "333333".toList, by decide, by decide, by decide, by decide, by
      have : digitsVal (['0'] ++ "333333".toList) = 333333 := by decide +kernel
      have l : "333333".toList.length = 6 := by decide
      rw [this, l]; norm_num⟩
  have hk1 : (1 : ℚ) ≤ k := by exact_mod_cast h0
  have hk2 : (k : ℚ) ≤ 10000 := by exact_mod_cast h
  have e : ((3 * k : ℤ) : ℚ) * (333333 / 10 ^ 6) = k - k / 10 ^ 6 := by push_cast; ring
  have hpos : 0 < (k : ℚ) - k / 10 ^ 6 := by linarith
  have hm := C61_mul_partial ext (denotes_int (3 * k)) hd (.inr ⟨⟨1, k * 999999, -6, .inl rfl, by omega, by
    rw [e]; push_cast; rw [zpow_neg]; norm_num; ring⟩, by rw [e, abs_of_pos hpos]; linarith, by rw [e, abs_of_pos hpos]; linarith⟩)
  rw [e] at hm
  refine ⟨hm, fun h2 => ?_⟩
  have := hm.unique h2
  linarith

/-- C106 is false: a third of six is 1.999998. -/
theorem C106_false : ¬ C106_statement := by
  intro h
  have := h (fun _ => none) (fun _ => none) (3 * (2 : ℕ)) 1 3 (by decide) ⟨1, 2, 0, .inl rfl, by norm_num, by norm_num⟩
    (by norm_num) (by norm_num)
  refine (C106_thirds (fun _ => none) (fun _ => none) (k := 2) (by decide) (by decide)).2 ?_
  have e : (((3 * (2 : ℕ) : ℤ) : ℚ) * ((1 : ℤ) / (3 : ℤ))) = (2 : ℕ) := by norm_num
  rw [e] at this
  exact this

/-- Non-vacuity: three quarters of twelve are nine, and a third of six is 1.999998. -/
example : (4 : ℤ) ∣ 10 ^ 6 * 3 ∧ TenSig (((12 : ℤ) : ℚ) * ((3 : ℤ) / (4 : ℤ))) ∧
    mathMul (fun _ => none) "12" (mathDiv (fun _ => none) "3" "4") = "9" ∧
    mathMul (fun _ => none) "6" (mathDiv (fun _ => none) "1" "3") = "1.999998" :=
  ⟨by decide, ⟨1, 9, 0, .inl rfl, by norm_num, by norm_num⟩, by decide +kernel, by decide +kernel⟩

end Fmr
