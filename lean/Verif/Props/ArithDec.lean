import Verif.Props.Arith

/-!
# C61: decimal arithmetic of the built-in functions
-/

namespace Fmr

/-- the value of a string of digits -/
def digitsVal (ds : List Char) : ℕ := Nat.ofDigitChars 10 ds 0

/-- A decimal text: perhaps a minus sign, at least one digit, perhaps a point and at most 55 digits. `Denotes s v`:
its value is `v`. -/
def Denotes (s : String) (v : ℚ) : Prop :=
  ∃ (neg : Bool) (ip fp : List Char), ip ≠ [] ∧ (∀ c ∈ ip ++ fp, c.isDigit = true) ∧ fp.length ≤ 55 ∧
    s.toList = (if neg then ['-'] else []) ++ ip ++ (if fp = [] then [] else '.' :: fp) ∧
    v = (if neg then -1 else 1) * ((digitsVal (ip ++ fp) : ℚ) / 10 ^ fp.length)

/-- the number a `big.Float` stands for -/
def BF.val (x : BF) : ℚ := if x.neg then -x.abs else x.abs

theorem digitsVal_append (a b : List Char) : digitsVal (a ++ b) = digitsVal a * 10 ^ b.length + digitsVal b := by
  unfold digitsVal
  rw [Nat.ofDigitChars_append, Nat.ofDigitChars_eq_ofDigitChars_zero, Nat.mul_comm]

theorem digitsVal_zeros (k : ℕ) : digitsVal (List.replicate k '0') = 0 := by
  unfold digitsVal
  rw [Nat.ofDigitChars_replicate_zero, Nat.mul_zero]

/-! ## reading -/

theorem span_digits : ∀ {ip fp : List Char}, (∀ c ∈ ip, c.isDigit = true) →
    (ip ++ '.' :: fp).takeWhile Char.isDigit = ip ∧ (ip ++ '.' :: fp).dropWhile Char.isDigit = '.' :: fp
  | [], fp, _ => ⟨rfl, rfl⟩
  | c :: ip, fp, h => by
    have := span_digits (ip := ip) (fp := fp) (fun d hd => h d (by simp [hd]))
    rw [List.cons_append, List.takeWhile_cons_of_pos (h c (by simp)), List.dropWhile_cons_of_pos (h c (by simp)),
      this.1, this.2]
    exact ⟨rfl, rfl⟩

theorem plainDec_dec {ip fp : List Char} (h0 : ip ≠ []) (hd : ∀ c ∈ ip ++ fp, c.isDigit = true)
    (hl : fp.length ≤ 55) :
    plainDec (ip ++ (if fp = [] then [] else '.' :: fp)) = some (digitsVal (ip ++ fp), fp.length) := by
  have hip : ∀ c ∈ ip, c.isDigit = true := fun c hc => hd c (by simp [hc])
  by_cases hf : fp = []
  · subst hf
    have := span_all (p := Char.isDigit) hip
    unfold plainDec
    simp only [if_true, List.append_nil]
    rw [this.1, this.2]
    simp only []
    rw [if_neg h0]
    rfl
  · rw [if_neg hf]
    have := span_digits (fp := fp) hip
    unfold plainDec
    simp only []
    rw [this.1, this.2]
    simp only []
    rw [if_pos]
    · rfl
    · refine ⟨trivial, ?_, by simp [h0], hl⟩
      rw [List.all_eq_true]
      exact fun c hc => hd c (by simp [hc])

/-- scanning a decimal text: its value, rounded -/
theorem scanBF_dec (ext : String → Option BF) {x : String} {v : ℚ} (h : Denotes x v) :
    ∃ neg, scanBF ext x = some ⟨neg, round64 |v|⟩ ∧ v = (if neg then -|v| else |v|) := by
  obtain ⟨neg, ip, fp, h0, hd, hl, hx, hv⟩ := h
  have hp := plainDec_dec h0 hd hl
  obtain ⟨c, l, hc⟩ := List.exists_cons_of_ne_nil h0
  have hs := scanBF_signed ext (neg := neg) (by rw [hx, List.append_assoc]; rfl)
    ⟨c, l ++ _, by rw [hc, List.cons_append], hd c (by rw [hc]; simp)⟩ hp
  have hn : (0 : ℚ) ≤ (digitsVal (ip ++ fp) : ℚ) / 10 ^ fp.length := by positivity
  have ha : |v| = (digitsVal (ip ++ fp) : ℚ) / 10 ^ fp.length := by
    rw [hv]
    cases neg with
    | true => rw [if_pos rfl, neg_one_mul, abs_neg, abs_of_nonneg hn]
    | false => rw [if_neg (by decide), one_mul, abs_of_nonneg hn]
  refine ⟨neg, by rw [hs, ha], ?_⟩
  rw [ha, hv]
  cases neg <;> simp

/-! ## computing -/

theorem round64_nonneg {q : ℚ} (h : 0 ≤ q) : 0 ≤ round64 q := by
  rcases h.eq_or_lt with h | h
  · rw [← h, round64_zero]
  · exact (round64_pos h).le

theorem round64_err' {q : ℚ} (h : 0 ≤ q) : |round64 q - q| ≤ q / 2 ^ 64 := by
  rcases h.eq_or_lt with h | h
  · rw [← h, round64_zero]; simp
  · exact round64_err h

/-- the error of a signed rounding -/
theorem val_round {neg : Bool} {q : ℚ} (h : 0 ≤ q) :
    |BF.val ⟨neg, round64 q⟩ - (if neg then -q else q)| ≤ q / 2 ^ 64 := by
  have := round64_err' h
  unfold BF.val
  cases neg with
  | true =>
    simp only [if_true]
    rwa [show -round64 q - -q = -(round64 q - q) by ring, abs_neg]
  | false => simpa using this

theorem abs_val {x : BF} (h : 0 ≤ x.abs) : |x.val| = x.abs := by
  unfold BF.val
  split
  · rw [abs_neg, abs_of_nonneg h]
  · rw [abs_of_nonneg h]

/-- a sum is the exact sum rounded -/
theorem add_err {x y : BF} (hx : 0 ≤ x.abs) (hy : 0 ≤ y.abs) :
    0 ≤ (x.add y).abs ∧ |(x.add y).val - (x.val + y.val)| ≤ |x.val + y.val| / 2 ^ 64 ∧
    (x.val + y.val = 0 → (x.add y).abs = 0) := by
  obtain ⟨nx, ax⟩ := x
  obtain ⟨ny, ay⟩ := y
  simp only at hx hy
  unfold BF.add
  simp only []
  have nn : ∀ q : ℚ, (0 : ℚ) ≤ |q| / 2 ^ 64 := fun q => by positivity
  split_ifs with h1 h2 h3 h4 h5 h6
  · obtain ⟨rfl, rfl⟩ := h1
    simp [BF.val]
  · subst h2
    refine ⟨hy, ?_, ?_⟩
    · simp [BF.val]; split <;> positivity
    · simp only [BF.val]
      intro h
      cases ny <;> cases nx <;> simpa using h
  · subst h3
    refine ⟨hx, ?_, ?_⟩
    · simp [BF.val]; split <;> positivity
    · simp only [BF.val]
      intro h
      cases ny <;> cases nx <;> simpa using h
  · subst h4
    have hp : 0 ≤ ax + ay := by linarith
    have e : BF.val ⟨nx, ax⟩ + BF.val ⟨nx, ay⟩ = if nx then -(ax + ay) else ax + ay := by
      cases nx <;> simp [BF.val]; ring
    have e' : |BF.val ⟨nx, ax⟩ + BF.val ⟨nx, ay⟩| = ax + ay := by
      rw [e]
      cases nx
      · rw [if_neg (by decide), abs_of_nonneg hp]
      · rw [if_pos rfl, abs_neg, abs_of_nonneg hp]
    refine ⟨round64_nonneg hp, ?_, ?_⟩
    · rw [e', e]; exact val_round hp
    · intro h0
      rw [h0, abs_zero] at e'
      show round64 (ax + ay) = 0
      rw [← e', round64_zero]
  · subst h5
    refine ⟨le_refl _, ?_, fun _ => rfl⟩
    have e : BF.val ⟨nx, ax⟩ + BF.val ⟨ny, ax⟩ = 0 := by
      cases nx <;> cases ny <;> simp [BF.val] at h4 ⊢
    rw [e]
    simp [BF.val]
  · have hp : 0 < ax - ay := by linarith
    have e : BF.val ⟨nx, ax⟩ + BF.val ⟨ny, ay⟩ = if nx then -(ax - ay) else ax - ay := by
      cases nx <;> cases ny <;> simp [BF.val] at h4 ⊢ <;> ring
    have e' : |BF.val ⟨nx, ax⟩ + BF.val ⟨ny, ay⟩| = ax - ay := by
      rw [e]
      cases nx
      · rw [if_neg (by decide), abs_of_pos hp]
      · rw [if_pos rfl, abs_neg, abs_of_pos hp]
    refine ⟨round64_nonneg hp.le, ?_, ?_⟩
    · rw [e', e]; exact val_round hp.le
    · intro h0
      rw [h0, abs_zero] at e'
      exact absurd e' hp.ne
  · have hp : 0 < ay - ax := by
      have : ax < ay := lt_of_le_of_ne (not_lt.1 h6) h5
      linarith
    have e : BF.val ⟨nx, ax⟩ + BF.val ⟨ny, ay⟩ = if !nx then -(ay - ax) else ay - ax := by
      cases nx <;> cases ny <;> simp [BF.val] at h4 ⊢ <;> ring
    have e' : |BF.val ⟨nx, ax⟩ + BF.val ⟨ny, ay⟩| = ay - ax := by
      rw [e]
      cases nx
      · rw [if_pos (by decide), abs_neg, abs_of_pos hp]
      · rw [if_neg (by decide), abs_of_pos hp]
    refine ⟨round64_nonneg hp.le, ?_, ?_⟩
    · rw [e', e]; exact val_round hp.le
    · intro h0
      rw [h0, abs_zero] at e'
      exact absurd e' hp.ne

/-! ## printing -/

/-- format 'f' denotes the digits at the given position -/
theorem fmtF_denotes {mant : List Char} {exp : ℤ} (neg : Bool) (h0 : mant ≠ []) (hd : ∀ c ∈ mant, c.isDigit = true)
    (hl : mant.length - exp ≤ 55) :
    Denotes (String.ofList ((if neg then ['-'] else []) ++ fmtF mant exp))
      ((if neg then -1 else 1) * ((digitsVal mant : ℚ) * 10 ^ (exp - mant.length))) := by
  have hpos : 0 < mant.length := List.length_pos_iff.2 h0
  rcases lt_or_ge 0 exp with he | he
  · obtain ⟨e, rfl⟩ : ∃ e : ℕ, exp = e := ⟨exp.toNat, by omega⟩
    have hF : fmtF mant e = (mant.take e ++ List.replicate (e - mant.length) '0') ++
        (if mant.drop e = [] then [] else '.' :: mant.drop e) := by
      unfold fmtF
      simp only [Int.toNat_natCast]
      rw [if_neg (show ¬ (e : ℤ) ≤ 0 by omega), if_neg (show ¬ (e : ℤ) < 0 by omega)]
      split <;> simp
    refine ⟨neg, mant.take e ++ List.replicate (e - mant.length) '0', mant.drop e, ?_, ?_, ?_, ?_, ?_⟩
    · intro h
      have := congrArg List.length h
      rw [List.length_append, List.length_take, List.length_replicate, List.length_nil] at this
      omega
    · intro c hc
      rw [List.mem_append, List.mem_append] at hc
      rcases hc with (hc | hc) | hc
      · exact hd c (List.mem_of_mem_take hc)
      · rw [List.eq_of_mem_replicate hc]; decide
      · exact hd c (List.mem_of_mem_drop hc)
    · rw [List.length_drop]; omega
    · rw [String.toList_ofList, hF]; simp only [List.append_assoc]
    · congr 1
      rcases Nat.lt_or_ge e mant.length with hlt | hge
      · rw [show e - mant.length = 0 by omega, List.replicate_zero, List.append_nil, List.take_append_drop,
          List.length_drop]
        have : ((e : ℤ) - mant.length) = -((mant.length - e : ℕ) : ℤ) := by omega
        rw [this, zpow_neg, zpow_natCast]
        rfl
      · rw [List.drop_eq_nil_of_le hge, List.take_of_length_le hge, List.append_nil, digitsVal_append,
          digitsVal_zeros, List.length_replicate, List.length_nil, pow_zero, div_one, Nat.add_zero]
        have : ((e : ℤ) - mant.length) = ((e - mant.length : ℕ) : ℤ) := by omega
        rw [this, zpow_natCast]
        push_cast
        rfl
  · have hF : fmtF mant exp = ['0'] ++ (if (List.replicate (-exp).toNat '0' ++ mant) = [] then [] else
        '.' :: (List.replicate (-exp).toNat '0' ++ mant)) := by
      unfold fmtF
      simp only []
      rw [if_pos he]
      have hne : List.replicate (-exp).toNat '0' ++ mant ≠ [] := by simp [h0]
      rw [if_neg hne]
      by_cases hz : exp < 0
      · rw [if_pos hz, if_neg hne]
      · have : exp = 0 := by omega
        subst this
        simp [h0]
    refine ⟨neg, ['0'], List.replicate (-exp).toNat '0' ++ mant, by simp, ?_, ?_, ?_, ?_⟩
    · intro c hc
      rw [List.mem_append, List.mem_append] at hc
      rcases hc with hc | hc | hc
      · rw [List.mem_singleton.1 hc]; decide
      · rw [List.eq_of_mem_replicate hc]; decide
      · exact hd c hc
    · rw [List.length_append, List.length_replicate]; omega
    · rw [String.toList_ofList, hF, List.append_assoc]
    · congr 1
      have e1 : digitsVal (['0'] ++ (List.replicate (-exp).toNat '0' ++ mant)) = digitsVal mant := by
        rw [digitsVal_append, digitsVal_append, digitsVal_zeros]
        have : digitsVal ['0'] = 0 := by decide
        rw [this]; simp
      rw [e1, List.length_append, List.length_replicate]
      have : exp - mant.length = -(((-exp).toNat + mant.length : ℕ) : ℤ) := by omega
      rw [this, zpow_neg, zpow_natCast]
      rfl

/-- A result close enough to `±c·10^t`, not too large or small for a plain text, prints as that. -/
theorem text_near {x : BF} {c : ℕ} {t : ℤ} (ha : 0 ≤ x.abs) (hc : 0 < c) (hc10 : c < 10 ^ 10) {s : ℚ}
    (hs : s = 1 ∨ s = -1) (hq : |x.val - s * (c * 10 ^ t)| < 1 / 2 * 10 ^ (t + Nat.log 10 c - 10))
    (h1 : -4 ≤ t + Nat.log 10 c) (h2 : t + Nat.log 10 c ≤ 9) : Denotes x.text (s * (c * 10 ^ t)) := by
  have hL : Nat.log 10 c ≤ 9 := by
    have := Nat.log_lt_of_lt_pow hc.ne' hc10
    omega
  have hlo : 10 ^ Nat.log 10 c ≤ c := Nat.pow_log_le_self 10 hc.ne'
  have hv : (10 : ℚ) ^ (t + Nat.log 10 c) ≤ c * 10 ^ t := by
    rw [zpow_add₀ (by norm_num), mul_comm, zpow_natCast]
    exact mul_le_mul_of_nonneg_right (by exact_mod_cast hlo) (pow10_pos t).le
  have hu : (10 : ℚ) ^ (t + Nat.log 10 c - 10) < 10 ^ (t + Nat.log 10 c) :=
    zpow_lt_zpow_right₀ (by norm_num) (by omega)
  have hp := pow10_pos (t + Nat.log 10 c - 10)
  -- the sign is right
  obtain ⟨neg, a⟩ := x
  simp only at ha
  have hsign : s = (if neg then -1 else 1) := by
    rw [abs_lt] at hq
    cases neg with
    | true =>
      rcases hs with rfl | rfl
      · simp only [BF.val, if_true] at hq; linarith [hq.1]
      · rfl
    | false =>
      rcases hs with rfl | rfl
      · rfl
      · simp only [BF.val] at hq
        rw [if_neg (by decide)] at hq
        linarith [hq.2]
  have hq' : |a - c * 10 ^ t| < 1 / 2 * 10 ^ (t + Nat.log 10 c - 10) := by
    rw [hsign] at hq
    cases neg with
    | true =>
      simp only [BF.val, if_true] at hq
      rwa [show -a - -1 * (c * 10 ^ t) = -(a - c * 10 ^ t) by ring, abs_neg] at hq
    | false =>
      simp only [BF.val] at hq
      rw [if_neg (by decide), if_neg (by decide), one_mul] at hq
      exact hq
  have hten := tenDigits_near hc hc10 hq'
  have ha0 : a ≠ 0 := by
    rintro rfl
    rw [abs_lt] at hq'
    linarith [hq'.1]
  obtain ⟨k, hk⟩ := trimZeros_spec (Nat.toDigits 10 c)
  have hlen : (trimZeros (Nat.toDigits 10 c)).length + k = Nat.log 10 c + 1 := by
    rw [← length_toDigits hc]
    conv => rhs; rw [hk]
    simp
  have hdv : digitsVal (trimZeros (Nat.toDigits 10 c)) * 10 ^ k = c := by
    have : digitsVal (Nat.toDigits 10 c) = c := Nat.ofDigitChars_ten_toDigits
    rw [hk, digitsVal_append, digitsVal_zeros, List.length_replicate, Nat.add_zero] at this
    exact this
  have hm0 : trimZeros (Nat.toDigits 10 c) ≠ [] := by
    intro h
    rw [h] at hdv
    have : digitsVal [] = 0 := rfl
    rw [this] at hdv
    omega
  have hdig : ∀ d ∈ trimZeros (Nat.toDigits 10 c), d.isDigit = true := by
    intro d hd
    refine digit_toDigits (n := c) ?_
    rw [hk]
    exact List.mem_append_left _ hd
  have htext : BF.text ⟨neg, a⟩ = String.ofList ((if neg then ['-'] else []) ++
      fmtF (trimZeros (Nat.toDigits 10 c)) (t + Nat.log 10 c + 1)) := by
    unfold BF.text
    simp only []
    rw [if_neg ha0, hten]
    simp only []
    rw [if_neg (show ¬ (t + (Nat.log 10 c : ℤ) + 1 - 1 < -4 ∨ 10 ≤ t + (Nat.log 10 c : ℤ) + 1 - 1) by omega)]
  have := fmtF_denotes (exp := t + Nat.log 10 c + 1) neg hm0 hdig (by omega)
  rw [htext, hsign]
  convert this using 2
  have e : t + (Nat.log 10 c : ℤ) + 1 - (trimZeros (Nat.toDigits 10 c)).length = t + k := by omega
  rw [e, zpow_add₀ (by norm_num), zpow_natCast]
  conv => lhs; rw [← hdv]
  push_cast
  ring

theorem denotes_zero (neg : Bool) : Denotes (BF.text ⟨neg, 0⟩) 0 := by
  refine ⟨neg, ['0'], [], by simp, by simp, by simp, ?_, ?_⟩
  · rw [text_zero]; cases neg <;> rfl
  · have : digitsVal (['0'] ++ []) = 0 := by decide
    rw [this]; simp

/-! ## the theorems -/

/-- a number with at most ten significant digits -/
def TenSig (v : ℚ) : Prop := ∃ (s : ℚ) (c : ℕ) (t : ℤ), (s = 1 ∨ s = -1) ∧ c < 10 ^ 10 ∧ v = s * (c * 10 ^ t)

/-- Full statement of C61: `sum`, `sub` and `mul` compute with decimal numbers. -/
def C61_statement : Prop :=
  ∀ (ext : String → Option BF) (x y : String) (a b : ℚ), Denotes x a → Denotes y b →
    Denotes (mathSum ext x y) (a + b) ∧ Denotes (mathSub ext x y) (a - b) ∧ Denotes (mathMul ext x y) (a * b) ∧
    Denotes (mathNeg ext x) (-a)

/-- A `big.Float` within a relative `1 / (2·10^11)` of a number of ten digits prints as that number. -/
theorem text_ten {x : BF} {v : ℚ} (ha : 0 ≤ x.abs) (hv : TenSig v) (h1 : 1 / 10 ^ 4 ≤ |v|) (h2 : |v| < 10 ^ 10)
    (he : |x.val - v| * (2 * 10 ^ 11) ≤ |v|) : Denotes x.text v := by
  obtain ⟨s, c, t, hs, hc, rfl⟩ := hv
  have hp := pow10_pos t
  have habs : |s * ((c : ℚ) * 10 ^ t)| = c * 10 ^ t := by
    rw [abs_mul, abs_of_nonneg (show (0 : ℚ) ≤ c * 10 ^ t by positivity)]
    rcases hs with rfl | rfl <;> simp
  rw [habs] at h1 h2 he
  have hc0 : 0 < c := by
    rcases Nat.eq_zero_or_pos c with rfl | h
    · norm_num at h1
    · exact h
  have hlo : 10 ^ Nat.log 10 c ≤ c := Nat.pow_log_le_self 10 hc0.ne'
  have hhi : c < 10 ^ (Nat.log 10 c + 1) := Nat.lt_pow_succ_log_self (by norm_num) c
  have hlo' : (10 : ℚ) ^ (t + Nat.log 10 c) ≤ c * 10 ^ t := by
    rw [zpow_add₀ (by norm_num), mul_comm, zpow_natCast]
    exact mul_le_mul_of_nonneg_right (by exact_mod_cast hlo) hp.le
  have hhi' : (c : ℚ) * 10 ^ t < 10 ^ (t + Nat.log 10 c + 1) := by
    rw [add_assoc, zpow_add₀ (by norm_num), mul_comm]
    have : ((c : ℚ)) < (10 : ℚ) ^ ((Nat.log 10 c : ℤ) + 1) := by
      have h := (Nat.cast_lt (α := ℚ)).2 hhi
      push_cast at h
      exact_mod_cast h
    exact mul_lt_mul_of_pos_left this hp
  refine text_near ha hc0 hc hs ?_ ?_ ?_
  · have e : (10 : ℚ) ^ (t + Nat.log 10 c + 1) = 10 ^ (t + Nat.log 10 c - 10) * 10 ^ 11 := by
      rw [show t + (Nat.log 10 c : ℤ) + 1 = (t + Nat.log 10 c - 10) + (11 : ℕ) by push_cast; ring,
        zpow_add₀ (by norm_num), zpow_natCast]
    rw [e] at hhi'
    have : |x.val - s * (c * 10 ^ t)| * 2 * 10 ^ 11 < 10 ^ (t + (Nat.log 10 c : ℤ) - 10) * 10 ^ 11 := by linarith
    have := lt_of_mul_lt_mul_right this (by positivity)
    linarith
  · by_contra hlt
    have : (10 : ℚ) ^ (t + (Nat.log 10 c : ℤ) + 1) ≤ 10 ^ (-4 : ℤ) :=
      zpow_le_zpow_right₀ (by norm_num) (by omega)
    have e : (10 : ℚ) ^ (-4 : ℤ) = 1 / 10 ^ 4 := by norm_num
    rw [e] at this
    linarith
  · by_contra hlt
    have : (10 : ℚ) ^ (10 : ℤ) ≤ 10 ^ (t + (Nat.log 10 c : ℤ)) :=
      zpow_le_zpow_right₀ (by norm_num) (by omega)
    have e : (10 : ℚ) ^ (10 : ℤ) = 10 ^ 10 := by norm_num
    rw [e] at this
    linarith

theorem denotes_neg_iff {x : BF} : x.negate.val = -x.val := by
  unfold BF.negate BF.val
  cases x.neg <;> simp

/-- reading, with the error -/
theorem scanBF_val (ext : String → Option BF) {x : String} {v : ℚ} (h : Denotes x v) :
    ∃ f : BF, scanBF ext x = some f ∧ 0 ≤ f.abs ∧ f.abs = round64 |v| ∧ |f.val - v| ≤ |v| / 2 ^ 64 ∧
      v = (if f.neg then -|v| else |v|) := by
  obtain ⟨neg, hs, hv⟩ := scanBF_dec ext h
  refine ⟨_, hs, round64_nonneg (abs_nonneg v), rfl, ?_, hv⟩
  have := val_round (neg := neg) (abs_nonneg v)
  rw [← hv] at this
  exact this

/-- `f` is the reading of a text of value `a` -/
structure BF.Reads (f : BF) (a : ℚ) : Prop where
  nonneg : 0 ≤ f.abs
  abs : f.abs = round64 |a|
  err : |f.val - a| ≤ |a| / 2 ^ 64
  sign : a = (if f.neg then -|a| else |a|)

theorem BF.Reads.negate {f : BF} {a : ℚ} (h : f.Reads a) : f.negate.Reads (-a) := by
  refine ⟨h.nonneg, by rw [abs_neg]; exact h.abs, ?_, ?_⟩
  · rw [denotes_neg_iff, abs_neg, show -f.val - -a = -(f.val - a) by ring, abs_neg]
    exact h.err
  · have := h.sign
    unfold BF.negate
    rw [abs_neg]
    cases hn : f.neg <;> simp [hn] at this ⊢ <;> linarith

theorem add_reads {f g : BF} {a b : ℚ} (hf : f.Reads a) (hg : g.Reads b)
    (h : a + b = 0 ∨ (TenSig (a + b) ∧ 1 / 10 ^ 4 ≤ |a + b| ∧ |a + b| < 10 ^ 10 ∧
      |a| + |b| ≤ 3 * 10 ^ 7 * |a + b|)) : Denotes (f.add g).text (a + b) := by
  obtain ⟨hn, herr, hz⟩ := add_err hf.nonneg hg.nonneg
  rcases h with h | ⟨ht, h1, h2, h3⟩
  · have hb : b = -a := by linarith
    have e : f.val + g.val = 0 := by
      have hab : g.abs = f.abs := by rw [hf.abs, hg.abs, hb, abs_neg]
      by_cases h0 : a = 0
      · have : f.abs = 0 := by rw [hf.abs, h0, abs_zero, round64_zero]
        unfold BF.val
        rw [hab, this]
        simp
      · have hpos : 0 < |a| := abs_pos.2 h0
        have s1 := hf.sign
        have s2 := hg.sign
        rw [hb, abs_neg] at s2
        unfold BF.val
        rw [hab]
        cases h1 : f.neg <;> cases h2 : g.neg <;> simp only [h1, h2, if_true] at s1 s2 ⊢ <;>
          simp at s1 s2 ⊢ <;> linarith
    have := hz e
    rw [h]
    have hx : f.add g = ⟨(f.add g).neg, 0⟩ := by rw [← this]
    rw [hx]
    exact denotes_zero _
  · refine text_ten hn ht h1 h2 ?_
    have t1 : |f.val + g.val - (a + b)| ≤ (|a| + |b|) / 2 ^ 64 := by
      have := abs_add_le (f.val - a) (g.val - b)
      have := hf.err
      have := hg.err
      rw [show f.val + g.val - (a + b) = (f.val - a) + (g.val - b) by ring, add_div]
      linarith
    have t2 : |f.val + g.val| ≤ 2 * (|a| + |b|) := by
      have h4 := abs_add_le (f.val + g.val - (a + b)) (a + b)
      have h5 := abs_add_le a b
      rw [sub_add_cancel] at h4
      have h6 : (|a| + |b|) / 2 ^ 64 ≤ |a| + |b| :=
        div_le_self (by positivity) (by norm_num)
      linarith
    have t3 : |(f.add g).val - (a + b)| ≤ 3 * (|a| + |b|) / 2 ^ 64 := by
      have h4 := abs_add_le ((f.add g).val - (f.val + g.val)) (f.val + g.val - (a + b))
      rw [sub_add_sub_cancel] at h4
      have h5 : |f.val + g.val| / 2 ^ 64 ≤ 2 * (|a| + |b|) / 2 ^ 64 := by gcongr
      have : 3 * (|a| + |b|) / 2 ^ 64 = 2 * (|a| + |b|) / 2 ^ 64 + (|a| + |b|) / 2 ^ 64 := by ring
      linarith
    have t4 : 3 * (|a| + |b|) / 2 ^ 64 ≤ 9 * 10 ^ 7 * |a + b| / 2 ^ 64 := by
      have : 3 * (|a| + |b|) ≤ 9 * 10 ^ 7 * |a + b| := by linarith
      exact div_le_div_of_nonneg_right this (by norm_num)
    have t5 : 9 * 10 ^ 7 * |a + b| / 2 ^ 64 * (2 * 10 ^ 11) ≤ |a + b| := by
      rw [div_mul_eq_mul_div, div_le_iff₀ (by norm_num)]
      have := abs_nonneg (a + b)
      norm_num
      nlinarith
    have : |(f.add g).val - (a + b)| * (2 * 10 ^ 11) ≤ 9 * 10 ^ 7 * |a + b| / 2 ^ 64 * (2 * 10 ^ 11) := by
      gcongr
      linarith
    linarith

theorem mul_val (f g : BF) : (if f.neg != g.neg then -(f.abs * g.abs) else f.abs * g.abs) = f.val * g.val := by
  unfold BF.val
  cases f.neg <;> cases g.neg <;> simp

theorem mul_reads {f g : BF} {a b : ℚ} (hf : f.Reads a) (hg : g.Reads b)
    (h : a * b = 0 ∨ (TenSig (a * b) ∧ 1 / 10 ^ 4 ≤ |a * b| ∧ |a * b| < 10 ^ 10)) :
    Denotes (f.mul g).text (a * b) := by
  rcases h with h | ⟨ht, h1, h2⟩
  · have : f.abs * g.abs = 0 := by
      rcases mul_eq_zero.1 h with h | h
      · rw [hf.abs, h, abs_zero, round64_zero, zero_mul]
      · rw [hg.abs, h, abs_zero, round64_zero, mul_zero]
    unfold BF.mul
    rw [this, round64_zero, h]
    exact denotes_zero _
  · have hp : 0 ≤ f.abs * g.abs := mul_nonneg hf.nonneg hg.nonneg
    refine text_ten (round64_nonneg hp) ht h1 h2 ?_
    have e1 : |(f.mul g).val - f.val * g.val| ≤ |f.val * g.val| / 2 ^ 64 := by
      have := val_round (neg := f.neg != g.neg) hp
      rw [mul_val] at this
      rw [show |f.val * g.val| = f.abs * g.abs by rw [abs_mul, abs_val hf.nonneg, abs_val hg.nonneg]]
      exact this
    have hA := hf.err
    have hB := hg.err
    have nA := abs_nonneg a
    have nB := abs_nonneg b
    have e2 : |f.val * g.val - a * b| ≤ 3 * (|a| * |b|) / 2 ^ 64 := by
      have t := abs_add_le ((f.val - a) * (g.val - b)) ((f.val - a) * b + a * (g.val - b))
      have t' := abs_add_le ((f.val - a) * b) (a * (g.val - b))
      rw [show f.val * g.val - a * b = (f.val - a) * (g.val - b) + ((f.val - a) * b + a * (g.val - b)) by ring]
      simp only [abs_mul] at t t' ⊢
      have b1 : |f.val - a| * |b| ≤ |a| / 2 ^ 64 * |b| := by gcongr
      have b2 : |a| * |g.val - b| ≤ |a| * (|b| / 2 ^ 64) := by gcongr
      have b3 : |f.val - a| * |g.val - b| ≤ |a| / 2 ^ 64 * |b| := by
        have : |g.val - b| ≤ |b| := le_trans hB (div_le_self nB (by norm_num))
        gcongr
      have : 3 * (|a| * |b|) / 2 ^ 64 = |a| / 2 ^ 64 * |b| + (|a| / 2 ^ 64 * |b| + |a| * (|b| / 2 ^ 64)) := by ring
      linarith
    have e3 : |f.val * g.val| ≤ 4 * (|a| * |b|) := by
      have t := abs_add_le (f.val * g.val - a * b) (a * b)
      rw [sub_add_cancel, abs_mul a b] at t
      have : 3 * (|a| * |b|) / 2 ^ 64 ≤ 3 * (|a| * |b|) := div_le_self (by positivity) (by norm_num)
      linarith
    have e4 : |(f.mul g).val - a * b| ≤ 7 * (|a| * |b|) / 2 ^ 64 := by
      have t := abs_add_le ((f.mul g).val - f.val * g.val) (f.val * g.val - a * b)
      rw [sub_add_sub_cancel] at t
      have h5 : |f.val * g.val| / 2 ^ 64 ≤ 4 * (|a| * |b|) / 2 ^ 64 := by gcongr
      have : 7 * (|a| * |b|) / 2 ^ 64 = 4 * (|a| * |b|) / 2 ^ 64 + 3 * (|a| * |b|) / 2 ^ 64 := by ring
      linarith
    have e5 : 7 * (|a| * |b|) / 2 ^ 64 * (2 * 10 ^ 11) ≤ |a * b| := by
      rw [div_mul_eq_mul_div, div_le_iff₀ (by norm_num), abs_mul]
      have : 0 ≤ |a| * |b| := by positivity
      norm_num
      nlinarith
    have : |(f.mul g).val - a * b| * (2 * 10 ^ 11) ≤ 7 * (|a| * |b|) / 2 ^ 64 * (2 * 10 ^ 11) := by gcongr
    linarith

/-- **C61**, `sum`: exact on decimal numbers when the sum has at most ten significant digits and is not smaller
than `0.0001`, and the terms do not cancel by a factor of more than thirty million. -/
theorem C61_sum_partial (ext : String → Option BF) {x y : String} {a b : ℚ} (hx : Denotes x a) (hy : Denotes y b)
    (h : a + b = 0 ∨ (TenSig (a + b) ∧ 1 / 10 ^ 4 ≤ |a + b| ∧ |a + b| < 10 ^ 10 ∧
      |a| + |b| ≤ 3 * 10 ^ 7 * |a + b|)) : Denotes (mathSum ext x y) (a + b) := by
  obtain ⟨f, hf, f1, f2, f3, f4⟩ := scanBF_val ext hx
  obtain ⟨g, hg, g1, g2, g3, g4⟩ := scanBF_val ext hy
  unfold mathSum mathCalc
  rw [hf, hg]
  exact add_reads ⟨f1, f2, f3, f4⟩ ⟨g1, g2, g3, g4⟩ h

/-- **C61**, `sub`. -/
theorem C61_sub_partial (ext : String → Option BF) {x y : String} {a b : ℚ} (hx : Denotes x a) (hy : Denotes y b)
    (h : a - b = 0 ∨ (TenSig (a - b) ∧ 1 / 10 ^ 4 ≤ |a - b| ∧ |a - b| < 10 ^ 10 ∧
      |a| + |b| ≤ 3 * 10 ^ 7 * |a - b|)) : Denotes (mathSub ext x y) (a - b) := by
  obtain ⟨f, hf, f1, f2, f3, f4⟩ := scanBF_val ext hx
  obtain ⟨g, hg, g1, g2, g3, g4⟩ := scanBF_val ext hy
  unfold mathSub mathCalc
  rw [hf, hg]
  rw [sub_eq_add_neg] at h ⊢
  rw [← abs_neg b] at h
  exact add_reads ⟨f1, f2, f3, f4⟩ (BF.Reads.negate ⟨g1, g2, g3, g4⟩) h

/-- **C61**, `mul`. -/
theorem C61_mul_partial (ext : String → Option BF) {x y : String} {a b : ℚ} (hx : Denotes x a) (hy : Denotes y b)
    (h : a * b = 0 ∨ (TenSig (a * b) ∧ 1 / 10 ^ 4 ≤ |a * b| ∧ |a * b| < 10 ^ 10)) :
    Denotes (mathMul ext x y) (a * b) := by
  obtain ⟨f, hf, f1, f2, f3, f4⟩ := scanBF_val ext hx
  obtain ⟨g, hg, g1, g2, g3, g4⟩ := scanBF_val ext hy
  unfold mathMul mathCalc
  rw [hf, hg]
  exact mul_reads ⟨f1, f2, f3, f4⟩ ⟨g1, g2, g3, g4⟩ h

/-- **C61**, `neg`. -/
theorem C61_neg_partial (ext : String → Option BF) {x : String} {a : ℚ} (hx : Denotes x a)
    (h : a = 0 ∨ (TenSig a ∧ 1 / 10 ^ 4 ≤ |a| ∧ |a| < 10 ^ 10)) : Denotes (mathNeg ext x) (-a) := by
  obtain ⟨f, hf, f1, f2, f3, f4⟩ := scanBF_val ext hx
  unfold mathNeg
  rw [hf]
  have hr := BF.Reads.negate (f := f) ⟨f1, f2, f3, f4⟩
  simp only []
  rcases h with h | ⟨ht, h1, h2⟩
  · have : f.negate = ⟨f.negate.neg, 0⟩ := by
      have := hr.abs
      rw [h, neg_zero, abs_zero, round64_zero] at this
      rw [← this]
    rw [this, h, neg_zero]
    exact denotes_zero _
  · refine text_ten hr.nonneg ?_ (by rwa [abs_neg]) (by rwa [abs_neg]) ?_
    · obtain ⟨s, c, t, hs, hc, e⟩ := ht
      refine ⟨-s, c, t, ?_, hc, by rw [e]; ring⟩
      rcases hs with rfl | rfl <;> simp
    · have := hr.err
      have n := abs_nonneg (-a)
      have : |f.negate.val - -a| * (2 * 10 ^ 11) ≤ |(-a)| / 2 ^ 64 * (2 * 10 ^ 11) := by gcongr
      refine le_trans this ?_
      rw [div_mul_eq_mul_div, div_le_iff₀ (by norm_num)]
      norm_num
      nlinarith

/-- Beyond a cancellation of that size wrong digits are printed: `9999999999.1 - 9999999999`. -/
theorem C61_cancel (ext : String → Option BF) : mathSub ext "9999999999.1" "9999999999" = "0.09999999963" := by
  have h : mathSub (fun _ => none) "9999999999.1" "9999999999" = "0.09999999963" := by decide +kernel
  have h1 : scanBF ext "9999999999.1" = scanBF (fun _ => none) "9999999999.1" := rfl
  have h2 : scanBF ext "9999999999" = scanBF (fun _ => none) "9999999999" := rfl
  unfold mathSub mathCalc at h ⊢
  rw [h1, h2]
  exact h

/-- a text denotes one number -/
theorem Denotes.unique {s : String} {v w : ℚ} (hv : Denotes s v) (hw : Denotes s w) : v = w := by
  obtain ⟨n1, e1, v1⟩ := scanBF_dec (fun _ => none) hv
  obtain ⟨n, ip, fp, h0, hd, hl, hx, rfl⟩ := hv
  obtain ⟨n', ip', fp', h0', hd', hl', hx', rfl⟩ := hw
  have key : ∀ {n : Bool} {ip fp : List Char}, ip ≠ [] → (∀ c ∈ ip ++ fp, c.isDigit = true) →
      s.toList = (if n then ['-'] else []) ++ ip ++ (if fp = [] then [] else '.' :: fp) →
      n = (s.toList.head? == some '-') ∧
      ip ++ (if fp = [] then [] else '.' :: fp) = if s.toList.head? == some '-' then s.toList.tail else s.toList := by
    intro n ip fp h0 hd hx
    obtain ⟨c, l, rfl⟩ := List.exists_cons_of_ne_nil h0
    cases n with
    | true => rw [hx]; simp
    | false =>
      have hc : c ≠ '-' := by
        rintro rfl
        have := hd '-' (by simp)
        exact absurd this (by decide)
      rw [hx]
      simp [hc]
  have k1 := key h0 hd hx
  have k2 := key h0' hd' hx'
  have p1 := plainDec_dec h0 hd hl
  have p2 := plainDec_dec h0' hd' hl'
  rw [k1.2, ← k2.2, p2] at p1
  injection p1 with p1
  injection p1 with q1 q2
  rw [k1.1, k2.1, q1, q2]

/-- The statement is false of the code. -/
theorem C61_false : ¬ C61_statement := by
  intro h
  have hx : Denotes "9999999999.1" (99999999991 / 10) :=
    ⟨false, "9999999999".toList, ['1'], by decide, by decide, by decide, by decide, by
      have : digitsVal ("9999999999".toList ++ ['1']) = 99999999991 := by decide +kernel
      rw [this]; norm_num⟩
  have hy : Denotes "9999999999" 9999999999 :=
    ⟨false, "9999999999".toList, [], by decide, by decide, by decide, by decide, by
      have : digitsVal ("9999999999".toList ++ []) = 9999999999 := by decide +kernel
      rw [this]; norm_num⟩
  have hr := (h (fun _ => none) _ _ _ _ hx hy).2.1
  rw [C61_cancel] at hr
  have hw : Denotes "0.09999999963" (9999999963 / 10 ^ 11) :=
    ⟨false, ['0'], "09999999963".toList, by decide, by decide, by decide, by decide, by
      have : digitsVal (['0'] ++ "09999999963".toList) = 9999999963 := by decide +kernel
      have l : "09999999963".toList.length = 11 := by decide
      rw [this, l]; norm_num⟩
  have := hr.unique hw
  norm_num at this

/-- Non-vacuity: one tenth and two tenths are three tenths, whatever the computation inside. -/
example (ext : String → Option BF) : mathSum ext "0.1" "0.2" = "0.3" ∧ Denotes "0.1" (1 / 10) ∧
    Denotes "0.2" (2 / 10) ∧ TenSig ((1 : ℚ) / 10 + 2 / 10) := by
  refine ⟨?_, ⟨false, ['0'], ['1'], by decide, by decide, by decide, by decide, ?_⟩,
    ⟨false, ['0'], ['2'], by decide, by decide, by decide, by decide, ?_⟩, 1, 3, -1, Or.inl rfl, by norm_num, by norm_num⟩
  · have h : mathSum (fun _ => none) "0.1" "0.2" = "0.3" := by decide +kernel
    exact h
  · have : digitsVal (['0'] ++ ['1']) = 1 := by decide
    rw [this]; norm_num
  · have : digitsVal (['0'] ++ ['2']) = 2 := by decide
    rw [this]; norm_num

end Fmr
