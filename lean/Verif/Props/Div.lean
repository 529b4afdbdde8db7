import Verif.Props.ArithDec

/-!
# C62: division
-/

namespace Fmr

/-- six digits after the point -/
def SixDigits (s : String) : Prop :=
  ∃ ip fp : List Char, s.toList = ip ++ '.' :: fp ∧ fp.length = 6 ∧ ∀ c ∈ fp, c.isDigit = true

/-- `s` denotes a number nearest to `q` among those with six digits after the point. -/
def Rounded6 (s : String) (q : ℚ) : Prop :=
  SixDigits s ∧ ∃ v, Denotes s v ∧ |v - q| ≤ 1 / (2 * 10 ^ 6)

/-- Full statement of C62: division of decimal numbers returns the quotient rounded to six digits after the
point. -/
def C62_statement : Prop :=
  ∀ (ext : String → Option F64) (x y : String) (a b : ℚ), Denotes x a → Denotes y b → b ≠ 0 →
    Rounded6 (mathDiv ext x y) (a / b)

set_option exponentiation.threshold 1100 in
theorem f64Max_big : (2 : ℚ) ^ 60 ≤ f64Max := by
  unfold f64Max
  exact pow_le_pow_right₀ (by norm_num) (by norm_num)

theorem f64Max_pos : 0 < f64Max := lt_of_lt_of_le (by norm_num) f64Max_big

attribute [local irreducible] f64Max

/-! ## reading -/

theorem parseF64_out (ext : String → Option F64) {x : String} {neg : Bool} {s : List Char} {n k : ℕ}
    (hx : x.toList = signChars neg ++ s) (hs : ∃ c l, s = c :: l ∧ c.isDigit = true)
    (hd : plainDec s = some (n, k)) {o : Option F64}
    (ho : (match F64.round neg ((n : ℚ) / 10 ^ k) with | .fin f => some (F64.fin f) | _ => none) = o) :
    parseF64 ext x = o := by
  unfold parseF64
  rw [hx]
  obtain ⟨c, l, rfl, hc⟩ := hs
  obtain ⟨h1, h2, h3⟩ := digit_notSpace hc
  cases neg with
  | true =>
    rw [signChars, if_pos rfl, List.singleton_append]
    simp only [hd]
    exact ho
  | false =>
    rw [signChars, if_neg (by decide), List.nil_append]
    split
    rename_i neg s heq
    split at heq
    · rename_i heq2
      injection heq2 with e1 _
      exact absurd e1 h2
    · rename_i heq2
      injection heq2 with e1 _
      exact absurd e1 h3
    · injection heq with e1 e2
      subst e1 e2
      simp only [hd]
      exact ho

theorem parseF64_signed (ext : String → Option F64) {x : String} {neg : Bool} {s : List Char} {n k : ℕ}
    (hx : x.toList = signChars neg ++ s) (hs : ∃ c l, s = c :: l ∧ c.isDigit = true)
    (hd : plainDec s = some (n, k)) (hlt : roundBits 53 ((n : ℚ) / 10 ^ k) < f64Max) :
    parseF64 ext x = some (.fin ⟨neg, roundBits 53 ((n : ℚ) / 10 ^ k)⟩) := by
  have hr : F64.round neg ((n : ℚ) / 10 ^ k) = .fin ⟨neg, roundBits 53 ((n : ℚ) / 10 ^ k)⟩ := by
    unfold F64.round
    simp only []
    rw [if_neg (not_le.2 hlt)]
  exact parseF64_out ext hx hs hd (by rw [hr])

theorem roundBits_nonneg {p : ℕ} (hp : 0 < p) {q : ℚ} (h : 0 ≤ q) : 0 ≤ roundBits p q := by
  rcases h.eq_or_lt with h | h
  · rw [← h, roundBits_zero]
  · exact (roundBits_pos hp h).le

theorem roundBits_err' {p : ℕ} {q : ℚ} (h : 0 ≤ q) : |roundBits p q - q| ≤ q / 2 ^ p := by
  rcases h.eq_or_lt with h | h
  · rw [← h, roundBits_zero]; simp
  · exact roundBits_err h

theorem round53_lt {q : ℚ} (h : 0 ≤ q) (hq : 2 * q ≤ f64Max) : roundBits 53 q < f64Max := by
  have := abs_le.1 (roundBits_err' (p := 53) h)
  have h1 : q / 2 ^ 53 ≤ q / 2 := by gcongr; norm_num
  have h3 := f64Max_pos
  linarith [this.2]

theorem parseF64_dec (ext : String → Option F64) {x : String} {v : ℚ} (h : Denotes x v) (hv : 2 * |v| ≤ f64Max) :
    ∃ neg, parseF64 ext x = some (.fin ⟨neg, roundBits 53 |v|⟩) ∧ v = (if neg then -|v| else |v|) := by
  obtain ⟨neg, ip, fp, h0, hd, hl, hx, hv'⟩ := h
  have hp := plainDec_dec h0 hd hl
  obtain ⟨c, l, hc⟩ := List.exists_cons_of_ne_nil h0
  have hn : (0 : ℚ) ≤ (digitsVal (ip ++ fp) : ℚ) / 10 ^ fp.length := by positivity
  have ha : |v| = (digitsVal (ip ++ fp) : ℚ) / 10 ^ fp.length := by
    rw [hv']
    cases neg with
    | true => rw [if_pos rfl, neg_one_mul, abs_neg, abs_of_nonneg hn]
    | false => rw [if_neg (by decide), one_mul, abs_of_nonneg hn]
  have hs := parseF64_signed ext (neg := neg) (by rw [hx, List.append_assoc]; rfl)
    ⟨c, l ++ _, by rw [hc, List.cons_append], hd c (by rw [hc]; simp)⟩ hp
    (round53_lt hn (by rw [← ha]; exact hv))
  refine ⟨neg, by rw [hs, ha], ?_⟩
  rw [ha, hv']
  cases neg <;> simp

theorem denotes_int (n : ℤ) : Denotes (toString n) (n : ℚ) := by
  refine ⟨decide (n < 0), Nat.toDigits 10 n.natAbs, [], Nat.toDigits_ne_nil, ?_, by simp, ?_, ?_⟩
  · intro c hc
    rw [List.append_nil] at hc
    exact digit_toDigits hc
  · rw [int_signed, if_pos rfl, List.append_nil]; rfl
  · have : digitsVal (Nat.toDigits 10 n.natAbs) = n.natAbs := Nat.ofDigitChars_ten_toDigits
    rw [List.append_nil, this, List.length_nil, pow_zero, div_one]
    by_cases h : n < 0
    · rw [if_pos (by simpa using h)]
      have : (n.natAbs : ℤ) = -n := by omega
      rw [← Int.cast_natCast, this]; push_cast; ring
    · rw [if_neg (by simpa using h)]
      have : (n.natAbs : ℤ) = n := by omega
      rw [← Int.cast_natCast, this, one_mul]

/-! ## printing -/

theorem fixed6_digits (n : ℕ) : ∃ ip fp : List Char, fixed6 n = ip ++ '.' :: fp ∧ ip = Nat.toDigits 10 (n / 10 ^ 6) ∧
    fp.length = 6 ∧ (∀ c ∈ fp, c.isDigit = true) ∧ digitsVal (ip ++ fp) = n := by
  have hlen : (Nat.toDigits 10 (n % 10 ^ 6)).length ≤ 6 :=
    (Nat.length_toDigits_le_iff (b := 10) (by decide) (by decide)).2 (Nat.mod_lt _ (by norm_num))
  refine ⟨_, List.replicate (6 - (Nat.toDigits 10 (n % 10 ^ 6)).length) '0' ++ Nat.toDigits 10 (n % 10 ^ 6), rfl,
    rfl, ?_, ?_, ?_⟩
  · rw [List.length_append, List.length_replicate]; omega
  · intro c hc
    rw [List.mem_append] at hc
    rcases hc with hc | hc
    · rw [List.eq_of_mem_replicate hc]; decide
    · exact digit_toDigits hc
  · have e : ∀ m, digitsVal (Nat.toDigits 10 m) = m := fun m => Nat.ofDigitChars_ten_toDigits
    rw [digitsVal_append, digitsVal_append, digitsVal_zeros, e, e, List.length_append, List.length_replicate,
      Nat.sub_add_cancel hlen, Nat.zero_mul, Nat.zero_add]
    omega

theorem text_fin (x : BF) (hx : 0 ≤ x.abs) : SixDigits (F64.text (.fin x)) ∧
    ∃ n : ℕ, Denotes (F64.text (.fin x)) ((if x.neg then -1 else 1) * ((n : ℚ) / 10 ^ 6)) ∧
      |(n : ℚ) / 10 ^ 6 - x.abs| ≤ 1 / (2 * 10 ^ 6) := by
  obtain ⟨ip, fp, h1, h2, h3, h4, h5⟩ := fixed6_digits (rne (x.abs * 10 ^ 6)).toNat
  have hd : ∀ c ∈ ip ++ fp, c.isDigit = true := by
    intro c hc
    rw [List.mem_append] at hc
    rcases hc with hc | hc
    · rw [h2] at hc; exact digit_toDigits hc
    · exact h4 c hc
  have htext : (F64.text (.fin x)).toList = (if x.neg then ['-'] else []) ++ (ip ++ '.' :: fp) := by
    show (String.ofList _).toList = _
    rw [String.toList_ofList, h1]
  refine ⟨⟨(if x.neg then ['-'] else []) ++ ip, fp, by rw [htext, List.append_assoc], h3, h4⟩,
    (rne (x.abs * 10 ^ 6)).toNat, ⟨x.neg, ip, fp, ?_, hd, by omega, ?_, ?_⟩, ?_⟩
  · rw [h2]; exact Nat.toDigits_ne_nil
  · rw [htext, if_neg (show ¬ fp = [] by rintro rfl; simp at h3), List.append_assoc]
  · rw [h5, h3]
  · have hn : 0 ≤ rne (x.abs * 10 ^ 6) := rne_ge (by push_cast; positivity)
    have hc : (((rne (x.abs * 10 ^ 6)).toNat : ℕ) : ℚ) = (rne (x.abs * 10 ^ 6) : ℚ) := by
      rw [← Int.cast_natCast, Int.toNat_of_nonneg hn]
    have := abs_le.1 (rne_err (x.abs * 10 ^ 6))
    rw [hc, abs_le]
    constructor
    · have : -(1 / (2 * 10 ^ 6)) * 10 ^ 6 ≤ ((rne (x.abs * 10 ^ 6) : ℚ) / 10 ^ 6 - x.abs) * 10 ^ 6 := by
        rw [sub_mul, div_mul_cancel₀ _ (by norm_num)]
        linarith [this.1]
      exact le_of_mul_le_mul_right this (by norm_num)
    · have : ((rne (x.abs * 10 ^ 6) : ℚ) / 10 ^ 6 - x.abs) * 10 ^ 6 ≤ 1 / (2 * 10 ^ 6) * 10 ^ 6 := by
        rw [sub_mul, div_mul_cancel₀ _ (by norm_num)]
        linarith [this.2]
      exact le_of_mul_le_mul_right this (by norm_num)

/-! ## the theorems -/

theorem sign_div {a b : ℚ} {n m : Bool} (ha : a = if n then -|a| else |a|) (hb : b = if m then -|b| else |b|) :
    a / b = (if n != m then -1 else 1) * (|a| / |b|) := by
  cases n with
  | true =>
    rw [if_pos rfl] at ha
    cases m with
    | true =>
      rw [if_pos rfl] at hb
      rw [if_neg (by decide), one_mul]
      conv => lhs; rw [ha, hb, neg_div_neg_eq]
    | false =>
      rw [if_neg (by decide)] at hb
      rw [if_pos (by decide), neg_one_mul]
      conv => lhs; rw [ha, hb, neg_div]
  | false =>
    rw [if_neg (by decide)] at ha
    cases m with
    | true =>
      rw [if_pos rfl] at hb
      rw [if_pos (by decide), neg_one_mul]
      conv => lhs; rw [ha, hb, div_neg]
    | false =>
      rw [if_neg (by decide)] at hb
      rw [if_neg (by decide), one_mul]
      conv => lhs; rw [ha, hb]

/-- the division, in terms of the rounded arguments -/
theorem mathDiv_dec (ext : String → Option F64) {x y : String} {a b : ℚ} (hx : Denotes x a) (hy : Denotes y b)
    (hb : b ≠ 0) (h1 : 2 * |a| ≤ f64Max) (h2 : 2 * |b| ≤ f64Max) (h3 : 8 * |a / b| ≤ f64Max) :
    ∃ neg, a / b = (if neg then -1 else 1) * |a / b| ∧
      mathDiv ext x y = F64.text (.fin ⟨neg, roundBits 53 (roundBits 53 |a| / roundBits 53 |b|)⟩) := by
  obtain ⟨n, hn, sn⟩ := parseF64_dec ext hx h1
  obtain ⟨m, hm, sm⟩ := parseF64_dec ext hy h2
  refine ⟨n != m, by rw [abs_div]; exact sign_div sn sm, ?_⟩
  have hpa := abs_nonneg a
  have hpb : 0 < |b| := abs_pos.2 hb
  have ea := abs_le.1 (roundBits_err' (p := 53) hpa)
  have eb := abs_le.1 (roundBits_err (p := 53) hpb)
  have pb := roundBits_pos (p := 53) (by norm_num) hpb
  have na := roundBits_nonneg (p := 53) (by norm_num) hpa
  have hle : 2 * (roundBits 53 |a| / roundBits 53 |b|) ≤ f64Max := by
    rw [← mul_div_assoc, div_le_iff₀ pb]
    rw [abs_div, ← mul_div_assoc, div_le_iff₀ hpb] at h3
    have k1 : |a| / 2 ^ 53 ≤ |a| := div_le_self hpa (by norm_num)
    have k2 : |b| / 2 ^ 53 ≤ |b| / 2 := by gcongr; norm_num
    have k3 : f64Max * (|b| / 2) ≤ f64Max * roundBits 53 |b| := by
      apply mul_le_mul_of_nonneg_left _ f64Max_pos.le
      linarith [eb.1]
    linarith [ea.2]
  unfold mathDiv
  rw [hn, hm]
  simp only []
  rw [if_neg]
  · congr 1
    show F64.round _ _ = _
    unfold F64.round
    simp only []
    rw [if_neg (not_le.2 (round53_lt (div_nonneg na pb.le) hle))]
  · show ¬ (decide _ = true)
    rw [decide_eq_true_iff]
    exact pb.ne'

/-- the error: half a unit of the sixth digit, and a relative `5 / 2^53`. -/
theorem div_error (ext : String → Option F64) {x y : String} {a b : ℚ} (hx : Denotes x a) (hy : Denotes y b)
    (hb : b ≠ 0) (h1 : 2 * |a| ≤ f64Max) (h2 : 2 * |b| ≤ f64Max) (h3 : 8 * |a / b| ≤ f64Max) :
    SixDigits (mathDiv ext x y) ∧ ∃ v, Denotes (mathDiv ext x y) v ∧
      |v - a / b| ≤ 1 / (2 * 10 ^ 6) + 5 * |a / b| / 2 ^ 53 := by
  obtain ⟨neg, hq, he⟩ := mathDiv_dec ext hx hy hb h1 h2 h3
  have hpa := abs_nonneg a
  have hpb : 0 < |b| := abs_pos.2 hb
  have ea := abs_le.1 (roundBits_err' (p := 53) hpa)
  have eb := abs_le.1 (roundBits_err (p := 53) hpb)
  have pb := roundBits_pos (p := 53) (by norm_num) hpb
  have na := roundBits_nonneg (p := 53) (by norm_num) hpa
  have nq := div_nonneg na pb.le
  have er := abs_le.1 (roundBits_err' (p := 53) nq)
  obtain ⟨t1, k, t2, t3⟩ := text_fin ⟨neg, roundBits 53 (roundBits 53 |a| / roundBits 53 |b|)⟩
    (roundBits_nonneg (by norm_num) nq)
  rw [he]
  refine ⟨t1, _, t2, ?_⟩
  simp only at t3
  -- the quotient of the rounded arguments
  have q0 := abs_nonneg (a / b)
  have hA : |a| = |a / b| * |b| := by rw [abs_div, div_mul_cancel₀ _ hpb.ne']
  have up : roundBits 53 |a| / roundBits 53 |b| ≤ |a / b| + 3 * |a / b| / 2 ^ 53 := by
    rw [div_le_iff₀ pb]
    have k1 : (|a / b| + 3 * |a / b| / 2 ^ 53) * (|b| - |b| / 2 ^ 53) ≤
        (|a / b| + 3 * |a / b| / 2 ^ 53) * roundBits 53 |b| :=
      mul_le_mul_of_nonneg_left (by linarith [eb.1]) (by positivity)
    have k2 : |a| + |a| / 2 ^ 53 ≤ (|a / b| + 3 * |a / b| / 2 ^ 53) * (|b| - |b| / 2 ^ 53) := by
      rw [hA]
      have : 0 ≤ |a / b| * |b| := by positivity
      norm_num
      nlinarith
    linarith [ea.2]
  have lo : |a / b| - 3 * |a / b| / 2 ^ 53 ≤ roundBits 53 |a| / roundBits 53 |b| := by
    rw [le_div_iff₀ pb]
    have k1 : (|a / b| - 3 * |a / b| / 2 ^ 53) * roundBits 53 |b| ≤
        (|a / b| - 3 * |a / b| / 2 ^ 53) * (|b| + |b| / 2 ^ 53) := by
      refine mul_le_mul_of_nonneg_left (by linarith [eb.2]) ?_
      have : 3 * |a / b| / 2 ^ 53 ≤ |a / b| := by rw [div_le_iff₀ (by norm_num)]; nlinarith
      linarith
    have k2 : (|a / b| - 3 * |a / b| / 2 ^ 53) * (|b| + |b| / 2 ^ 53) ≤ |a| - |a| / 2 ^ 53 := by
      rw [hA]
      have : 0 ≤ |a / b| * |b| := by positivity
      norm_num
      nlinarith
    linarith [ea.1]
  have hle : roundBits 53 |a| / roundBits 53 |b| / 2 ^ 53 ≤ 2 * |a / b| / 2 ^ 53 := by
    apply div_le_div_of_nonneg_right _ (by norm_num)
    have : 3 * |a / b| / 2 ^ 53 ≤ |a / b| := by rw [div_le_iff₀ (by norm_num)]; nlinarith
    linarith
  have five : 5 * |a / b| / 2 ^ 53 = 2 * |a / b| / 2 ^ 53 + 3 * |a / b| / 2 ^ 53 := by ring
  have t3' := abs_le.1 t3
  have key : |(k : ℚ) / 10 ^ 6 - (|a / b|)| ≤ 1 / (2 * 10 ^ 6) + 5 * |a / b| / 2 ^ 53 := by
    rw [abs_le]
    constructor <;> linarith [er.1, er.2, t3'.1, t3'.2]
  rw [hq]
  cases neg with
  | true =>
    simp only [if_true]
    rw [abs_mul, abs_neg, abs_one, one_mul, abs_abs,
      show -1 * ((k : ℚ) / 10 ^ 6) - -1 * |a / b| = -((k : ℚ) / 10 ^ 6 - |a / b|) by ring, abs_neg]
    exact key
  | false =>
    show |(if false = true then -1 else 1) * _ - _| ≤ _
    rw [if_neg (by decide), one_mul, one_mul, abs_abs]
    exact key

/-- **C62** for integers: the quotient is rounded correctly if the dividend is not above 4.5 milliards. -/
theorem C62_partial (ext : String → Option F64) {a b : ℤ} (hb : b ≠ 0) (h1 : |a| ≤ 4500000000)
    (h2 : |b| < 2 ^ 53) : Rounded6 (mathDiv ext (toString a) (toString b)) ((a : ℚ) / b) := by
  have hb' : (b : ℚ) ≠ 0 := by exact_mod_cast hb
  have hbn : 0 < b.natAbs := Int.natAbs_pos.2 hb
  have ca : |(a : ℚ)| = (a.natAbs : ℕ) := by rw [← Int.cast_abs, Int.abs_eq_natAbs, Int.cast_natCast]
  have cb : |(b : ℚ)| = (b.natAbs : ℕ) := by rw [← Int.cast_abs, Int.abs_eq_natAbs, Int.cast_natCast]
  have la : a.natAbs ≤ 4500000000 := by rw [Int.abs_eq_natAbs] at h1; omega
  have lb : b.natAbs < 2 ^ 53 := by rw [Int.abs_eq_natAbs] at h2; omega
  have qa : ((a.natAbs : ℕ) : ℚ) ≤ 4500000000 := by exact_mod_cast la
  have qb : ((b.natAbs : ℕ) : ℚ) ≤ 2 ^ 53 := by exact_mod_cast lb.le
  have pb : (1 : ℚ) ≤ ((b.natAbs : ℕ) : ℚ) := by exact_mod_cast hbn
  have big := f64Max_big
  have hqle : |(a : ℚ) / b| ≤ ((a.natAbs : ℕ) : ℚ) := by
    rw [abs_div, ca, cb]
    exact div_le_self (by positivity) pb
  obtain ⟨neg, hq, he⟩ := mathDiv_dec ext (denotes_int a) (denotes_int b) hb'
    (by rw [ca]; linarith) (by rw [cb]; linarith) (by linarith)
  rw [ca, cb, roundBits_nat (show a.natAbs < 2 ^ 53 by omega), roundBits_nat lb] at he
  have nq : (0 : ℚ) ≤ (a.natAbs : ℚ) / b.natAbs := by positivity
  have er := roundBits_err' (p := 53) nq
  obtain ⟨t1, k, t2, t3⟩ := text_fin ⟨neg, roundBits 53 ((a.natAbs : ℚ) / b.natAbs)⟩
    (roundBits_nonneg (by norm_num) nq)
  rw [← he] at t1 t2
  refine ⟨t1, _, t2, ?_⟩
  simp only at t3
  have hqe : |(a : ℚ) / b| = (a.natAbs : ℚ) / b.natAbs := by rw [abs_div, ca, cb]
  have pb0 : (0 : ℚ) < ((b.natAbs : ℕ) : ℚ) := by linarith
  have hqB : (a.natAbs : ℚ) / b.natAbs * b.natAbs = a.natAbs := div_mul_cancel₀ _ pb0.ne'
  -- the numerators
  have key : |(k : ℚ) / 10 ^ 6 - (a.natAbs : ℚ) / b.natAbs| ≤ 1 / (2 * 10 ^ 6) := by
    have tot : |(k : ℚ) / 10 ^ 6 - (a.natAbs : ℚ) / b.natAbs| ≤
        1 / (2 * 10 ^ 6) + (a.natAbs : ℚ) / b.natAbs / 2 ^ 53 := by
      have := abs_add_le ((k : ℚ) / 10 ^ 6 - roundBits 53 ((a.natAbs : ℚ) / b.natAbs))
        (roundBits 53 ((a.natAbs : ℚ) / b.natAbs) - (a.natAbs : ℚ) / b.natAbs)
      rw [sub_add_sub_cancel] at this
      linarith
    clear hq he er t1 t2 t3 nq hqe hqle ca cb h1 h2
    generalize a.natAbs = A at *
    generalize b.natAbs = B at *
    generalize hQ : (A : ℚ) / B = Q at tot hqB
    have e : ((k : ℚ) / 10 ^ 6 - Q) * (2 * 10 ^ 6 * B) =
        ((2 * (k * B : ℤ) - 2 * 10 ^ 6 * A : ℤ) : ℚ) := by
      push_cast
      rw [← hqB]
      ring
    have lt : |((k : ℚ) / 10 ^ 6 - Q) * (2 * 10 ^ 6 * B)| < (B : ℚ) + 1 := by
      rw [abs_mul, abs_of_pos (show (0 : ℚ) < 2 * 10 ^ 6 * B by positivity)]
      have : (1 / (2 * 10 ^ 6) + Q / 2 ^ 53) * (2 * 10 ^ 6 * (B : ℚ)) < B + 1 := by
        have : (1 / (2 * 10 ^ 6) + Q / 2 ^ 53) * (2 * 10 ^ 6 * (B : ℚ)) =
            B + 2 * 10 ^ 6 * (Q * B) / 2 ^ 53 := by ring
        rw [this, hqB]
        have : 2 * 10 ^ 6 * (A : ℚ) / 2 ^ 53 < 1 := by
          rw [div_lt_one (by norm_num)]
          norm_num
          linarith
        linarith
      refine lt_of_le_of_lt ?_ this
      exact mul_le_mul_of_nonneg_right tot (by positivity)
    rw [e, ← Int.cast_abs] at lt
    have lt' : |2 * ((k : ℤ) * B) - 2 * 10 ^ 6 * A| ≤ (B : ℤ) := by
      have : |2 * ((k : ℤ) * B) - 2 * 10 ^ 6 * A| < (B : ℤ) + 1 := by exact_mod_cast lt
      omega
    have le' : |((k : ℚ) / 10 ^ 6 - Q) * (2 * 10 ^ 6 * B)| ≤ (B : ℚ) := by
      rw [e, ← Int.cast_abs]
      exact_mod_cast lt'
    rw [abs_mul, abs_of_pos (show (0 : ℚ) < 2 * 10 ^ 6 * B by positivity)] at le'
    rw [le_div_iff₀ (by norm_num)]
    have : |(k : ℚ) / 10 ^ 6 - Q| * (2 * 10 ^ 6) * (B : ℚ) ≤ 1 * (B : ℚ) := by linarith
    exact le_of_mul_le_mul_right this pb0
  rw [hq, hqe]
  cases neg with
  | true =>
    simp only [if_true]
    rw [show -1 * ((k : ℚ) / 10 ^ 6) - -1 * ((a.natAbs : ℚ) / b.natAbs) =
      -((k : ℚ) / 10 ^ 6 - (a.natAbs : ℚ) / b.natAbs) by ring, abs_neg]
    exact key
  | false =>
    show |(if false = true then -1 else 1) * _ - _| ≤ _
    rw [if_neg (by decide), one_mul, one_mul]
    exact key

/-- **C62**: an integer quotient is exact as long as the dividend has 53 bits. -/
theorem C62_exact (ext : String → Option F64) {m d : ℤ} (hd : d ≠ 0) (hm : m ≠ 0) (h : |m * d| < 2 ^ 53) :
    mathDiv ext (toString (m * d)) (toString d) = toString m ++ ".000000" := by
  have hmn : 0 < m.natAbs := Int.natAbs_pos.2 hm
  have hdn : 0 < d.natAbs := Int.natAbs_pos.2 hd
  have hd' : (d : ℚ) ≠ 0 := by exact_mod_cast hd
  have hab : (m * d).natAbs = m.natAbs * d.natAbs := Int.natAbs_mul m d
  have l1 : (m * d).natAbs < 2 ^ 53 := by
    rw [Int.abs_eq_natAbs] at h; exact_mod_cast h
  have l2 : d.natAbs < 2 ^ 53 := lt_of_le_of_lt (Nat.le_mul_of_pos_left _ hmn) (hab ▸ l1)
  have l3 : m.natAbs < 2 ^ 53 := lt_of_le_of_lt (Nat.le_mul_of_pos_right _ hdn) (hab ▸ l1)
  have cc : ∀ z : ℤ, |(z : ℚ)| = (z.natAbs : ℕ) := fun z => by
    rw [← Int.cast_abs, Int.abs_eq_natAbs, Int.cast_natCast]
  have q : ∀ {n : ℕ}, n < 2 ^ 53 → (n : ℚ) ≤ 2 ^ 53 := fun hn => by exact_mod_cast hn.le
  have big := f64Max_big
  have hmd : ((m * d : ℤ) : ℚ) / d = m := by push_cast; exact mul_div_cancel_right₀ _ hd'
  obtain ⟨neg, hq, he⟩ := mathDiv_dec ext (denotes_int (m * d)) (denotes_int d) hd'
    (by rw [cc]; linarith [q l1]) (by rw [cc]; linarith [q l2]) (by rw [hmd, cc]; linarith [q l3])
  rw [cc, cc, roundBits_nat l1, roundBits_nat l2, hab, Nat.cast_mul,
    mul_div_cancel_right₀ _ (by exact_mod_cast hdn.ne'), roundBits_nat l3] at he
  rw [hmd, cc] at hq
  have hneg : neg = decide (m < 0) := by
    have pm : (0 : ℚ) < (m.natAbs : ℕ) := by exact_mod_cast hmn
    cases neg with
    | true =>
      rw [if_pos rfl] at hq
      have : (m : ℚ) < 0 := by linarith
      have : m < 0 := by exact_mod_cast this
      simp [this]
    | false =>
      rw [if_neg (by decide)] at hq
      have : (0 : ℚ) < m := by linarith
      have : 0 < m := by exact_mod_cast this
      simp; omega
  rw [he, ← String.toList_inj, String.toList_append, int_signed, hneg]
  show (String.ofList _).toList = _
  have e1 : ((m.natAbs : ℕ) : ℚ) * 10 ^ 6 = ((m.natAbs * 10 ^ 6 : ℕ) : ℤ) := by
    generalize m.natAbs = M
    push_cast
    rfl
  rw [String.toList_ofList, e1, rne_int, Int.toNat_natCast, List.append_assoc]
  congr 1
  unfold fixed6
  simp only []
  rw [Nat.mul_div_cancel _ (by norm_num), Nat.mul_mod_left]
  rfl

/-- **C62**: what is not a division of numbers is returned as it is. -/
theorem C62_unreadable (ext : String → Option F64) (x y : String)
    (h : parseF64 ext x = none ∨ parseF64 ext y = none ∨ ∃ f, parseF64 ext y = some (.fin f) ∧ f.abs = 0) :
    mathDiv ext x y = x ++ "/" ++ y := by
  unfold mathDiv
  rcases h with h | h | ⟨f, h, h0⟩
  · rw [h]
  · rw [h]; split <;> rfl
  · rw [h]
    split
    · rfl
    · simp only []
      rw [if_pos]
      show decide _ = true
      simp [h0]

/-- division by zero -/
theorem C62_zero (ext : String → Option F64) (x : String) {y : String} (hy : Denotes y 0) :
    mathDiv ext x y = x ++ "/" ++ y := by
  obtain ⟨neg, h, _⟩ := parseF64_dec ext hy (by simpa using f64Max_pos.le)
  exact C62_unreadable ext x y (.inr (.inr ⟨_, h, by rw [abs_zero, roundBits_zero]⟩))

theorem parseF64_large (ext : String → Option F64) {x : String} {v : ℚ} (h : Denotes x v) (hv : 2 * f64Max ≤ |v|) :
    parseF64 ext x = none := by
  obtain ⟨neg, ip, fp, h0, hd, hl, hx, hv'⟩ := h
  have hp := plainDec_dec h0 hd hl
  obtain ⟨c, l, hc⟩ := List.exists_cons_of_ne_nil h0
  have hn : (0 : ℚ) ≤ (digitsVal (ip ++ fp) : ℚ) / 10 ^ fp.length := by positivity
  have ha : |v| = (digitsVal (ip ++ fp) : ℚ) / 10 ^ fp.length := by
    rw [hv']
    cases neg with
    | true => rw [if_pos rfl, neg_one_mul, abs_neg, abs_of_nonneg hn]
    | false => rw [if_neg (by decide), one_mul, abs_of_nonneg hn]
  rw [ha] at hv
  refine parseF64_out ext (neg := neg) (by rw [hx, List.append_assoc]; rfl)
    ⟨c, l ++ _, by rw [hc, List.cons_append], hd c (by rw [hc]; simp)⟩ hp ?_
  have hle : f64Max ≤ roundBits 53 ((digitsVal (ip ++ fp) : ℚ) / 10 ^ fp.length) := by
    have := abs_le.1 (roundBits_err' (p := 53) hn)
    have h1 : (digitsVal (ip ++ fp) : ℚ) / 10 ^ fp.length / 2 ^ 53 ≤ (digitsVal (ip ++ fp) : ℚ) / 10 ^ fp.length / 2 := by
      gcongr
      norm_num
    linarith [this.1]
  unfold F64.round
  simp only []
  rw [if_pos hle]

/-- a number that is out of the range of `float64` -/
theorem C62_range (ext : String → Option F64) {x y : String} {v : ℚ}
    (h : (Denotes x v ∨ Denotes y v) ∧ 2 * f64Max ≤ |v|) : mathDiv ext x y = x ++ "/" ++ y := by
  obtain ⟨h | h, hv⟩ := h
  · exact C62_unreadable ext x y (.inl (parseF64_large ext h hv))
  · exact C62_unreadable ext x y (.inr (.inl (parseF64_large ext h hv)))

set_option exponentiation.threshold 1100 in
/-- non-vacuity: such a number -/
example : Denotes (toString (2 ^ 1026 : ℤ)) (2 ^ 1026 : ℤ) ∧ 2 * f64Max ≤ |((2 ^ 1026 : ℤ) : ℚ)| := by
  refine ⟨denotes_int _, ?_⟩
  unfold f64Max
  rw [abs_of_nonneg (by positivity)]
  norm_num

/-- Large quotients do not have six right digits: 10^15 / 3. -/
theorem C62_large (ext : String → Option F64) :
    mathDiv ext "1000000000000000" "3" = "333333333333333.312500" := by
  have h : mathDiv (fun _ => none) "1000000000000000" "3" = "333333333333333.312500" := by decide +kernel
  have h1 : parseF64 ext "1000000000000000" = parseF64 (fun _ => none) "1000000000000000" := rfl
  have h2 : parseF64 ext "3" = parseF64 (fun _ => none) "3" := rfl
  unfold mathDiv at h ⊢
  rw [h1, h2]
  exact h

/-- The statement is false of the code. -/
theorem C62_false : ¬ C62_statement := by
  intro h
  obtain ⟨_, v, hv, he⟩ := h (fun _ => none) (toString (1000000000000000 : ℤ)) (toString (3 : ℤ)) _ _
    (denotes_int _) (denotes_int _) (by norm_num)
  rw [show toString (1000000000000000 : ℤ) = "1000000000000000" by decide +kernel,
    show toString (3 : ℤ) = "3" by decide +kernel, C62_large] at hv
  have hw : Denotes "333333333333333.312500" (333333333333333312500 / 10 ^ 6) :=
    ⟨false, "333333333333333".toList, "312500".toList, by decide, by decide, by decide, by decide, by
      have : digitsVal ("333333333333333".toList ++ "312500".toList) = 333333333333333312500 := by decide +kernel
      have l : "312500".toList.length = 6 := by decide
      rw [this, l]; norm_num⟩
  rw [hv.unique hw, abs_le] at he
  norm_num at he

/-- Zero divided by a negative number is printed with a sign. -/
theorem C62_signed_zero (ext : String → Option F64) : mathDiv ext "0" "-5" = "-0.000000" := by
  have h : mathDiv (fun _ => none) "0" "-5" = "-0.000000" := by decide +kernel
  exact h

/-- Non-vacuity: the partial theorem applies, and gives two thirds. -/
example (ext : String → Option F64) : mathDiv ext "2" "3" = "0.666667" ∧
    Rounded6 (mathDiv ext (toString (2 : ℤ)) (toString (3 : ℤ))) ((2 : ℤ) / (3 : ℤ)) := by
  refine ⟨?_, C62_partial ext (by decide) (by decide) (by decide)⟩
  have h : mathDiv (fun _ => none) "2" "3" = "0.666667" := by decide +kernel
  exact h

end Fmr
