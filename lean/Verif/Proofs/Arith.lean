import Verif.Model.Arith
import Verif.Props.Funcs
import Mathlib.Tactic.Linarith
import Mathlib.Tactic.Ring
import Mathlib.Tactic.Positivity
import Mathlib.Tactic.NormNum
import Mathlib.Tactic.FieldSimp

/-!
# Facts about the model of `big.Float`
-/

namespace Fmr

/-! ## rounding -/

theorem int_eq_of_abs_lt {a b : ℤ} (h : |(a : ℚ) - b| < 1) : a = b := by
  have h' : |a - b| < 1 := by exact_mod_cast h
  have := Int.abs_lt_one_iff.1 h'
  omega

theorem rne_near {x : ℚ} {c : ℤ} (h : |x - c| < 1 / 2) : rne x = c := by
  have h1 := Int.floor_le x
  have h2 := Int.lt_floor_add_one x
  rw [abs_lt] at h
  unfold rne
  simp only []
  split_ifs with h3 h4 h5
  · exact int_eq_of_abs_lt (by rw [abs_lt]; constructor <;> linarith)
  · exact int_eq_of_abs_lt (by push_cast; rw [abs_lt]; constructor <;> linarith)
  · exfalso
    have h6 : x - ⌊x⌋ = 1 / 2 := le_antisymm (not_lt.1 h4) (not_lt.1 h3)
    have l1 : (⌊x⌋ : ℚ) < c := by linarith
    have l2 : (c : ℚ) < ⌊x⌋ + 1 := by linarith
    have l1' : ⌊x⌋ < c := by exact_mod_cast l1
    have l2' : c < ⌊x⌋ + 1 := by exact_mod_cast l2
    omega
  · exfalso
    have h6 : x - ⌊x⌋ = 1 / 2 := le_antisymm (not_lt.1 h4) (not_lt.1 h3)
    have l1 : (⌊x⌋ : ℚ) < c := by linarith
    have l2 : (c : ℚ) < ⌊x⌋ + 1 := by linarith
    have l1' : ⌊x⌋ < c := by exact_mod_cast l1
    have l2' : c < ⌊x⌋ + 1 := by exact_mod_cast l2
    omega

theorem rne_int (c : ℤ) : rne (c : ℚ) = c := rne_near (by simp)

theorem rne_err (x : ℚ) : |(rne x : ℚ) - x| ≤ 1 / 2 := by
  have h1 := Int.floor_le x
  have h2 := Int.lt_floor_add_one x
  unfold rne
  simp only []
  split_ifs with h3 h4 h5 <;> push_cast <;> rw [abs_le] <;> constructor <;> linarith

theorem rne_ge {x : ℚ} {c : ℤ} (h : (c : ℚ) ≤ x) : c ≤ rne x := by
  have h1 : c ≤ ⌊x⌋ := Int.le_floor.2 h
  unfold rne
  simp only []
  split_ifs <;> omega

theorem pow2_pos (e : ℤ) : (0 : ℚ) < 2 ^ e := zpow_pos (by norm_num) e
theorem pow10_pos (e : ℤ) : (0 : ℚ) < 10 ^ e := zpow_pos (by norm_num) e

theorem roundBits_zero (p : ℕ) : roundBits p 0 = 0 := by unfold roundBits; rw [if_pos rfl]

theorem round64_zero : round64 0 = 0 := roundBits_zero 64

/-- integers below 2^p are exact -/
theorem roundBits_nat {p n : ℕ} (h : n < 2 ^ p) : roundBits p (n : ℚ) = n := by
  by_cases hn : n = 0
  · subst hn; rw [Nat.cast_zero, roundBits_zero]
  · unfold roundBits
    rw [if_neg (by exact_mod_cast hn)]
    simp only []
    have hlog : Int.log 2 (n : ℚ) = Nat.log 2 n := Int.log_natCast 2 n
    have hlt : Nat.log 2 n < p := Nat.log_lt_of_lt_pow hn h
    rw [hlog]
    obtain ⟨k, hk⟩ : ∃ k : ℕ, p = Nat.log 2 n + 1 + k := ⟨p - (Nat.log 2 n + 1), by omega⟩
    have he : ((Nat.log 2 n : ℕ) : ℤ) - p + 1 = -(k : ℤ) := by omega
    rw [he, zpow_neg, zpow_natCast, div_inv_eq_mul]
    have : (n : ℚ) * 2 ^ k = ((n * 2 ^ k : ℕ) : ℤ) := by push_cast; rfl
    rw [this, rne_int]
    push_cast
    field_simp

theorem round64_nat {n : ℕ} (h : n < 2 ^ 64) : round64 (n : ℚ) = n := roundBits_nat h

/-- the relative error of rounding -/
theorem roundBits_err {p : ℕ} {q : ℚ} (hq : 0 < q) : |roundBits p q - q| ≤ q / 2 ^ p := by
  unfold roundBits
  rw [if_neg hq.ne']
  simp only []
  have hp := pow2_pos (Int.log 2 q - p + 1)
  have hl : (2 : ℚ) ^ Int.log 2 q ≤ q := by
    have := Int.zpow_log_le_self (b := 2) (by norm_num) hq
    exact_mod_cast this
  have e : (2 : ℚ) ^ Int.log 2 q * 2 = 2 ^ (Int.log 2 q - p + 1) * 2 ^ p := by
    rw [← zpow_natCast, ← zpow_add₀ (by norm_num), ← zpow_add_one₀ (by norm_num)]; congr 1; ring
  generalize (2 : ℚ) ^ (Int.log 2 q - p + 1) = u at hp e
  have hl2 : u * 2 ^ p ≤ q * 2 := by rw [← e]; linarith
  have h := rne_err (q / u)
  rw [abs_le] at h ⊢
  have e1 : q / u * u = q := div_mul_cancel₀ q hp.ne'
  have e2 : (rne (q / u) * u : ℚ) - q = (rne (q / u) - q / u) * u := by rw [sub_mul, e1]
  rw [e2]
  have k1 : (-(1 / 2) : ℚ) * u ≤ (rne (q / u) - q / u) * u := mul_le_mul_of_nonneg_right h.1 hp.le
  have k2 : (rne (q / u) - q / u : ℚ) * u ≤ 1 / 2 * u := mul_le_mul_of_nonneg_right h.2 hp.le
  have : u / 2 ≤ q / 2 ^ p := by rw [div_le_div_iff₀ (by norm_num) (by positivity)]; linarith
  constructor <;> linarith

theorem round64_err {q : ℚ} (hq : 0 < q) : |round64 q - q| ≤ q / 2 ^ 64 := roundBits_err hq

theorem roundBits_pos {p : ℕ} (hp : 0 < p) {q : ℚ} (hq : 0 < q) : 0 < roundBits p q := by
  have h := roundBits_err (p := p) hq
  rw [abs_le] at h
  have h2 : (1 : ℚ) < 2 ^ p := one_lt_pow₀ (by norm_num) (by omega)
  have : q / 2 ^ p < q := div_lt_self hq h2
  linarith [h.1]

theorem round64_pos {q : ℚ} (hq : 0 < q) : 0 < round64 q := roundBits_pos (by norm_num) hq

/-! ## ten digits -/

theorem toDigits_mul10 {n : ℕ} (h : 0 < n) : Nat.toDigits 10 (n * 10) = Nat.toDigits 10 n ++ ['0'] := by
  rw [Nat.toDigits_of_base_le (by decide) (by omega), Nat.mul_div_cancel _ (by decide), Nat.mul_mod_left]
  rfl

theorem toDigits_mul_pow {n : ℕ} (h : 0 < n) : ∀ k : ℕ,
    Nat.toDigits 10 (n * 10 ^ k) = Nat.toDigits 10 n ++ List.replicate k '0'
  | 0 => by simp
  | k + 1 => by
    rw [pow_succ, ← Nat.mul_assoc, toDigits_mul10 (by positivity), toDigits_mul_pow h k, List.append_assoc,
      List.replicate_succ']

theorem length_toDigits {n : ℕ} (h : 0 < n) : (Nat.toDigits 10 n).length = Nat.log 10 n + 1 := by
  have h1 := Nat.length_toDigits_le_iff (b := 10) (n := n) (k := Nat.log 10 n + 1) (by decide) (by omega)
  have h2 : n < 10 ^ (Nat.log 10 n + 1) := Nat.lt_pow_succ_log_self (by decide) n
  have h3 := h1.2 h2
  rcases Nat.lt_or_ge (Nat.toDigits 10 n).length (Nat.log 10 n + 1) with h4 | h4
  · exfalso
    by_cases h0 : Nat.log 10 n = 0
    · have := Nat.length_toDigits_pos (b := 10) (n := n)
      omega
    · have h5 := (Nat.length_toDigits_le_iff (b := 10) (n := n) (k := Nat.log 10 n) (by decide) (by omega)).1 (by omega)
      have := Nat.pow_log_le_self 10 (x := n) (by omega)
      omega
  · omega

theorem dropWhile_append_all {α : Type} {p : α → Bool} : ∀ {l m : List α}, (∀ a ∈ l, p a = true) →
    (l ++ m).dropWhile p = m.dropWhile p
  | [], _, _ => rfl
  | a :: l, m, h => by
    rw [List.cons_append, List.dropWhile_cons_of_pos (h a (by simp))]
    exact dropWhile_append_all (fun b hb => h b (by simp [hb]))

theorem trimZeros_append (ds : List Char) (k : ℕ) : trimZeros (ds ++ List.replicate k '0') = trimZeros ds := by
  unfold trimZeros
  rw [List.reverse_append, dropWhile_append_all]
  intro a ha
  rw [List.mem_reverse] at ha
  simp [List.eq_of_mem_replicate ha]

theorem int_log_eq {q : ℚ} {x : ℤ} (h1 : 10 ^ x ≤ q) (h2 : q < 10 ^ (x + 1)) : Int.log 10 q = x := by
  have hq : 0 < q := lt_of_lt_of_le (pow10_pos x) h1
  have a := (Int.zpow_le_iff_le_log (b := 10) (by norm_num) hq (x := x)).1 (by exact_mod_cast h1)
  have b := (Int.lt_zpow_iff_log_lt (b := 10) (by norm_num) hq (x := x + 1)).1 (by exact_mod_cast h2)
  omega

/-- A number close enough to one with at most ten digits prints as that one. -/
theorem tenDigits_near {q : ℚ} {c : ℕ} {t : ℤ} (hc : 0 < c) (hc10 : c < 10 ^ 10)
    (hq : |q - c * 10 ^ t| < 1 / 2 * 10 ^ (t + Nat.log 10 c - 10)) :
    tenDigits q = (trimZeros (Nat.toDigits 10 c), t + Nat.log 10 c + 1) := by
  have hL : Nat.log 10 c ≤ 9 := by
    have := Nat.log_lt_of_lt_pow hc.ne' hc10
    omega
  have hlo : 10 ^ Nat.log 10 c ≤ c := Nat.pow_log_le_self 10 hc.ne'
  have hhi : c < 10 ^ (Nat.log 10 c + 1) := Nat.lt_pow_succ_log_self (by decide) c
  obtain ⟨L, hLe⟩ : ∃ L, L = Nat.log 10 c := ⟨_, rfl⟩
  rw [← hLe] at hq hL hlo hhi ⊢
  obtain ⟨j, hj⟩ : ∃ j : ℕ, 9 = L + j := ⟨9 - L, by omega⟩
  -- everything in units of 10^(t+L-10)
  have hu := pow10_pos (t + L - 10)
  obtain ⟨u, hue⟩ : ∃ u : ℚ, u = 10 ^ (t + L - 10) := ⟨_, rfl⟩
  rw [← hue] at hq hu
  have hun : ∀ k : ℕ, (10 : ℚ) ^ (t + L - 10 + k) = u * 10 ^ k := by
    intro k; rw [hue, zpow_add₀ (by norm_num), zpow_natCast]
  have ht : (10 : ℚ) ^ t = u * 10 ^ (j + 1) := by rw [← hun]; congr 1; push_cast; omega
  have eL : (10 : ℚ) ^ (t + L) = u * 10 ^ 10 := by rw [← hun]; congr 1; push_cast; omega
  have eL1 : (10 : ℚ) ^ (t + L + 1) = u * 10 ^ 11 := by rw [← hun]; congr 1; push_cast; omega
  have e9 : (10 : ℚ) ^ (t + L - 9) = u * 10 := by
    have := hun 1; rw [pow_one] at this; rw [← this]; congr 1; push_cast; omega
  rw [ht, abs_lt] at hq
  have hloq : (10 : ℚ) ^ L ≤ c := by exact_mod_cast hlo
  have hhiq : (c : ℚ) + 1 ≤ 10 ^ (L + 1) := by exact_mod_cast hhi
  have hpj : (1 : ℚ) ≤ 10 ^ j := one_le_pow₀ (by norm_num)
  have hcj : (c : ℚ) * 10 ^ (j + 1) + 10 ^ (j + 1) ≤ 10 ^ 11 := by
    have : ((c : ℚ) + 1) * 10 ^ (j + 1) ≤ 10 ^ (L + 1) * 10 ^ (j + 1) :=
      mul_le_mul_of_nonneg_right hhiq (by positivity)
    rw [← pow_add, show L + 1 + (j + 1) = 11 by omega] at this
    linarith
  have hcl : (10 : ℚ) ^ 10 ≤ c * 10 ^ (j + 1) := by
    have : (10 : ℚ) ^ L * 10 ^ (j + 1) ≤ c * 10 ^ (j + 1) := mul_le_mul_of_nonneg_right hloq (by positivity)
    rwa [← pow_add, show L + (j + 1) = 10 by omega] at this
  have hj1 : (1 : ℚ) ≤ 10 ^ (j + 1) := one_le_pow₀ (by norm_num)
  have hup : q < 10 ^ (t + L + 1) := by
    rw [eL1]
    have : u * (c * 10 ^ (j + 1) + 1) ≤ u * 10 ^ 11 := mul_le_mul_of_nonneg_left (by linarith) hu.le
    linarith [hq.2]
  unfold tenDigits
  simp only []
  rcases le_or_gt ((10 : ℚ) ^ (t + L)) q with hge | hlt
  · rw [int_log_eq hge hup, e9]
    have hm : rne (q / (u * 10)) = ((c * 10 ^ j : ℕ) : ℤ) := by
      refine rne_near ?_
      have : q / (u * 10) - ((c * 10 ^ j : ℕ) : ℤ) = (q - c * (u * 10 ^ (j + 1))) / (u * 10) := by
        push_cast; field_simp; ring
      rw [this, abs_lt]
      constructor
      · rw [lt_div_iff₀ (by positivity)]; linarith [hq.1]
      · rw [div_lt_iff₀ (by positivity)]; linarith [hq.2]
    rw [hm, Int.toNat_natCast, toDigits_mul_pow hc, trimZeros_append, List.length_append, List.length_replicate,
      length_toDigits hc, ← hLe]
    congr 1
    push_cast
    omega
  · -- c is the power of ten itself
    have hcp : c = 10 ^ L := by
      have h1 : (c : ℚ) * 10 ^ (j + 1) < 10 ^ 10 + 1 := by
        have : u * (c * 10 ^ (j + 1)) < u * (10 ^ 10 + 1) := by
          rw [eL] at hlt; linarith [hq.1]
        exact lt_of_mul_lt_mul_left this hu.le
      have h2 : (c : ℚ) * 10 ^ (j + 1) < (10 ^ L + 1) * 10 ^ (j + 1) := by
        rw [add_mul, ← pow_add, show L + (j + 1) = 10 by omega]
        linarith
      have h3 : (c : ℚ) < 10 ^ L + 1 := lt_of_mul_lt_mul_right h2 (by positivity)
      have h4 : c < 10 ^ L + 1 := by exact_mod_cast h3
      omega
    have hge' : (10 : ℚ) ^ (t + L - 1) ≤ q := by
      have : (10 : ℚ) ^ (t + L - 1) = u * 10 ^ 9 := by rw [← hun]; congr 1; push_cast; omega
      rw [this]
      have : u * 10 ^ 10 ≤ u * (c * 10 ^ (j + 1)) := mul_le_mul_of_nonneg_left hcl hu.le
      linarith [hq.1]
    rw [int_log_eq hge' (by rw [sub_add_cancel]; exact hlt)]
    have e10 : t + (L : ℤ) - 1 - 9 = t + L - 10 := by ring
    rw [e10, ← hue]
    have hm : rne (q / u) = ((c * 10 ^ (j + 1) : ℕ) : ℤ) := by
      refine rne_near ?_
      have : q / u - ((c * 10 ^ (j + 1) : ℕ) : ℤ) = (q - c * (u * 10 ^ (j + 1))) / u := by
        push_cast; field_simp
      rw [this, abs_lt]
      constructor
      · rw [lt_div_iff₀ hu]; linarith [hq.1]
      · rw [div_lt_iff₀ hu]; linarith [hq.2]
    rw [hm, Int.toNat_natCast, toDigits_mul_pow hc, trimZeros_append, List.length_append, List.length_replicate,
      length_toDigits hc, ← hLe]
    congr 1
    push_cast
    omega

/-- the exponent is not less than the size of the number -/
theorem tenDigits_exp {q : ℚ} {x : ℤ} (h : 10 ^ x ≤ q) : x + 1 ≤ (tenDigits q).2 := by
  have hq : 0 < q := lt_of_lt_of_le (pow10_pos x) h
  have a := (Int.zpow_le_iff_le_log (b := 10) (by norm_num) hq (x := x)).1 (by exact_mod_cast h)
  unfold tenDigits
  simp only []
  have hl := Int.zpow_log_le_self (b := 10) (r := q) (by norm_num) hq
  have hl' : (10 : ℚ) ^ Int.log 10 q ≤ q := by exact_mod_cast hl
  have h9 : (10 ^ 9 : ℤ) ≤ rne (q / 10 ^ (Int.log 10 q - 9)) := by
    refine rne_ge ?_
    rw [le_div_iff₀ (pow10_pos _)]
    have e : ((10 ^ 9 : ℤ) : ℚ) = 10 ^ (9 : ℤ) := by norm_num
    rw [e, ← zpow_add₀ (by norm_num)]
    refine le_trans (le_of_eq ?_) hl'
    congr 1
    ring
  have hlen : 10 ≤ (Nat.toDigits 10 (rne (q / 10 ^ (Int.log 10 q - 9))).toNat).length := by
    have hN : 10 ^ 9 ≤ (rne (q / 10 ^ (Int.log 10 q - 9))).toNat := by omega
    rw [length_toDigits (by omega)]
    have := Nat.log_mono_right (b := 10) hN
    rw [Nat.log_pow (by decide)] at this
    omega
  omega

/-! ## printing integers -/

theorem dropWhile_zero_append {l : List Char} : ∃ k, l = List.replicate k '0' ++ l.dropWhile (· = '0') := by
  induction l with
  | nil => exact ⟨0, rfl⟩
  | cons a l ih =>
    by_cases h : a = '0'
    · obtain ⟨k, hk⟩ := ih
      refine ⟨k + 1, ?_⟩
      rw [List.dropWhile_cons_of_pos (by simp [h]), List.replicate_succ, List.cons_append, ← hk, h]
    · exact ⟨0, by rw [List.dropWhile_cons_of_neg (by simp [h])]; rfl⟩

theorem trimZeros_spec (ds : List Char) : ∃ k, ds = trimZeros ds ++ List.replicate k '0' := by
  obtain ⟨k, hk⟩ := dropWhile_zero_append (l := ds.reverse)
  refine ⟨k, ?_⟩
  have := congrArg List.reverse hk
  rw [List.reverse_reverse, List.reverse_append, List.reverse_replicate] at this
  exact this

/-- format 'f' of a number without fraction -/
theorem fmtF_int (ds : List Char) (h : ds ≠ []) : fmtF (trimZeros ds) ds.length = ds := by
  obtain ⟨k, hk⟩ := trimZeros_spec ds
  have hl : ds.length = (trimZeros ds).length + k := by
    conv => lhs; rw [hk]
    simp
  have hpos : 0 < ds.length := List.length_pos_iff.2 h
  unfold fmtF
  simp only [Int.toNat_natCast]
  rw [if_neg (show ¬ (ds.length : ℤ) ≤ 0 by omega), if_neg (show ¬ (ds.length : ℤ) < 0 by omega),
    List.take_of_length_le (by omega), List.drop_eq_nil_of_le (by omega), if_pos rfl,
    show ds.length - (trimZeros ds).length = k by omega, ← hk]

def signChars (neg : Bool) : List Char := if neg then ['-'] else []

theorem text_zero (neg : Bool) : (BF.text ⟨neg, 0⟩).toList = signChars neg ++ ['0'] := by
  unfold BF.text
  simp only [if_true, String.toList_ofList]
  rfl

theorem tenDigits_nat {n : ℕ} (h0 : 0 < n) (h : n < 10 ^ 10) :
    tenDigits (n : ℚ) = (trimZeros (Nat.toDigits 10 n), ((Nat.toDigits 10 n).length : ℤ)) := by
  have := tenDigits_near (q := (n : ℚ)) (t := 0) h0 h (by
    rw [zpow_zero, mul_one, sub_self, abs_zero]
    have := pow10_pos (0 + (Nat.log 10 n : ℤ) - 10)
    linarith)
  rw [this, length_toDigits h0]
  push_cast
  rw [zero_add]

/-- integers of at most ten digits print exactly -/
theorem text_nat {neg : Bool} {n : ℕ} (h0 : 0 < n) (h : n < 10 ^ 10) :
    (BF.text ⟨neg, n⟩).toList = signChars neg ++ Nat.toDigits 10 n := by
  unfold BF.text
  simp only []
  rw [if_neg (by exact_mod_cast h0.ne'), tenDigits_nat h0 h]
  simp only []
  have hl : (Nat.toDigits 10 n).length ≤ 10 := (Nat.length_toDigits_le_iff (by decide) (by decide)).2 h
  have hp := Nat.length_toDigits_pos (b := 10) (n := n)
  rw [if_neg (show ¬ (((Nat.toDigits 10 n).length : ℤ) - 1 < -4 ∨ 10 ≤ ((Nat.toDigits 10 n).length : ℤ) - 1) by omega),
    fmtF_int _ Nat.toDigits_ne_nil, String.toList_ofList]
  rfl

/-- numbers from 10^10 on print with an exponent -/
theorem text_big {neg : Bool} {q : ℚ} (h : 10 ^ 10 ≤ q) : 'e' ∈ (BF.text ⟨neg, q⟩).toList := by
  have hq : q ≠ 0 := by
    rintro rfl
    norm_num at h
  unfold BF.text
  simp only []
  rw [if_neg hq]
  have := tenDigits_exp (q := q) (x := 10) (by exact_mod_cast h)
  generalize tenDigits q = td at this
  obtain ⟨mant, exp⟩ := td
  simp only at this ⊢
  rw [if_pos (show exp - 1 < -4 ∨ 10 ≤ exp - 1 by omega), String.toList_ofList]
  simp [fmtE]

theorem e_notMem_int (n : ℤ) : 'e' ∉ (toString n).toList := by
  intro h
  rcases int_chars h with h | h <;> exact absurd h (by decide)

/-! ## reading integers -/

theorem span_all {p : Char → Bool} : ∀ {l : List Char}, (∀ c ∈ l, p c = true) → l.takeWhile p = l ∧ l.dropWhile p = []
  | [], _ => ⟨rfl, rfl⟩
  | c :: l, h => by
    have := span_all (l := l) (fun d hd => h d (by simp [hd]))
    rw [List.takeWhile_cons_of_pos (h c (by simp)), List.dropWhile_cons_of_pos (h c (by simp)), this.1, this.2]
    exact ⟨rfl, rfl⟩

theorem plainDec_nat (n : ℕ) : plainDec (Nat.toDigits 10 n) = some (n, 0) := by
  have := span_all (p := Char.isDigit) (l := Nat.toDigits 10 n) (fun c hc => digit_toDigits hc)
  unfold plainDec
  simp only []
  rw [this.1, this.2]
  simp only []
  rw [if_neg Nat.toDigits_ne_nil, Nat.ofDigitChars_ten_toDigits]

theorem digit_notSpace {c : Char} (h : c.isDigit = true) : goIsSpace c = false ∧ c ≠ '-' ∧ c ≠ '+' := by
  have hb := isDigit_bounds h
  have h0 : 48 ≤ c.toNat := hb.1
  have h9 : c.toNat ≤ 57 := hb.2
  refine ⟨?_, ?_, ?_⟩
  · simp only [goIsSpace, Bool.or_eq_false_iff, Bool.and_eq_false_iff, decide_eq_false_iff_not]
    omega
  · rintro rfl; exact absurd h (by decide)
  · rintro rfl; exact absurd h (by decide)

/-- the sign and the rest of a number -/
theorem scanBF_signed (ext : String → Option BF) {x : String} {neg : Bool} {s : List Char} {n k : ℕ}
    (hx : x.toList = signChars neg ++ s) (hs : ∃ c l, s = c :: l ∧ c.isDigit = true)
    (hd : plainDec s = some (n, k)) : scanBF ext x = some ⟨neg, round64 ((n : ℚ) / 10 ^ k)⟩ := by
  unfold scanBF
  rw [hx]
  obtain ⟨c, l, rfl, hc⟩ := hs
  obtain ⟨h1, h2, h3⟩ := digit_notSpace hc
  cases neg with
  | true =>
    rw [signChars, if_pos rfl, List.singleton_append, List.dropWhile_cons_of_neg (by decide)]
    simp only [hd]
  | false =>
    rw [signChars, if_neg (by decide), List.nil_append, List.dropWhile_cons_of_neg (by simp [h1])]
    split
    rename_i neg s heq
    split at heq
    · rename_i h; simp only [List.cons.injEq] at h; exact absurd h.1 h2
    · rename_i h; simp only [List.cons.injEq] at h; exact absurd h.1 h3
    · simp only [Prod.mk.injEq] at heq
      obtain ⟨rfl, rfl⟩ := heq
      rw [hd]

theorem int_signed (n : ℤ) : (toString n).toList = signChars (decide (n < 0)) ++ Nat.toDigits 10 n.natAbs := by
  rw [int_toList]
  split_ifs with h
  · rw [signChars, if_neg (by simpa using h), List.nil_append, show n.toNat = n.natAbs by omega]
  · rw [signChars, if_pos (by simpa using h), List.singleton_append, show (-n).toNat = n.natAbs by omega]

theorem scanBF_int (ext : String → Option BF) (n : ℤ) :
    scanBF ext (toString n) = some ⟨decide (n < 0), round64 (n.natAbs : ℚ)⟩ := by
  obtain ⟨c, l, hl⟩ := List.exists_cons_of_ne_nil (l := Nat.toDigits 10 n.natAbs) Nat.toDigits_ne_nil
  have := scanBF_signed ext (int_signed n) ⟨c, l, hl, digit_toDigits (n := n.natAbs) (by rw [hl]; simp)⟩
    (plainDec_nat n.natAbs)
  rw [this, pow_zero, div_one]

end Fmr
