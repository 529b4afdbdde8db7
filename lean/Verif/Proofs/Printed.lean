import Verif.Spec.Printed
import Verif.Proofs.ArithExp

/-!
# What `String` prints for a natural number
-/

namespace Fmr

theorem rne_tie_even {x : ℚ} (h : |(rne x : ℚ) - x| = 1 / 2) : rne x % 2 = 0 := by
  unfold rne at h ⊢
  simp only [] at h ⊢
  have h0 : (⌊x⌋ : ℚ) ≤ x := Int.floor_le x
  have h1 : x < ⌊x⌋ + 1 := Int.lt_floor_add_one x
  split_ifs at h ⊢ with a b c
  · rw [abs_of_nonpos (by linarith)] at h; linarith
  · push_cast at h; rw [abs_of_nonneg (by linarith)] at h; linarith
  · exact c
  · omega

theorem trimZeros_last (ds l : List Char) : trimZeros ds ≠ l ++ ['0'] := by
  intro h
  have := congrArg List.reverse h
  rw [trimZeros, List.reverse_reverse, List.reverse_append] at this
  have h2 := List.head?_dropWhile_not (fun c : Char => decide (c = '0')) ds.reverse
  rw [this] at h2
  simp at h2

/-- the number with ten significant digits -/
theorem printed_shown (n : Nat) : TenDigitText n (numText n) := by
  by_cases hs : n < 10 ^ 10
  · rw [printed_small hs]; exact .plain hs
  have hn : 10 ^ 10 ≤ n := by omega
  have hn0 : n ≠ 0 := by omega
  have hx : 10 ≤ Nat.log 10 n := Nat.le_log_of_pow_le (by decide) hn
  obtain ⟨y, hy⟩ : ∃ y, Nat.log 10 n = y + 9 := ⟨Nat.log 10 n - 9, by omega⟩
  have hlog : Int.log 10 (n : ℚ) = y + 9 := by
    rw [Int.log_natCast, hy]; push_cast; rfl
  have hlo : 10 ^ (y + 9) ≤ n := hy ▸ Nat.pow_log_le_self 10 hn0
  have hhi : n < 10 ^ (y + 10) := by
    have := Nat.lt_pow_succ_log_self (b := 10) (by decide) n
    rwa [hy] at this
  obtain ⟨u, hu⟩ : ∃ u : Nat, u = 10 ^ y := ⟨_, rfl⟩
  have hu0 : 0 < u := by rw [hu]; positivity
  have huq : (0 : ℚ) < u := by exact_mod_cast hu0
  have hz : (10 : ℚ) ^ (Int.log 10 (n : ℚ) - 9) = u := by
    rw [hlog, show ((y : ℤ) + 9 - 9) = (y : ℤ) by ring, zpow_natCast, hu]; push_cast; rfl
  obtain ⟨r, hr⟩ : ∃ r, r = rne ((n : ℚ) / u) := ⟨_, rfl⟩
  have hr9 : 10 ^ 9 ≤ r := by
    rw [hr]
    refine rne_ge ?_
    rw [le_div_iff₀ huq]
    have : 10 ^ 9 * u ≤ n := by rw [hu, ← pow_add, Nat.add_comm]; exact hlo
    exact_mod_cast this
  have hr10 : r ≤ 10 ^ 10 := by
    have := rne_err ((n : ℚ) / u)
    rw [← hr] at this
    have h2 : (n : ℚ) / u < 10 ^ 10 := by
      rw [div_lt_iff₀ huq]
      have : n < 10 ^ 10 * u := by rw [hu, ← pow_add, Nat.add_comm]; exact hhi
      exact_mod_cast this
    have h3 := (abs_le.1 this).2
    have : (r : ℚ) < 10 ^ 10 + 1 := by linarith
    have : r < 10 ^ 10 + 1 := by exact_mod_cast this
    omega
  obtain ⟨M, hM⟩ : ∃ M : Nat, r = M := ⟨r.toNat, by omega⟩
  have hM9 : 10 ^ 9 ≤ M := by omega
  have hM10 : M ≤ 10 ^ 10 := by omega
  have hM0 : 0 < M := by omega
  -- the digits
  obtain ⟨k, hk⟩ := trimZeros_spec (Nat.toDigits 10 M)
  obtain ⟨m, hm⟩ : ∃ m, m = Nat.ofDigitChars 10 (trimZeros (Nat.toDigits 10 M)) 0 := ⟨_, rfl⟩
  have hmk : M = m * 10 ^ k := by
    have := congrArg (fun l => Nat.ofDigitChars 10 l 0) hk
    simp only [Nat.ofDigitChars_ten_toDigits, ofDigits_zeros] at this
    rw [hm]; exact this
  have hm0 : 0 < m := Nat.pos_of_ne_zero (by rintro h; rw [h] at hmk; omega)
  have hmant : trimZeros (Nat.toDigits 10 M) = Nat.toDigits 10 m := by
    have := toDigits_mul_pow hm0 k
    rw [← hmk] at this
    exact (List.append_cancel_right (this.symm.trans hk)).symm
  have hm10 : m % 10 ≠ 0 := by
    intro h
    obtain ⟨m', rfl⟩ : ∃ m', m = m' * 10 := ⟨m / 10, by omega⟩
    rw [toDigits_mul10 (by omega)] at hmant
    exact trimZeros_last _ _ hmant
  obtain ⟨a, ds, hds⟩ := List.exists_cons_of_ne_nil (l := Nat.toDigits 10 m) Nat.toDigits_ne_nil
  have hlen : (Nat.toDigits 10 M).length = ds.length + 1 + k := by
    rw [hk, hmant, hds, List.length_append, List.length_replicate, List.length_cons]
  have hlen10 : 10 ≤ (Nat.toDigits 10 M).length := by
    by_contra h
    have := (Nat.length_toDigits_le_iff (b := 10) (n := M) (k := 9) (by decide) (by decide)).1 (by omega)
    omega
  -- the error
  have hval : m * 10 ^ (y + k) = M * u := by rw [hmk, hu, pow_add]; ring
  have herr : |((M * u : ℕ) : ℚ) - n| = |(r : ℚ) - n / u| * u := by
    rw [← abs_of_pos huq, ← abs_mul, abs_of_pos huq, hM, sub_mul, div_mul_cancel₀ _ huq.ne']
    push_cast; rfl
  have he := rne_err ((n : ℚ) / u)
  rw [← hr] at he
  have hcast : ((m * 10 ^ (y + k) : ℕ) : ℤ) = (m : ℤ) * 10 ^ (y + k) := by push_cast; rfl
  have hpow : ((u : ℕ) : ℤ) = 10 ^ y := by rw [hu]; push_cast; rfl
  have hdist : 2 * |(m : ℤ) * 10 ^ (y + k) - n| ≤ 10 ^ y := by
    rw [← hcast, hval, ← hpow]
    have : 2 * |((M * u : ℕ) : ℚ) - n| ≤ u := by
      rw [herr]; nlinarith
    exact_mod_cast this
  have htie : 2 * |(m : ℤ) * 10 ^ (y + k) - n| = 10 ^ y → 2 * 10 ^ y ∣ m * 10 ^ (y + k) := by
    rw [← hcast, hval, ← hpow, ← hu]
    intro h
    have : 2 * |((M * u : ℕ) : ℚ) - n| = u := by exact_mod_cast h
    rw [herr] at this
    have : |(r : ℚ) - n / u| = 1 / 2 := by
      have h3 : (2 * |(r : ℚ) - n / u| - 1) * u = 0 := by linarith
      rcases mul_eq_zero.1 h3 with h3 | h3
      · linarith
      · exact absurd h3 huq.ne'
    rw [hr] at this
    have := rne_tie_even this
    rw [← hr, hM] at this
    exact Nat.mul_dvd_mul_right (Nat.dvd_of_mod_eq_zero (by omega)) u
  have hsub : y + k + ds.length - ds.length = y + k := by omega
  have hy9 : Nat.log 10 n - 9 = y := by omega
  have key := TenDigitText.rounded (n := n) (m := m) (e := y + k + ds.length) (a := a) (ds := ds) hn hds hm10 (by omega)
    (by rw [hsub, hy9, hval, hu]; exact Nat.dvd_mul_left _ _) (by rw [hsub, hy9]; exact hdist) (by rw [hsub, hy9]; exact htie)
  refine (congrArg (TenDigitText n) (Eq.symm ?_)).mp key
  unfold numText BF.text
  simp only []
  rw [if_neg (show ¬ (n : ℚ) = 0 by exact_mod_cast hn0)]
  have ht : tenDigits (n : ℚ) = (a :: ds, (y : ℤ) + (ds.length + 1 + k)) := by
    unfold tenDigits
    simp only []
    rw [hz, ← hr, hM, Int.toNat_natCast, hmant, hds, hlen, hlog]
    push_cast
    congr 1
    ring
  rw [ht]
  simp only [Bool.false_eq_true, if_false, List.nil_append]
  rw [if_pos (show _ ∨ 10 ≤ (y : ℤ) + (ds.length + 1 + k) - 1 from .inr (by omega))]
  congr 1
  have hes : ((y : ℤ) + (ds.length + 1 + k) - 1).natAbs = y + k + ds.length := by omega
  have hes2 : ¬ (Nat.toDigits 10 (y + k + ds.length)).length < 2 := by
    intro h
    have := (Nat.length_toDigits_le_iff (b := 10) (n := y + k + ds.length) (k := 1) (by decide) (by decide)).1 (by omega)
    omega
  unfold fmtE
  simp only []
  rw [hes, if_neg (show ¬ ((y : ℤ) + (ds.length + 1 + k) - 1 < 0) by omega), if_neg hes2]
  cases ds with
  | nil => simp
  | cons b ds => simp

theorem pow10_cancel {m m' : Nat} (h : m % 10 ≠ 0) (h' : m' % 10 ≠ 0) : ∀ {a b : Nat}, m * 10 ^ a = m' * 10 ^ b → m = m' ∧ a = b
  | 0, 0, e => ⟨by simpa using e, rfl⟩
  | 0, b + 1, e => by
    rw [pow_succ, ← Nat.mul_assoc] at e
    omega
  | a + 1, 0, e => by
    rw [pow_succ, ← Nat.mul_assoc] at e
    omega
  | a + 1, b + 1, e => by
    rw [pow_succ, pow_succ, ← Nat.mul_assoc, ← Nat.mul_assoc] at e
    obtain ⟨h1, h2⟩ := pow10_cancel h h' (Nat.eq_of_mul_eq_mul_right (by decide) e)
    exact ⟨h1, by rw [h2]⟩

theorem nearest_unique {U R R' : Nat} {n : Int} (hU : 0 < U) (h : U ∣ R) (h' : U ∣ R') (d : 2 * |(R : Int) - n| ≤ U)
    (d' : 2 * |(R' : Int) - n| ≤ U) (t : 2 * |(R : Int) - n| = U → 2 * U ∣ R) (t' : 2 * |(R' : Int) - n| = U → 2 * U ∣ R') : R = R' := by
  obtain ⟨q, rfl⟩ := h
  obtain ⟨q', rfl⟩ := h'
  rcases Nat.lt_trichotomy q q' with hlt | rfl | hlt
  · exfalso
    have h1 : U * q + U ≤ U * q' := by
      have := Nat.mul_le_mul_left U hlt
      rwa [Nat.mul_succ] at this
    have h2 := abs_le.1 (show |((U * q : Nat) : Int) - n| ≤ _ from le_rfl)
    have h3 := abs_le.1 (show |((U * q' : Nat) : Int) - n| ≤ _ from le_rfl)
    have e : 2 * |((U * q : Nat) : Int) - n| = U := by omega
    have e' : 2 * |((U * q' : Nat) : Int) - n| = U := by omega
    have e3 : U * q + U = U * q' := by omega
    obtain ⟨x, hx⟩ := t e
    obtain ⟨y, hy⟩ := t' e'
    have : q = 2 * x := Nat.eq_of_mul_eq_mul_left hU (by rw [hx]; ring)
    have : q' = 2 * y := Nat.eq_of_mul_eq_mul_left hU (by rw [hy]; ring)
    have : q + 1 = q' := Nat.eq_of_mul_eq_mul_left hU (by rw [Nat.mul_succ]; exact e3)
    omega
  · rfl
  · exfalso
    have h1 : U * q' + U ≤ U * q := by
      have := Nat.mul_le_mul_left U hlt
      rwa [Nat.mul_succ] at this
    have h2 := abs_le.1 (show |((U * q : Nat) : Int) - n| ≤ _ from le_rfl)
    have h3 := abs_le.1 (show |((U * q' : Nat) : Int) - n| ≤ _ from le_rfl)
    have e : 2 * |((U * q : Nat) : Int) - n| = U := by omega
    have e' : 2 * |((U * q' : Nat) : Int) - n| = U := by omega
    have e3 : U * q' + U = U * q := by omega
    obtain ⟨x, hx⟩ := t e
    obtain ⟨y, hy⟩ := t' e'
    have : q = 2 * x := Nat.eq_of_mul_eq_mul_left hU (by rw [hx]; ring)
    have : q' = 2 * y := Nat.eq_of_mul_eq_mul_left hU (by rw [hy]; ring)
    have : q' + 1 = q := Nat.eq_of_mul_eq_mul_left hU (by rw [Nat.mul_succ]; exact e3)
    omega

/-- a number is shown in one way -/
theorem TenDigitText.unique {n : Nat} {s t : String} (hs : TenDigitText n s) (ht : TenDigitText n t) : s = t := by
  cases hs with
  | plain h =>
    cases ht with
    | plain => rfl
    | rounded h' => omega
  | @rounded m e a ds h h1 h2 h3 h4 h5 h6 =>
    cases ht with
    | plain => omega
    | @rounded m' e' a' ds' _ g1 g2 g3 g4 g5 g6 =>
      have hR : m * 10 ^ (e - ds.length) = m' * 10 ^ (e' - ds'.length) := by
        refine nearest_unique (U := 10 ^ (Nat.log 10 n - 9)) (n := n) (by positivity) h4 g4 ?_ ?_ ?_ ?_
        · push_cast; exact h5
        · push_cast; exact g5
        · push_cast; exact fun x => h6 x
        · push_cast; exact fun x => g6 x
      obtain ⟨rfl, hb⟩ := pow10_cancel h2 g2 hR
      have := h1.symm.trans g1
      injection this with x y
      subst x y
      obtain rfl : e = e' := by omega
      rfl

end Fmr
