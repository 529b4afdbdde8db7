import Verif.Props.Arith

/-!
# Numbers with an exponent

What `(*big.Float).String` prints for a number of at most ten significant digits is read back as that number.
-/

namespace Fmr

/-- natural numbers below 10^17 of at most ten significant digits -/
def Short (n : Nat) : Prop := n < 10 ^ 10 ∨ n % 10 ^ 7 = 0 ∧ n < 10 ^ 17

instance (n : Nat) : Decidable (Short n) := by unfold Short; infer_instance

/-- `String` of a natural number -/
def numText (n : Nat) : String := BF.text ⟨false, n⟩

theorem printed_small {n : Nat} (h : n < 10 ^ 10) : numText n = toString n := by
  have := (text_int_iff (n : Int)).2 (by simpa using h)
  have h0 : ¬ ((n : Int) < 0) := by omega
  simp only [h0, decide_false, Int.natAbs_natCast] at this
  rw [round64_nat (by omega)] at this
  exact this

theorem ofDigits_zeros (ds : List Char) (k : Nat) :
    Nat.ofDigitChars 10 (ds ++ List.replicate k '0') 0 = Nat.ofDigitChars 10 ds 0 * 10 ^ k := by
  induction k with
  | zero => simp
  | succ k ih =>
    rw [List.replicate_succ', ← List.append_assoc, Nat.ofDigitChars, List.foldl_append]
    rw [Nat.ofDigitChars] at ih
    rw [ih]
    simp [Nat.ofDigitChars, pow_succ]
    ring

theorem printed_big {n : Nat} (h0 : 10 ^ 10 ≤ n) (h : n % 10 ^ 7 = 0) (h1 : n < 10 ^ 17) :
    ∃ (m : List Char) (k e : Nat), (numText n).toList = m.take 1 ++ (if m.length > 1 then '.' :: m.drop 1 else []) ++
      'e' :: '+' :: Nat.toDigits 10 e ∧ m ≠ [] ∧ (∀ c ∈ m, c.isDigit = true) ∧ n = Nat.ofDigitChars 10 m 0 * 10 ^ (k + 7) ∧
      e = m.length + k + 6 ∧ k ≤ 9 := by
  obtain ⟨c, hc⟩ : ∃ c, n = c * 10 ^ 7 := ⟨n / 10 ^ 7, by omega⟩
  have hc0 : 0 < c := by omega
  have hc1 : c < 10 ^ 10 := by omega
  have ht := tenDigits_near (q := (n : ℚ)) (t := 7) hc0 hc1 (by
    have : ((n : ℕ) : ℚ) = c * 10 ^ (7 : ℤ) := by rw [hc]; push_cast; norm_num
    rw [this, sub_self, abs_zero]
    have := pow10_pos (7 + (Nat.log 10 c : ℤ) - 10)
    linarith)
  have hl := length_toDigits hc0
  obtain ⟨k, hk⟩ := trimZeros_spec (Nat.toDigits 10 c)
  have hnum := congrArg (fun l => Nat.ofDigitChars 10 l 0) hk
  simp only [Nat.ofDigitChars_ten_toDigits, ofDigits_zeros] at hnum
  have hlen := congrArg List.length hk
  simp only [List.length_append, List.length_replicate] at hlen
  have hL : Nat.log 10 c ≤ 9 := by
    have := Nat.log_lt_of_lt_pow hc0.ne' hc1
    omega
  have hL3 : 3 ≤ Nat.log 10 c := Nat.le_log_of_pow_le (by decide) (by omega)
  have hm : trimZeros (Nat.toDigits 10 c) ≠ [] := by
    intro h
    rw [h] at hnum
    simp [Nat.ofDigitChars] at hnum
    omega
  have hm1 := List.length_pos_of_ne_nil hm
  refine ⟨trimZeros (Nat.toDigits 10 c), k, Nat.log 10 c + 7, ?_, hm, ?_, ?_, by omega, by omega⟩
  · unfold numText BF.text
    simp only []
    rw [if_neg (by have : n ≠ 0 := by omega
                   exact_mod_cast this), ht]
    simp only []
    rw [if_pos (show _ ∨ 10 ≤ 7 + (Nat.log 10 c : Int) + 1 - 1 from .inr (by omega)), String.toList_ofList]
    simp only [fmtE, Bool.false_eq_true, if_false, List.nil_append]
    have he : (7 + (Nat.log 10 c : Int) + 1 - 1).natAbs = Nat.log 10 c + 7 := by omega
    rw [he, if_neg (show ¬ (7 + (Nat.log 10 c : Int) + 1 - 1 < 0) by omega)]
    have : (Nat.toDigits 10 (Nat.log 10 c + 7)).length = 2 := by
      generalize Nat.log 10 c = L at hL hL3
      have : L = 3 ∨ L = 4 ∨ L = 5 ∨ L = 6 ∨ L = 7 ∨ L = 8 ∨ L = 9 := by omega
      rcases this with rfl | rfl | rfl | rfl | rfl | rfl | rfl <;> decide
    rw [if_neg (show ¬ (Nat.toDigits 10 (Nat.log 10 c + 7)).length < 2 by omega), List.nil_append]
  · intro c' h'
    exact digit_toDigits (n := c) (by rw [hk]; simp [h'])
  · rw [hc, pow_add, ← mul_assoc, ← hnum]

theorem span_stop {p : Char → Bool} {l r : List Char} {c : Char} (h : ∀ c ∈ l, p c = true) (hc : p c = false) :
    (l ++ c :: r).takeWhile p = l ∧ (l ++ c :: r).dropWhile p = c :: r := by
  induction l with
  | nil => simp [hc]
  | cons a l ih =>
    have := ih (fun d hd => h d (by simp [hd]))
    rw [List.cons_append, List.takeWhile_cons_of_pos (h a (by simp)), List.dropWhile_cons_of_pos (h a (by simp)), this.1, this.2]
    exact ⟨rfl, rfl⟩

theorem scanBF_digit (ext : String → Option BF) {x : String} {c : Char} {l : List Char} (hx : x.toList = c :: l)
    (hc : c.isDigit = true) : scanBF ext x =
      match plainDec (c :: l) with
      | some (n, k) => some ⟨false, round64 ((n : ℚ) / 10 ^ k)⟩
      | none =>
        match expDec (c :: l) with
        | some (n, k) => some ⟨false, round64 ((n : ℚ) * 10 ^ k)⟩
        | none => ext x := by
  obtain ⟨h1, h2, h3⟩ := digit_notSpace hc
  unfold scanBF
  rw [hx, List.dropWhile_cons_of_neg (by simp [h1])]
  have : (match c :: l with
      | '-' :: s => (true, s)
      | '+' :: s => (false, s)
      | s => (false, s)) = (false, c :: l) := by
    split
    · rename_i h; simp only [List.cons.injEq] at h; exact absurd h.1 h2
    · rename_i h; simp only [List.cons.injEq] at h; exact absurd h.1 h3
    · rfl
  exact congrArg (fun p : Bool × List Char =>
    match plainDec p.2 with
    | some (n, k) => some (BF.mk p.1 (round64 ((n : ℚ) / 10 ^ k)))
    | none =>
      match expDec p.2 with
      | some (n, k) => some (BF.mk p.1 (round64 ((n : ℚ) * 10 ^ k)))
      | none => ext x) this

/-- the printed form is read back -/
theorem scan_printed (ext : String → Option BF) {n : Nat} (h : Short n) : scanBF ext (numText n) = some ⟨false, n⟩ := by
  by_cases hs : n < 10 ^ 10
  · rw [printed_small hs, show toString n = toString (n : Int) from rfl, scanBF_small ext (by simp; omega)]
    simp [BF.ofInt]
  · obtain ⟨m, k, e, ht, hm, hd, hn, he, hk⟩ := printed_big (by omega) (h.resolve_left hs).1 (h.resolve_left hs).2
    have hn17 := (h.resolve_left hs).2
    obtain ⟨a, m, rfl⟩ := List.exists_cons_of_ne_nil hm
    have ha := hd a (by simp)
    obtain ⟨h1, h2, h3⟩ := digit_notSpace ha
    have hnum : expNum [a] m (Nat.toDigits 10 e) = some (Nat.ofDigitChars 10 (a :: m) 0, k + 7) := by
      unfold expNum
      simp only [Nat.ofDigitChars_ten_toDigits, List.singleton_append]
      rw [if_pos]
      · rw [he, List.length_cons, show m.length + 1 + k + 6 - m.length = k + 7 by omega]
      · refine ⟨by simp, Nat.toDigits_ne_nil, ?_, ?_, ?_, ?_⟩
        · rw [List.all_eq_true]; exact fun c hc => digit_toDigits hc
        · have : Nat.ofDigitChars 10 (a :: m) 0 ≤ n := by
            rw [hn]; exact Nat.le_mul_of_pos_right _ (by positivity)
          omega
        · rw [he, List.length_cons]; omega
        · rw [he, List.length_cons]; omega
    have hr : round64 (((Nat.ofDigitChars 10 (a :: m) 0 : ℕ) : ℚ) * 10 ^ (k + 7)) = n := by
      have : ((Nat.ofDigitChars 10 (a :: m) 0 : ℕ) : ℚ) * 10 ^ (k + 7) = (n : ℚ) := by rw [hn]; push_cast; rfl
      rw [this]
      exact round64_nat (by omega)
    rw [scanBF_digit ext (by rw [ht, List.take_succ_cons, List.take_zero, List.append_assoc, List.singleton_append]) ha]
    simp only [List.drop_succ_cons, List.drop_zero]
    cases m with
    | nil =>
      simp only [List.length_singleton, gt_iff_lt, lt_irrefl, if_false, List.nil_append]
      have hsp := span_stop (p := Char.isDigit) (l := [a]) (r := '+' :: Nat.toDigits 10 e) (c := 'e') (by simpa using ha) (by decide)
      simp only [List.cons_append, List.nil_append] at hsp
      have hp : plainDec (a :: 'e' :: '+' :: Nat.toDigits 10 e) = none := by
        unfold plainDec
        simp only [hsp.1, hsp.2]
        rw [if_neg (by simp)]
      have hx : expDec (a :: 'e' :: '+' :: Nat.toDigits 10 e) = some (Nat.ofDigitChars 10 [a] 0, k + 7) := by
        unfold expDec
        simp only [hsp.1, hsp.2]
        exact hnum
      rw [hp]
      simp only [hx, hr]
    | cons b m =>
      rw [if_pos (by simp)]
      have hsp := span_stop (p := Char.isDigit) (l := [a]) (r := b :: m ++ 'e' :: '+' :: Nat.toDigits 10 e) (c := '.') (by simpa using ha) (by decide)
      have hsp2 := span_stop (p := Char.isDigit) (l := b :: m) (r := '+' :: Nat.toDigits 10 e) (c := 'e')
        (fun c hc => hd c (by simp only [List.mem_cons] at hc ⊢; tauto)) (by decide)
      simp only [List.cons_append, List.nil_append] at hsp hsp2 ⊢
      have hp : plainDec (a :: '.' :: b :: (m ++ 'e' :: '+' :: Nat.toDigits 10 e)) = none := by
        unfold plainDec
        simp only [hsp.1, hsp.2]
        rw [if_neg (by simp)]
      have hx : expDec (a :: '.' :: b :: (m ++ 'e' :: '+' :: Nat.toDigits 10 e)) = some (Nat.ofDigitChars 10 (a :: b :: m) 0, k + 7) := by
        unfold expDec
        simp only [hsp.1, hsp.2, hsp2.1, hsp2.2]
        exact hnum
      rw [hp]
      simp only [hx, hr]

/-- the sum of two printed numbers -/
theorem sum_printed (ext : String → Option BF) {x y : Nat} (hx : Short x) (hy : Short y) (h : x + y < 2 ^ 64) :
    mathSum ext (numText x) (numText y) = numText (x + y) := by
  unfold mathSum mathCalc
  rw [scan_printed ext hx, scan_printed ext hy]
  simp only [BF.add, numText]
  by_cases h1 : x = 0
  · subst h1
    by_cases h2 : y = 0
    · subst h2; simp
    · have : (y : ℚ) ≠ 0 := by exact_mod_cast h2
      simp [this]
  · have h1' : (x : ℚ) ≠ 0 := by exact_mod_cast h1
    by_cases h2 : y = 0
    · subst h2; simp [h1']
    · have h2' : (y : ℚ) ≠ 0 := by exact_mod_cast h2
      simp only [h1', h2', false_and, if_false, if_true]
      rw [← Nat.cast_add, round64_nat h]

/-- the product of two printed numbers -/
theorem mul_printed (ext : String → Option BF) {x y : Nat} (hx : Short x) (hy : Short y) (h : x * y < 2 ^ 64) :
    mathMul ext (numText x) (numText y) = numText (x * y) := by
  unfold mathMul mathCalc
  rw [scan_printed ext hx, scan_printed ext hy]
  simp only [BF.mul, numText]
  rw [← Nat.cast_mul, round64_nat h]
  rfl

end Fmr
