import Verif.Spec.IntText
import Verif.Props.Funcs

/-!
# C47: which texts are even or odd numbers, exactly
-/

namespace Fmr

theorem goIsSpace_iff {c : Char} : goIsSpace c = true ↔ BlankRune c := by
  simp only [goIsSpace, BlankRune, Bool.or_eq_true, Bool.and_eq_true, decide_eq_true_eq, List.mem_cons, List.not_mem_nil, or_false]
  omega

theorem goDigitVal_iff {b d : Nat} (hb : b ≤ 16) {c : Char} : DigitIn b c d ↔ goDigitVal c = d ∧ d < b := by
  constructor
  · rintro ⟨h1, h2⟩
    have key : ∀ d < 16, ∀ c, "0123456789abcdef".toList[d]? = some c ∨ "0123456789ABCDEF".toList[d]? = some c →
        goDigitVal c = d := by
      intro d hd c hc
      have h3 : ∀ d : Fin 16, ∀ c ∈ "0123456789abcdef".toList[d.val]?.toList ++ "0123456789ABCDEF".toList[d.val]?.toList,
          goDigitVal c = d.val := by decide
      refine h3 ⟨d, hd⟩ c ?_
      rcases hc with h | h
      · exact List.mem_append_left _ (by rw [h]; exact List.mem_singleton.2 rfl)
      · exact List.mem_append_right _ (by rw [h]; exact List.mem_singleton.2 rfl)
    exact ⟨key d (by omega) c h2, h1⟩
  · rintro ⟨rfl, h⟩
    refine ⟨h, ?_⟩
    have h16 : goDigitVal c < 16 := by omega
    unfold goDigitVal at h16 ⊢
    have e : c = Char.ofNat c.toNat := (Char.ofNat_toNat c).symm
    split at h16
    · rename_i hc
      rw [if_pos hc]
      have h9 : c.toNat ≤ 57 := hc.2
      have h0 : 48 ≤ c.toNat := hc.1
      generalize c.toNat = n at h9 h0 e
      subst e
      have h3 : ∀ n : Fin 58, 48 ≤ n.val → "0123456789abcdef".toList[n.val - '0'.toNat]? = some (Char.ofNat n.val) := by decide
      exact .inl (h3 ⟨n, by omega⟩ h0)
    · rename_i hc0
      rw [if_neg hc0]
      split at h16
      · rename_i hc
        rw [if_pos hc]
        have h0 : 97 ≤ c.toNat := hc.1
        have h9 : c.toNat < 103 := by
          have : 'a'.toNat = 97 := rfl
          omega
        generalize c.toNat = n at h9 h0 e
        subst e
        have h3 : ∀ n : Fin 103, 97 ≤ n.val → "0123456789abcdef".toList[n.val - 'a'.toNat + 10]? = some (Char.ofNat n.val) := by decide
        exact .inl (h3 ⟨n, by omega⟩ h0)
      · rename_i hc1
        rw [if_neg hc1]
        split at h16
        · rename_i hc
          rw [if_pos hc]
          have h0 : 65 ≤ c.toNat := hc.1
          have h9 : c.toNat < 71 := by
            have : 'A'.toNat = 65 := rfl
            omega
          generalize c.toNat = n at h9 h0 e
          subst e
          have h3 : ∀ n : Fin 71, 65 ≤ n.val → "0123456789ABCDEF".toList[n.val - 'A'.toNat + 10]? = some (Char.ofNat n.val) := by decide
          exact .inr (h3 ⟨n, by omega⟩ h0)
        · omega

theorem digitIn_ascii {b d : Nat} {c : Char} (h : DigitIn b c d) : c.toNat < 128 ∧ c ≠ '_' := by
  have h3 : ∀ d : Fin 16, ∀ c ∈ "0123456789abcdef".toList[d.val]?.toList ++ "0123456789ABCDEF".toList[d.val]?.toList,
      c.toNat < 128 ∧ c ≠ '_' := by decide
  have hd : d < 16 := by
    rcases h.2 with h | h
    · exact (List.getElem?_eq_some_iff.1 h).1
    · exact (List.getElem?_eq_some_iff.1 h).1
  refine h3 ⟨d, hd⟩ c ?_
  rcases h.2 with h | h
  · exact List.mem_append_left _ (by rw [h]; exact List.mem_singleton.2 rfl)
  · exact List.mem_append_right _ (by rw [h]; exact List.mem_singleton.2 rfl)

theorem ends_iff {b : Nat} (hb : b ≤ 16) {c : Char} {s : List Char} :
    Ends b (c :: s) ↔ c.toNat < 128 ∧ c ≠ '_' ∧ b ≤ goDigitVal c := by
  constructor
  · intro h
    obtain ⟨h1, h2, h3⟩ := h c rfl
    refine ⟨h1, h2, ?_⟩
    by_contra h4
    exact h3 _ ((goDigitVal_iff hb).2 ⟨rfl, by omega⟩)
  · rintro ⟨h1, h2, h3⟩ d hd
    cases hd
    refine ⟨h1, h2, fun d hd => ?_⟩
    have := (goDigitVal_iff hb).1 hd
    omega

/-- a misplaced separator is not forgotten -/
theorem natScanLoop_bad {b : Nat} : ∀ {s : List Char} {acc count : Nat} {prev : Prev} {n k : Nat} {p : Prev} {x : Bool},
    natScanLoop b acc count prev true s = some (n, k, p, x) → x = true
  | [], _, _, _, _, _, _, _, h => by
    simp only [natScanLoop, Option.some.injEq, Prod.mk.injEq] at h
    exact h.2.2.2.symm
  | c :: s, _, _, _, _, _, _, _, h => by
    rw [natScanLoop] at h
    split at h
    · cases h
    split at h
    · exact natScanLoop_bad h
    split at h
    · simp only [Option.some.injEq, Prod.mk.injEq] at h
      exact h.2.2.2.symm
    · exact natScanLoop_bad h

/-- what the loop accepts are digits -/
theorem natScanLoop_iff {b : Nat} (hb : b ≤ 16) (k : Nat) : ∀ {s : List Char}, s.length ≤ k → ∀ {acc count : Nat} {prev : Prev}
    {n m : Nat}, (prev ≠ .sep → ((∃ p, natScanLoop b acc count prev false s = some (n, m, p, false) ∧ p ≠ .sep) ↔
      ∃ ds r, Digs b (prev = .digit) s ds r ∧ n = ds.foldl (fun a d => a * b + d) acc ∧ m = count + ds.length)) := by
  induction k with
  | zero =>
    intro s hs acc count prev n m hp
    cases s with
    | cons => simp at hs
    | nil =>
      simp only [natScanLoop, Option.some.injEq, Prod.mk.injEq, and_true]
      constructor
      · rintro ⟨p, ⟨rfl, rfl, rfl⟩, -⟩
        exact ⟨[], [], .stop (fun c hc => by cases hc), rfl, rfl⟩
      · rintro ⟨ds, r, h, rfl, rfl⟩
        generalize decide (prev = .digit) = f at h
        cases h
        exact ⟨prev, ⟨rfl, rfl, rfl⟩, hp⟩
  | succ k ih =>
    intro s hs acc count prev n m hp
    cases s with
    | nil =>
      simp only [natScanLoop, Option.some.injEq, Prod.mk.injEq, and_true]
      constructor
      · rintro ⟨p, ⟨rfl, rfl, rfl⟩, -⟩
        exact ⟨[], [], .stop (fun c hc => by cases hc), rfl, rfl⟩
      · rintro ⟨ds, r, h, rfl, rfl⟩
        generalize decide (prev = .digit) = f at h
        cases h
        exact ⟨prev, ⟨rfl, rfl, rfl⟩, hp⟩
    | cons c s =>
      have hs : s.length ≤ k := by simpa using hs
      have hdig : ∀ {c : Char} {s : List Char} {acc count : Nat}, s.length ≤ k → goDigitVal c < b →
          ((∃ p, natScanLoop b (acc * b + goDigitVal c) (count + 1) .digit false s = some (n, m, p, false) ∧ p ≠ .sep) ↔
            ∃ ds r, Digs b true s ds r ∧ n = (goDigitVal c :: ds).foldl (fun a d => a * b + d) acc ∧
              m = count + (goDigitVal c :: ds).length) := by
        intro c s acc count hs hc
        rw [ih hs (by simp)]
        simp only [decide_true, List.foldl_cons, List.length_cons]
        constructor
        · rintro ⟨ds, r, h1, h2, h3⟩
          exact ⟨ds, r, h1, h2, by omega⟩
        · rintro ⟨ds, r, h1, h2, h3⟩
          exact ⟨ds, r, h1, h2, by omega⟩
      by_cases h1 : c.toNat ≥ 128
      · simp only [natScanLoop, if_pos h1, reduceCtorEq, false_and, exists_false, false_iff]
        rintro ⟨ds, r, h, -⟩
        generalize decide (prev = .digit) = f at h
        cases h with
        | stop h => exact absurd (h c rfl).1 (by omega)
        | digit h => exact absurd (digitIn_ascii h).1 (by omega)
        | under => exact absurd h1 (by decide)
      by_cases h2 : c = '_'
      · subst h2
        simp only [natScanLoop, if_neg h1, if_true, Bool.false_or]
        cases prev with
        | sep => exact absurd rfl hp
        | dot =>
          constructor
          · rintro ⟨p, h, -⟩
            have := natScanLoop_bad h
            cases this
          · rintro ⟨ds, r, h, -⟩
            generalize hf : decide (Prev.dot = Prev.digit) = f at h
            cases h with
            | stop h => exact absurd rfl (h '_' rfl).2.1
            | digit h => exact absurd rfl (digitIn_ascii h).2
            | under => cases hf
        | digit =>
          cases s with
          | nil =>
            simp only [natScanLoop, Option.some.injEq, Prod.mk.injEq]
            constructor
            · rintro ⟨p, ⟨-, -, rfl, -⟩, h⟩
              exact absurd rfl h
            · rintro ⟨ds, r, h, -⟩
              cases h with
              | stop h => exact absurd rfl (h '_' rfl).2.1
              | digit h => exact absurd rfl (digitIn_ascii h).2
          | cons c s =>
            have hs' : s.length ≤ k := by simp at hs; omega
            rw [natScanLoop]
            by_cases h3 : c.toNat < 128 ∧ c ≠ '_' ∧ goDigitVal c < b
            · rw [if_neg (by omega), if_neg h3.2.1, if_neg (by omega)]
              rw [show ((Prev.digit != Prev.digit) = false) from rfl, hdig hs' h3.2.2]
              constructor
              · rintro ⟨ds, r, k1, k2, k3⟩
                exact ⟨_, r, .under ((goDigitVal_iff hb).2 ⟨rfl, h3.2.2⟩) k1, k2, k3⟩
              · rintro ⟨ds, r, h, k2, k3⟩
                cases h with
                | stop h => exact absurd rfl (h '_' rfl).2.1
                | digit h => exact absurd rfl (digitIn_ascii h).2
                | under h k1 =>
                  obtain ⟨rfl, -⟩ := (goDigitVal_iff hb).1 h
                  exact ⟨_, r, k1, k2, k3⟩
            · constructor
              · rintro ⟨p, h, hp⟩
                split at h
                · cases h
                split at h
                · have := natScanLoop_bad h
                  cases this
                split at h
                · simp only [Option.some.injEq, Prod.mk.injEq] at h
                  exact absurd h.2.2.1.symm hp
                · exact absurd ⟨by omega, by assumption, by omega⟩ h3
              · rintro ⟨ds, r, h, -⟩
                cases h with
                | stop h => exact absurd rfl (h '_' rfl).2.1
                | digit h => exact absurd rfl (digitIn_ascii h).2
                | under h k1 =>
                  obtain ⟨k1, k2⟩ := digitIn_ascii h
                  obtain ⟨rfl, k3⟩ := (goDigitVal_iff hb).1 h
                  exact absurd ⟨k1, k2, k3⟩ h3
      by_cases h3 : b ≤ goDigitVal c
      · simp only [natScanLoop, if_neg h1, if_neg h2, if_pos h3, Option.some.injEq, Prod.mk.injEq, and_true]
        constructor
        · rintro ⟨p, ⟨rfl, rfl, rfl⟩, -⟩
          exact ⟨[], _, .stop ((ends_iff hb).2 ⟨by omega, h2, h3⟩), rfl, rfl⟩
        · rintro ⟨ds, r, h, rfl, rfl⟩
          generalize decide (prev = .digit) = f at h
          cases h with
          | stop h => exact ⟨prev, ⟨rfl, rfl, rfl⟩, hp⟩
          | digit h => exact absurd ((goDigitVal_iff hb).1 h) (by omega)
          | under => exact absurd rfl h2
      · rw [natScanLoop, if_neg h1, if_neg h2, if_neg h3, hdig hs (by omega)]
        constructor
        · rintro ⟨ds, r, k1, k2, k3⟩
          exact ⟨_, r, .digit ((goDigitVal_iff hb).2 ⟨rfl, by omega⟩) k1, k2, k3⟩
        · rintro ⟨ds, r, h, k2, k3⟩
          generalize decide (prev = .digit) = f at h
          cases h with
          | stop h => exact absurd ((ends_iff hb).1 h).2.2 h3
          | digit h k1 =>
            obtain ⟨rfl, -⟩ := (goDigitVal_iff hb).1 h
            exact ⟨_, r, k1, k2, k3⟩
          | under => exact absurd rfl h2

/-- the end of `natScan` -/
def scanned (zero : Bool) (r : Option (Nat × Nat × Prev × Bool)) : Option Nat :=
  match r with
  | none => none
  | some (n, count, prev, bad) =>
    if bad || prev = .sep then none
    else if count = 0 then (if zero then some 0 else none)
    else some n

theorem scanned_iff {b : Nat} (hb : b ≤ 16) {prev : Prev} (hp : prev ≠ .sep) {s : List Char} {zero : Bool} {n : Nat} :
    scanned zero (natScanLoop b 0 0 prev false s) = some n ↔
      ∃ ds r, Digs b (prev = .digit) s ds r ∧ (zero = true ∨ ds ≠ []) ∧ n = digsVal b ds := by
  have key := fun n m => natScanLoop_iff hb s.length (Nat.le_refl _) (acc := 0) (count := 0) (prev := prev) (n := n) (m := m) hp
  constructor
  · intro h
    cases e : natScanLoop b 0 0 prev false s with
    | none => rw [e] at h; cases h
    | some x =>
      obtain ⟨n', m, p, bad⟩ := x
      rw [e] at h
      simp only [scanned] at h
      split at h
      · cases h
      rename_i hbad
      simp only [Bool.or_eq_true, decide_eq_true_eq, not_or, Bool.not_eq_true] at hbad
      obtain ⟨rfl, hp'⟩ := hbad
      obtain ⟨ds, r, h1, h2, h3⟩ := (key n' m).1 ⟨p, e, hp'⟩
      refine ⟨ds, r, h1, ?_⟩
      split at h
      · have hds : ds = [] := List.length_eq_zero_iff.1 (by omega)
        subst hds
        split at h
        · cases h
          exact ⟨.inl (by assumption), rfl⟩
        · cases h
      · cases h
        exact ⟨.inr (by rintro rfl; simp at h3; omega), h2⟩
  · rintro ⟨ds, r, h1, h2, rfl⟩
    obtain ⟨p, e, hp'⟩ := (key (digsVal b ds) ds.length).2 ⟨ds, r, h1, rfl, by omega⟩
    rw [e]
    simp only [scanned, Bool.false_or, decide_eq_true_eq]
    rw [if_neg hp']
    by_cases hd : ds = []
    · subst hd
      rcases h2 with rfl | h2
      · rfl
      · exact absurd rfl h2
    · rw [if_neg (by simpa using hd)]

theorem natScan_eq {s : List Char} : natScan s = match s with
    | '0' :: [] => some 0
    | '0' :: c :: cs =>
      if c.toNat ≥ 128 then none
      else if c = 'b' ∨ c = 'B' then scanned false (natScanLoop 2 0 0 .digit false cs)
      else if c = 'o' ∨ c = 'O' then scanned false (natScanLoop 8 0 0 .digit false cs)
      else if c = 'x' ∨ c = 'X' then scanned false (natScanLoop 16 0 0 .digit false cs)
      else scanned true (natScanLoop 8 0 0 .digit false (c :: cs))
    | s => scanned false (natScanLoop 10 0 0 .dot false s) := by
  rw [natScan.eq_def]
  rfl

/-- the scanner reads exactly the texts of numbers -/
theorem natScan_iff {s : List Char} {n : Nat} : natScan s = some n ↔ NatText s n := by
  rw [natScan_eq]
  split
  · constructor
    · rintro ⟨⟩
      exact .zero (r := []) (ds := []) (by intro p hp; cases hp) (.stop fun c hc => by cases hc)
    · intro h
      cases h with
      | decimal h => exact absurd rfl h
      | zero _ h =>
        cases h
        rfl
  · rename_i c cs
    have hds : ∀ {b : Nat}, b ≤ 16 → (scanned false (natScanLoop b 0 0 .digit false cs) = some n ↔
        ∃ ds r, Digs b true cs ds r ∧ ds ≠ [] ∧ n = digsVal b ds) := by
      intro b hb
      rw [scanned_iff hb (by simp)]
      simp
    by_cases h0 : c.toNat ≥ 128
    · simp only [if_pos h0, reduceCtorEq, false_iff]
      intro h
      cases h with
      | decimal h => exact absurd rfl h
      | binary h | octal h | hex h =>
        simp only [List.mem_cons, List.not_mem_nil, or_false] at h
        rcases h with rfl | rfl <;> exact absurd h0 (by decide)
      | zero _ h =>
        cases h with
        | stop h => exact absurd (h c rfl).1 (by omega)
        | digit h => exact absurd (digitIn_ascii h).1 (by omega)
        | under => exact absurd h0 (by decide)
    rw [if_neg h0]
    by_cases h1 : c ∈ ['b', 'B']
    · rw [if_pos (by simpa using h1), hds (by decide)]
      constructor
      · rintro ⟨ds, r, k1, k2, rfl⟩
        exact .binary h1 k1 k2
      · intro h
        cases h with
        | decimal h => exact absurd rfl h
        | binary _ k1 k2 => exact ⟨_, _, k1, k2, rfl⟩
        | octal h | hex h =>
          simp only [List.mem_cons, List.not_mem_nil, or_false] at h h1
          rcases h with rfl | rfl <;> rcases h1 with h1 | h1 <;> exact absurd h1 (by decide)
        | zero h => exact absurd (List.mem_append_left ['o', 'O', 'x', 'X'] h1) (h c rfl)
    rw [if_neg (by simpa using h1)]
    by_cases h2 : c ∈ ['o', 'O']
    · rw [if_pos (by simpa using h2), hds (by decide)]
      constructor
      · rintro ⟨ds, r, k1, k2, rfl⟩
        exact .octal h2 k1 k2
      · intro h
        cases h with
        | decimal h => exact absurd rfl h
        | binary h => exact absurd h h1
        | octal _ k1 k2 => exact ⟨_, _, k1, k2, rfl⟩
        | hex h =>
          simp only [List.mem_cons, List.not_mem_nil, or_false] at h h2
          rcases h with rfl | rfl <;> rcases h2 with h2 | h2 <;> exact absurd h2 (by decide)
        | zero h =>
          exact absurd (List.mem_append_right ['b', 'B'] (List.mem_append_left ['x', 'X'] h2)) (h c rfl)
    rw [if_neg (by simpa using h2)]
    by_cases h3 : c ∈ ['x', 'X']
    · rw [if_pos (by simpa using h3), hds (by decide)]
      constructor
      · rintro ⟨ds, r, k1, k2, rfl⟩
        exact .hex h3 k1 k2
      · intro h
        cases h with
        | decimal h => exact absurd rfl h
        | binary h => exact absurd h h1
        | octal h => exact absurd h h2
        | hex _ k1 k2 => exact ⟨_, _, k1, k2, rfl⟩
        | zero h =>
          exact absurd (List.mem_append_right ['b', 'B', 'o', 'O'] h3) (h c rfl)
    rw [if_neg (by simpa using h3), scanned_iff (by decide) (by simp)]
    constructor
    · rintro ⟨ds, r, k1, -, rfl⟩
      refine .zero (fun p hp hm => ?_) k1
      cases hp
      rw [show ['b', 'B', 'o', 'O', 'x', 'X'] = ['b', 'B'] ++ (['o', 'O'] ++ ['x', 'X']) from rfl, List.mem_append,
        List.mem_append] at hm
      rcases hm with h | h | h
      · exact h1 h
      · exact h2 h
      · exact h3 h
    · intro h
      cases h with
      | decimal h => exact absurd rfl h
      | binary h => exact absurd h h1
      | octal h => exact absurd h h2
      | hex h => exact absurd h h3
      | zero _ k1 => exact ⟨_, _, k1, .inl rfl, rfl⟩
  · rename_i h1 h2
    rw [scanned_iff (by decide) (by simp)]
    constructor
    · rintro ⟨ds, r, k1, k2, rfl⟩
      have k2 : ds ≠ [] := by simpa using k2
      cases s with
      | nil =>
        cases k1
        exact absurd rfl k2
      | cons c s =>
        refine .decimal ?_ k1 k2
        rintro rfl
        cases s with
        | nil => exact h1 rfl
        | cons c s => exact h2 c s rfl
    · intro h
      cases h with
      | decimal _ k1 k2 => exact ⟨_, _, k1, .inr k2, rfl⟩
      | binary | octal | hex => exact absurd rfl (h2 _ _)
      | @zero s _ _ _ _ =>
        cases s with
        | nil => exact absurd rfl h1
        | cons c s => exact absurd rfl (h2 c s)

theorem NatText.head {s : List Char} {n : Nat} (h : NatText s n) : ∃ c t d, s = c :: t ∧ DigitIn 10 c d := by
  cases h with
  | @decimal c s r ds _ k1 k2 =>
    cases k1 with
    | stop => exact absurd rfl k2
    | digit h => exact ⟨_, _, _, rfl, h⟩
  | _ => exact ⟨'0', _, 0, rfl, by decide, .inl rfl⟩

theorem digit_head {c : Char} {d : Nat} (h : DigitIn 10 c d) : goIsSpace c = false ∧ c ≠ '-' ∧ c ≠ '+' := by
  have h3 : ∀ d : Fin 10, ∀ c ∈ "0123456789abcdef".toList[d.val]?.toList ++ "0123456789ABCDEF".toList[d.val]?.toList,
      goIsSpace c = false ∧ c ≠ '-' ∧ c ≠ '+' := by decide
  refine h3 ⟨d, h.1⟩ c ?_
  rcases h.2 with h | h
  · exact List.mem_append_left _ (by rw [h]; exact List.mem_singleton.2 rfl)
  · exact List.mem_append_right _ (by rw [h]; exact List.mem_singleton.2 rfl)

theorem dropWhile_app {α : Type} {p : α → Bool} {g s : List α} (h : ∀ c ∈ g, p c = true) (hs : ∀ c, s.head? = some c → p c = false) :
    (g ++ s).dropWhile p = s := by
  induction g with
  | nil =>
    cases s with
    | nil => rfl
    | cons c s => rw [List.nil_append, List.dropWhile_cons_of_neg (by simp [hs c rfl])]
  | cons c g ih =>
    rw [List.cons_append, List.dropWhile_cons_of_pos (h c List.mem_cons_self)]
    exact ih fun c hc => h c (List.mem_cons_of_mem _ hc)

/-- **C47** `fmt.Sscan` of an integer reads exactly the texts of integers, as Go writes them. -/
theorem C47_reads (x : String) (i : Int) : goScanInt x = some i ↔ IntText x.toList i := by
  rw [goScanInt]
  generalize x.toList = l
  constructor
  · intro h
    have e := (List.takeWhile_append_dropWhile (p := goIsSpace) (l := l)).symm
    have hg : ∀ c ∈ l.takeWhile goIsSpace, BlankRune c := fun c hc => goIsSpace_iff.1 (List.all_eq_true.1 List.all_takeWhile c hc)
    generalize l.takeWhile goIsSpace = g at e hg
    split at h
    · rename_i s hs
      rw [hs] at e
      rw [e]
      obtain ⟨n, h1, rfl⟩ := Option.map_eq_some_iff.1 h
      exact .minus hg (natScan_iff.1 h1)
    · rename_i s hs
      rw [hs] at e
      rw [e]
      obtain ⟨n, h1, rfl⟩ := Option.map_eq_some_iff.1 h
      exact .plus hg (natScan_iff.1 h1)
    · rw [e]
      obtain ⟨n, h1, rfl⟩ := Option.map_eq_some_iff.1 h
      exact .plain hg (natScan_iff.1 h1)
  · intro h
    cases h with
    | @plain g s n hg hs =>
      obtain ⟨c, t, d, rfl, hc⟩ := hs.head
      obtain ⟨h1, h2, h3⟩ := digit_head hc
      rw [dropWhile_app (fun c hc => goIsSpace_iff.2 (hg c hc)) (fun c hc => by cases hc; exact h1)]
      split
      · rename_i heq
        cases heq
        exact absurd rfl h2
      · rename_i heq
        cases heq
        exact absurd rfl h3
      · rw [natScan_iff.2 hs]
        rfl
    | plus hg hs =>
      rw [dropWhile_app (fun c hc => goIsSpace_iff.2 (hg c hc)) (fun c hc => by cases hc; decide)]
      simp only
      rw [natScan_iff.2 hs]
      rfl
    | minus hg hs =>
      rw [dropWhile_app (fun c hc => goIsSpace_iff.2 (hg c hc)) (fun c hc => by cases hc; decide)]
      simp only
      rw [natScan_iff.2 hs]
      rfl

/-- **C47**, exactly: `even` and `odd` answer by the parity of the integer at the beginning of the text, in Go's
notation; all other texts are neither. -/
theorem C47_exact (x : String) :
    (even goScanInt x = "true" ↔ ∃ n, IntText x.toList n ∧ Even n) ∧
    (odd goScanInt x = "true" ↔ ∃ n, IntText x.toList n ∧ ¬ Even n) ∧
    (even goScanInt x = "true" ∨ even goScanInt x = "false") ∧ (odd goScanInt x = "true" ∨ odd goScanInt x = "false") := by
  have h := C47_scanned goScanInt x
  simpa only [C47_reads] using h

/-- an odd number in hexadecimal, with separators, a sign and white space in front, and something behind -/
example : odd goScanInt "\t -0x_fF_0d rest" = "true" := by decide +kernel

example : IntText "\t -0x_fF_0d rest".toList (-0xff0d) := (C47_reads _ _).1 (by decide +kernel)

/-- a separator at the end is an error -/
example : ¬ ∃ n, IntText "12_".toList n := by
  rintro ⟨n, h⟩
  have h1 := (C47_reads "12_" n).2 h
  rw [show goScanInt "12_" = none from by decide +kernel] at h1
  cases h1

end Fmr
