import Mathlib.Data.List.Basic

/-!
# Specification: English numerals

How the numbers below 10^12 are written in English words, without any reference to grammars. Hyphens and the word "and" are
optional.
-/

namespace Fmr

def enDigits : List (String × Nat) :=
  [("one", 1), ("two", 2), ("three", 3), ("four", 4), ("five", 5), ("six", 6), ("seven", 7), ("eight", 8), ("nine", 9)]

def enTeens : List (String × Nat) :=
  [("ten", 10), ("eleven", 11), ("twelve", 12), ("thirteen", 13), ("fourteen", 14), ("fifteen", 15), ("sixteen", 16),
    ("seventeen", 17), ("eighteen", 18), ("nineteen", 19)]

def enTens : List (String × Nat) :=
  [("twenty", 20), ("thirty", 30), ("forty", 40), ("fifty", 50), ("sixty", 60), ("seventy", 70), ("eighty", 80), ("ninety", 90)]

/-- the numbers from 1 to 99 -/
inductive EnTens : Nat → List String → Prop
  | word {s : String} {n : Nat} : (s, n) ∈ enDigits ++ enTeens ++ enTens → EnTens n [s]
  | both {s t : String} {m n : Nat} {hyphen : List String} : (s, m) ∈ enTens → (t, n) ∈ enDigits → hyphen ∈ [[], ["-"]] →
      EnTens (m + n) (s :: (hyphen ++ [t]))

/-- the numbers from 1 to 999 -/
inductive EnHundreds : Nat → List String → Prop
  | tens {n : Nat} {l : List String} : EnTens n l → EnHundreds n l
  | hundreds {s : String} {d : Nat} : (s, d) ∈ enDigits → EnHundreds (d * 100) [s, "hundred"]
  | both {s : String} {d n : Nat} {l and : List String} : (s, d) ∈ enDigits → EnTens n l → and ∈ [[], ["and"]] →
      EnHundreds (d * 100 + n) (s :: "hundred" :: (and ++ l))

/-- the words for the powers of a thousand -/
def enScale : Nat → String
  | 0 => "thousand"
  | 1 => "million"
  | _ => "billion"

/-- the numbers from 1 on that are written with the first `k` powers of a thousand -/
inductive EnBlocks : Nat → Nat → List String → Prop
  | hundreds {n : Nat} {l : List String} : EnHundreds n l → EnBlocks 0 n l
  | less {k n : Nat} {l : List String} : EnBlocks k n l → EnBlocks (k + 1) n l
  | block {k m : Nat} {l : List String} : EnHundreds m l → EnBlocks (k + 1) (m * 1000 ^ (k + 1)) (l ++ [enScale k])
  | both {k m n : Nat} {l l' and : List String} : EnHundreds m l → EnBlocks k n l' → and ∈ [[], ["and"]] →
      EnBlocks (k + 1) (m * 1000 ^ (k + 1) + n) (l ++ enScale k :: (and ++ l'))

/-- The words are a numeral for `n`. -/
inductive EnNumeral : Nat → List String → Prop
  | zero : EnNumeral 0 ["zero"]
  | blocks {n : Nat} {l : List String} : EnBlocks 3 n l → EnNumeral n l

/-- The words are a number with decimals: "one point five", "point zero two". -/
inductive EnDecimal : List String → Prop
  | point {ds : List String} : ds ≠ [] → (∀ s ∈ ds, s = "zero" ∨ s ∈ enDigits.map (·.1)) → EnDecimal ("point" :: ds)
  | both {n : Nat} {l and ds : List String} : EnNumeral n l → and ∈ [[], ["and"]] → ds ≠ [] →
      (∀ s ∈ ds, s = "zero" ∨ s ∈ enDigits.map (·.1)) →
      EnDecimal (l ++ (and ++ "point" :: ds))

/-- six million five thousand and twenty-two -/
example : EnNumeral 6005022 ["six", "million", "five", "thousand", "and", "twenty", "-", "two"] :=
  .blocks (.less (.both (k := 1) (l := ["six"]) (and := []) (m := 6) (.tens (.word (by decide)))
    (.both (k := 0) (l := ["five"]) (and := ["and"]) (m := 5) (.tens (.word (by decide)))
      (.hundreds (.tens (.both (m := 20) (hyphen := ["-"]) (by decide) (by decide : ("two", 2) ∈ enDigits) (by decide)))) (by decide)) (by decide)))

theorem EnTens.lt {n : Nat} {l : List String} (h : EnTens n l) : 0 < n ∧ n < 100 := by
  have h1 : ∀ p ∈ enDigits ++ enTeens ++ enTens, 0 < p.2 ∧ p.2 < 100 := by decide
  have h2 : ∀ p ∈ enTens, p.2 ≤ 90 := by decide
  have h3 : ∀ p ∈ enDigits, 0 < p.2 ∧ p.2 ≤ 9 := by decide
  cases h with
  | word h => exact h1 _ h
  | both hm hn =>
    have := h2 _ hm
    have := h3 _ hn
    simp only at *
    omega

theorem EnHundreds.lt {n : Nat} {l : List String} (h : EnHundreds n l) : 0 < n ∧ n < 1000 := by
  have h3 : ∀ p ∈ enDigits, 0 < p.2 ∧ p.2 ≤ 9 := by decide
  cases h with
  | tens h => have := h.lt; omega
  | hundreds h => have := h3 _ h; simp only at *; omega
  | both hd h => have := h3 _ hd; have := h.lt; simp only at *; omega

theorem EnBlocks.lt {k n : Nat} {l : List String} (h : EnBlocks k n l) : 0 < n ∧ n < 1000 ^ (k + 1) := by
  induction h with
  | hundreds h => simpa using h.lt
  | @less k n l _ ih => rw [Nat.pow_succ]; omega
  | @block k m l h =>
    have := h.lt
    have hp : 0 < 1000 ^ (k + 1) := Nat.pow_pos (by omega)
    rw [Nat.pow_succ _ (k + 1), Nat.mul_comm (1000 ^ (k + 1))]
    exact ⟨Nat.mul_pos this.1 hp, Nat.mul_lt_mul_of_pos_right this.2 hp⟩
  | @both k m n l l' and h _ _ ih =>
    have := h.lt
    have hp : 0 < 1000 ^ (k + 1) := Nat.pow_pos (by omega)
    rw [Nat.pow_succ _ (k + 1), Nat.mul_comm (1000 ^ (k + 1))]
    refine ⟨by omega, ?_⟩
    calc m * 1000 ^ (k + 1) + n < m * 1000 ^ (k + 1) + 1000 ^ (k + 1) := by omega
      _ = (m + 1) * 1000 ^ (k + 1) := by rw [Nat.succ_mul]
      _ ≤ 1000 * 1000 ^ (k + 1) := Nat.mul_le_mul_right _ (by omega)

/-- the numbers of the specification -/
theorem EnNumeral.lt {n : Nat} {l : List String} (h : EnNumeral n l) : n < 10 ^ 12 := by
  cases h with
  | zero => omega
  | blocks h => simpa using h.lt.2

theorem exists_enTens {n : Nat} (h0 : 0 < n) (h1 : n < 100) : ∃ l, EnTens n l := by
  have h : ∀ n < 100, 0 < n → (∃ p ∈ enDigits ++ enTeens ++ enTens, p.2 = n) ∨ ∃ p ∈ enTens, ∃ q ∈ enDigits, p.2 + q.2 = n := by
    decide +kernel
  rcases h n h1 h0 with ⟨p, h2, rfl⟩ | ⟨p, h2, q, h3, rfl⟩
  · exact ⟨_, .word h2⟩
  · exact ⟨_, .both (hyphen := []) h2 h3 (by decide)⟩

theorem exists_enHundreds {n : Nat} (h0 : 0 < n) (h1 : n < 1000) : ∃ l, EnHundreds n l := by
  by_cases h : n < 100
  · obtain ⟨l, h⟩ := exists_enTens h0 h
    exact ⟨l, .tens h⟩
  · have h2 : ∀ d < 10, 0 < d → ∃ p ∈ enDigits, p.2 = d := by decide
    obtain ⟨⟨s, d⟩, h3, h4⟩ := h2 (n / 100) (by omega) (by omega)
    simp only at h4
    by_cases h5 : n % 100 = 0
    · have e : n = d * 100 := by omega
      rw [e]
      exact ⟨_, .hundreds h3⟩
    · obtain ⟨l, h6⟩ := exists_enTens (n := n % 100) (by omega) (by omega)
      have e : n = d * 100 + n % 100 := by omega
      rw [e]
      exact ⟨_, .both (and := []) h3 h6 (by decide)⟩

theorem exists_enBlocks : ∀ (k : Nat) {n : Nat}, 0 < n → n < 1000 ^ (k + 1) → ∃ l, EnBlocks k n l
  | 0, n, h0, h1 => by
    obtain ⟨l, h⟩ := exists_enHundreds h0 (by simpa using h1)
    exact ⟨l, .hundreds h⟩
  | k + 1, n, h0, h1 => by
    have hp : 0 < 1000 ^ (k + 1) := Nat.pow_pos (by omega)
    by_cases h : n < 1000 ^ (k + 1)
    · obtain ⟨l, h⟩ := exists_enBlocks k h0 h
      exact ⟨l, .less h⟩
    · have h2 : n / 1000 ^ (k + 1) < 1000 := by
        rw [Nat.div_lt_iff_lt_mul hp, Nat.mul_comm]
        rwa [Nat.pow_succ] at h1
      obtain ⟨l, h3⟩ := exists_enHundreds (Nat.div_pos (by omega) hp) h2
      have e := Nat.div_add_mod n (1000 ^ (k + 1))
      rw [Nat.mul_comm] at e
      by_cases h5 : n % 1000 ^ (k + 1) = 0
      · rw [h5, Nat.add_zero] at e
        rw [← e]
        exact ⟨_, .block h3⟩
      · obtain ⟨l', h6⟩ := exists_enBlocks k (Nat.pos_of_ne_zero h5) (Nat.mod_lt n hp)
        rw [← e]
        exact ⟨_, .both (and := []) h3 h6 (by decide)⟩

/-- every number below 10^12 has a numeral -/
theorem exists_enNumeral {n : Nat} (h : n < 10 ^ 12) : ∃ l, EnNumeral n l := by
  rcases Nat.eq_zero_or_pos n with rfl | h0
  · exact ⟨_, .zero⟩
  · obtain ⟨l, h1⟩ := exists_enBlocks 3 h0 (by simpa using h)
    exact ⟨l, .blocks h1⟩

end Fmr
