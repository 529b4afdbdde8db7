import Verif.Spec.English

/-!
# Specification: the counts in an English numeral

A numeral says how many billions, millions and thousands there are. Here are the words that count them, without any
reference to grammars.
-/

namespace Fmr

/-- as `EnBlocks`, with the words that count the powers of a thousand, from the left -/
inductive EnCounted : Nat → Nat → List String → List (List String) → Prop
  | hundreds {n : Nat} {l : List String} : EnHundreds n l → EnCounted 0 n l []
  | less {k n : Nat} {l : List String} {cs : List (List String)} : EnCounted k n l cs → EnCounted (k + 1) n l cs
  | block {k m : Nat} {l : List String} : EnHundreds m l → EnCounted (k + 1) (m * 1000 ^ (k + 1)) (l ++ [enScale k]) [l]
  | both {k m n : Nat} {l l' and : List String} {cs : List (List String)} : EnHundreds m l → EnCounted k n l' cs → and ∈ [[], ["and"]] →
      EnCounted (k + 1) (m * 1000 ^ (k + 1) + n) (l ++ enScale k :: (and ++ l')) (l :: cs)

/-- every numeral but "zero" has counts -/
theorem enCounted_iff {k n : Nat} {l : List String} : (∃ cs, EnCounted k n l cs) ↔ EnBlocks k n l := by
  constructor
  · rintro ⟨cs, h⟩
    induction h with
    | hundreds h => exact .hundreds h
    | less _ ih => exact .less ih
    | block h => exact .block h
    | both h _ ha ih => exact .both h ih ha
  · intro h
    induction h with
    | hundreds h => exact ⟨_, .hundreds h⟩
    | less _ ih => obtain ⟨cs, h⟩ := ih; exact ⟨_, .less h⟩
    | block h => exact ⟨_, .block h⟩
    | both h _ ha ih => obtain ⟨cs, h'⟩ := ih; exact ⟨_, .both h h' ha⟩

/-- a count of two words for tens and ones, without a hyphen: "twenty one" -/
def OpenCount (c : List String) : Prop := ∃ p ∈ enTens, ∃ q ∈ enDigits, c = [p.1, q.1]

/-- a count with hundreds and more: "one hundred five", "one hundred and five" -/
def MixedCount (c : List String) : Prop := ∃ s x r, c = s :: "hundred" :: x :: r

/-- "one hundred five thousand" counts thousands with "one hundred five" -/
example : EnCounted 3 105000 ["one", "hundred", "five", "thousand"] [["one", "hundred", "five"]] ∧ MixedCount ["one", "hundred", "five"] :=
  ⟨.less (.less (.block (k := 0) (m := 105) (l := ["one", "hundred", "five"])
    (.both (d := 1) (n := 5) (and := []) (by decide) (.word (by decide)) (by decide)))), _, _, _, rfl⟩

end Fmr
