import Verif.Spec.Numerals

/-!
# Specification: two features of Chinese numerals

Numbers from eleven to nineteen in front, written without 一 (十五), and a gap right after 万 (一万零五).
-/

namespace Fmr

/-- The text begins with 十 and a digit. -/
def TeenStart (l : List Char) : Prop := ∃ d ∈ ['一', '二', '三', '四', '五', '六', '七', '八', '九'], ∃ r, l = '十' :: d :: r

/-- There is a 零 right after a 万. -/
def MyriadGap (l : List Char) : Prop := ∃ a b, l = a ++ '万' :: '零' :: b

example : TeenStart (zhNumber true 15) ∧ ¬ TeenStart (zhNumber false 15) :=
  ⟨⟨'五', by decide, [], by decide⟩, by rintro ⟨d, -, r, e⟩; revert e; simp [show zhNumber false 15 = ['一', '十', '五'] by decide]⟩

example : MyriadGap (zhNumber true 10005) := ⟨['一'], ['五'], by decide⟩

end Fmr
