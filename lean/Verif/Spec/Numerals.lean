import Mathlib.Data.List.Forall2

/-!
# Specification: Chinese numerals

How numbers below 10^16 are written: groups of four digits, 零 for a gap, and 十 for 一十 in front of everything. Nothing
here refers to grammars.
-/

namespace Fmr

def zhDigit (d : Nat) : Char := ['零', '一', '二', '三', '四', '五', '六', '七', '八', '九'].getD d '零'

/-- below 10, nothing for 0 -/
def zhOnes (n : Nat) : List Char := if n = 0 then [] else [zhDigit n]

/-- below 100; `short`: 十 for 一十 -/
def zhTens (short : Bool) (n : Nat) : List Char :=
  if n / 10 = 0 then zhOnes n
  else (if short && n / 10 = 1 then [] else [zhDigit (n / 10)]) ++ '十' :: zhOnes (n % 10)

/-- below 1000 -/
def zhHundreds (short : Bool) (n : Nat) : List Char :=
  if n / 100 = 0 then zhTens short n
  else zhDigit (n / 100) :: '百' ::
    (if n % 100 = 0 then [] else if n % 100 < 10 then '零' :: zhOnes (n % 100) else zhTens false (n % 100))

/-- below 10000 -/
def zhThousands (short : Bool) (n : Nat) : List Char :=
  if n / 1000 = 0 then zhHundreds short n
  else zhDigit (n / 1000) :: '千' ::
    (if n % 1000 = 0 then [] else if n % 1000 < 100 then '零' :: zhTens false (n % 1000) else zhHundreds false (n % 1000))

/-- below 10^8 -/
def zhMyriads (short : Bool) (n : Nat) : List Char :=
  if n / 10000 = 0 then zhThousands short n
  else zhThousands short (n / 10000) ++ '万' ::
    (if n % 10000 = 0 then [] else if n % 10000 < 1000 then '零' :: zhHundreds false (n % 10000)
      else zhThousands false (n % 10000))

/-- below 10^16 -/
def zhNumber (short : Bool) (n : Nat) : List Char :=
  if n = 0 then ['零']
  else if n / 100000000 = 0 then zhMyriads short n
  else zhMyriads short (n / 100000000) ++ '亿' ::
    (if n % 100000000 = 0 then [] else if n % 100000000 < 10000000 then '零' :: zhMyriads false (n % 100000000)
      else zhMyriads false (n % 100000000))

/-- characters that stand for the same -/
def zhVariants : List (List Char) :=
  [['零', '〇'], ['一', '壹'], ['二', '贰', '两', '俩'], ['三', '叁', '仨'], ['四', '肆'], ['五', '伍'], ['六', '陆'], ['七', '柒'],
    ['八', '捌'], ['九', '玖'], ['十', '拾'], ['百', '佰'], ['千', '仟'], ['万'], ['亿']]

/-- The text is a way to write `n`: with or without 一 before an initial 十, and with any of the variants of each
character. -/
inductive ZhNumeral (n : Nat) : List Char → Prop
  | mk (short : Bool) {l : List Char} :
      List.Forall₂ (fun c c' => ∃ v ∈ zhVariants, c ∈ v ∧ c' ∈ v) l (zhNumber short n) → ZhNumeral n l

/-- The text is a number below 10^16 with decimals: 一点五, 点零二. -/
inductive ZhDecimal : List Char → Prop
  | point {ds : List Char} : ds ≠ [] → (∀ c ∈ ds, ∃ v ∈ zhVariants.take 10, c ∈ v) → ZhDecimal ('点' :: ds)
  | both {n : Nat} {l ds : List Char} : n < 10 ^ 16 → ZhNumeral n l → ds ≠ [] →
      (∀ c ∈ ds, ∃ v ∈ zhVariants.take 10, c ∈ v) → ZhDecimal (l ++ '点' :: ds)

example : String.ofList (zhNumber true 2006) = "二千零六" := by decide
example : String.ofList (zhNumber true 10) = "十" := by decide
example : String.ofList (zhNumber false 10) = "一十" := by decide
example : String.ofList (zhNumber true 110) = "一百一十" := by decide
example : String.ofList (zhNumber true 123456789) = "一亿二千三百四十五万六千七百八十九" := by decide
example : String.ofList (zhNumber true 100010203) = "一亿零一万零二百零三" := by decide
example : String.ofList (zhNumber true 1400000000) = "十四亿" := by decide

end Fmr
