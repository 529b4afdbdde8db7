import Mathlib.Data.Nat.Log
import Mathlib.Algebra.Order.Group.Unbundled.Abs
import Mathlib.Algebra.Order.Ring.Int

/-!
# Specification: numbers with ten significant digits
-/

namespace Fmr

/-- How a number is shown: up to ten digits it is written out. Above, the nearest number of ten significant digits is
written as `d.ddde+dd`, without zeros at the end of the digits; of two nearest ones the one with an even tenth digit. The
numbers of ten significant digits are the multiples of `10 ^ (log n - 9)`. -/
inductive TenDigitText (n : Nat) : String → Prop
  | plain : n < 10 ^ 10 → TenDigitText n (toString n)
  | rounded {m e : Nat} {a : Char} {ds : List Char} : 10 ^ 10 ≤ n → Nat.toDigits 10 m = a :: ds → m % 10 ≠ 0 → ds.length ≤ e →
      10 ^ (Nat.log 10 n - 9) ∣ m * 10 ^ (e - ds.length) →
      2 * |(m * 10 ^ (e - ds.length) : Int) - n| ≤ 10 ^ (Nat.log 10 n - 9) →
      (2 * |(m * 10 ^ (e - ds.length) : Int) - n| = 10 ^ (Nat.log 10 n - 9) →
        2 * 10 ^ (Nat.log 10 n - 9) ∣ m * 10 ^ (e - ds.length)) →
      TenDigitText n (String.ofList (a :: (if ds = [] then [] else '.' :: ds) ++ 'e' :: '+' :: Nat.toDigits 10 e))

end Fmr
