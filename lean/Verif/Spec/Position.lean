import Verif.Model.Bytes

/-!
# Positions in a text

Specification of the row and column of an error message: `pre` is the text up to and including the rune the
message points at.
-/

namespace Fmr

/-- number of bytes of the UTF-8 encoding -/
def byteLen : List Char → Nat
  | [] => 0
  | c :: l => c.utf8Size + byteLen l

/-- `p` is the position of the last rune of `pre`:
* its row is one more than the number of newlines in `pre`, the first rune of the text not counted;
* `pre` ends with the piece `b` that begins at the last newline (the newline included) or, without a newline, at the
  start of the text, and the column is the number of bytes of `b`. -/
structure IsPos (pre : List Char) (p : Position) : Prop where
  rune : pre.getLast? = some p.r
  row : p.row = 1 + pre.tail.count '\n'
  col : ∃ a b, pre = a ++ b ∧ '\n' ∉ b.tail ∧ (a ≠ [] → b.head? = some '\n') ∧ p.col = byteLen b

end Fmr
