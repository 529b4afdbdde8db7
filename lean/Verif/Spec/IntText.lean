import Verif.Model.Funcs

/-!
# Specification: the texts of integers that `fmt.Sscan` reads

Nothing here refers to the scanner.
-/

namespace Fmr

/-- the digits up to base 16, small and capital -/
def DigitIn (b : Nat) (c : Char) (d : Nat) : Prop :=
  d < b ∧ ("0123456789abcdef".toList[d]? = some c ∨ "0123456789ABCDEF".toList[d]? = some c)

/-- What may follow a number in base `b`: anything that does not continue it, as far as it can be read as a byte. -/
def Ends (b : Nat) (r : List Char) : Prop := ∀ c, r.head? = some c → c.toNat < 128 ∧ c ≠ '_' ∧ ∀ d, ¬ DigitIn b c d

/-- Digits in base `b`, then something else. Single underscores are allowed between digits, and in front of the
first one if `sep`. -/
inductive Digs (b : Nat) : Bool → List Char → List Nat → List Char → Prop
  | stop {sep : Bool} {r : List Char} : Ends b r → Digs b sep r [] r
  | digit {sep : Bool} {c : Char} {d : Nat} {s r : List Char} {ds : List Nat} : DigitIn b c d → Digs b true s ds r →
      Digs b sep (c :: s) (d :: ds) r
  | under {c : Char} {d : Nat} {s r : List Char} {ds : List Nat} : DigitIn b c d → Digs b true s ds r →
      Digs b true ('_' :: c :: s) (d :: ds) r

/-- the value of a sequence of digits -/
def digsVal (b : Nat) (ds : List Nat) : Nat := ds.foldl (fun a d => a * b + d) 0

/-- A number at the beginning of a text: decimal, with one of the prefixes `0b`, `0o`, `0x`, or octal after `0`. -/
inductive NatText : List Char → Nat → Prop
  | decimal {c : Char} {s r : List Char} {ds : List Nat} : c ≠ '0' → Digs 10 false (c :: s) ds r → ds ≠ [] →
      NatText (c :: s) (digsVal 10 ds)
  | binary {p : Char} {s r : List Char} {ds : List Nat} : p ∈ ['b', 'B'] → Digs 2 true s ds r → ds ≠ [] →
      NatText ('0' :: p :: s) (digsVal 2 ds)
  | octal {p : Char} {s r : List Char} {ds : List Nat} : p ∈ ['o', 'O'] → Digs 8 true s ds r → ds ≠ [] →
      NatText ('0' :: p :: s) (digsVal 8 ds)
  | hex {p : Char} {s r : List Char} {ds : List Nat} : p ∈ ['x', 'X'] → Digs 16 true s ds r → ds ≠ [] →
      NatText ('0' :: p :: s) (digsVal 16 ds)
  | zero {s r : List Char} {ds : List Nat} : (∀ p, s.head? = some p → p ∉ ['b', 'B', 'o', 'O', 'x', 'X']) →
      Digs 8 true s ds r → NatText ('0' :: s) (digsVal 8 ds)

/-- white space for package fmt, by code points -/
def BlankRune (c : Char) : Prop :=
  c.toNat ∈ [0x9, 0xa, 0xb, 0xc, 0xd, 0x20, 0x85, 0xa0, 0x1680, 0x2000, 0x2001, 0x2002, 0x2003, 0x2004, 0x2005, 0x2006,
    0x2007, 0x2008, 0x2009, 0x200a, 0x2028, 0x2029, 0x202f, 0x205f, 0x3000]

/-- White space, a sign, and a number; what follows it does not count. -/
inductive IntText : List Char → Int → Prop
  | plain {g s : List Char} {n : Nat} : (∀ c ∈ g, BlankRune c) → NatText s n → IntText (g ++ s) n
  | plus {g s : List Char} {n : Nat} : (∀ c ∈ g, BlankRune c) → NatText s n → IntText (g ++ '+' :: s) n
  | minus {g s : List Char} {n : Nat} : (∀ c ∈ g, BlankRune c) → NatText s n → IntText (g ++ '-' :: s) (-n)

end Fmr
