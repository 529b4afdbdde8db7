import Verif.Model.Local

/-!
# Model of `strconv.Quote`

`strconv.Quote` is called in earley_fmr.go:13,55 and node_methods.go:118. Standard library code, but modelled
because C44, C52 and C53 are about its result. Go source: strconv/quote.go, `appendQuotedWith` and
`appendEscapedRune` with `ASCIIonly` and `graphicOnly` false.
-/

namespace Fmr

/-- One step of ranging over the bytes of a Go string: a rune, or a byte that is not part of valid UTF-8. -/
inductive GoRune where
  | rune (c : Char)
  | byte (b : UInt8)
  deriving DecidableEq, Repr

/-- the character of a hexadecimal digit (`lowerhex` in strconv/quote.go) -/
def hexChar (n : Nat) : Char := "0123456789abcdef".toList[n]?.getD '0'

/-- the last `k` hexadecimal digits of `n` -/
def hexDigits : Nat → Nat → List Char
  | 0, _ => []
  | k + 1, n => hexDigits k (n / 16) ++ [hexChar (n % 16)]

/-- strconv/quote.go `appendEscapedRune` with quote `"`; `isPrint` is `strconv.IsPrint`. A Lean `Char` is a
valid rune, so the branch for invalid runes does not occur. -/
def escapeRune (isPrint : Char → Bool) (c : Char) : List Char :=
  if c = '"' ∨ c = '\\' then ['\\', c]
  else if isPrint c then [c]
  else if c = '\x07' then ['\\', 'a']
  else if c = '\x08' then ['\\', 'b']
  else if c = '\x0c' then ['\\', 'f']
  else if c = '\n' then ['\\', 'n']
  else if c = '\r' then ['\\', 'r']
  else if c = '\t' then ['\\', 't']
  else if c = '\x0b' then ['\\', 'v']
  else if c < ' ' ∨ c = '\x7f' then '\\' :: 'x' :: hexDigits 2 c.toNat
  else if c.toNat < 0x10000 then '\\' :: 'u' :: hexDigits 4 c.toNat
  else '\\' :: 'U' :: hexDigits 8 c.toNat

/-- strconv/quote.go `appendQuotedWith`, the loop body. -/
def escapeGo (isPrint : Char → Bool) : GoRune → List Char
  | .rune c => escapeRune isPrint c
  | .byte b => '\\' :: 'x' :: hexDigits 2 b.toNat

/-- `strconv.Quote`, as runes. -/
def quoteRunes (isPrint : Char → Bool) (l : List GoRune) : List Char :=
  '"' :: (l.flatMap (escapeGo isPrint) ++ ['"'])

/-- `strconv.Quote` of a valid string. -/
def quoteStr (isPrint : Char → Bool) (s : String) : String :=
  String.ofList (quoteRunes isPrint (s.toList.map .rune))

end Fmr
