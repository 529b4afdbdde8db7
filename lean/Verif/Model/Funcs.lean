import Verif.Model.Node

/-!
# Model of funcs.go and of the integer tests of math_funcs.go

`Call` itself (funcs.go:17-27) goes through reflection (`goutil.Call`) and stays the parameter `NodeWorld.call`;
`HasBuiltins` says that it reaches the two functions registered in funcs.go:11-14.
-/

namespace Fmr

/-- funcs.go:29-31 `fmrList`. -/
def fmrList (items : List Value) : List Value := items

/-- funcs.go:33-45 `fmrEntity`; `sprint` is `fmt.Sprintf("%v", ·)`. The result `none` is a nil map. The
maps made here have one entry. -/
def fmrEntity (sprint : Value → String) (items : List Value) : Option (List (String × Value)) :=
  match items with
  | [] => none
  | x :: rest =>
    let typ := sprint x
    if typ = "" then none
    else if rest.length = 0 then some [(typ, .nil)]
    else some [(typ, .list rest)]

/-- a `map[string]interface{}` as a value; a nil map has no entries -/
def entityValue : Option (List (String × Value)) → Value
  | none => .map []
  | some m => .map m

/-- The keys of `builtinFuncs` (funcs.go:11-14, math_funcs.go:10-20). -/
def registered : List String :=
  ["fmr.list", "fmr.entity", "nf.math.sum", "nf.math.sub", "nf.math.mul", "nf.math.div", "nf.math.pow", "nf.math.neg", "nf.math.even",
    "nf.math.odd", "nf.math.prime"]

/-- `Call` (funcs.go:17-27) fails for names that are not registered: `goutil.Call` returns an error if the map has no such
key. -/
def CallsOnly (w : NodeWorld) (known : List String) : Prop := ∀ fn vs, fn ∉ known → w.call fn vs = .err

/-- `Call` (funcs.go:17-27) reaches the functions registered in funcs.go:11-14. -/
structure HasBuiltins (w : NodeWorld) (sprint : Value → String) : Prop where
  list : ∀ vs, w.call "fmr.list" vs = .ok (.list (fmrList vs))
  entity : ∀ vs, w.call "fmr.entity" vs = .ok (entityValue (fmrEntity sprint vs))

/-- `(*big.Int).Bit(0)`: the lowest bit of the two's complement, which is the parity. -/
def bit0 (i : Int) : Nat := i.natAbs % 2

/-- math_funcs.go:65-71 `even`; `scan` is `fmt.Sscan` into a `*big.Int`, `none` for an error. -/
def even (scan : String → Option Int) (x : String) : String :=
  match scan x with
  | some xi => if bit0 xi = 0 then "true" else "false"
  | none => "false"

/-- math_funcs.go:73-79 `odd`. -/
def odd (scan : String → Option Int) (x : String) : String :=
  match scan x with
  | some xi => if bit0 xi = 1 then "true" else "false"
  | none => "false"

/-- math_funcs.go:81-87 `prime`; `probablyPrime` is `(*big.Int).ProbablyPrime(10)`. -/
def prime (scan : String → Option Int) (probablyPrime : Int → Bool) (x : String) : String :=
  match scan x with
  | some xi => if probablyPrime xi then "true" else "false"
  | none => "false"

/-! ## `fmt.Sscan` into a `*big.Int`

The standard library is not part of the repository. These definitions follow its documented and
published behaviour: `Sscan` skips leading white space (newlines included), then `(*big.Int).Scan` with
verb 'v' reads an optional sign and the longest prefix that is a number with base prefix and digit
separators allowed; what follows the number is left unread and is no error. -/

/-- white space for package fmt -/
def goIsSpace (c : Char) : Bool :=
  let n := c.toNat
  (0x9 ≤ n && n ≤ 0xd) || n = 0x20 || n = 0x85 || n = 0xa0 || n = 0x1680 || (0x2000 ≤ n && n ≤ 0x200a) ||
    n = 0x2028 || n = 0x2029 || n = 0x202f || n = 0x205f || n = 0x3000

/-- the value of a digit, 63 for anything else -/
def goDigitVal (c : Char) : Nat :=
  if '0' ≤ c ∧ c ≤ '9' then c.toNat - '0'.toNat
  else if 'a' ≤ c ∧ c ≤ 'z' then c.toNat - 'a'.toNat + 10
  else if 'A' ≤ c ∧ c ≤ 'Z' then c.toNat - 'A'.toNat + 10
  else 63

/-- what was read last: '0' stands for a digit or a prefix -/
inductive Prev where
  | dot
  | digit
  | sep
deriving DecidableEq

/-- the digit loop of `nat.scan` in base `b`: value, number of digits, last thing read, misplaced separator
seen. A rune beyond ASCII cannot be read as a byte, which is an error (`none`). -/
def natScanLoop (b : Nat) (acc count : Nat) (prev : Prev) (bad : Bool) :
    List Char → Option (Nat × Nat × Prev × Bool)
  | [] => some (acc, count, prev, bad)
  | c :: cs =>
    if c.toNat ≥ 128 then none
    else if c = '_' then natScanLoop b acc count .sep (bad || prev != .digit) cs
    else if goDigitVal c ≥ b then some (acc, count, prev, bad)
    else natScanLoop b (acc * b + goDigitVal c) (count + 1) .digit bad cs

/-- `nat.scan` with base 0 and no fractions. -/
def natScan (s : List Char) : Option Nat :=
  let finish (noDigitsOk : Bool) (r : Option (Nat × Nat × Prev × Bool)) : Option Nat :=
    match r with
    | none => none
    | some (n, count, prev, bad) =>
      if bad || prev = .sep then none
      else if count = 0 then (if noDigitsOk then some 0 else none)
      else some n
  match s with
  | '0' :: [] => some 0
  | '0' :: c :: cs =>
    if c.toNat ≥ 128 then none
    else if c = 'b' ∨ c = 'B' then finish false (natScanLoop 2 0 0 .digit false cs)
    else if c = 'o' ∨ c = 'O' then finish false (natScanLoop 8 0 0 .digit false cs)
    else if c = 'x' ∨ c = 'X' then finish false (natScanLoop 16 0 0 .digit false cs)
    else finish true (natScanLoop 8 0 0 .digit false (c :: cs))
  | s => finish false (natScanLoop 10 0 0 .dot false s)

/-- `fmt.Sscan(x, *big.Int)`, `none` for an error. -/
def goScanInt (x : String) : Option Int :=
  match x.toList.dropWhile goIsSpace with
  | '-' :: s => (natScan s).map (fun n : Nat => -(n : Int))
  | '+' :: s => (natScan s).map (fun n : Nat => (n : Int))
  | s => (natScan s).map (fun n : Nat => (n : Int))

end Fmr
