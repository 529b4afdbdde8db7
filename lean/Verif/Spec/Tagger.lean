import Verif.Model.Types
import Verif.Model.Node

/-!
# Specification: what the query of a web address says
-/

namespace Fmr

/-- the value of a hexadecimal digit, of either case -/
inductive HexDigit : UInt8 → Nat → Prop where
  | digit (n : Nat) (h : n < 10) : HexDigit (UInt8.ofNat (48 + n)) n
  | upper (n : Nat) (h : n < 6) : HexDigit (UInt8.ofNat (65 + n)) (10 + n)
  | lower (n : Nat) (h : n < 6) : HexDigit (UInt8.ofNat (97 + n)) (10 + n)

/-- `Spells e s`: in a query, `e` stands for the bytes `s`: `+` for a space, `%hh` for a byte, and all other bytes for themselves. -/
inductive Spells : Bytes → Bytes → Prop where
  | nil : Spells [] []
  | plain (b : UInt8) {e s : Bytes} (h1 : b ≠ 37) (h2 : b ≠ 43) (h : Spells e s) : Spells (b :: e) (b :: s)
  | space {e s : Bytes} (h : Spells e s) : Spells (43 :: e) (32 :: s)
  | hex {x y : UInt8} {m n : Nat} {e s : Bytes} (hx : HexDigit x m) (hy : HexDigit y n) (h : Spells e s) :
    Spells (37 :: x :: y :: e) (UInt8.ofNat (16 * m + n) :: s)

/-- a parameter, `key=value` or a key alone -/
inductive SaysParam : Bytes → Bytes × Bytes → Prop where
  | pair {k v key value : Bytes} (hk : Spells k key) (hv : Spells v value) (h1 : 61 ∉ k) (h2 : 38 ∉ k) (h3 : 38 ∉ v) :
    SaysParam (k ++ 61 :: v) (key, value)
  | bare {k key : Bytes} (hk : Spells k key) (h0 : k ≠ []) (h1 : 61 ∉ k) (h2 : 38 ∉ k) : SaysParam k (key, [])

/-- `SaysParams q ps`: the query `q` consists of the parameters `ps`, separated by `&`. -/
inductive SaysParams : Bytes → List (Bytes × Bytes) → Prop where
  | nil : SaysParams [] []
  | last {e : Bytes} {p : Bytes × Bytes} (h : SaysParam e p) : SaysParams e [p]
  | more {e q : Bytes} {p : Bytes × Bytes} {ps : List (Bytes × Bytes)} (h : SaysParam e p) (hs : SaysParams q ps) :
    SaysParams (e ++ 38 :: q) (p :: ps)
  | skip {q : Bytes} {ps : List (Bytes × Bytes)} (hs : SaysParams q ps) : SaysParams (38 :: q) ps

/-- the name of the parameter for the context -/
def contextName : Bytes := utf8 "context"

/-- the values of a key, in their order -/
def valuesOf (k : Bytes) (ps : List (Bytes × Bytes)) : List Bytes := (ps.filter (fun p => p.1 = k)).map (·.2)

end Fmr
