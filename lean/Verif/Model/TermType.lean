/-!
# Model of termtype_string.go and termtype_jsonenums.go
-/

namespace Fmr

/-- termtype_string.go:7 `_TermType_name` (ASCII, so byte offsets are character offsets). -/
def ttNames : List Char := "EOFNonterminalTerminalAnyList".toList

/-- termtype_string.go:9 `_TermType_index`. -/
def ttIndex : List Nat := [0, 3, 14, 22, 25, 29]

/-- Go slice `s[lo:hi]`; `none` is a panic. -/
def goSlice {α : Type} (s : List α) (lo hi : Nat) : Option (List α) :=
  if lo ≤ hi ∧ hi ≤ s.length then some ((s.take hi).drop lo) else none

/-- termtype_string.go:11-16 `TermType.String` of a byte; `none` is a panic (index or slice out of
range). `strconv.FormatInt` of a non-negative number is `Nat.toDigits 10`. -/
def ttString (b : UInt8) : Option (List Char) :=
  if b.toNat ≥ ttIndex.length - 1 then
    some ("TermType(".toList ++ Nat.toDigits 10 b.toNat ++ ")".toList)
  else
    match ttIndex[b.toNat]?, ttIndex[b.toNat + 1]? with
    | some lo, some hi => goSlice ttNames lo hi
    | _, _ => none

/-- termtype_jsonenums.go:28-38 `init`: the name table is rebuilt from `String` of the constants
(types.go:82-88: EOF..List are 0..4). Duplicate keys would be overwritten by the later one, hence the
reversal; `none` if a `String` call panics. -/
def ttNameToValue : Option (List (List Char × UInt8)) :=
  ([0, 1, 2, 3, 4].mapM (fun (b : UInt8) => (ttString b).map (fun s => (s, b)))).map List.reverse

/-- termtype_jsonenums.go:41-50 `MarshalJSON`: the value is always a `fmt.Stringer`, so the first
branch is taken. `enc` is `json.Marshal` on strings (total). Outer `none` is a panic. -/
def ttMarshal {D : Type} (enc : List Char → D) (b : UInt8) : Option D := (ttString b).map enc

/-- termtype_jsonenums.go:53-64 `UnmarshalJSON`. `dec` is `json.Unmarshal` into a string; result
`none` is an error. -/
def ttUnmarshal {D : Type} (dec : D → Option (List Char)) (d : D) : Option UInt8 :=
  match dec d with
  | none => none
  | some s =>
    match ttNameToValue with
    | none => none
    | some m => m.lookup s

end Fmr
