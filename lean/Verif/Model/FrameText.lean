import Mathlib.Data.List.Sort
import Verif.Model.Frames

/-!
# Model of `(*Frame).String` (types.go:60-62)

`fmt.Sprintf` with `%+v` is external: a bool is printed as `true` or `false`, a map as `map[k:v k:v]` in the order of
its keys (package internal/fmtsort), a slice as `[v v]`, and a pointer inside of these as its address (a pointer to a
struct is only followed at the top).
-/

namespace Fmr

/-- texts separated by blanks, as in a printed slice or map, with the closing bracket -/
def blankList : List (List Char) → List Char
  | [] => [']']
  | [x] => x ++ [']']
  | x :: y :: l => x ++ ' ' :: blankList (y :: l)

/-- one entry `k:[p p]` of the printed map; `ps` are the printed addresses -/
def slotEntry (e : Nat × List (List Char)) : List Char :=
  Nat.toDigits 10 e.1 ++ ':' :: '[' :: blankList e.2

/-- the slots as `fmt` sees them: `ptr k i` is the printed address of the `i`-th slot under the key `k` -/
def Frame.pointers (ptr : Nat → Nat → List Char) (f : Frame) : List (Nat × List (List Char)) :=
  f.slots.map (fun e => (e.1, (List.range e.2.length).map (ptr e.1)))

/-- types.go:60-62 `(*Frame).String`. -/
def Frame.string (ptr : Nat → Nat → List Char) (f : Frame) : List Char :=
  "Complete:".toList ++ (if f.complete then "true".toList else "false".toList) ++ ", map[".toList ++
    blankList (((f.pointers ptr).insertionSort (fun a b => a.1 ≤ b.1)).map slotEntry)

end Fmr
