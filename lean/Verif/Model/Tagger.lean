import Verif.Model.Api
import Verif.Model.Node

/-!
# Model of api.go:193-209, the address of the context tagger

`net/url` (Go 1.17 and later) as far as it is used there. A Go map is an association list, see `DESIGN.md`; the order
of its iteration is a parameter.
-/

namespace Fmr

/-- `strings.Cut` at a byte; without it the second part is empty. -/
def qcut (c : UInt8) : Bytes → Bytes × Bytes
  | [] => ([], [])
  | b :: s => if b = c then ([], s) else (b :: (qcut c s).1, (qcut c s).2)

/-- `ishex` and `unhex` of `net/url`. -/
def qunhex (b : UInt8) : Option Nat :=
  if 48 ≤ b.toNat ∧ b.toNat ≤ 57 then some (b.toNat - 48)
  else if 97 ≤ b.toNat ∧ b.toNat ≤ 102 then some (b.toNat - 97 + 10)
  else if 65 ≤ b.toNat ∧ b.toNat ≤ 70 then some (b.toNat - 65 + 10)
  else none

/-- `url.QueryUnescape`, `none` an error. -/
def qunescape : Bytes → Option Bytes
  | [] => some []
  | b :: s =>
    if b = 37 then
      match s with
      | x :: y :: s' =>
        match qunhex x, qunhex y, qunescape s' with
        | some m, some n, some r => some (UInt8.ofNat (16 * m + n) :: r)
        | _, _, _ => none
      | _ => none
    else (qunescape s).map ((if b = 43 then 32 else b) :: ·)

/-- `"0123456789ABCDEF"[n]` -/
def qhex (n : Nat) : UInt8 := UInt8.ofNat (if n < 10 then 48 + n else 55 + n)

/-- `shouldEscape` of `net/url` for query components is false: letters, digits, `-_.~`. -/
def qplain (b : UInt8) : Bool :=
  (48 ≤ b.toNat && b.toNat ≤ 57) || (65 ≤ b.toNat && b.toNat ≤ 90) || (97 ≤ b.toNat && b.toNat ≤ 122) ||
    b.toNat == 45 || b.toNat == 95 || b.toNat == 46 || b.toNat == 126

/-- `url.QueryEscape`. -/
def qescape : Bytes → Bytes
  | [] => []
  | b :: s =>
    (if qplain b then [b] else if b = 32 then [43] else [37, qhex (b.toNat / 16), qhex (b.toNat % 16)]) ++ qescape s

/-- `url.Values` -/
abbrev QValues := List (Bytes × List Bytes)

/-- `m[key]`, nil without an entry -/
def QValues.get (m : QValues) (k : Bytes) : List Bytes := (m.lookup k).getD []

/-- `m[key] = vs` -/
def QValues.put : QValues → Bytes → List Bytes → QValues
  | [], k, vs => [(k, vs)]
  | e :: m, k, vs => if e.1 = k then (k, vs) :: m else e :: QValues.put m k vs

/-- One round of the loop of `parseQuery` of `net/url`: the part before the next `&`. What cannot be read is left out: api.go:200
`Query` ignores the error. -/
def qparam (part : Bytes) (m : QValues) : QValues :=
  if 59 ∈ part then m
  else if part = [] then m
  else
    match qunescape (qcut 61 part).1, qunescape (qcut 61 part).2 with
    | some k, some v => m.put k (m.get k ++ [v])
    | _, _ => m

/-- The loop of `parseQuery`; there are at most as many rounds as bytes. -/
def qparse : Nat → Bytes → QValues → QValues
  | 0, _, m => m
  | n + 1, q, m => if q = [] then m else qparse n (qcut 38 q).2 (qparam (qcut 38 q).1 m)

/-- api.go:200 `vurl.Query`. -/
def queryOf (q : Bytes) : QValues := qparse q.length q []

/-- the order of Go strings -/
def bytesLE : Bytes → Bytes → Bool
  | [], _ => true
  | _ :: _, [] => false
  | a :: s, b :: t => if a = b then bytesLE s t else decide (a.toNat < b.toNat)

/-- insertion into a sorted list -/
def qinsert (k : Bytes) : List Bytes → List Bytes
  | [] => [k]
  | a :: l => if bytesLE k a then k :: a :: l else a :: qinsert k l

/-- `sort.Strings`; the algorithm does not matter, since the sorted list is unique. -/
def qsort : List Bytes → List Bytes
  | [] => []
  | k :: l => qinsert k (qsort l)

/-- `strings.Join(l, "&")` -/
def joinAmp : List Bytes → Bytes
  | [] => []
  | [e] => e
  | e :: l => e ++ 38 :: joinAmp l

/-- api.go:202 `c.Encode`: the keys, in the order `ord` of the map, are sorted. -/
def encodeQuery (ord : List Bytes → List Bytes) (m : QValues) : Bytes :=
  joinAmp ((qsort (ord (m.map (·.1)))).flatMap fun k => (m.get k).map fun v => qescape k ++ 61 :: qescape v)

/-- `"context"` -/
def ctxKey : Bytes := [99, 111, 110, 116, 101, 120, 116]

/-- api.go:200-202 the query of the request: `Set` replaces all values. -/
def contextQuery (ord : List Bytes → List Bytes) (q context : Bytes) : Bytes :=
  encodeQuery ord ((queryOf q).put ctxKey [context])

/-- api.go:196-209. `parseURI` is `url.ParseRequestURI`, giving the address up to the `?` as `String` prints it, and the query; `ask` is a
tagger made for an address and the annotation of a text with it (`ling.NewAPITagger`, `AnnotatePro`). -/
def askContext (parseURI : String → Option (Bytes × Bytes)) (ask : Bytes → Bytes → Option Doc) (ord : List Bytes → List Bytes)
    (flag : String) (context : String) (text : Bytes) : Option Doc :=
  match parseURI flag with
  | none => none
  | some (base, q) => ask (base ++ 63 :: contextQuery ord q (utf8 context)) text

/-- The world with that context tagger. -/
def World.asking (w : World) (parseURI : String → Option (Bytes × Bytes)) (ask : Bytes → Bytes → Option Doc)
    (ord : List Bytes → List Bytes) : World :=
  { w with annotateCtx := askContext parseURI ask ord w.ctxTagger }

end Fmr
