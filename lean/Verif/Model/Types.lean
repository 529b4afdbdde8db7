/-!
# Model of types.go and types_util.go

Values that Go handles through pointers are plain values here; a nil pointer is `none`.
-/

namespace Fmr

/-- types.go:77-88 `TermType` (a byte enum with five named values). -/
inductive TermType where
  | eof
  | nonterminal
  | terminal
  | any
  | list
  deriving DecidableEq, Repr

/-- types.go:94 `Term.Meta interface{}`: the dynamic values that occur.
* `nil`   : no meta
* `range` : `map[string]int{"min":..,"max":..}`, the only maps that are ever built
            (cfgrammar_special.go:32-43); both keys are always present and ints are 64 bit
* `flags` : a Go `string` (terminal flags, cfgrammar.go:205)
* `other` : any other dynamic type (e.g. the `map[string]interface{}` that a JSON decoder
            would put there); the tag distinguishes values. -/
inductive Meta where
  | nil
  | range (min max : Int)
  | flags (s : String)
  | other (tag : Nat)
  deriving DecidableEq, Repr

/-- types.go:91-95 `Term`. -/
structure Term where
  value : String
  type : TermType
  «meta» : Meta := .nil
  deriving DecidableEq, Repr

mutual
/-- types.go:113-116 `FMR`. -/
inductive FMR where
  | mk (fn : String) (args : List Arg)
/-- types.go:107-110 `Arg`. `Value interface{}` is `Val`. -/
inductive Arg where
  | mk (type : String) (value : Val)
/-- dynamic values of `Arg.Value` (types.go:109).
`bigFloat` carries the exact rational value of a finite `*big.Float`
(sign of zero and infinities are not modelled); `nilFmr` is a typed nil `*FMR`;
`other` is any other dynamic type. -/
inductive Val where
  | str (s : String)
  | bigInt (i : Int)
  | bigFloat (q : Rat)
  | int (i : Int)
  | fmr (f : FMR)
  | nilFmr
  | other (tag : Nat)
end

def FMR.fn : FMR → String | .mk f _ => f
def FMR.args : FMR → List Arg | .mk _ a => a
def Arg.type : Arg → String | .mk t _ => t
def Arg.value : Arg → Val | .mk _ v => v

/-- types.go:71-74 `RuleBody`; `F *FMR` may be nil. -/
structure RuleBody where
  terms : List Term
  f : Option FMR

/-- types.go:65-68 `Rule`; `Body map[uint64]*RuleBody` is the list of its entries,
the list order standing for an iteration order. -/
structure Rule where
  name : String
  body : List (Nat × RuleBody)

def Rule.bodies (r : Rule) : List RuleBody := r.body.map Prod.snd

/-- types.go:16-28 `Grammar`. Maps are association lists. `trie`, `index`, `ruleIndex` are modelled
in `Model/Index.lean`; `includes` is kept in the parse environment (`Env.grammars`). -/
structure Grammar where
  name : String
  rules : List (String × Rule)
  frames : List (String × Rule) := []
  regexps : List (String × String) := []
  refined : Bool := false

/-- types_util.go:8-45 `metaEqual`.
For two `map[string]int` both `len` and all entries are compared (20-32), which for the maps with
exactly the keys min and max is equality of both numbers; strings compare by value (36-41); every
other combination falls through to `return false` (44), also two equal values of a foreign type. -/
def metaEqual : Meta → Meta → Bool
  | .nil, .nil => true
  | .range a b, .range c d => a == c && b == d
  | .flags s, .flags t => s == t
  | _, _ => false

/-- types_util.go:48-59 `(*Term).Equal` for non-nil arguments. -/
def Term.equal (t t1 : Term) : Bool :=
  if t.value ≠ t1.value || t.type ≠ t1.type then false
  else metaEqual t.meta t1.meta

/-- types_util.go:48-59 `(*Term).Equal` with nil receivers/arguments. -/
def Term.equalPtr : Option Term → Option Term → Bool
  | none, none => true
  | some t, some t1 => t.equal t1
  | _, _ => false

/-- types_util.go:100-104 case "string": both values are strings and equal. -/
def strValEqual : Val → Val → Bool
  | .str s1, .str s2 => s1 == s2
  | _, _ => false

/-- types_util.go:105-110 case "int": both values are `*big.Int` and `Cmp` is 0. -/
def bigIntValEqual : Val → Val → Bool
  | .bigInt s1, .bigInt s2 => s1 == s2
  | _, _ => false

/-- types_util.go:111-116 case "float": both values are `*big.Float` and `Cmp` is 0. -/
def bigFloatValEqual : Val → Val → Bool
  | .bigFloat s1, .bigFloat s2 => s1 == s2
  | _, _ => false

/-- types_util.go:117-122 case "index": both values are `int` and equal. -/
def intValEqual : Val → Val → Bool
  | .int s1, .int s2 => s1 == s2
  | _, _ => false

mutual
/-- types_util.go:81-132 `(*FMR).Equal` for non-nil arguments (the nil cases, 82-87, are
`FMR.equalPtr`). The receiver is `f`, the argument `g`. -/
def FMR.equal : FMR → FMR → Bool
  | .mk fn args, .mk gn brgs =>
    if fn ≠ gn then false
    else if args.length ≠ brgs.length then false
    else argsEqual args brgs
termination_by structural f => f
/-- types_util.go:94-130, the loop over `fmr.Args` (second argument) against `f.Args`. -/
def argsEqual : List Arg → List Arg → Bool
  | [], _ => true
  | _ :: _, [] => true
  | a :: as, b :: bs => argEqual a b && argsEqual as bs
termination_by structural l => l
/-- types_util.go:95-129, one iteration: `a = f.Args[i]`, `b = arg`. -/
def argEqual : Arg → Arg → Bool
  | .mk ta va, .mk tb vb =>
    if tb ≠ ta then false
    else if tb = "string" then strValEqual vb va
    else if tb = "int" then bigIntValEqual vb va
    else if tb = "float" then bigFloatValEqual vb va
    else if tb = "index" then intValEqual vb va
    else if tb = "func" then valFmrEqual va vb
    else true
termination_by structural a => a
/-- types_util.go:123-128, the `"func"` case, `s1.Equal(s2)` with `s1 = arg.Value` (`vb`) and
`s2 = f.Args[i].Value` (`va`); typed nil pointers are handled by the callee (82-87).
Simplification: the callee is invoked here with swapped receiver/argument so that the recursion is
structural in the first argument; `FMR.equal` is symmetric (theorem `fmrEqual_symm`). -/
def valFmrEqual : Val → Val → Bool
  | .fmr f, .fmr g => FMR.equal f g
  | .nilFmr, .nilFmr => true
  | _, _ => false
termination_by structural v => v
end

/-- types_util.go:81-87, nil handling of `(*FMR).Equal`. -/
def FMR.equalPtr : Option FMR → Option FMR → Bool
  | none, none => true
  | some f, some g => f.equal g
  | _, _ => false

/-- types_util.go:65-77 loop comparing terms; lengths have been compared before. -/
def termsEqual : List Term → List Term → Bool
  | [], _ => true
  | _ :: _, [] => true
  | a :: as, b :: bs => b.equal a && termsEqual as bs

/-- types_util.go:62-78 `(*RuleBody).Equal` for non-nil arguments. -/
def RuleBody.equal (r rb : RuleBody) : Bool :=
  if rb.terms.length ≠ r.terms.length then false
  else if termsEqual r.terms rb.terms = false then false
  else FMR.equalPtr r.f rb.f

/-- types_util.go:62-68 nil handling of `(*RuleBody).Equal`. -/
def RuleBody.equalPtr : Option RuleBody → Option RuleBody → Bool
  | none, none => true
  | some r, some rb => r.equal rb
  | _, _ => false

end Fmr
