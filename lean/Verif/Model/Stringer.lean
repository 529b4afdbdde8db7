import Verif.Model.Quote

/-!
# Model of `(*FMR).String`

earley_stringer.go:104-147. The two library functions that are not modelled are parameters:
`strconv.IsPrint` (used by `strconv.Quote`) and `(*big.Float).String`.
-/

namespace Fmr

/-- `strconv.IsPrint` and `(*big.Float).String`. -/
structure StrWorld where
  isPrint : Char → Bool
  floatStr : Rat → String

section
variable (p : StrWorld)

/-- `strings.Join(args, ",")` -/
def joinComma : List (List Char) → List Char
  | [] => []
  | [a] => a
  | a :: b :: l => a ++ ',' :: joinComma (b :: l)

mutual
/-- earley_stringer.go:104-147 `(*FMR).String` of a non-nil function, as runes; the nil case (105-107) is
`fString` of Model/Print. -/
def FMR.string : FMR → List Char
  | .mk fn args =>
    match argStrings args with
    | none => "invalid_fmr".toList
    | some l => fn.toList ++ '(' :: (joinComma l ++ [')'])
termination_by structural f => f
/-- earley_stringer.go:110-145 the loop over the arguments; `none` is `return invalid`. -/
def argStrings : List Arg → Option (List (List Char))
  | [] => some []
  | a :: as =>
    match argString a with
    | none => none
    | some x =>
      match argStrings as with
      | none => none
      | some l => some (x :: l)
termination_by structural l => l
/-- earley_stringer.go:111-144 one iteration. -/
def argString : Arg → Option (List Char)
  | .mk ty v =>
    if ty = "string" then
      match v with
      | .str s => some (quoteStr p.isPrint s).toList
      | _ => none
    else if ty = "int" then
      match v with
      | .bigInt i => some (toString i).toList
      | _ => none
    else if ty = "float" then
      match v with
      | .bigFloat q => some (p.floatStr q).toList
      | _ => none
    else if ty = "func" then funcString v
    else if ty = "index" then
      match v with
      | .int i => some ('$' :: (toString i).toList)
      | _ => none
    else none
termination_by structural a => a
/-- earley_stringer.go:130-135 the argument that is a function; a typed nil prints as 105-107. -/
def funcString : Val → Option (List Char)
  | .fmr f => some (FMR.string f)
  | .nilFmr => some "nf.I($0)".toList
  | .str _ | .bigInt _ | .bigFloat _ | .int _ | .other _ => none
termination_by structural v => v
end

end

end Fmr
