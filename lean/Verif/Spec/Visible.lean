import Verif.Spec.Expr

/-!
# Specification: what can be seen of a printed expression

Used for C44. A reader of the printed text sees string literals, numbers, objects and calls; a number and an
object are known only by their texts.
-/

namespace Fmr

/-- what a printed text shows -/
inductive Visible where
  | str (s : String)
  | num (text : String)
  | obj (text : String)
  | call (fn : String) (args : List Visible)

mutual
/-- what is to be seen of an expression: strings and calls as they are, of a number and of a context the text -/
def Expr.visible (w : NodeWorld) : Expr → Visible
  | .str s => .str s
  | .leaf nl _ => .str nl
  | .int i => .num (toString i)
  | .float q => .num (w.floatStr q)
  | .ctx v => .obj (w.marshal v)
  | .empty => .num ""
  | .call fn es => .call fn (visibleAll w es)
def visibleAll (w : NodeWorld) : List Expr → List Visible
  | [] => []
  | e :: es => e.visible w :: visibleAll w es
end

/-- What follows the object that the text before was inside of, `d` braces deep and, if `quoted`, in a string
literal. -/
def afterObject : Nat → Bool → List Char → Option (List Char)
  | _, _, [] => none
  | d, true, c :: cs =>
    if c = '\\' then
      match cs with
      | [] => none
      | _ :: cs => afterObject d true cs
    else if c = '"' then afterObject d false cs
    else afterObject d true cs
  | d, false, c :: cs =>
    if c = '"' then afterObject d true cs
    else if c = '{' then afterObject (d+1) false cs
    else if c = '}' then (if d ≤ 1 then some cs else afterObject (d-1) false cs)
    else afterObject d false cs

/-- the text of a JSON object as far as braces and string literals go: it ends where its first brace is closed -/
def ObjectText (s : String) : Prop := ∃ t, s.toList = '{' :: t ∧ afterObject 1 false t = some []

/-- the text of a number as far as punctuation goes -/
def NumberText (s : String) : Prop :=
  s ≠ "" ∧ ∀ c ∈ s.toList, c ≠ '(' ∧ c ≠ ',' ∧ c ≠ ')' ∧ c ≠ '"' ∧ c ≠ '{'

mutual
/-- expressions as grammar texts denote them, printed by encoders that do not fail: function names can be told
from punctuation, floating point numbers are printed as numbers and contexts as objects -/
def Expr.Legible (w : NodeWorld) : Expr → Prop
  | .str _ => True
  | .int _ => True
  | .leaf _ _ => True
  | .float q => NumberText (w.floatStr q)
  | .ctx v => ObjectText (w.marshal v)
  | .empty => False
  | .call fn es => (FnOK fn ∧ fn.toList.head? ≠ some '{') ∧ AllLegible w es
def AllLegible (w : NodeWorld) : List Expr → Prop
  | [] => True
  | e :: es => e.Legible w ∧ AllLegible w es
end

end Fmr
