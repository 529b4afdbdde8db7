import Mathlib.Data.List.Forall2
import Verif.Model.Types

/-!
# Specification: well-formed values

"The dynamic type of every value is the one its tag announces." This is what the grammar loader
produces (theorems for C30). Independent of the `Equal` functions.
-/

namespace Fmr

mutual
/-- every argument of the expression is well-formed -/
def FMR.WF : FMR → Prop
  | .mk _ args => argsWF args
def argsWF : List Arg → Prop
  | [] => True
  | a :: as => a.WF ∧ argsWF as
/-- the tag announces the dynamic type of the value; a context argument always carries "@" -/
def Arg.WF : Arg → Prop
  | .mk t v => v.WFFor t
def Val.WFFor : Val → String → Prop
  | .str s, t => t = "string" ∨ (t = "context" ∧ s = "@")
  | .bigInt _, t => t = "int"
  | .bigFloat _, t => t = "float"
  | .int _, t => t = "index"
  | .fmr f, t => t = "func" ∧ f.WF
  | .nilFmr, _ => False
  | .other _, _ => False
end

/-- meta is absent, a range or a flag string -/
def Meta.WF : Meta → Prop
  | .other _ => False
  | _ => True

def Term.WF (t : Term) : Prop := t.meta.WF

def RuleBody.WF (rb : RuleBody) : Prop :=
  (∀ t ∈ rb.terms, t.WF) ∧ (∀ f, rb.f = some f → f.WF)

/-! ## What `Equal` compares -/

mutual
/-- the functions have the same name and the same arguments -/
inductive FmrSame : FMR → FMR → Prop
  | mk {fn : String} {as bs : List Arg} : ArgsSame as bs → FmrSame (.mk fn as) (.mk fn bs)
inductive ArgsSame : List Arg → List Arg → Prop
  | nil : ArgsSame [] []
  | cons {a b : Arg} {as bs : List Arg} : ArgSame a b → ArgsSame as bs → ArgsSame (a :: as) (b :: bs)
/-- The arguments have the same tag, and values of the type it announces that are the same; values behind other tags
are not compared. -/
inductive ArgSame : Arg → Arg → Prop
  | string {s : String} : ArgSame (.mk "string" (.str s)) (.mk "string" (.str s))
  | int {i : Int} : ArgSame (.mk "int" (.bigInt i)) (.mk "int" (.bigInt i))
  | float {q : Rat} : ArgSame (.mk "float" (.bigFloat q)) (.mk "float" (.bigFloat q))
  | index {i : Int} : ArgSame (.mk "index" (.int i)) (.mk "index" (.int i))
  | func {f g : FMR} : FmrSame f g → ArgSame (.mk "func" (.fmr f)) (.mk "func" (.fmr g))
  | nilFunc : ArgSame (.mk "func" .nilFmr) (.mk "func" .nilFmr)
  | other {t : String} {v v' : Val} : t ∉ ["string", "int", "float", "index", "func"] → ArgSame (.mk t v) (.mk t v')
end

/-- both pointers are nil, or what they point to is the same -/
def PtrSame {α : Type} (R : α → α → Prop) : Option α → Option α → Prop
  | none, none => True
  | some a, some b => R a b
  | _, _ => False

/-- the terms are equal, with a meta that is absent, a range or a flag string -/
def TermSame (t u : Term) : Prop := t = u ∧ t.WF

/-- the same terms in the same order, and the same function -/
def BodySame (a b : RuleBody) : Prop := List.Forall₂ TermSame a.terms b.terms ∧ PtrSame FmrSame a.f b.f

end Fmr
