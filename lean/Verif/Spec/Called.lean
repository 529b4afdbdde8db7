import Verif.Spec.Expr
import Verif.Spec.Accept

/-!
# Specification: the functions that are called
-/

namespace Fmr

/-- The function of an alternative calls `g`; `nf.I` is not called. -/
inductive Calls : FMR → String → Prop
  | here {fn : String} {args : List Arg} : fn ≠ "nf.I" → Calls (.mk fn args) fn
  | inner {fn g : String} {args : List Arg} {f : FMR} : .mk "func" (.fmr f) ∈ args → Calls f g → Calls (.mk fn args) g

/-- A definition calls `g`. -/
def DefsCall (ds : List Def) (g : String) : Prop := ∃ d ∈ ds, ∃ b ∈ d.bodies, ∃ f, b.f = some f ∧ Calls f g

/-- The functions that the grammar files of the repository call and that are not registered, by folder and file. -/
def missingFuncs : List ((String × String) × List String) := [
  (("grammars", "number.zh.grammar"), ["nf.util.concat", "nf.math.decimal"]),
  (("grammars", "math.zh.grammar"), ["nf.math.to_number"]),
  (("grammars", "limit.grammar"), ["nf.sql.limit"]),
  (("grammars", "order.grammar"), ["nf.sql.order"]),
  (("grammars", "sql.grammar"), ["nf.sql.mix", "nf.sql.limit", "nf.sql.gen"]),
  (("grammars", "time.grammar"), ["nf.datetime.year", "nf.datetime.month", "nf.sql.where"]),
  ((".", "sf.grammar"), ["nf.flight", "nf.arrival"]),
  (("examples/arithmetic", "arithmetic.grammar"), []),
  (("examples/builtin", "builtin.grammar"), []),
  (("examples/builtin", "cn_num.grammar"), []),
  (("examples/math/grammars", "number.zh.grammar"), ["nf.util.concat", "nf.math.decimal"]),
  (("examples/math/grammars", "math.zh.grammar"), ["nf.math.to_number"]),
  (("examples/math/grammars", "number.en.grammar"), ["nf.util.concat", "nf.math.decimal"]),
  (("examples/math/grammars", "math.en.grammar"), ["nf.math.to_number", "vf.be.equ"]),
  (("examples/math/grammars", "math.grammar"), ["nf.math.expression"]),
  (("examples/math/grammars", "latex.math.grammar"), ["nf.math.abs", "nf.math.to_number", "nf.math.expression", "vf.be.eq", "vf.be.neq",
    "vf.be.gt", "vf.be.geq", "vf.be.lt", "vf.be.leq", "nf.math.op", "nf.math.func"])]

/-- The expression has a call of `g`. -/
inductive ExprCalls : Expr → String → Prop
  | here {fn : String} {es : List Expr} : ExprCalls (.call fn es) fn
  | inner {fn g : String} {es : List Expr} {e : Expr} : e ∈ es → ExprCalls e g → ExprCalls (.call fn es) g

end Fmr
