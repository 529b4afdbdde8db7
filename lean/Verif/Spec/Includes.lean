import Verif.Spec.Syntax
import Verif.Model.Load

/-!
# Files reachable by include directives
-/

namespace Fmr

/-- the files that a text in directory `dir` includes, directly or through other files -/
inductive Includes (w : LoadWorld) (dir : String) (text : List Char) : String → Prop
  | direct {f : String} : Target w.lex text f → Includes w dir text (w.join dir f)
  | step {q d f : String} {t : List Char} : Includes w dir text q → w.read q = some t → w.dir q = some d →
      Target w.lex t f → Includes w dir text (w.join d f)

end Fmr
