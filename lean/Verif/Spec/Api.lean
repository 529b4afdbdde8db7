import Verif.Model.Api
import Verif.Spec.Lang
import Verif.Spec.Trees
import Verif.Spec.Local

/-!
# Specification: what the drivers promise
-/

namespace Fmr

/-- `k` tokens from offset `i` on are derivable from one of the start rules. -/
def MatchAt (env : Env) (i k : Nat) : Prop :=
  i + k ≤ env.tokens.length ∧ ∃ S ∈ env.starts, Derives env S ((env.tokens.drop i).take k)

/-- The annotated text: without context by the annotator, with context by the context tagger, which has to be
configured. -/
inductive Annotates (w : World) : String → Bytes → Doc → Prop
  | plain {text : Bytes} {d : Doc} : w.annotate text = some d → Annotates w "" text d
  | context {context : String} {text : Bytes} {d : Doc} : context ≠ "" → w.ctxTagger ≠ "" →
      w.annotateCtx context text = some d → Annotates w context text d

/-- The conditions under which a parse call must fail: the text is blank, it cannot be annotated, it
has no token but spaces, an alternative that it gives to a rule has no hash, or no start rule is given. -/
inductive BadInput (w : World) (g : Gram) (context : String) (text : Bytes) (starts : List String) : Prop
  | blank : w.trim text = [] → BadInput w g context text starts
  | unannotated : (¬ ∃ d, Annotates w context (w.trim text) d) → BadInput w g context text starts
  | spaces {d : Doc} : Annotates w context (w.trim text) d → (∀ t ∈ d.tokens, t.type = .space) →
      BadInput w g context text starts
  | hash {d : Doc} {A : String} {rb : RuleBody} : Annotates w context (w.trim text) d →
      DocAlt w.find (fun k s => (k, s) ∈ g.main.regexps) d A rb → w.hash rb = none → BadInput w g context text starts
  | noStart : starts = [] → BadInput w g context text starts

/-- The tagged spans lie inside the document; if there are regexps, the tokens are numbered. -/
def SpansInside (w : World) (g : Gram) (context : String) (text : Bytes) : Prop :=
  ∀ d, Annotates w context (w.trim text) d → TagsInside d ∧ (g.main.regexps ≠ [] → DocOK d)

/-- iteration orders of maps only permute -/
def World.OrdOK (w : World) : Prop := ∀ n c r k l, (w.ord n c r k l).Perm l

end Fmr
