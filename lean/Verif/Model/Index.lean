import Verif.Model.Api

/-!
# Model of grammar_index.go

Go sets (`map[RbKey]struct{}`) are lists without duplicates.
-/

namespace Fmr

/-- types.go:36-40 `RbKey`. -/
structure RbKey where
  ruleName : String
  bodyID : Nat
  deriving DecidableEq, Repr

/-- types.go:30-34 `Index`. -/
structure Index where
  frames : List RbKey := []
  rules : List RbKey := []
  deriving DecidableEq, Repr

/-- types.go:23-25 `trie`, `index` and `ruleIndex` of a grammar. The double-array trie of package `dict` is
its set of keys (every key is stored with value 1, grammar_index.go:41). -/
structure GIndex where
  trie : List String := []
  index : List (String × Index) := []
  ruleIndex : List (String × Index) := []
  deriving DecidableEq, Repr

/-- the argument `cate` of `indexRules` (grammar_index.go:69,72); other strings never occur -/
inductive Cate where
  | frame | rule
  deriving DecidableEq, Repr

/-- insertion into a set -/
def setAdd {α : Type} [DecidableEq α] (l : List α) (a : α) : List α := if a ∈ l then l else l ++ [a]

/-- grammar_index.go:10-27 `updateIndex` for a non-nil index and a valid category. -/
def updateIndex (index : List (String × Index)) (k : String) (cate : Cate) (v : RbKey) :
    List (String × Index) :=
  let i := (index.lookup k).getD {}
  mapSet index k (match cate with
    | .frame => { i with frames := setAdd i.frames v }
    | .rule => { i with rules := setAdd i.rules v })

/-- External code of this file:
* `trim`   : `strings.TrimSpace`
* `update` : `trie.SafeUpdate([]byte(key), 1)` on a trie with the given keys; false is an error -/
structure IndexWorld where
  trim : String → String
  update : List String → String → Bool

/-- grammar_index.go:34-51 the loop body for one term. -/
def indexTerm (w : IndexWorld) (cate : Cate) (v : RbKey) (gi : GIndex) (term : Term) : Out GIndex :=
  let value := w.trim term.value
  if value = "" then .ok gi
  else
    match term.type with
    | .terminal =>
      if w.update gi.trie value then
        .ok { gi with trie := setAdd gi.trie value, index := updateIndex gi.index value cate v }
      else .err
    | .nonterminal => .ok { gi with ruleIndex := updateIndex gi.ruleIndex value cate v }
    | _ => .ok gi

/-- a loop with an accumulator that may fail -/
def foldOut {σ α : Type} (f : σ → α → Out σ) : σ → List α → Out σ
  | s, [] => .ok s
  | s, a :: l => do
    let s ← f s a
    foldOut f s l

/-- grammar_index.go:29-56 `indexRules`. -/
def indexRules (w : IndexWorld) (cate : Cate) (rules : List (String × Rule)) (gi : GIndex) : Out GIndex :=
  foldOut (fun gi (e : String × Rule) =>
    foldOut (fun gi (b : Nat × RuleBody) =>
      foldOut (indexTerm w cate { ruleName := e.2.name, bodyID := b.1 }) gi b.2.terms) gi e.2.body) gi rules

/-- grammar_index.go:58-77 `buildIndex`. -/
def buildIndex (w : IndexWorld) (g : Gram) : Out GIndex :=
  if g.main.refined then .err
  else foldOut (fun gi (ig : Grammar) => do
    let gi ← indexRules w .frame ig.frames gi
    indexRules w .rule ig.rules gi) {} (g.main :: g.includes)

end Fmr
