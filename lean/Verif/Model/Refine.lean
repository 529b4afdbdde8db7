import Verif.Model.Local

/-!
# Model of grammar_refine.go and grammar_tokens.go

Terms are Go pointers that are rewritten in place; no `*Term` is shared between two rule bodies
(every term is allocated by the parser for one body), so rewriting is modelled by returning the new
grammar. When `refine` returns an error the caller drops the grammar (cfgrammar.go:415-417), so the
partially rewritten grammar is not modelled.
-/

namespace Fmr

/-- External code used by `refine`:
* `annot`  : the tokens of `NLP().Annotate` on a new document (grammar_refine.go:31-34), `none` an error
* `ascii`  : `strings.Join(strings.Fields(unidecode.Unidecode(s)), "_")` (42-43)
* `hash`   : `hashstructure.Hash` of a rule body, `none` an error -/
structure RefineWorld where
  annot : String → Option (List Token)
  ascii : String → String
  hash : RuleBody → Option Nat

/-- grammar_tokens.go:9-26 the global registry `gTokens`, as an association list. -/
abbrev Registry := List (String × Token)

/-- grammar_refine.go:48-50 with grammar_tokens.go:14-24: `put` only when `get` is nil. -/
def Registry.add (reg : Registry) (t : Token) : Registry :=
  match reg.lookup t.text with
  | some _ => reg
  | none => mapSet reg t.text t

/-- The local variables of `refine` (grammar_refine.go:16-18) and the registry. -/
structure RefineSt where
  terminalRules : List Rule := []
  terminals : List (String × String) := []
  names : List String := []
  reg : Registry := []

/-- grammar_refine.go:37-51 the loop over the tokens of one literal with flags `m`: the name, the terms
and the registry. -/
def literalLoop (w : RefineWorld) (m : Meta) : List Token → String → List Term → Registry →
    String × List Term × Registry
  | [], tname, terms, reg => (tname, terms, reg)
  | token :: ts, tname, terms, reg =>
    if token.type = .space then literalLoop w m ts tname terms reg
    else
      literalLoop w m ts
        (if token.type ≠ .punct then tname ++ "_" ++ w.ascii token.text else tname)
        (terms ++ [{ value := token.text, type := .terminal, «meta» := m }])
        (reg.add token)

/-- grammar_refine.go:52-57 the search for an unused name; `n` is the counter, `fuel` bounds the
number of rounds. -/
def freshName (used : String → Bool) (tname : String) : Nat → Nat → String → Option String
  | 0, _, _ => none
  | fuel + 1, n, name =>
    if used name then freshName used tname fuel (n + 1) (tname ++ "_" ++ toString n)
    else some name

/-- grammar_refine.go:23-69 the loop body for one term. `rules` is `g.Rules` (not changed before
line 72). -/
def refineTerm (w : RefineWorld) (pre : String) (rules : List (String × Rule)) (fuel : Nat)
    (st : RefineSt) (term : Term) : Out (RefineSt × Term) :=
  if term.type ≠ .terminal then .ok (st, term)
  else
    match st.terminals.lookup term.value with
    | some t => .ok (st, { term with value := t, type := .nonterminal })
    | none => do
      let tokens ← Out.ofErr (w.annot term.value)
      let (tname, terms, reg) := literalLoop w term.meta tokens (pre ++ "_t") [] st.reg
      let used := fun name => (rules.lookup name).isSome || st.names.contains name
      let name ← Out.ofFuel (freshName used tname fuel 0 tname)
      let rb : RuleBody := { terms := terms, f := none }
      let h ← Out.ofErr (w.hash rb)
      pure
        ({ terminalRules := st.terminalRules ++ [{ name := name, body := [(h, rb)] }],
           terminals := mapSet st.terminals term.value name,
           names := st.names ++ [name], reg := reg },
         { term with value := name, type := .nonterminal })

/-- a loop that threads a state and collects the rewritten elements -/
def mapState {σ α : Type} (f : σ → α → Out (σ × α)) : σ → List α → Out (σ × List α)
  | st, [] => .ok (st, [])
  | st, a :: l => do
    let (st, a) ← f st a
    let (st, l) ← mapState f st l
    pure (st, a :: l)

/-- grammar_refine.go:23-69 the loop over the terms of a body. -/
def refineBody (w : RefineWorld) (pre : String) (rules : List (String × Rule)) (fuel : Nat)
    (st : RefineSt) (e : Nat × RuleBody) : Out (RefineSt × (Nat × RuleBody)) := do
  let (st, terms) ← mapState (refineTerm w pre rules fuel) st e.2.terms
  pure (st, (e.1, { e.2 with terms := terms }))

/-- grammar_refine.go:22-70 the loop over the bodies of a rule. -/
def refineRule (w : RefineWorld) (pre : String) (rules : List (String × Rule)) (fuel : Nat)
    (st : RefineSt) (e : String × Rule) : Out (RefineSt × (String × Rule)) := do
  let (st, body) ← mapState (refineBody w pre rules fuel) st e.2.body
  pure (st, (e.1, { e.2 with body := body }))

/-- grammar_refine.go:12-77 `refine(prefix)`. -/
def refine (w : RefineWorld) (pre : String) (fuel : Nat) (reg : Registry) (g : Grammar) :
    Out (Registry × Grammar) :=
  if g.refined then .ok (reg, g)
  else do
    let (st, rules) ← mapState (refineRule w pre g.rules fuel) { reg := reg } g.rules
    pure (st.reg,
      { g with rules := st.terminalRules.foldl (fun m r => mapSet m r.name r) rules,
               refined := true })

end Fmr
