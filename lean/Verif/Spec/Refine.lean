import Verif.Spec.Lang
import Verif.Model.Refine

/-!
# Specification: what refinement has to preserve

The language of several grammar files before and after `refine`. Nothing here refers to the
algorithm of `refine`; of its model only the tokenizer parameter is used.
-/

namespace Fmr

/-- A source of productions. -/
abbrev Source := String → List Term → Prop

/-- The productions of a grammar as they stand. -/
def Grammar.source (g : Grammar) : Source := fun A ts =>
  ∃ r, g.rules.lookup A = some r ∧ ∃ rb ∈ r.bodies, ts = rb.terms

/-- The reading of a literal: the sequence of its non-space tokens, each with the literal's flags.
Other terms stand for themselves. -/
def readTerm (annot : String → Option (List Token)) (t : Term) : List Term :=
  if t.type = .terminal then
    (((annot t.value).getD []).filter (fun a => a.type ≠ .space)).map
      (fun a => { value := a.text, type := .terminal, «meta» := t.meta })
  else [t]

/-- The productions of a grammar with every literal replaced by its reading. -/
def Grammar.readSource (annot : String → Option (List Token)) (g : Grammar) : Source := fun A ts =>
  ∃ r, g.rules.lookup A = some r ∧ ∃ rb ∈ r.bodies, ts = rb.terms.flatMap (readTerm annot)

/-- The term with the flags of a literal replaced by `fl` of its text. -/
def setFlags (fl : String → Meta) (t : Term) : Term :=
  if t.type = .terminal then { t with «meta» := fl t.value } else t

/-- As `readSource`, but with the flags of every literal given by its text alone. -/
def Grammar.readSourceWith (annot : String → Option (List Token)) (fl : String → Meta) (g : Grammar) :
    Source := fun A ts =>
  ∃ r, g.rules.lookup A = some r ∧ ∃ rb ∈ r.bodies,
    ts = rb.terms.flatMap (fun t => readTerm annot (setFlags fl t))

/-- The language given by several sources. -/
def sourcesLang (tmatch : Term → Token → Bool) (srcs : List Source) : Lang where
  prods A ts := ∃ s ∈ srcs, s A ts
  tmatch := tmatch
  okAny := okCount
  okList _ := okCount

/-- `<S>` derives `w` from the given sources. -/
def SourcesDerive (tmatch : Term → Token → Bool) (srcs : List Source) (S : String) (w : List Token) :
    Prop :=
  Yields (sourcesLang tmatch srcs) [{ value := S, type := .nonterminal, «meta» := .nil }] w

/-- The source has a rule called `A`. -/
def Source.Names (s : Source) (A : String) : Prop := ∃ ts, s A ts

/-- Some production of the source refers to `<A>` or to `(list<A>)`. -/
def Source.Refers (s : Source) (A : String) : Prop :=
  ∃ B ts, s B ts ∧ ∃ t ∈ ts, (t.type = .nonterminal ∨ t.type = .list) ∧ t.value = A

/-- `A` is a rule of `g'` but not of `g`. -/
def Introduced (g g' : Grammar) (A : String) : Prop :=
  g.rules.lookup A = none ∧ g'.rules.lookup A ≠ none

/-- A literal occurring in a rule of the grammar. -/
def Grammar.Literal (g : Grammar) (t : Term) : Prop :=
  ∃ e ∈ g.rules, ∃ rb ∈ e.2.bodies, t ∈ rb.terms ∧ t.type = .terminal

/-- Equal literals carry equal flags. -/
def SameFlags (g : Grammar) : Prop :=
  ∀ t t', g.Literal t → g.Literal t' → t.value = t'.value → t.meta = t'.meta

/-- The name made from the words of a literal, without a number to tell it from other names. -/
def literalName (w : RefineWorld) (pre v : String) : String :=
  ((w.annot v).getD []).foldl
    (fun s a => if a.type = .space ∨ a.type = .punct then s else s ++ "_" ++ w.ascii a.text) (pre ++ "_t")

/-- Different literals have different names, and no rule has the name of a literal. -/
def NamesApart (w : RefineWorld) (pre : String) (g : Grammar) : Prop :=
  (∀ t t', g.Literal t → g.Literal t' → literalName w pre t.value = literalName w pre t'.value → t.value = t'.value) ∧
  ∀ t, g.Literal t → g.rules.lookup (literalName w pre t.value) = none

/-- Introduced names are not referred to by, and do not exist in, the other sources. -/
def NoClash (g g' : Grammar) (others : List Source) : Prop :=
  ∀ A, Introduced g g' A → (¬ g.source.Refers A) ∧ ∀ s ∈ others, ¬ s.Names A ∧ ¬ s.Refers A

/-- Only terminals, or none. -/
def Unmixed1 (ts : List Term) : Prop :=
  (∀ t ∈ ts, t.type = .terminal) ∨ (∀ t ∈ ts, t.type ≠ .terminal)

/-- A literal replaced by a reference to the rule `ν` of its text; its flags stay on the reference. -/
def replaceLit (ν : String → String) (t : Term) : Term :=
  if t.type = .terminal then { value := ν t.value, type := .nonterminal, «meta» := t.meta } else t

/-- All literals of an alternative replaced; key and semantic function stay. -/
def replaceLits (ν : String → String) (e : Nat × RuleBody) : Nat × RuleBody :=
  (e.1, { terms := e.2.terms.map (replaceLit ν), f := e.2.f })

end Fmr
