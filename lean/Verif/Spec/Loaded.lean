import Verif.Spec.Syntax

/-!
# Specification: well-formed grammars
-/

namespace Fmr

section
variable (w : LexWorld)

/-- a range of a special term: absent or min ≤ max -/
inductive RangeWF : Meta → Prop
  | none : RangeWF .nil
  | some {a b : Int} : a ≤ b → RangeWF (.range a b)

/-- a term: a rule reference, a regexp, a literal with or without flags, or a special term -/
inductive TermWF : Term → Prop
  | nonterminal {x : List Char} : Ident w x → TermWF ⟨String.ofList x, .nonterminal, .nil⟩
  | regex {r : String} : r ≠ "" → w.regexpOK r = true → TermWF ⟨w.md5 r, .nonterminal, .nil⟩
  | literal {v : String} : TermWF ⟨v, .terminal, .nil⟩
  | flagged {f : List Char} {v : String} : Ident w f → TermWF ⟨v, .terminal, .flags (String.ofList f)⟩
  | any {m : Meta} : RangeWF m → TermWF ⟨"any", .any, m⟩
  | list {x : List Char} {m : Meta} : Ident w x → RangeWF m → TermWF ⟨String.ofList x, .list, m⟩

mutual
/-- a function: a name and at least one argument -/
inductive FmrWF : FMR → Prop
  | mk {x : List Char} {args : List Arg} : FnName w x → args ≠ [] → ArgsWF args →
      FmrWF (.mk (String.ofList x) args)
inductive ArgsWF : List Arg → Prop
  | nil : ArgsWF []
  | cons {a : Arg} {as : List Arg} : ArgWF a → ArgsWF as → ArgsWF (a :: as)
/-- an argument: the dynamic type of the value is the one announced by the tag -/
inductive ArgWF : Arg → Prop
  | context : ArgWF (.mk "context" (.str "@"))
  | index {i : Int} : ArgWF (.mk "index" (.int i))
  | string {s : String} : ArgWF (.mk "string" (.str s))
  | int {i : Int} : ArgWF (.mk "int" (.bigInt i))
  | float {q : Rat} : ArgWF (.mk "float" (.bigFloat q))
  | func {f : FMR} : FmrWF f → ArgWF (.mk "func" (.fmr f))
end

structure BodyWF (b : RuleBody) : Prop where
  ne : b.terms ≠ []
  terms : ∀ t ∈ b.terms, TermWF w t
  f : ∀ f, b.f = some f → FmrWF w f

/-- a rule: stored under its name, which is an identifier, with at least one alternative; no key twice -/
structure RuleWF (x : String) (r : Rule) : Prop where
  name : r.name = x
  ident : ∃ l, x = String.ofList l ∧ Ident w l
  ne : r.body ≠ []
  keys : (r.body.map Prod.fst).Nodup
  hash : ∀ e ∈ r.body, w.hash e.2 = some e.1
  bodies : ∀ e ∈ r.body, BodyWF w e.2

/-- the grammar of one file before refinement -/
structure GrammarWF (g : Grammar) : Prop where
  ruleKeys : (g.rules.map Prod.fst).Nodup
  rules : ∀ e ∈ g.rules, RuleWF w e.1 e.2
  frameKeys : (g.frames.map Prod.fst).Nodup
  frames : ∀ e ∈ g.frames, RuleWF w e.1 e.2
  regexpKeys : (g.regexps.map Prod.fst).Nodup
  regexps : ∀ e ∈ g.regexps, e.1 = w.md5 e.2 ∧ e.2 ≠ "" ∧ w.regexpOK e.2 = true
  unrefined : g.refined = false

/-- the flags of a literal -/
def FlagsWF (m : Meta) : Prop := m = .nil ∨ ∃ f, Ident w f ∧ m = .flags (String.ofList f)

/-- a term of a user's rule after refinement: no literal, but maybe a reference to the rule of one -/
inductive LoadedTerm (g : Grammar) : Term → Prop
  | same {t : Term} : t.type ≠ .terminal → TermWF w t → LoadedTerm g t
  | literal {A : String} {m : Meta} {h : Nat} {ts : List Term} : FlagsWF w m →
      g.rules.lookup A = some { name := A, body := [(h, { terms := ts, f := none })] } →
      LoadedTerm g ⟨A, .nonterminal, m⟩

/-- a rule of a loaded grammar: one of the user's, or one made for a literal -/
inductive LoadedRule (g : Grammar) (A : String) : Rule → Prop
  | user {body : List (Nat × RuleBody)} : (∃ l, A = String.ofList l ∧ Ident w l) → body ≠ [] →
      (body.map Prod.fst).Nodup →
      (∀ e ∈ body, e.2.terms ≠ [] ∧ (∀ t ∈ e.2.terms, LoadedTerm w g t) ∧ ∀ f, e.2.f = some f → FmrWF w f) →
      LoadedRule g A ⟨A, body⟩
  | literal {h : Nat} {ts : List Term} {m : Meta} : FlagsWF w m → (∀ t ∈ ts, t.type = .terminal ∧ t.meta = m) →
      LoadedRule g A ⟨A, [(h, { terms := ts, f := none })]⟩

/-- a loaded grammar -/
structure LoadedWF (g : Grammar) : Prop where
  refined : g.refined = true
  rules : ∀ A r, g.rules.lookup A = some r → LoadedRule w g A r
  frameKeys : (g.frames.map Prod.fst).Nodup
  frames : ∀ e ∈ g.frames, RuleWF w e.1 e.2
  regexpKeys : (g.regexps.map Prod.fst).Nodup
  regexps : ∀ e ∈ g.regexps, e.1 = w.md5 e.2 ∧ e.2 ≠ "" ∧ w.regexpOK e.2 = true

end

end Fmr
