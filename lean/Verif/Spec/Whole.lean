import Verif.Spec.Refine
import Verif.Spec.Includes
import Verif.Spec.Api
import Verif.Spec.NullSafe

/-!
# Specification: grammar files and documents as one grammar

What the texts of the grammar files and the tagged document mean together, as one source of productions.
Nothing here refers to the loader, to refinement or to the local grammar.
-/

namespace Fmr

/-- A grammar file: include directives, then definitions `ds`; `ρ` are the regexps in them with their names. -/
inductive FileSyn (w : LexWorld) : List Char → List Def → List (String × String) → Prop
  | defs {r : List Char} {ds : List Def} {ρ : List (String × String)} : DefsSyn w r ds [] ρ → FileSyn w r ds ρ
  | incl {t l : List Char} {f : String} {ds : List Def} {ρ : List (String × String)} : IncludeSyn w t f →
      FileSyn w l ds ρ → FileSyn w (t ++ l) ds ρ

/-- The productions that are written in definitions: one for each alternative of a rule, where every literal
is read as the sequence of its tokens. -/
def writtenSource (annot : String → Option (List Token)) (ds : List Def) : Source := fun A ts =>
  ∃ b, Written ds false A b ∧ ts = b.terms.flatMap (readTerm annot)

/-- The productions that a document gives: its tokens by class, the tagged spans, and the matches of the
regexps `R` (name and expression) that start and end with a token. -/
inductive docSource (find : String → Bytes → Option (List (Nat × Nat))) (R : String → String → Prop) (d : Doc) :
    Source
  | word {t : Token} : t ∈ d.tokens → t.type = .word → docSource find R d "word" [tokenTerm t]
  | punct {t : Token} : t ∈ d.tokens → t.type = .punct → docSource find R d "punct" [tokenTerm t]
  | symbol {t : Token} : t ∈ d.tokens → t.type = .symbol → docSource find R d "symbol" [tokenTerm t]
  | letters {t : Token} : t ∈ d.tokens → t.type = .letters → docSource find R d "letters" [tokenTerm t]
  | tag {sp : Span} {m : List (String × SpanVals)} {A : String} {vs : SpanVals} : sp ∈ d.spans → sp.ann = .map m →
      (A, vs) ∈ m → docSource find R d A ((spanTokens d sp).map tokenTerm)
  | regexp {A s : String} {ms : List (Nat × Nat)} {m : Nat × Nat} {sp : Span} : R A s → find s d.text = some ms →
      m ∈ ms → SpanCovers d sp m → docSource find R d A ((spanTokens d sp).map tokenTerm)

/-- The definitions and the regexps of every file. -/
structure Files where
  defs : String → List Def
  regexps : String → List (String × String)

/-- Each of the files, if it can be read, has the definitions and regexps of `F`; and no two alternatives of
a file have the same hash. -/
structure FilesRead (lw : LoadWorld) (F : Files) (I : String → Prop) : Prop where
  read : ∀ q t, I q → lw.read q = some t → runeError ∉ t ∧ FileSyn lw.lex t (F.defs q) (F.regexps q)
  hash : ∀ q, I q → NoCollision lw.lex.hash (F.defs q)

section
variable (ds : List Def) (F : Files) (I : String → Prop)

/-- The productions of definitions `ds`, of the files `I`, and of a document. -/
inductive wholeSource (annot : String → Option (List Token)) (doc : Source) : Source
  | main {A : String} {ts : List Term} : writtenSource annot ds A ts → wholeSource annot doc A ts
  | included {p A : String} {ts : List Term} : I p → writtenSource annot (F.defs p) A ts → wholeSource annot doc A ts
  | document {A : String} {ts : List Term} : doc A ts → wholeSource annot doc A ts

/-- The regexps `ρ` and those of the files `I`. -/
def wholeRegexps (ρ : List (String × String)) (k s : String) : Prop :=
  (k, s) ∈ ρ ∨ ∃ p, I p ∧ (k, s) ∈ F.regexps p

/-- The alternatives written in the definitions `ds` or in the files `I`. -/
def wholeWritten (A : String) (b : RuleBody) : Prop :=
  Written ds false A b ∨ ∃ p, I p ∧ Written (F.defs p) false A b

/-- The literals written in the definitions `ds` or in the files `I`. -/
def wholeLiteral (t : Term) : Prop :=
  t.type = .terminal ∧ ∃ A b, wholeWritten ds F I A b ∧ t ∈ b.terms

/-- The names used by the source: those of its rules and those that its rules refer to. -/
def Source.Uses (s : Source) (A : String) : Prop := s.Names A ∨ s.Refers A

/-- The names that the loader and the parser make up: `ɣ`, and everything that starts with `g_t`. -/
def Reserved (A : String) : Prop := A = "ɣ" ∨ "g_t".toList <+: A.toList

/-- What is asked of the definitions as a whole: equal literals carry equal flags; if there are several files,
the words of a literal identify it; and nobody uses a reserved name. -/
structure WholeFit (w : RefineWorld) (src : Source) (starts : List String) : Prop where
  flags : ∀ t t', wholeLiteral ds F I t → wholeLiteral ds F I t' → t.value = t'.value → t.meta = t'.meta
  apart : (∃ p, I p) → ∀ t t', wholeLiteral ds F I t → wholeLiteral ds F I t' →
    literalName w "g" t.value = literalName w "g" t'.value → t.value = t'.value
  free : ∀ A, src.Uses A ∨ A ∈ starts → ¬ Reserved A

/-- All `(any…)` terms have the same bounds, and all `(list<x>…)` terms for the same `x` have. -/
def WholeUniform : Prop :=
  ∀ A b A' b', wholeWritten ds F I A b → wholeWritten ds F I A' b' → ∀ t ∈ b.terms, ∀ t' ∈ b'.terms,
    (t.type = .any ∧ t'.type = .any ∨ t.type = .list ∧ t'.type = .list ∧ t.value = t'.value) → t.meta = t'.meta

/-- Nothing is optional: every literal has a token, no range starts at zero, and no production of the document is
empty. -/
structure WholeSolid (annot : String → Option (List Token)) (doc : Source) : Prop where
  literal : ∀ t, wholeLiteral ds F I t → readTerm annot t ≠ []
  range : ∀ A b, wholeWritten ds F I A b → ∀ t ∈ b.terms, t.type = .any ∨ t.type = .list → ¬ okCount t.meta 0
  document : ∀ A, ¬ doc A []

/-- The term can match nothing: a literal without tokens, a rule with an alternative of such terms or with an empty
production of the document, and a range from zero (any of those that the parser may confuse it with). -/
inductive TextNull (annot : String → Option (List Token)) (doc : Source) : Term → Prop
  | literal {t : Term} : t.type = .terminal → readTerm annot t = [] → TextNull annot doc t
  | rule {t : Term} {b : RuleBody} : t.type = .nonterminal → wholeWritten ds F I t.value b →
      (∀ u ∈ b.terms, TextNull annot doc u) → TextNull annot doc t
  | document {t : Term} : t.type = .nonterminal → doc t.value [] → TextNull annot doc t
  | any {t t' : Term} {A : String} {b : RuleBody} : t.type = .any → wholeWritten ds F I A b → t' ∈ b.terms →
      t'.type = .any → okCount t'.meta 0 → TextNull annot doc t
  | list {t t' : Term} {A : String} {b : RuleBody} {n : Nat} : t.type = .list → wholeWritten ds F I A b → t' ∈ b.terms →
      t'.type = .list → t'.value = t.value → okCount t'.meta n →
      (n ≠ 0 → TextNull annot doc ⟨t.value, .nonterminal, .nil⟩) → TextNull annot doc t

/-- Every text of the term ends with a token of a literal or of the document, found by descending `d` times to the
last term. A literal counts as a rule for its tokens. -/
def TextEnds (annot : String → Option (List Token)) (doc : Source) : Nat → Term → Prop
  | 0, _ => False
  | d + 1, u =>
    (u.type = .terminal ∧ readTerm annot u ≠ [] ∧ d = 0) ∨
    (u.type = .nonterminal ∧
      (∀ b, wholeWritten ds F I u.value b → ∃ v, b.terms.getLast? = some v ∧ TextEnds annot doc d v) ∧
      ∀ ts, doc u.value ts → ts ≠ [] ∧ d = 0) ∨
    (u.type = .list ∧ ¬ TextNull ds F I annot doc u ∧ TextEnds annot doc d ⟨u.value, .nonterminal, .nil⟩)

/-- Optional parts are placed safely: a term that can match nothing is used only directly after terms that end with a
token at about the same depth and at the beginning of rules that no rule uses; or else only at the beginning of the
alternatives of one rule and not as a start rule. And the items of a list match something. -/
structure WholeSafe (annot : String → Option (List Token)) (doc : Source) (starts : List String) : Prop where
  slots : ∀ A b t, wholeWritten ds F I A b → t ∈ b.terms → TextNull ds F I annot doc t →
    (∃ d, ∀ A' b' p t', wholeWritten ds F I A' b' → b'.terms[p]? = some t' → t.SameSlot t' →
      (∃ q u, p = q + 1 ∧ b'.terms[q]? = some u ∧
        (TextEnds ds F I annot doc d u ∨ TextEnds ds F I annot doc (d + 1) u)) ∨
      ((∀ B c u, wholeWritten ds F I B c → u ∈ c.terms → u.type = .nonterminal ∨ u.type = .list → u.value ≠ A') ∧ p = 0)) ∨
    ((∃ B, ∀ A' b' p t', wholeWritten ds F I A' b' → b'.terms[p]? = some t' → t.SameSlot t' → A' = B ∧ p = 0) ∧
      ¬ (t.type = .nonterminal ∧ t.value ∈ starts))
  items : ∀ A b t, wholeWritten ds F I A b → t ∈ b.terms → t.type = .list →
    ¬ TextNull ds F I annot doc ⟨t.value, .nonterminal, .nil⟩

end

/-- What is asked of a document: tokens are numbered and in order, tagged spans lie inside it, values of tags are
strings, every alternative that it gives to a rule has a hash, no two alternatives of a rule have the same, and no two
regexps have the same name. -/
structure DocFit (w : World) (R : String → String → Prop) (d : Doc) : Prop where
  doc : DocOK d
  inside : TagsInside d
  spans : SpansOK d.spans
  hashed : ∀ A rb, DocAlt w.find R d A rb → w.hash rb ≠ none
  hash : ∀ A a b, DocAlt w.find R d A a → DocAlt w.find R d A b → w.hash a = w.hash b → a = b
  named : ∀ k s s', R k s → R k s' → s = s'

/-- The text is annotated as the document, which has a word. -/
structure TextRead (w : World) (context : String) (text : Bytes) (d : Doc) : Prop where
  notBlank : w.trim text ≠ []
  annotated : Annotates w context (w.trim text) d
  word : ∃ t ∈ d.tokens, t.type ≠ .space

/-- The tokens that are parsed: all but spaces. -/
def Doc.words (d : Doc) : List Token := d.tokens.filter (fun t => t.type ≠ .space)

/-- A start rule derives the first `k` tokens from the productions of `src`. -/
def TextMatch (w : World) (src : Source) (starts : List String) (tokens : List Token) (k : Nat) : Prop :=
  k ≤ tokens.length ∧ ∃ S ∈ starts, SourcesDerive (terminalMatch w.lower w.registry) [src] S (tokens.take k)

/-- a start rule matches the `k` tokens from token `i` on -/
def TextSpan (w : World) (src : Source) (tokens : List Token) (S : String) (i k : Nat) : Prop :=
  SourcesDerive (terminalMatch w.lower w.registry) [src] S ((tokens.drop i).take k)

end Fmr
