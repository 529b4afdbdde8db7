import Verif.Model.Local
import Verif.Spec.Lang

/-!
# Specification: tagged documents
-/

namespace Fmr

/-- Contract of the annotator: tokens are numbered from 0, in textual order, none is empty. -/
structure DocOK (d : Doc) : Prop where
  numbered : ∀ (k : Nat) t, d.tokens[k]? = some t → t.i = k
  sorted : d.tokens.Pairwise (fun a b => a.endByte ≤ b.startByte)
  nonempty : ∀ t ∈ d.tokens, t.startByte < t.endByte

/-- the span covers the bytes from `m.1` to `m.2`: it starts with its first token and ends with its last
one (a span over no token lies between two tokens) -/
def SpanCovers (d : Doc) (sp : Span) (m : Nat × Nat) : Prop :=
  ∃ (i j : Nat) (a b : Token), sp.start = i ∧ sp.stop = j + 1 ∧
    d.tokens[i]? = some a ∧ d.tokens[j]? = some b ∧ a.startByte = m.1 ∧ b.endByte = m.2

/-- the hash function has no collisions -/
def HashInj (hash : RuleBody → Option Nat) : Prop :=
  ∀ a b h, hash a = some h → hash b = some h → a = b

/-- the environment of one grammar, for speaking about its rules -/
def soloEnv (g : Grammar) (tmatch : Term → Token → Bool) : Env :=
  { grammars := [g], tokens := [], starts := [], tmatch := tmatch, ord := fun _ _ _ l => l }

/-- the tokens of a span -/
def spanTokens (d : Doc) (sp : Span) : List Token :=
  (d.tokens.drop sp.start.toNat).take (sp.stop - sp.start).toNat

/-- A token of the document, as a literal. -/
def tokenTerm (t : Token) : Term := { value := t.text, type := .terminal }

/-- The alternatives that a document gives to rules: its tokens by class, the tagged spans, and the matches of the
regexps `R` (name and expression) that start and end with a token. A tag with a list of values has the meaning
`fmr.list(text of the span, fmr.entity(tag, fmr.list(values)))`. -/
inductive DocAlt (find : String → Bytes → Option (List (Nat × Nat))) (R : String → String → Prop) (d : Doc) :
    String → RuleBody → Prop
  | word {t : Token} : t ∈ d.tokens → t.type = .word → DocAlt find R d "word" ⟨[tokenTerm t], none⟩
  | punct {t : Token} : t ∈ d.tokens → t.type = .punct → DocAlt find R d "punct" ⟨[tokenTerm t], none⟩
  | symbol {t : Token} : t ∈ d.tokens → t.type = .symbol → DocAlt find R d "symbol" ⟨[tokenTerm t], none⟩
  | letters {t : Token} : t ∈ d.tokens → t.type = .letters → DocAlt find R d "letters" ⟨[tokenTerm t], none⟩
  | tag {sp : Span} {m : List (String × SpanVals)} {A : String} : sp ∈ d.spans → sp.ann = .map m →
      (A, .scalar) ∈ m → DocAlt find R d A ⟨(spanTokens d sp).map tokenTerm, none⟩
  | values {sp : Span} {m : List (String × SpanVals)} {A : String} {vs : List Val} : sp ∈ d.spans → sp.ann = .map m →
      (A, .items vs) ∈ m → DocAlt find R d A ⟨(spanTokens d sp).map tokenTerm,
        some (.mk "fmr.list" [.mk "string" (.str sp.text), .mk "func" (.fmr (.mk "fmr.entity"
          [.mk "string" (.str A), .mk "func" (.fmr (.mk "fmr.list" (vs.map (.mk "string"))))]))])⟩
  | regexp {A s : String} {ms : List (Nat × Nat)} {m : Nat × Nat} {sp : Span} : R A s → find s d.text = some ms →
      m ∈ ms → SpanCovers d sp m → DocAlt find R d A ⟨(spanTokens d sp).map tokenTerm, none⟩

/-- The tagged spans lie inside the document. -/
def TagsInside (d : Doc) : Prop :=
  ∀ sp ∈ d.spans, ∀ m, sp.ann = .map m → sp.start < sp.stop → 0 ≤ sp.start ∧ sp.stop ≤ d.tokens.length

/-- the annotations of the spans hold lists of strings only, where they hold lists -/
def SpansOK (sps : List Span) : Prop :=
  ∀ sp ∈ sps, ∀ m, sp.ann = .map m → ∀ k vs, (k, SpanVals.items vs) ∈ m → ∀ v ∈ vs, ∃ s, v = .str s

end Fmr
