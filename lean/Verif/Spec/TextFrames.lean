import Verif.Spec.TextTrees
import Verif.Spec.Frames

/-!
# Specification: frames of what is written (C77)

Frames, the words of the text and the rules that are tried, over the definitions in the grammar files. Nothing here
refers to the loader, to the index, to refinement or to the parser.
-/

namespace Fmr

/-- `s` is a word of the alternative: a literal without the white space around it -/
def BodyWord (trim : String → String) (b : RuleBody) (s : String) : Prop :=
  s ≠ "" ∧ ∃ t ∈ b.terms, t.type = .terminal ∧ trim t.value = s

/-- the alternative has the reference `<S>` -/
def BodyRef (b : RuleBody) (S : String) : Prop :=
  S ≠ "" ∧ ∃ t ∈ b.terms, t.type = .nonterminal ∧ t.value = S

section
variable (ds : List Def) (F : Files) (I : String → Prop)

/-- `s` is a word of rule `A`: a literal of the grammar text itself, or a token of a literal of an included file. -/
inductive RuleWord (annot : String → Option (List Token)) (trim : String → String) : String → String → Prop
  | main {A s : String} {b : RuleBody} : Written ds false A b → BodyWord trim b s → RuleWord annot trim A s
  | included {p A s : String} {b : RuleBody} {t u : Term} : I p → Written (F.defs p) false A b → t ∈ b.terms →
      t.type = .terminal → u ∈ readTerm annot t → trim u.value = s → s ≠ "" → RuleWord annot trim A s

/-- the words that are looked for in the text: those of the rules and those of the frames -/
def TextWord (annot : String → Option (List Token)) (trim : String → String) (s : String) : Prop :=
  (∃ A, RuleWord ds F I annot trim A s) ∨ ∃ A b, Written ds true A b ∧ BodyWord trim b s

/-- an alternative of rule `A` has the reference `<B>` -/
def RuleRefers (A B : String) : Prop := ∃ b, wholeWritten ds F I A b ∧ BodyRef b B

/-- the rules that are tried: those with a word that is found in the text, and those that refer to such a rule,
directly or through others -/
def Tried (annot : String → Option (List Token)) (trim : String → String) (found : String → Prop) (S : String) : Prop :=
  ∃ B s, found s ∧ RuleWord ds F I annot trim B s ∧ Above (RuleRefers ds F I) S B

/-- What is asked of the files for frames: frames are defined in the grammar text itself; names have no white space
around them; frames do not use reserved names; and `ɣ` is not a token. -/
structure FrameFit (trim : String → String) (w : RefineWorld) (src : Source) : Prop where
  own : ∀ p, I p → ∀ d ∈ F.defs p, d.frame = false
  refs : ∀ A b, Written ds true A b ∨ wholeWritten ds F I A b → ∀ t ∈ b.terms, t.type = .nonterminal → trim t.value = t.value
  names : ∀ p A b, I p → Written (F.defs p) false A b → ∀ t ∈ b.terms, t.type = .terminal →
    trim (literalName w "g" t.value) = literalName w "g" t.value
  free : ∀ A b, Written ds true A b → ∀ t ∈ b.terms, t.type = .nonterminal → ¬ Reserved t.value
  tokens : ∀ A ts, src A ts → ∀ t ∈ ts, t.type = .terminal → t.value ≠ "ɣ"

end

/-- the keys of the words and references of an alternative differ -/
structure BodyKeys (key : Term → Nat) (trim : String → String) (b : RuleBody) : Prop where
  words : ∀ s s', BodyWord trim b s → BodyWord trim b s' →
    key ⟨s, .terminal, .nil⟩ = key ⟨s', .terminal, .nil⟩ → s = s'
  refs : ∀ S S', BodyRef b S → BodyRef b S' → key ⟨S, .nonterminal, .nil⟩ = key ⟨S', .nonterminal, .nil⟩ → S = S'
  apart : ∀ s S, BodyWord trim b s → BodyRef b S → key ⟨s, .terminal, .nil⟩ ≠ key ⟨S, .nonterminal, .nil⟩

/-- The frames of a text, for the alternatives of the frames in `ds`: every frame in the result belongs to an
alternative, has a slot, has slots only for words and references of the alternative, and is complete if it has as many
filled slots as the alternative has terms; the slots of a word are the places where it is `found`; those of a reference are the
places `spans`, with the trees `tree`. -/
structure FramesAre (ds : List Def) (hash : RuleBody → Option Nat) (key : Term → Nat) (trim : String → String)
    (found spans : String → Pos → Prop) (tree : String → Pos → Node → Prop) (frames : List (RbKey × Frame)) : Prop where
  nodup : (frames.map Prod.fst).Nodup
  written : ∀ k f, (k, f) ∈ frames → ∃ b, Written ds true k.ruleName b ∧ hash b = some k.bodyID ∧
    (f.complete = true ↔ b.terms.length ≤ f.slots.length) ∧ (f.slots.map Prod.fst).Nodup ∧ f.slots ≠ [] ∧
    ∀ κ ss, (κ, ss) ∈ f.slots → ss ≠ [] ∧
      ((∃ s, BodyWord trim b s ∧ κ = key ⟨s, .terminal, .nil⟩) ∨ ∃ S, BodyRef b S ∧ κ = key ⟨S, .nonterminal, .nil⟩)
  words : ∀ A b h, Written ds true A b → hash b = some h → ∀ s, BodyWord trim b s → ∀ pos,
    HasSlot frames ⟨A, h⟩ (key ⟨s, .terminal, .nil⟩) pos ↔ found s pos
  refs : ∀ A b h, Written ds true A b → hash b = some h → ∀ S, BodyRef b S → ∀ pos,
    HasSlot frames ⟨A, h⟩ (key ⟨S, .nonterminal, .nil⟩) pos ↔ spans S pos
  trees : ∀ A b h, Written ds true A b → hash b = some h → ∀ S, BodyRef b S → ∀ f, (⟨A, h⟩, f) ∈ frames →
    ∀ ss, (key ⟨S, .nonterminal, .nil⟩, ss) ∈ f.slots → ∀ s ∈ ss, s.trees ≠ [] ∧ ∀ e ∈ s.trees, tree S s.pos e.2

/-- the word is found at this place -/
def FoundAt (ms : List (String × List Pos)) (s : String) (pos : Pos) : Prop := ∃ m ∈ ms, m.1 = s ∧ pos ∈ m.2

end Fmr
