import Verif.Model.Frames

/-!
# Specification: index, candidates and frames (C37 to C41, C45)

Stated over the rules and frames of the grammar and its includes, without the index.
-/

namespace Fmr

/-- the rules, or the frames, of a grammar -/
def Grammar.defs (g : Grammar) : Cate → List (String × Rule)
  | .frame => g.frames
  | .rule => g.rules

/-- body `k` of a rule (or frame) of the grammar or of one of its includes -/
def Gram.Body (g : Gram) (c : Cate) (k : RbKey) (rb : RuleBody) : Prop :=
  ∃ ig ∈ g.main :: g.includes, ∃ e ∈ ig.defs c, k.ruleName = e.2.name ∧ (k.bodyID, rb) ∈ e.2.body

/-- body `k` contains a term of type `ty` that is `s` up to white space around it -/
def Gram.Has (g : Gram) (trim : String → String) (c : Cate) (ty : TermType) (k : RbKey) (s : String) : Prop :=
  s ≠ "" ∧ ∃ rb, g.Body c k rb ∧ ∃ t ∈ rb.terms, t.type = ty ∧ trim t.value = s

/-- rule `A` contains the literal `s` -/
def Gram.RuleHas (g : Gram) (trim : String → String) (A s : String) : Prop :=
  ∃ k : RbKey, k.ruleName = A ∧ g.Has trim .rule .terminal k s

/-- rule `A` refers to rule `B` by a plain reference `<B>` -/
def Gram.Refers (g : Gram) (trim : String → String) (A B : String) : Prop :=
  ∃ k : RbKey, k.ruleName = A ∧ g.Has trim .rule .nonterminal k B

/-- rule `A` refers to rule `B`, also by `(list<B>)` -/
def Gram.RefersAny (g : Gram) (trim : String → String) (A B : String) : Prop :=
  g.Refers trim A B ∨ ∃ k : RbKey, k.ruleName = A ∧ g.Has trim .rule .list k B

/-- `B` is reachable from `A` through references -/
inductive Above (R : String → String → Prop) : String → String → Prop
  | refl {A : String} : Above R A A
  | step {A B C : String} : R A B → Above R B C → Above R A C

/-- The contract of `MultiMatch`: each word found is a key of the trie, occurs once in the result and has
at least one position. -/
structure FrameWorld.OK (w : FrameWorld) : Prop where
  keys : ∀ trie text ms, w.multiMatch trie text = some ms → ∀ m ∈ ms, m.1 ∈ trie ∧ m.2 ≠ []
  nodup : ∀ trie text ms, w.multiMatch trie text = some ms → (ms.map (·.1)).Nodup
  ordKeys : ∀ s l, (w.ordKeys s l).Perm l
  ordWork : ∀ l, (w.ordWork l).Perm l
  ordStarts : ∀ l, (w.ordStarts l).Perm l
  ordFrames : ∀ l, (w.ordFrames l).Perm l

/-! ## Slots -/

/-- the bytes of the `n` tokens from token `i` on -/
def SpanIs (tokens : List Token) (i n : Nat) (pos : Pos) : Prop :=
  0 < n ∧ ∃ x y, tokens[i]? = some x ∧ tokens[i + (n - 1)]? = some y ∧ pos = ⟨x.startByte, y.endByte⟩

/-- a slot of a frame with the given position -/
def HasSlot (frames : List (RbKey × Frame)) (k : RbKey) (κ : Nat) (pos : Pos) : Prop :=
  ∃ f, (k, f) ∈ frames ∧ ∃ ss, f.slots.lookup κ = some ss ∧ ∃ s ∈ ss, s.pos = pos

/-! ## Printing -/

/-- the first tree of the first slot of a term -/
def FirstTree (w : FrameWorld) (f : Frame) (t : Term) (p : Parsed) (n : Node) : Prop :=
  ∃ s ss ts, f.slots.lookup (w.termKey t) = some (s :: ss) ∧ s.trees = (p, n) :: ts

/-- what is printed for a term of a frame: the semantic of its first tree, or `null` -/
inductive SlotShows (w : FrameWorld) (nw : NodeWorld) (f : Frame) (t : Term) : String → Prop
  | null : (∀ p n, ¬ FirstTree w f t p n) → SlotShows w nw f t "null"
  | tree {p : Parsed} {n : Node} {s : String} : FirstTree w f t p n → n.semantic nw p = .ok s →
      SlotShows w nw f t s

mutual
/-- the text of a function of a frame, where `shows k` is what is printed for `$(k+1)` -/
inductive FrameFmr (nw : NodeWorld) (shows_ : Nat → String → Prop) : FMR → String → Prop
  | proj {a : Arg} {s : String} : FrameArg nw shows_ a s → FrameFmr nw shows_ (.mk "nf.I" [a]) s
  | call {fn : String} {args : List Arg} {ss : List String} : fn ≠ "nf.I" → FrameArgs nw shows_ args ss →
      FrameFmr nw shows_ (.mk fn args) (fn ++ "(" ++ ", ".intercalate ss ++ ")")
inductive FrameArgs (nw : NodeWorld) (shows_ : Nat → String → Prop) : List Arg → List String → Prop
  | nil : FrameArgs nw shows_ [] []
  | cons {a : Arg} {as : List Arg} {s : String} {ss : List String} : FrameArg nw shows_ a s →
      FrameArgs nw shows_ as ss → FrameArgs nw shows_ (a :: as) (s :: ss)
/-- `$0` has no text in a frame and prints as nothing -/
inductive FrameArg (nw : NodeWorld) (shows_ : Nat → String → Prop) : Arg → String → Prop
  | string {s : String} : FrameArg nw shows_ (.mk "string" (.str s)) (quoteStr nw.isPrint s)
  | int {i : Int} : FrameArg nw shows_ (.mk "int" (.bigInt i)) (toString i)
  | float {q : Rat} : FrameArg nw shows_ (.mk "float" (.bigFloat q)) (nw.floatStr q)
  | self : FrameArg nw shows_ (.mk "index" (.int 0)) ""
  | slot {k : Nat} {s : String} : shows_ k s → FrameArg nw shows_ (.mk "index" (.int (k + 1))) s
  | func {f : FMR} {s : String} : FrameFmr nw shows_ f s → FrameArg nw shows_ (.mk "func" (.fmr f)) s
  | nilFunc : FrameArg nw shows_ (.mk "func" .nilFmr) ""
end

mutual
/-- no argument `@` in a function -/
def FMR.NoContext : FMR → Prop
  | .mk _ args => NoContexts args
def NoContexts : List Arg → Prop
  | [] => True
  | a :: as => a.NoContext ∧ NoContexts as
def Arg.NoContext : Arg → Prop
  | .mk t v => t ≠ "context" ∧ v.NoContext
def Val.NoContext : Val → Prop
  | .fmr f => f.NoContext
  | _ => True
end

end Fmr
