import Verif.Model.Load
import Verif.Model.Node

/-!
# Model of frame_api.go, and of `Tag` (earley_ast.go:35-40)
-/

namespace Fmr

/-- types.go:48-52 `Slot`. A tree (`*Node`) points to its parse. -/
structure Slot where
  pos : Pos
  trees : List (Parsed × Node)

/-- types.go:54-58 `Frame`. -/
structure Frame where
  slots : List (Nat × List Slot) := []
  complete : Bool := false

/-- A place where a set of body keys is iterated in Go's unspecified order: for a word of the text
(frame_api.go:103,117), for the `n`-th entry taken from the work list (136), for a final state (73). -/
inductive Site where
  | word (s : String)
  | wordRules (s : String)
  | work (n : Nat)
  | final (parse state : Nat)

/-- External code of this file:
* `multiMatch` : `trie.MultiMatch(text)` for a trie with the given keys: a map from words to the positions
  where they occur, listed in iteration order; `none` is an error
* `termKey`    : `Term.Key` (types.go:97-104), a hash
* `ordKeys`, `ordStarts`, `ordWork`, `ordFrames` : the iteration orders of the other maps of this file -/
structure FrameWorld where
  multiMatch : List String → Bytes → Option (List (String × List Pos))
  termKey : Term → Nat
  ordKeys : Site → List RbKey → List RbKey
  ordWork : List String → List String
  ordStarts : List String → List String
  ordFrames : List (RbKey × Frame) → List (RbKey × Frame)

/-- `g.Frames[k.RuleName].Body[k.BodyID]`, dereferenced (frame_api.go:20,21,80,113). -/
def frameBody (g : Grammar) (k : RbKey) : Out RuleBody :=
  match g.frames.lookup k.ruleName with
  | none => .panic
  | some r => Out.ofIndex (r.body.lookup k.bodyID)

/-- `Slots[k] = append(Slots[k], s)` -/
def addSlot (slots : List (Nat × List Slot)) (k : Nat) (s : Slot) : List (Nat × List Slot) :=
  mapSet slots k ((slots.lookup k).getD [] ++ [s])

/-- frame_api.go:74-82, 104-115 new slots for the frame body `k`; then the test whether it is complete. -/
def fillFrame (g : Grammar) (key : Nat) (new : List Slot) (frames : List (RbKey × Frame)) (k : RbKey) :
    Out (List (RbKey × Frame)) := do
  let f := (frames.lookup k).getD {}
  let slots := new.foldl (fun m s => addSlot m key s) f.slots
  let rb ← frameBody g k
  pure (mapSet frames k { slots := slots, complete := f.complete || decide (rb.terms.length ≤ slots.length) })

/-- frame_api.go:98-120 the body of the loop over the words found in the text. -/
def matchWord (w : FrameWorld) (g : Grammar) (gi : GIndex) (st : List (RbKey × Frame) × List String)
    (m : String × List Pos) : Out (List (RbKey × Frame) × List String) :=
  match gi.index.lookup m.1 with
  | none => .err
  | some v => do
    let key := w.termKey { value := m.1, type := .terminal, «meta» := .nil }
    let frames ← foldOut (fillFrame g key (m.2.map (fun p => { pos := p, trees := [] }))) st.1
      (w.ordKeys (.word m.1) v.frames)
    pure (frames, (w.ordKeys (.wordRules m.1) v.rules).foldl (fun rs k => setAdd rs k.ruleName) st.2)

/-- frame_api.go:136-141 the body of the loop over the rules that refer to the rule taken from the work list. -/
def enqueue (st : List String × List String) (k : RbKey) : List String × List String :=
  if k.ruleName ∈ st.2 then st else (st.1 ++ [k.ruleName], st.2 ++ [k.ruleName])

/-- frame_api.go:125-142 the work list loop; `n` counts the iterations. -/
def closeRules (w : FrameWorld) (gi : GIndex) : Nat → Nat → List String → List String → Out (List String)
  | 0, _, _, _ => .div
  | _ + 1, _, [], rules => .ok rules
  | fuel + 1, n, r :: work, rules =>
    match gi.ruleIndex.lookup r with
    | none => closeRules w gi fuel (n+1) work rules
    | some v =>
      let st := (w.ordKeys (.work n) v.rules).foldl enqueue (work, rules)
      closeRules w gi fuel (n+1) st.1 st.2

/-- frame_api.go:89-148 `getCandidates`. -/
def getCandidates (w : FrameWorld) (g : Grammar) (gi : GIndex) (fuel : Nat) (text : Bytes) :
    Out (List (RbKey × Frame) × List String) := do
  let matched ← Out.ofErr (w.multiMatch gi.trie text)
  let st ← foldOut (matchWord w g gi) ([], []) matched
  let rules ← closeRules w gi fuel 0 (w.ordWork st.2) st.2
  pure (st.1, w.ordStarts rules)

/-- earley_ast.go:35-40 `Tag` of a non-nil state. -/
def stateTag (s : TState) : Out String :=
  match s.rb with
  | none => .panic
  | some rb => do
    let t ← Out.ofIndex rb.terms[0]?
    pure t.value

/-- frame_api.go:58-84 the body of the loops over parses and their final states; the state is the one at
address `a`. -/
def matchFinal (w : FrameWorld) (ld : Loaded) (fuel : Nat) (p : Parsed) (i : Nat)
    (frames : List (RbKey × Frame)) (e : (Nat × Nat) × Nat) : Out (List (RbKey × Frame)) := do
  let s ← Out.ofIndex (chartGet p.res.chart e.1.1 e.1.2)
  let tag ← stateTag s
  let pos ← boundary p.env.tokens s
  let trees ← Out.ofFuel (getTrees p.res.chart fuel e.1.1 e.1.2)
  if tag = "" then .err
  else
    match ld.index.ruleIndex.lookup tag with
    | none => .ok frames
    | some v =>
      foldOut (fillFrame ld.gram.main (w.termKey { value := tag, type := .nonterminal, «meta» := .nil })
        [{ pos := pos, trees := trees.map (fun n => (p, n)) }]) frames (w.ordKeys (.final i e.2) v.frames)

/-- frame_api.go:57-85 the body of the loop over the parses. -/
def matchParse (w : FrameWorld) (ld : Loaded) (fuel : Nat) (frames : List (RbKey × Frame))
    (e : Parsed × Nat) : Out (List (RbKey × Frame)) :=
  foldOut (matchFinal w ld fuel e.1 e.2) frames (finalPtrs false e.1.res.chart).zipIdx

/-- frame_api.go:47-87 `MatchFramesWithContext`; 42-44 `MatchFrames` is context "". -/
def matchFrames (w : FrameWorld) (ew : World) (ld : Loaded) (fuel : Nat) (context : String) (text : Bytes) :
    Out (List (RbKey × Frame)) := do
  let c ← getCandidates w ld.gram.main ld.index fuel text
  let ps ← earleyParseAll ew ld.gram fuel context text c.2
  foldOut (matchParse w ld fuel) c.1 ps.zipIdx

/-- frame_api.go:24-29 the child for a term of a frame. -/
def frameChild (w : FrameWorld) (nw : NodeWorld) (f : Frame) (t : Term) : Option Kid :=
  match f.slots.lookup (w.termKey t) with
  | some ({ pos := _, trees := (p, n) :: _ } :: _) => some (n.kid nw p)
  | _ => none

/-- frame_api.go:19-37 the loop body of `FrameFMRWithContext`. -/
def frameStr (w : FrameWorld) (nw : NodeWorld) (g : Grammar) (e : RbKey × Frame) : Out String := do
  let rb ← frameBody g e.1
  match rb.f with
  | none => .ok ""
  | some f => fmrStr nw Self.blank (rb.terms.map (frameChild w nw e.2)) "" f

/-- frame_api.go:13-39 `FrameFMRWithContext`; 8-10 `FrameFMR` is context "". -/
def frameFMR (w : FrameWorld) (ew : World) (nw : NodeWorld) (ld : Loaded) (fuel : Nat) (context : String)
    (text : Bytes) : Out (List String) := do
  let frames ← matchFrames w ew ld fuel context text
  mapOut (frameStr w nw ld.gram.main) (w.ordFrames frames)

end Fmr
