import Verif.Spec.Rename
import Verif.Spec.Frames
import Verif.Model.Frames

/-!
# Specification: frames of a text with white space around it (C114)

Frames are compared without the positions of their slots and without the texts that their parses keep.
-/

namespace Fmr

/-- a slot without its position and without the text kept by its parses -/
def Slot.bare (s : Slot) : Slot := { pos := ⟨0, 0⟩, trees := s.trees.map (fun t => ({ t.1 with text := [] }, t.2)) }

/-- a frame with bare slots -/
def Frame.bare (f : Frame) : Frame := { f with slots := f.slots.map (fun e => (e.1, e.2.map Slot.bare)) }

/-- frames with bare slots -/
def bareFrames (frames : List (RbKey × Frame)) : List (RbKey × Frame) := frames.map (fun e => (e.1, e.2.bare))

/-- `MultiMatch` finds the same words in two texts, each as many times, or fails for both -/
def SameWords : Option (List (String × List Pos)) → Option (List (String × List Pos)) → Prop
  | some ms, some ms' => ms'.map (fun m => (m.1, m.2.length)) = ms.map (fun m => (m.1, m.2.length))
  | none, none => True
  | _, _ => False

/-- no function of a grammar takes the context `@` -/
structure Grammar.NoContext (g : Grammar) : Prop where
  rules : ∀ x r rb f, g.rules.lookup x = some r → rb ∈ r.bodies → rb.f = some f → f.NoContext
  frames : ∀ x r i rb f, g.frames.lookup x = some r → r.body.lookup i = some rb → rb.f = some f → f.NoContext

/-- the grammars of a text: the one that is loaded, those that it includes, and the one made from the text -/
def TextNoContext (ew : World) (ld : Loaded) (context : String) (text : Bytes) : Prop :=
  ld.gram.main.NoContext ∧ (∀ g ∈ ld.gram.includes, g.NoContext) ∧
  ∀ tokens l, process ew ld.gram context text = .ok (tokens, some l) → l.NoContext

end Fmr
