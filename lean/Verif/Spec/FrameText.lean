import Verif.Model.Frames

/-!
# What the text of a frame should tell
-/

namespace Fmr

/-- Two frames with the same slots: the same positions under the same keys, in the same order, and the same flag. -/
def SameSlots (f g : Frame) : Prop :=
  f.complete = g.complete ∧ (f.slots.map (fun e => (e.1, e.2.map Slot.pos))).Perm (g.slots.map (fun e => (e.1, e.2.map Slot.pos)))

/-- Two frames that look alike as far as addresses tell: the same flag and the same addresses under the same keys. -/
def SameAddresses (ptr ptr' : Nat → Nat → List Char) (f g : Frame) : Prop :=
  f.complete = g.complete ∧
    (f.slots.map (fun e => (e.1, (List.range e.2.length).map (ptr e.1)))).Perm
      (g.slots.map (fun e => (e.1, (List.range e.2.length).map (ptr' e.1))))

/-- An address is printed without blanks and brackets, and not as nothing. -/
def AddressText (s : List Char) : Prop := s ≠ [] ∧ ' ' ∉ s ∧ ']' ∉ s

/-- The slots of a frame have distinct keys (they are a map). -/
def Frame.Keyed (f : Frame) : Prop := (f.slots.map Prod.fst).Nodup

end Fmr
