import Verif.Spec.Frames

/-!
# Specification: where the slots of a frame are (C112)

A slot of a frame carries a position of the text that was given. Stated with pieces of texts; of the model it takes
the frames that are returned (`HasSlot` with its slot) and the tokens of the annotated text.
-/

namespace Fmr

/-- the piece of a text at a position is `b` -/
def PieceAt (text : Bytes) (pos : Pos) (b : Bytes) : Prop :=
  ∃ pre post, text = pre ++ (b ++ post) ∧ pre.length = pos.startByte ∧ pos.endByte = pos.startByte + b.length

/-- The contract of `MultiMatch` about positions: a word is found where it is in the text; `enc` gives its bytes. -/
def FrameWorld.FindsThere (w : FrameWorld) (enc : String → Bytes) : Prop :=
  ∀ trie text ms, w.multiMatch trie text = some ms → ∀ m ∈ ms, ∀ pos ∈ m.2, PieceAt text pos (enc m.1)

/-- the tokens lie in the text that they were made from -/
def TokensIn (text : Bytes) (tokens : List Token) : Prop :=
  ∀ t ∈ tokens, t.startByte ≤ t.endByte ∧ t.endByte ≤ text.length

/-- slot `s` under the key `κ` of a frame -/
def SlotOf (frames : List (RbKey × Frame)) (k : RbKey) (κ : Nat) (s : Slot) : Prop :=
  ∃ f, (k, f) ∈ frames ∧ ∃ ss, f.slots.lookup κ = some ss ∧ s ∈ ss

/-- A slot is where it says: that of a literal has no trees and the literal is the piece of the text there; that of a
reference goes from a token to a token, and the piece of the text there is the one that the tokens were made from. -/
def SlotThere (enc : String → Bytes) (trim : String → String) (g0 : Gram) (w : FrameWorld) (text annotated : Bytes)
    (tokens : List Token) (k : RbKey) (κ : Nat) (s : Slot) : Prop :=
  (∃ v, g0.Has trim .frame .terminal k v ∧ κ = w.termKey ⟨v, .terminal, .nil⟩ ∧ s.trees = [] ∧ PieceAt text s.pos (enc v)) ∨
  ∃ S, g0.Has trim .frame .nonterminal k S ∧ κ = w.termKey ⟨S, .nonterminal, .nil⟩ ∧
    (∃ x ∈ tokens, ∃ y ∈ tokens, s.pos = ⟨x.startByte, max x.startByte y.endByte⟩) ∧
    ∃ b, PieceAt annotated s.pos b ∧ PieceAt text s.pos b

end Fmr
