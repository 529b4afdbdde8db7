import Verif.Model.Node

/-!
# Specification: texts that can be read (C113)

Stated with the UTF-8 encoding of Lean's strings, not with the decoder of the model.
-/

namespace Fmr

/-- the text is UTF-8 and has no replacement character -/
def Utf8Text (b : Bytes) : Prop := ∃ s : String, b = utf8 s ∧ '\uFFFD' ∉ s.toList

/-- the text starts with a replacement character or with bytes that are not UTF-8 -/
def BadStart (b : Bytes) : Prop := b ≠ [] ∧ ∀ (c : Char) (rest : Bytes), b = String.utf8EncodeChar c ++ rest → c = '\uFFFD'

end Fmr
