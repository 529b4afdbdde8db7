import Verif.Proofs.BytesLocal

/-!
# A reported error depends only on the text up to the reported position: C69
-/

namespace Fmr

/-- An error with a position that does not come from an included file: `k` runes lie before or at the position, and
every text with the same first `k + 1` runes fails with the same message. The text after the position and the one
rune the parser has looked at behind it play no part. -/
theorem C69_string {w : LoadWorld} {read : String → Option Bytes} {fuel depth : Nat} {d : Bytes} {name f : String}
    {reg : Registry} {p : Option Position} (hd : runeError ∉ runes d)
    (h : bloadString w read fuel depth d name reg = .err (some (f, p)))
    (hinc : ∀ path st, bfromFile w read fuel depth path st ≠ .err (some (f, p))) :
    f = name ∧ ∃ k, k ≤ (runes d).length ∧ ((k = 0 ∧ p = none) ∨ ∃ q, p = some q ∧ IsPos ((runes d).take k) q) ∧
      ∀ d', runeError ∉ runes d' → (runes d').take (k + 1) = (runes d).take (k + 1) →
        bloadString w read fuel depth d' name reg = .err (some (f, p)) := by
  rcases bfromString_local (show CleanText d from hd) h with (h1 | ⟨path, st, h1⟩) | ⟨k, hk, he, hl⟩
  · cases h1
  · exact absurd h1 (hinc path st)
  · cases he
    refine ⟨rfl, k, hk, ?_, fun d' h1 h2 => hl d' h1 h2⟩
    by_cases h0 : 0 < k
    · obtain ⟨q, hq⟩ := posOf_take_pos h0 hk
      exact .inr ⟨q, hq, isPos_posOf hq⟩
    · have : k = 0 := by omega
      subst this
      exact .inl ⟨rfl, rfl⟩

theorem bfromFile_none {w : LoadWorld} {fuel depth : Nat} {path f : String} {st : LoadSt} {p : Option Position} :
    bfromFile w (fun _ => none) fuel depth path st ≠ .err (some (f, p)) := by
  cases depth with
  | zero => intro h; cases h
  | succ n =>
    rw [bfromFile]
    split
    · intro h; cases h
    · intro h; cases h

/-- A text that stands alone (no file can be read): a text that extends the faulty part up to one rune behind the
reported position has the same fault. -/
theorem C69_alone {w : LoadWorld} {fuel depth : Nat} {d : Bytes} {name f : String}
    {reg : Registry} {p : Option Position} (hd : runeError ∉ runes d)
    (h : bloadString w (fun _ => none) fuel depth d name reg = .err (some (f, p))) :
    ∃ k, k ≤ (runes d).length ∧ ((k = 0 ∧ p = none) ∨ ∃ q, p = some q ∧ IsPos ((runes d).take k) q) ∧
      ∀ d', runeError ∉ runes d' → (runes d').take (k + 1) = (runes d).take (k + 1) →
        bloadString w (fun _ => none) fuel depth d' name reg = .err (some (f, p)) :=
  (C69_string hd h fun _ _ => bfromFile_none).2

/-- the outcome has no error -/
def BOut.isOk {α : Type} : BOut α → Bool
  | .ok _ => true
  | _ => false

/-- non-vacuity: an error at `]` (rune 8), whatever follows -/
example : bloadString exLoad (fun _ => none) 60 5 (utf8 "<a>=\"x\"]; \n <b>") "g" [] =
    .err (some ("g", some ⟨1, 8, ']'⟩)) :=
  BOut.errAt_eq (by decide +kernel)

/-- The one rune behind the position is needed: both texts begin with the eight runes `<a>=\"x\"` and a blank; the first is faulty
there, the second is not. -/
example : (bloadString exLoad (fun _ => none) 60 5 (utf8 "<a>=\"x\"") "g" []).errAt.isSome = true ∧
    (bloadString exLoad (fun _ => none) 60 5 (utf8 "<a>=\"x\";") "g" []).isOk = true := by
  decide +kernel

end Fmr
