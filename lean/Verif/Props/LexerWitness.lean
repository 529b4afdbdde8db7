import Verif.Spec.Loaded

/-!
# Concrete worlds for examples about grammar texts
-/

namespace Fmr

/-- decimal integers (the examples do not use other bases) -/
def scanDec (s : String) : Option Int :=
  match s.toList with
  | '-' :: d => if d ≠ [] ∧ d.all Char.isDigit then some (-(Nat.ofDigitChars 10 d 0 : Int)) else none
  | d => if d ≠ [] ∧ d.all Char.isDigit then some (Nat.ofDigitChars 10 d 0) else none

/-- ASCII only; hashes are the number of terms; regexps are their own digest -/
def asciiLex : LexWorld :=
  LexWorld.mk Char.isAlpha Char.isDigit (fun c => c == ' ' || c == '\t' || c == '\n' || c == '\r')
    (fun b => some b.terms.length) (fun _ => true) id scanDec (fun _ => none)

theorem asciiLex_ok : asciiLex.OK := by
  have hc : ∀ {c : Char}, c.isAlpha = true →
      65 ≤ c.val.toNat ∧ c.val.toNat ≤ 90 ∨ 97 ≤ c.val.toNat ∧ c.val.toNat ≤ 122 := by
    intro c h
    simp only [Char.isAlpha, Char.isUpper, Char.isLower, Bool.or_eq_true, Bool.and_eq_true, decide_eq_true_eq,
      UInt32.le_iff_toNat_le] at h
    simpa using h
  have hd : ∀ {c : Char}, c.isDigit = true → 48 ≤ c.val.toNat ∧ c.val.toNat ≤ 57 := by
    intro c h
    simp only [Char.isDigit, Bool.and_eq_true, decide_eq_true_eq, UInt32.le_iff_toNat_le] at h
    simpa using h
  have hs : ∀ {c : Char}, asciiLex.isSpace c = true → c.val.toNat ≤ 32 := by
    intro c h
    simp only [asciiLex, Bool.or_eq_true, beq_iff_eq] at h
    rcases h with ((rfl | rfl) | rfl) | rfl <;> decide
  refine ⟨?_, ?_, ?_, ?_, ?_, ?_, ?_, ?_⟩
  · intro c h
    rw [Bool.eq_false_iff]
    intro h2
    have := hc h
    have := hd h2
    omega
  · intro c h
    rw [Bool.eq_false_iff]
    intro h2
    have := hc h
    have := hs h2
    omega
  · intro c h
    rw [Bool.eq_false_iff]
    intro h2
    have := hd h
    have := hs h2
    omega
  · decide
  · intro c h1 h2
    rw [Char.le_def, UInt32.le_iff_toNat_le] at h1 h2
    simp only [asciiLex, Char.isAlpha, Char.isUpper, Char.isLower, Bool.or_eq_true, Bool.and_eq_true, decide_eq_true_eq,
      UInt32.le_iff_toNat_le]
    exact .inr ⟨h1, h2⟩
  · intro c h1 h2
    rw [Char.le_def, UInt32.le_iff_toNat_le] at h1 h2
    simp only [asciiLex, Char.isDigit, Bool.and_eq_true, decide_eq_true_eq, UInt32.le_iff_toNat_le]
    exact ⟨h1, h2⟩
  · decide
  · decide

/-- the start of a parse -/
def pst0 : PSt := { pos := 0, width := 0 }

end Fmr
