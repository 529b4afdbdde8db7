import Verif.Model.TermType

/-!
# C48: text form of term types

The domain of a byte is finite, so the statements about bytes are decided by evaluating all of it.
-/

namespace Fmr

/-- Specification: the five documented names. -/
def ttName : UInt8 → Option String
  | 0 => some "EOF"
  | 1 => some "Nonterminal"
  | 2 => some "Terminal"
  | 3 => some "Any"
  | 4 => some "List"
  | _ => none

/-- all bytes -/
def allBytes : List UInt8 := (List.range 256).map UInt8.ofNat

theorem mem_allBytes (b : UInt8) : b ∈ allBytes := by
  refine List.mem_map.2 ⟨b.toNat, List.mem_range.2 b.toNat_lt, by simp⟩

theorem forall_bytes {p : UInt8 → Bool} (h : allBytes.all p = true) (b : UInt8) : p b = true :=
  List.all_eq_true.1 h b (mem_allBytes b)

/-- C48: `String` panics for no byte. -/
theorem C48_string_total (b : UInt8) : (ttString b).isSome = true :=
  forall_bytes (p := fun b => (ttString b).isSome) (by decide +kernel) b

/-- C48: `String` gives the documented names. -/
theorem C48_names (b : UInt8) (s : String) (h : ttName b = some s) : ttString b = some s.toList := by
  have := forall_bytes (p := fun b => match ttName b with
    | some s => ttString b == some s.toList
    | none => true) (by decide +kernel) b
  rw [h] at this
  simpa using this

/-- a left inverse of `String` -/
def ttRead (s : Option (List Char)) : Option Nat :=
  match s with
  | none => none
  | some s =>
    if s = "EOF".toList then some 0
    else if s = "Nonterminal".toList then some 1
    else if s = "Terminal".toList then some 2
    else if s = "Any".toList then some 3
    else if s = "List".toList then some 4
    else some (((s.drop 9).takeWhile (· ≠ ')')).foldl (fun n c => n * 10 + (c.toNat - 48)) 0)

/-- C48: different bytes have different names. -/
theorem C48_distinct (b c : UInt8) (h : ttString b = ttString c) : b = c := by
  have key := forall_bytes (p := fun b => ttRead (ttString b) == some b.toNat) (by decide +kernel)
  have hb := key b
  have hc := key c
  simp only [beq_iff_eq] at hb hc
  rw [h, hc] at hb
  exact UInt8.toNat_inj.1 (by simpa using hb.symm)

/-- C48: reading back what was written gives the same value, for the five valid values; every other
byte is written without error but rejected when read. `enc`, `dec` are the JSON encoder and decoder
of strings, of which only the round trip is assumed. -/
theorem C48_roundtrip {D : Type} (enc : List Char → D) (dec : D → Option (List Char))
    (hj : ∀ s, dec (enc s) = some s) (b : UInt8) :
    ∃ d, ttMarshal enc b = some d ∧
      (b < 5 → ttUnmarshal dec d = some b) ∧ (¬ b < 5 → ttUnmarshal dec d = none) := by
  have key := forall_bytes (p := fun b => match ttString b, ttNameToValue with
    | some s, some m => m.lookup s == (if b < 5 then some b else none)
    | _, _ => false) (by decide +kernel) b
  unfold ttMarshal ttUnmarshal
  cases h1 : ttString b with
  | none => rw [h1] at key; simp at key
  | some s =>
    cases h2 : ttNameToValue with
    | none => rw [h1, h2] at key; simp at key
    | some m =>
      rw [h1, h2] at key
      simp only [beq_iff_eq] at key
      refine ⟨enc s, rfl, ?_, ?_⟩ <;> intro hb <;> simp [hj, key, hb]

/-- C48: a text that is not one of the five names is rejected. -/
theorem C48_rejects {D : Type} (dec : D → Option (List Char)) (d : D) (b : UInt8)
    (h : ttUnmarshal dec d = some b) : ∃ s, dec d = some s ∧ ttName b = some (String.ofList s) := by
  have hm : ttNameToValue = some [("List".toList, 4), ("Any".toList, 3), ("Terminal".toList, 2),
    ("Nonterminal".toList, 1), ("EOF".toList, 0)] := by decide +kernel
  unfold ttUnmarshal at h
  cases hd : dec d with
  | none => simp [hd] at h
  | some s =>
    refine ⟨s, rfl, ?_⟩
    rw [hd, hm] at h
    simp only [List.lookup] at h
    repeat' split at h
    all_goals first | (simp at h; done) | skip
    all_goals
      rename_i he
      rw [beq_iff_eq] at he
      subst he
      simp only [Option.some.injEq] at h
      subst h
      rfl

/-- the hypothesis on the JSON codec is met, here by the identity codec -/
example : ttMarshal id 3 = some "Any".toList ∧ ttUnmarshal some "Any".toList = some 3 ∧
    ttMarshal id 200 = some "TermType(200)".toList ∧ ttUnmarshal some "TermType(200)".toList = none := by
  decide +kernel

end Fmr
