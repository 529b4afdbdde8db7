import Verif.Model.Quote

/-!
# `strconv.Quote` is a prefix code
-/

namespace Fmr

theorem hexDigits_length (k n : Nat) : (hexDigits k n).length = k := by
  induction k generalizing n with
  | zero => rfl
  | succ k ih => simp [hexDigits, ih]

theorem hexChar_inj : ∀ a, a < 16 → ∀ b, b < 16 → hexChar a = hexChar b → a = b := by decide

theorem hexDigits_inj {k : Nat} : ∀ {n m : Nat}, n < 16 ^ k → m < 16 ^ k → hexDigits k n = hexDigits k m →
    n = m := by
  induction k with
  | zero => intro n m hn hm _; simp at hn hm; omega
  | succ k ih =>
    intro n m hn hm h
    simp only [hexDigits] at h
    rw [Nat.pow_succ] at hn hm
    obtain ⟨h1, h2⟩ := List.append_inj' h rfl
    have e1 := ih (Nat.div_lt_of_lt_mul (by omega)) (Nat.div_lt_of_lt_mul (by omega)) h1
    have e2 := hexChar_inj (n % 16) (Nat.mod_lt _ (by decide)) (m % 16) (Nat.mod_lt _ (by decide))
      (by simpa using h2)
    omega

theorem hexDigits_prefix {k n m : Nat} {r s : List Char} (hn : n < 16 ^ k) (hm : m < 16 ^ k)
    (h : hexDigits k n ++ r = hexDigits k m ++ s) : n = m ∧ r = s := by
  obtain ⟨h1, h2⟩ := List.append_inj h (by simp [hexDigits_length])
  exact ⟨hexDigits_inj hn hm h1, h2⟩

/-- the escape sequences of two characters -/
def shortEsc : List (Char × Char) :=
  [('"', '"'), ('\\', '\\'), ('\x07', 'a'), ('\x08', 'b'), ('\x0c', 'f'), ('\n', 'n'), ('\r', 'r'),
    ('\t', 't'), ('\x0b', 'v')]

/-- the ways to write a rune -/
inductive Esc : GoRune → List Char → Prop
  | plain {c : Char} : c ≠ '"' → c ≠ '\\' → Esc (.rune c) [c]
  | short {c e : Char} : (c, e) ∈ shortEsc → Esc (.rune c) ['\\', e]
  | hex {c : Char} : c.toNat < 128 → Esc (.rune c) ('\\' :: 'x' :: hexDigits 2 c.toNat)
  | byte {b : UInt8} : 128 ≤ b.toNat → Esc (.byte b) ('\\' :: 'x' :: hexDigits 2 b.toNat)
  | small {c : Char} : c.toNat < 0x10000 → Esc (.rune c) ('\\' :: 'u' :: hexDigits 4 c.toNat)
  | large {c : Char} : Esc (.rune c) ('\\' :: 'U' :: hexDigits 8 c.toNat)

/-- what decoding UTF-8 yields: a byte outside of valid UTF-8 is not ASCII -/
def GoRune.OK : GoRune → Prop
  | .rune _ => True
  | .byte b => 128 ≤ b.toNat

theorem escapeGo_esc (isPrint : Char → Bool) {g : GoRune} (hg : g.OK) : Esc g (escapeGo isPrint g) := by
  cases g with
  | byte b => exact .byte hg
  | rune c =>
    simp only [escapeGo, escapeRune]
    split
    · next h =>
      rcases h with rfl | rfl
      · exact .short (by simp [shortEsc])
      · exact .short (by simp [shortEsc])
    · next h =>
      simp only [not_or] at h
      split
      · exact .plain h.1 h.2
      · split
        · next h => subst h; exact .short (by simp [shortEsc])
        split
        · next h => subst h; exact .short (by simp [shortEsc])
        split
        · next h => subst h; exact .short (by simp [shortEsc])
        split
        · next h => subst h; exact .short (by simp [shortEsc])
        split
        · next h => subst h; exact .short (by simp [shortEsc])
        split
        · next h => subst h; exact .short (by simp [shortEsc])
        split
        · next h => subst h; exact .short (by simp [shortEsc])
        split
        · next h =>
          refine .hex ?_
          rcases h with h | h
          · have : c.toNat < 32 := h
            omega
          · subst h; decide
        split
        · next h => exact .small h
        · exact .large

theorem char_lt (c : Char) : c.toNat < 16 ^ 8 := by
  have h := c.valid
  simp only [UInt32.isValidChar, Nat.isValidChar] at h
  have : c.toNat = c.val.toNat := rfl
  rw [this]
  omega

theorem char_ext {c d : Char} (h : c.toNat = d.toNat) : c = d := by
  apply Char.ext
  apply UInt32.toNat_inj.1
  exact h

theorem short_code {c d e f : Char} (h1 : (c, e) ∈ shortEsc) (h2 : (d, f) ∈ shortEsc) (h : e = f) : c = d := by
  subst h
  simp only [shortEsc, List.mem_cons, Prod.mk.injEq, List.not_mem_nil, or_false] at h1 h2
  rcases h1 with ⟨rfl, rfl⟩ | ⟨rfl, rfl⟩ | ⟨rfl, rfl⟩ | ⟨rfl, rfl⟩ | ⟨rfl, rfl⟩ | ⟨rfl, rfl⟩ | ⟨rfl, rfl⟩ |
    ⟨rfl, rfl⟩ | ⟨rfl, rfl⟩ <;> (simp at h2; exact h2.symm)

theorem short_not {c e : Char} (h : (c, e) ∈ shortEsc) : e ≠ 'x' ∧ e ≠ 'u' ∧ e ≠ 'U' := by
  simp only [shortEsc, List.mem_cons, Prod.mk.injEq, List.not_mem_nil, or_false] at h
  rcases h with ⟨rfl, rfl⟩ | ⟨rfl, rfl⟩ | ⟨rfl, rfl⟩ | ⟨rfl, rfl⟩ | ⟨rfl, rfl⟩ | ⟨rfl, rfl⟩ | ⟨rfl, rfl⟩ |
    ⟨rfl, rfl⟩ | ⟨rfl, rfl⟩ <;> simp

theorem byte_lt (b : UInt8) : b.toNat < 16 ^ 2 := by
  have := b.toNat_lt
  omega

theorem esc_prefix {g h : GoRune} {a b r s : List Char} (h1 : Esc g a) (h2 : Esc h b)
    (he : a ++ r = b ++ s) : g = h ∧ r = s := by
  cases h1 with
  | @plain c c1 c2 =>
    cases h2 with
    | plain d1 d2 => simp at he; simp [he]
    | short d => simp at he; exact absurd he.1 c2
    | hex d => simp at he; exact absurd he.1 c2
    | byte d => simp at he; exact absurd he.1 c2
    | small d => simp at he; exact absurd he.1 c2
    | large => simp at he; exact absurd he.1 c2
  | @short c e hc =>
    cases h2 with
    | plain d1 d2 => simp at he; exact absurd he.1.symm d2
    | short d =>
      simp at he
      exact ⟨by rw [short_code hc d he.1], he.2⟩
    | hex d => simp at he; exact absurd he.1 (short_not hc).1
    | byte d => simp at he; exact absurd he.1 (short_not hc).1
    | small d => simp at he; exact absurd he.1 (short_not hc).2.1
    | large => simp at he; exact absurd he.1 (short_not hc).2.2
  | @hex c hc =>
    cases h2 with
    | plain d1 d2 => simp at he; exact absurd he.1.symm d2
    | short d => simp at he; exact absurd he.1.symm (short_not d).1
    | hex d =>
      simp only [List.cons_append, List.cons.injEq, true_and] at he
      obtain ⟨e1, e2⟩ := hexDigits_prefix (by omega) (by omega) he
      exact ⟨by rw [char_ext e1], e2⟩
    | byte d =>
      simp only [List.cons_append, List.cons.injEq, true_and] at he
      obtain ⟨e1, e2⟩ := hexDigits_prefix (by omega) (byte_lt _) he
      omega
    | small d => simp at he
    | large => simp at he
  | @byte c hc =>
    cases h2 with
    | plain d1 d2 => simp at he; exact absurd he.1.symm d2
    | short d => simp at he; exact absurd he.1.symm (short_not d).1
    | hex d =>
      simp only [List.cons_append, List.cons.injEq, true_and] at he
      obtain ⟨e1, e2⟩ := hexDigits_prefix (byte_lt _) (by omega) he
      omega
    | byte d =>
      simp only [List.cons_append, List.cons.injEq, true_and] at he
      obtain ⟨e1, e2⟩ := hexDigits_prefix (byte_lt _) (byte_lt _) he
      exact ⟨by rw [UInt8.toNat_inj.1 e1], e2⟩
    | small d => simp at he
    | large => simp at he
  | @small c hc =>
    cases h2 with
    | plain d1 d2 => simp at he; exact absurd he.1.symm d2
    | short d => simp at he; exact absurd he.1.symm (short_not d).2.1
    | hex d => simp at he
    | byte d => simp at he
    | small d =>
      simp only [List.cons_append, List.cons.injEq, true_and] at he
      obtain ⟨e1, e2⟩ := hexDigits_prefix (by omega) (by omega) he
      exact ⟨by rw [char_ext e1], e2⟩
    | large => simp at he
  | @large c =>
    cases h2 with
    | plain d1 d2 => simp at he; exact absurd he.1.symm d2
    | short d => simp at he; exact absurd he.1.symm (short_not d).2.2
    | hex d => simp at he
    | byte d => simp at he
    | small d => simp at he
    | large =>
      simp only [List.cons_append, List.cons.injEq, true_and] at he
      obtain ⟨e1, e2⟩ := hexDigits_prefix (char_lt _) (char_lt _) he
      exact ⟨by rw [char_ext e1], e2⟩

/-- an escape sequence does not begin with a quote and is not empty -/
theorem esc_head {g : GoRune} {a : List Char} (h : Esc g a) : ∃ c t, a = c :: t ∧ c ≠ '"' := by
  cases h with
  | plain h1 h2 => exact ⟨_, _, rfl, h1⟩
  | short h => exact ⟨_, _, rfl, by decide⟩
  | hex h => exact ⟨_, _, rfl, by decide⟩
  | byte h => exact ⟨_, _, rfl, by decide⟩
  | small h => exact ⟨_, _, rfl, by decide⟩
  | large => exact ⟨_, _, rfl, by decide⟩

theorem quote_prefix (isPrint : Char → Bool) : ∀ {l m : List GoRune} {r s : List Char},
    (∀ g ∈ l, g.OK) → (∀ g ∈ m, g.OK) →
    l.flatMap (escapeGo isPrint) ++ '"' :: r = m.flatMap (escapeGo isPrint) ++ '"' :: s → l = m ∧ r = s
  | [], [], r, s, _, _, h => by simpa using h
  | [], g :: m, r, s, _, hm, h => by
    obtain ⟨c, t, hc, hne⟩ := esc_head (escapeGo_esc isPrint (hm g (by simp)))
    simp [hc] at h
    exact absurd h.1.symm hne
  | g :: l, [], r, s, hl, _, h => by
    obtain ⟨c, t, hc, hne⟩ := esc_head (escapeGo_esc isPrint (hl g (by simp)))
    simp [hc] at h
    exact absurd h.1 hne
  | g :: l, g' :: m, r, s, hl, hm, h => by
    simp only [List.flatMap_cons, List.append_assoc] at h
    obtain ⟨e, h⟩ := esc_prefix (escapeGo_esc isPrint (hl g (by simp))) (escapeGo_esc isPrint (hm g' (by simp))) h
    obtain ⟨e', h⟩ := quote_prefix isPrint (fun g hg => hl g (by simp [hg])) (fun g hg => hm g (by simp [hg])) h
    exact ⟨by rw [e, e'], h⟩

theorem quoteRunes_prefix (isPrint : Char → Bool) {l m : List GoRune} {r s : List Char}
    (hl : ∀ g ∈ l, g.OK) (hm : ∀ g ∈ m, g.OK) (h : quoteRunes isPrint l ++ r = quoteRunes isPrint m ++ s) :
    l = m ∧ r = s := by
  simp only [quoteRunes, List.cons_append, List.append_assoc, List.cons.injEq, true_and, List.nil_append] at h
  exact quote_prefix isPrint hl hm h

theorem quoteStr_prefix (isPrint : Char → Bool) {a b : String} {r s : List Char}
    (h : (quoteStr isPrint a).toList ++ r = (quoteStr isPrint b).toList ++ s) : a = b ∧ r = s := by
  simp only [quoteStr, String.toList_ofList] at h
  obtain ⟨h1, h2⟩ := quoteRunes_prefix isPrint
    (by intro g hg; obtain ⟨c, _, rfl⟩ := List.mem_map.1 hg; trivial)
    (by intro g hg; obtain ⟨c, _, rfl⟩ := List.mem_map.1 hg; trivial) h
  refine ⟨?_, h2⟩
  have : a.toList = b.toList := by
    have hinj : ∀ x y : Char, GoRune.rune x = GoRune.rune y → x = y := fun x y h => by cases h; rfl
    exact (List.map_inj_right hinj).1 h1
  exact String.toList_inj.1 this

end Fmr
