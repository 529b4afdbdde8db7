import Verif.Model.Bytes
import Verif.Model.Node

/-!
# Decoding of UTF-8

`runes` is Go's conversion of a byte string to runes: every invalid byte becomes U+FFFD.
-/

namespace Fmr

theorem toNat_ofNat {n : Nat} (h : n < 0xD800 ∨ (0xDFFF < n ∧ n < 0x110000)) : (Char.ofNat n).val.toNat = n := by
  unfold Char.ofNat
  have hv : n.isValidChar := by
    rcases h with h | h
    · exact .inl h
    · exact .inr h
  rw [dif_pos hv]
  rfl

theorem acceptLo_spec (n : Nat) : (n = 0xE0 ∧ acceptLo n = 0xA0) ∨ (n = 0xF0 ∧ acceptLo n = 0x90) ∨
    (n ≠ 0xE0 ∧ n ≠ 0xF0 ∧ acceptLo n = 0x80) := by
  unfold acceptLo
  split
  · omega
  · split <;> omega

theorem acceptHi_spec (n : Nat) : (n = 0xED ∧ acceptHi n = 0x9F) ∨ (n = 0xF4 ∧ acceptHi n = 0x8F) ∨
    (n ≠ 0xED ∧ n ≠ 0xF4 ∧ acceptHi n = 0xBF) := by
  unfold acceptHi
  split
  · omega
  · split <;> omega

/-- A decoded rune other than U+FFFD: the bytes are its encoding. -/
theorem decodeRune_encode {b : Bytes} (h : (decodeRune b).1 ≠ runeError) :
    b.take (decodeRune b).2 = String.utf8EncodeChar (decodeRune b).1 := by
  have hu : ∀ {x : UInt8} {n : Nat}, n = x.toNat → x = UInt8.ofNat n := by
    rintro x n rfl
    simp
  revert h
  fun_cases decodeRune b <;> intro h <;> first | exact absurd rfl h | skip
  · rename_i b0 rest n hn
    have := toNat_ofNat (n := b0.toNat) (by omega)
    simp only [String.utf8EncodeChar, n, this]
    rw [if_pos (by omega)]
    simp
  · rename_i b0 n h1 h2 b1 rest h3 h4
    have e := toNat_ofNat (n := b0.toNat % 32 * 64 + b1.toNat % 64) (by omega)
    simp only [String.utf8EncodeChar, n, e]
    simp only [n] at h1 h2 h3 h4
    have h3' : 0x80 ≤ b1.toNat ∧ b1.toNat ≤ 0xBF := by
      have := acceptLo_spec b0.toNat
      have := acceptHi_spec b0.toNat
      omega
    rw [if_neg (by omega), if_pos (by omega)]
    simp only [List.take_succ_cons, List.take_zero, List.cons.injEq, and_true]
    exact ⟨hu (by omega), hu (by omega)⟩
  · rename_i b0 n h1 h2 b1 h3 h4 b2 rest h5 h6
    simp only [n] at h1 h2 h3 h4 h6
    have h3' : (0x80 ≤ b1.toNat ∧ b1.toNat ≤ 0xBF) ∧ (b0.toNat = 0xE0 → 0xA0 ≤ b1.toNat) ∧
        (b0.toNat = 0xED → b1.toNat ≤ 0x9F) := by
      have := acceptLo_spec b0.toNat
      have := acceptHi_spec b0.toNat
      omega
    have e := toNat_ofNat (n := b0.toNat % 16 * 4096 + b1.toNat % 64 * 64 + b2.toNat % 64) (by omega)
    simp only [String.utf8EncodeChar, n, e]
    rw [if_neg (by omega), if_neg (by omega), if_pos (by omega)]
    simp only [List.take_succ_cons, List.take_zero, List.cons.injEq, and_true]
    exact ⟨hu (by omega), hu (by omega), hu (by omega)⟩
  · rename_i b0 n h1 h2 b1 h3 h4 b2 h5 h6 b3 rest h7
    simp only [n] at h1 h2 h3 h4 h6
    have h3' : (0x80 ≤ b1.toNat ∧ b1.toNat ≤ 0xBF) ∧ (b0.toNat = 0xF0 → 0x90 ≤ b1.toNat) ∧
        (b0.toNat = 0xF4 → b1.toNat ≤ 0x8F) := by
      have := acceptLo_spec b0.toNat
      have := acceptHi_spec b0.toNat
      omega
    have e := toNat_ofNat (n := b0.toNat % 8 * 262144 + b1.toNat % 64 * 4096 + b2.toNat % 64 * 64 + b3.toNat % 64) (by omega)
    simp only [String.utf8EncodeChar, n, e]
    rw [if_neg (by omega), if_neg (by omega), if_neg (by omega)]
    simp only [List.take_succ_cons, List.take_zero, List.cons.injEq, and_true]
    exact ⟨hu (by omega), hu (by omega), hu (by omega), hu (by omega)⟩

/-- at least one byte is consumed, and not more than there are -/
theorem decodeRune_width {b : Bytes} (h : b ≠ []) : 1 ≤ (decodeRune b).2 ∧ (decodeRune b).2 ≤ b.length := by
  fun_cases decodeRune b <;> first | exact absurd rfl h | simp

theorem decodeRune_size {b : Bytes} (h : (decodeRune b).1 ≠ runeError) : (decodeRune b).2 = (decodeRune b).1.utf8Size := by
  have hb : b ≠ [] := by rintro rfl; exact h rfl
  have := congrArg List.length (decodeRune_encode h)
  rw [List.length_take, String.length_utf8EncodeChar, Nat.min_eq_left (decodeRune_width hb).2] at this
  exact this

/-- the encoding of a rune is decoded to this rune -/
theorem decodeRune_append (c : Char) (rest : Bytes) : decodeRune (String.utf8EncodeChar c ++ rest) = (c, c.utf8Size) := by
  have hlen := String.length_utf8EncodeChar c
  have hv : c.val.toNat < 0xD800 ∨ (0xDFFF < c.val.toNat ∧ c.val.toNat < 0x110000) := c.valid
  have hof : Char.ofNat c.val.toNat = c := Char.ofNat_toNat c
  have hu : ∀ {n : Nat}, n < 256 → (UInt8.ofNat n).toNat = n := by
    intro n hn
    simp [Nat.mod_eq_of_lt hn]
  rw [← hlen]
  simp only [String.utf8EncodeChar]
  generalize hvn : c.val.toNat = v at *
  split
  · rename_i h1
    simp only [List.cons_append, List.nil_append, decodeRune, List.length_cons, List.length_nil, hu (show v < 256 by omega)]
    rw [if_pos (by omega), hof]
  split
  · rename_i h1 h2
    simp only [List.cons_append, List.nil_append, decodeRune, List.length_cons, List.length_nil,
      hu (show v / 64 % 0x20 + 0xc0 < 256 by omega), hu (show v % 64 + 0x80 < 256 by omega)]
    rw [if_neg (by omega), if_pos (by omega), if_pos, if_pos (by omega)]
    · rw [show (v / 64 % 0x20 + 0xc0) % 32 * 64 + (v % 64 + 0x80) % 64 = v by omega, hof]
    · have := acceptLo_spec (v / 64 % 0x20 + 0xc0)
      have := acceptHi_spec (v / 64 % 0x20 + 0xc0)
      constructor <;> omega
  split
  · rename_i h1 h2 h3
    simp only [List.cons_append, List.nil_append, decodeRune, List.length_cons, List.length_nil,
      hu (show v / 4096 % 0x10 + 0xe0 < 256 by omega), hu (show v / 64 % 0x40 + 0x80 < 256 by omega),
      hu (show v % 64 + 0x80 < 256 by omega)]
    rw [if_neg (by omega), if_pos (by omega), if_pos, if_neg (by omega), if_pos (by omega), if_pos (by omega)]
    · rw [show (v / 4096 % 0x10 + 0xe0) % 16 * 4096 + (v / 64 % 0x40 + 0x80) % 64 * 64 + (v % 64 + 0x80) % 64 = v by omega,
        hof]
    · have := acceptLo_spec (v / 4096 % 0x10 + 0xe0)
      have := acceptHi_spec (v / 4096 % 0x10 + 0xe0)
      constructor <;> omega
  · rename_i h1 h2 h3
    simp only [List.cons_append, List.nil_append, decodeRune, List.length_cons, List.length_nil,
      hu (show v / 262144 % 0x08 + 0xf0 < 256 by omega), hu (show v / 4096 % 0x40 + 0x80 < 256 by omega),
      hu (show v / 64 % 0x40 + 0x80 < 256 by omega), hu (show v % 64 + 0x80 < 256 by omega)]
    rw [if_neg (by omega), if_pos (by omega), if_pos, if_neg (by omega), if_pos (by omega), if_neg (by omega),
      if_pos (by omega)]
    · rw [show (v / 262144 % 0x08 + 0xf0) % 8 * 262144 + (v / 4096 % 0x40 + 0x80) % 64 * 4096 +
        (v / 64 % 0x40 + 0x80) % 64 * 64 + (v % 64 + 0x80) % 64 = v by omega, hof]
    · have := acceptLo_spec (v / 262144 % 0x08 + 0xf0)
      have := acceptHi_spec (v / 262144 % 0x08 + 0xf0)
      constructor <;> omega

/-! ## Runes of a byte string -/

/-- the first argument is the number of bytes to skip -/
def runesSkip : Nat → Bytes → List Char
  | _, [] => []
  | 0, b :: l => (decodeRune (b :: l)).1 :: runesSkip ((decodeRune (b :: l)).2 - 1) l
  | k + 1, _ :: l => runesSkip k l

/-- Go's conversion of a byte string to runes. -/
def runes (b : Bytes) : List Char := runesSkip 0 b

theorem runesSkip_eq (k : Nat) (b : Bytes) : runesSkip k b = runes (b.drop k) := by
  induction k generalizing b with
  | zero => rfl
  | succ k ih => cases b with
    | nil => rfl
    | cons x l => exact ih l

@[simp] theorem runes_nil : runes [] = [] := rfl

theorem runes_eq {b : Bytes} (h : b ≠ []) : runes b = (decodeRune b).1 :: runes (b.drop (decodeRune b).2) := by
  obtain ⟨x, l, rfl⟩ := List.exists_cons_of_ne_nil h
  have hw := decodeRune_width h
  show _ :: runesSkip _ l = _
  rw [runesSkip_eq]
  obtain ⟨n, hn⟩ : ∃ n, (decodeRune (x :: l)).2 = n + 1 := ⟨_, (Nat.sub_add_cancel hw.1).symm⟩
  rw [hn]
  rfl

theorem runes_append (c : Char) (rest : Bytes) : runes (String.utf8EncodeChar c ++ rest) = c :: runes rest := by
  rw [runes_eq (by simp [String.utf8EncodeChar_ne_nil]), decodeRune_append, ← String.length_utf8EncodeChar c]
  simp

/-- the runes of the bytes of a string -/
theorem runes_utf8 (s : String) : runes (utf8 s) = s.toList := by
  have h : ∀ l : List Char, runes (l.flatMap String.utf8EncodeChar) = l := by
    intro l
    induction l with
    | nil => rfl
    | cons c l ih => rw [List.flatMap_cons, runes_append, ih]
  have : utf8 s = s.toList.flatMap String.utf8EncodeChar := by
    unfold utf8
    rw [String.toUTF8_eq_toByteArray, ← String.utf8Encode_toList]
    simp [List.utf8Encode]
  rw [this, h]

/-- the byte offset of a rune -/
def runeOff (b : Bytes) : Nat → Nat
  | 0 => 0
  | k + 1 => runeOff b k + (decodeRune (b.drop (runeOff b k))).2

theorem runes_drop (b : Bytes) (k : Nat) : runes (b.drop (runeOff b k)) = (runes b).drop k := by
  induction k with
  | zero => rfl
  | succ k ih =>
    have e : (runes b).drop (k + 1) = ((runes b).drop k).drop 1 := by rw [List.drop_drop]
    rw [e, ← ih, runeOff, ← List.drop_drop]
    generalize b.drop (runeOff b k) = d
    by_cases hd : d = []
    · subst hd; rfl
    · rw [runes_eq hd]; rfl

theorem runes_get (b : Bytes) (k : Nat) :
    (runes b)[k]? = if b.length ≤ runeOff b k then none else some (decodeRune (b.drop (runeOff b k))).1 := by
  have h : (runes b)[k]? = ((runes b).drop k)[0]? := by simp
  rw [h, ← runes_drop]
  split
  · rename_i hl
    rw [List.drop_eq_nil_of_le hl]; rfl
  · rename_i hl
    rw [runes_eq (by simpa using hl)]; rfl

theorem runeOff_lt {b : Bytes} {k : Nat} (h : k < (runes b).length) : runeOff b k < b.length := by
  have := runes_get b k
  rw [List.getElem?_eq_getElem h] at this
  split at this
  · cases this
  · omega

theorem runeOff_succ {b : Bytes} {k : Nat} (h : k < (runes b).length) : runeOff b k < runeOff b (k + 1) := by
  have := runeOff_lt h
  have hw := decodeRune_width (b := b.drop (runeOff b k)) (by simpa using this)
  rw [runeOff]
  omega

theorem runeOff_mono {b : Bytes} {j k : Nat} (h : j < k) (hk : k ≤ (runes b).length) : runeOff b j < runeOff b k := by
  induction k with
  | zero => omega
  | succ k ih =>
    have := runeOff_succ (b := b) (k := k) (by omega)
    by_cases hj : j = k
    · subst hj; exact this
    · have := ih (by omega) (by omega); omega

theorem runeOff_inj {b : Bytes} {j k : Nat} (hj : j ≤ (runes b).length) (hk : k ≤ (runes b).length)
    (h : runeOff b j = runeOff b k) : j = k := by
  rcases Nat.lt_trichotomy j k with hl | hl | hl
  · have := runeOff_mono hl hk; omega
  · exact hl
  · have := runeOff_mono hl hj; omega

end Fmr
