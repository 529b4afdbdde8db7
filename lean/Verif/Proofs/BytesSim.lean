import Verif.Proofs.BytesDisc
import Verif.Proofs.Utf8
import Verif.Proofs.Maps
import Verif.Spec.Position

/-!
# The parser on bytes simulates the parser on runes
-/

namespace Fmr

/-- the position of a rune behind the position `cur` (nil at the start) -/
def stepPos (cur : Option Position) (r : Char) : Option Position :=
  some (match cur with
    | none => ⟨1, r.utf8Size, r⟩
    | some c => if r = '\n' then ⟨c.row + 1, r.utf8Size, r⟩ else ⟨c.row, c.col + r.utf8Size, r⟩)

/-- the position of the last rune of a text -/
def posOf (l : List Char) : Option Position := l.foldl stepPos none

theorem posOf_snoc (l : List Char) (r : Char) : posOf (l ++ [r]) = stepPos (posOf l) r := by simp [posOf]

theorem posOf_take {l : List Char} {k : Nat} {r : Char} (h : l[k]? = some r) :
    posOf (l.take (k + 1)) = stepPos (posOf (l.take k)) r := by
  rw [List.take_add_one, h]
  exact posOf_snoc _ _

namespace Prog

/-- The states of the two parsers. `f`: the last step was a `next`. `hw`: the largest number of runes read so far. -/
structure Rel (b : Bytes) (f : Bool) (hw : Nat) (sb : BSt) (sr : PSt) : Prop where
  le : sr.pos ≤ hw
  top : hw ≤ (runes b).length
  pos : sb.pos = runeOff b sr.pos
  reg : sb.regexps = sr.regexps
  clean : ∀ k, k < hw → (runes b)[k]? ≠ some runeError
  width : (sr.width = 0 ∧ sb.width = 0) ∨
    (sr.width = 1 ∧ ∃ k, sr.pos = k + 1 ∧ sb.width + runeOff b k = runeOff b (k + 1)) ∨ (f = false ∧ sr.pos < hw)
  cur : sb.current = posOf ((runes b).take sr.pos)
  info : ∀ k, k ≤ (runes b).length →
    sb.info.lookup (runeOff b k) = if 0 < k ∧ k ≤ hw then posOf ((runes b).take k) else none

theorem Rel.init (b : Bytes) : Rel b false 0 {} { pos := 0, width := 0 } where
  le := Nat.le_refl _
  top := Nat.zero_le _
  pos := rfl
  reg := rfl
  clean := fun k h => absurd h (Nat.not_lt_zero _)
  width := .inl ⟨rfl, rfl⟩
  cur := rfl
  info := fun k _ => by rw [if_neg (by omega)]; rfl

theorem Rel.next {b : Bytes} {f : Bool} {hw : Nat} {sb : BSt} {sr : PSt} (h : Rel b f hw sb sr) :
    ∃ hw' sr', hw ≤ hw' ∧ Rel b true hw' (bnext b sb).2 sr' ∧ Fmr.next (runes b) sr = .ok ((bnext b sb).1, sr') := by
  have hg := runes_get b sr.pos
  unfold bnext Fmr.next
  by_cases hl : b.length ≤ sb.pos
  · rw [if_pos hl]
    rw [if_pos (h.pos ▸ hl)] at hg
    rw [hg]
    exact ⟨hw, { sr with width := 0 }, Nat.le_refl _,
      ⟨h.le, h.top, h.pos, h.reg, h.clean, .inl ⟨rfl, rfl⟩, h.cur, h.info⟩, rfl⟩
  · rw [if_neg hl]
    rw [if_neg (h.pos ▸ hl), ← h.pos] at hg
    rw [hg]
    simp only
    by_cases hr : (decodeRune (b.drop sb.pos)).1 = runeError
    · rw [if_pos hr, if_pos hr]
      refine ⟨hw, sr, Nat.le_refl _, ⟨h.le, h.top, h.pos, h.reg, h.clean, ?_, h.cur, h.info⟩, rfl⟩
      rcases h.width with hw0 | hw0 | ⟨_, hw0⟩
      · exact .inl hw0
      · exact .inr (.inl hw0)
      · exact absurd (hg.trans (congrArg some hr)) (h.clean _ hw0)
    · rw [if_neg hr, if_neg hr]
      have hk : sr.pos < (runes b).length := by
        rw [List.getElem?_eq_some_iff] at hg
        exact hg.1
      have hoff : sb.pos + (decodeRune (b.drop sb.pos)).2 = runeOff b (sr.pos + 1) := by
        rw [runeOff, h.pos]
      have hnew := posOf_take hg
      have hinfo := h.info (sr.pos + 1) hk
      rw [hoff]
      by_cases hle : sr.pos + 1 ≤ hw
      · rw [if_pos ⟨by omega, hle⟩, hnew] at hinfo
        simp only [stepPos] at hinfo
        rw [hinfo]
        refine ⟨hw, { sr with pos := sr.pos + 1, width := 1 }, Nat.le_refl _, ⟨hle, h.top, rfl, h.reg, h.clean, .inr (.inl ⟨rfl, sr.pos, rfl, ?_⟩), ?_, h.info⟩, rfl⟩
        · rw [← hoff, h.pos, Nat.add_comm]
        · rw [hnew]; rfl
      · rw [if_neg (by omega)] at hinfo
        rw [hinfo]
        simp only
        have hcur : sr.pos = hw := by have := h.le; omega
        have hpos : some (match sb.current with
            | none => (⟨1, (decodeRune (b.drop sb.pos)).2, (decodeRune (b.drop sb.pos)).1⟩ : Position)
            | some c => if (decodeRune (b.drop sb.pos)).1 = '\n' then
                ⟨c.row + 1, (decodeRune (b.drop sb.pos)).2, (decodeRune (b.drop sb.pos)).1⟩
              else ⟨c.row, c.col + (decodeRune (b.drop sb.pos)).2, (decodeRune (b.drop sb.pos)).1⟩)
            = posOf ((runes b).take (sr.pos + 1)) := by
          rw [hnew, h.cur, decodeRune_size hr]
          unfold stepPos
          rfl
        refine ⟨hw + 1, { sr with pos := sr.pos + 1, width := 1 }, by omega, ⟨by simp only; omega, by omega, rfl, h.reg, ?_, .inr (.inl ⟨rfl, sr.pos, rfl, ?_⟩),
          hpos, ?_⟩, rfl⟩
        · intro k hk2
          by_cases hk3 : k < hw
          · exact h.clean k hk3
          · have : k = sr.pos := by omega
            subst this
            rw [hg]
            intro he
            exact hr (Option.some.inj he)
        · rw [← hoff, h.pos, Nat.add_comm]
        · intro k hkl
          simp only
          rw [lookup_mapSet]
          by_cases hkk : k = sr.pos + 1
          · subst hkk
            rw [if_pos rfl, if_pos (by omega)]
            exact hpos
          · rw [if_neg (fun he => hkk (runeOff_inj hkl (by omega) he)), h.info k hkl]
            by_cases hk0 : 0 < k ∧ k ≤ hw
            · rw [if_pos hk0, if_pos (by omega)]
            · rw [if_neg hk0, if_neg (by omega)]

theorem Rel.backup {b : Bytes} {hw : Nat} {sb : BSt} {sr : PSt} (h : Rel b true hw sb sr) :
    ¬ sb.pos < sb.width ∧ Rel b false hw
      { sb with pos := sb.pos - sb.width, current := sb.info.lookup (sb.pos - sb.width) }
      { sr with pos := sr.pos - sr.width } := by
  have hlook : ∀ k, k ≤ hw → sb.info.lookup (runeOff b k) = posOf ((runes b).take k) := by
    intro k hk
    rw [h.info k (Nat.le_trans hk h.top)]
    by_cases h0 : 0 < k
    · rw [if_pos ⟨h0, hk⟩]
    · rw [if_neg (by omega), show k = 0 by omega]; rfl
  have hle := h.le
  rcases h.width with ⟨h1, h2⟩ | ⟨h1, k, h2, h3⟩ | ⟨h1, _⟩
  · simp only [h1, h2, Nat.sub_zero]
    refine ⟨by omega, ⟨h.le, h.top, h.pos, h.reg, h.clean, .inl ⟨rfl, rfl⟩, ?_, h.info⟩⟩
    simp only
    rw [h.pos]
    exact hlook _ h.le
  · have hp := h.pos
    rw [h2] at hp
    have hk : sb.pos - sb.width = runeOff b k := by omega
    rw [hk, h1, h2]
    refine ⟨by omega, ⟨by simp only; omega, h.top, rfl, h.reg, h.clean, .inr (.inr ⟨rfl, by simp only; omega⟩), ?_, h.info⟩⟩
    exact hlook _ (by omega)
  · cases h1

/-- The outcomes of the two parsers. -/
inductive Same {α : Type} (name : String) (b : Bytes) (Q : Bool → Prop) : BOut (α × BSt) → Out (α × PSt) → Prop
  | ok {a : α} {f : Bool} {hw : Nat} {sb : BSt} {sr : PSt} (hq : Q f) (h : Rel b f hw sb sr) : Same name b Q (.ok (a, sb)) (.ok (a, sr))
  | silent : Same name b Q (.err none) .err
  | err {k : Nat} (h : k ≤ (runes b).length) : Same name b Q (.err (some (name, posOf ((runes b).take k)))) .err
  | div : Same name b Q .div .div

theorem sim {α : Type} {Q : Bool → Prop} (name : String) (b : Bytes) (x : Prog α) {f : Bool} {hw : Nat} {sb : BSt} {sr : PSt}
    (hd : x.Disc Q f) (h : Rel b f hw sb sr) : Same name b Q (x.runB name b sb) (x.run (runes b) sr) := by
  induction x generalizing f hw sb sr with
  | ret a => exact .ok hd h
  | next k ih =>
    obtain ⟨hw', sr', _, h1, h2⟩ := h.next
    show Same name b Q _ (P.bind (Fmr.next (runes b)) _ sr)
    unfold P.bind
    rw [h2]
    exact ih _ (hd _) h1
  | backup k ih =>
    obtain ⟨rfl, hd⟩ := hd
    have h1 := h.backup
    unfold runB
    rw [if_neg h1.1]
    exact ih hd h1.2
  | put x r k ih =>
    refine ih (f := f) (hw := hw) hd ⟨h.le, h.top, h.pos, ?_, h.clean, h.width, h.cur, h.info⟩
    simp only [h.reg]
  | get k ih =>
    show Same name b Q ((k sb.regexps).runB name b sb) ((k sr.regexps).run (runes b) sr)
    rw [h.reg]
    exact ih _ (hd _) h
  | fail p =>
    cases p with
    | false => exact .silent
    | true =>
      show Same name b Q (.err (some (name, sb.current))) .err
      rw [h.cur]
      exact .err (Nat.le_trans h.le h.top)
  | div => exact .div

end Prog

end Fmr
