import Verif.Props.Bytes

/-!
# A reported error depends only on the text up to the reported position
-/

namespace Fmr

/-- no invalid byte and no U+FFFD (`next` takes both for the end of the text) -/
def CleanText (b : Bytes) : Prop := runeError ∉ runes b

theorem CleanText.get {b : Bytes} (h : CleanText b) (k : Nat) : (runes b)[k]? ≠ some runeError :=
  fun e => h (List.mem_of_getElem? e)

theorem runeOff_clean {b : Bytes} (h : CleanText b) {k : Nat} {r : Char} (hr : (runes b)[k]? = some r) :
    runeOff b (k + 1) = runeOff b k + r.utf8Size ∧ decodeRune (b.drop (runeOff b k)) = (r, r.utf8Size) ∧ runeOff b k < b.length := by
  have hlt := runeOff_lt (List.getElem?_eq_some_iff.1 hr).1
  have hg := runes_get b k
  rw [if_neg (by omega), hr] at hg
  have hg := Option.some.inj hg
  have hne : (decodeRune (b.drop (runeOff b k))).1 ≠ runeError := by
    rw [← hg]; rintro rfl; exact h.get k hr
  have hsz := decodeRune_size hne
  rw [← hg] at hsz
  refine ⟨by rw [runeOff, hsz], ?_, hlt⟩
  rw [← hsz, hg]

/-- `b` and `b'` have the first `m` runes in common. -/
def Common (b b' : Bytes) (m : Nat) : Prop := (runes b').take m = (runes b).take m

theorem Common.mono {b b' : Bytes} {m n : Nat} (h : Common b b' n) (hm : m ≤ n) : Common b b' m := by
  have := congrArg (List.take m) h
  rw [List.take_take, List.take_take, Nat.min_eq_left hm] at this
  exact this

theorem Common.get {b b' : Bytes} {m k : Nat} (h : Common b b' m) (hk : k < m) : (runes b')[k]? = (runes b)[k]? := by
  have := congrArg (fun l => l[k]?) h
  simpa [List.getElem?_take, hk] using this

theorem Common.off {b b' : Bytes} (hb : CleanText b) (hb' : CleanText b') {k : Nat} (h : Common b b' k)
    (hk : k ≤ (runes b).length) : runeOff b' k = runeOff b k := by
  induction k with
  | zero => rfl
  | succ k ih =>
    have h1 := List.getElem?_eq_getElem (show k < (runes b).length by omega)
    have h2 := (h.get (Nat.lt_succ_self k)).trans h1
    rw [(runeOff_clean hb h1).1, (runeOff_clean hb' h2).1, ih (h.mono (Nat.le_succ k)) (by omega)]

namespace Prog

/-- the lowest position that can be reached by giving back -/
def low (f : Bool) (s : PSt) : Nat := if f then s.pos - s.width else s.pos

theorem low_le (f : Bool) (s : PSt) : low f s ≤ s.pos := by
  unfold low; split <;> omega

/-- the step of `next` on a clean text -/
theorem Rel.next_clean {b : Bytes} (hb : CleanText b) {f : Bool} {hw : Nat} {sb : BSt} {sr : PSt} (h : Rel b f hw sb sr) :
    ∃ hw' sr', Rel b true hw' (bnext b sb).2 sr' ∧ low true sr' = sr.pos := by
  obtain ⟨hw', sr', _, h1, h2⟩ := h.next
  refine ⟨hw', sr', h1, ?_⟩
  unfold Fmr.next at h2
  cases hg : (runes b)[sr.pos]? with
  | none =>
    rw [hg] at h2
    simp only [Out.ok.injEq, Prod.mk.injEq] at h2
    obtain ⟨-, rfl⟩ := h2
    simp [low]
  | some r =>
    rw [hg] at h2
    have hr : r ≠ runeError := by rintro rfl; exact hb.get _ hg
    simp only [if_neg hr, Out.ok.injEq, Prod.mk.injEq] at h2
    obtain ⟨-, rfl⟩ := h2
    simp [low]

theorem Common.bnext {b b' : Bytes} (hb : CleanText b) (hb' : CleanText b') {f : Bool} {hw : Nat} {sb : BSt} {sr : PSt}
    (h : Rel b f hw sb sr) (hc : Common b b' (sr.pos + 1)) : bnext b' sb = bnext b sb := by
  have hoff := (hc.mono (Nat.le_succ _)).off hb hb' (Nat.le_trans h.le h.top)
  have hget := hc.get (Nat.lt_succ_self _)
  cases hg : (runes b)[sr.pos]? with
  | none =>
    have h1 := runes_get b sr.pos
    have h2 := runes_get b' sr.pos
    rw [hget, hg] at h2
    rw [hg] at h1
    have l1 : b.length ≤ sb.pos := by
      rw [h.pos]
      by_contra hn
      rw [if_neg hn] at h1; cases h1
    have l2 : b'.length ≤ sb.pos := by
      rw [h.pos, ← hoff]
      by_contra hn
      rw [if_neg hn] at h2; cases h2
    unfold Prog.bnext
    rw [if_pos l1, if_pos l2]
  | some r =>
    obtain ⟨_, d1, l1⟩ := runeOff_clean hb hg
    obtain ⟨_, d2, l2⟩ := runeOff_clean hb' (hget.trans hg)
    rw [← h.pos] at d1 l1
    rw [hoff, ← h.pos] at d2 l2
    unfold Prog.bnext
    rw [if_neg (Nat.not_le_of_lt l1), if_neg (Nat.not_le_of_lt l2), d1, d2]

/-- where an outcome leaves the text: the position of the final state, or of the error -/
inductive Reach {α : Type} (name : String) (b : Bytes) (m : Nat) : BOut (α × BSt) → Prop
  | ok {a : α} {f : Bool} {hw : Nat} {sb : BSt} {sr : PSt} (h : Rel b f hw sb sr) (hm : sr.pos = m) : Reach name b m (.ok (a, sb))
  | err (h : m ≤ (runes b).length) : Reach name b m (.err (some (name, posOf ((runes b).take m))))

theorem posOf_take_inj {l : List Char} {j k : Nat} (hj : j ≤ l.length) (hk : k ≤ l.length)
    (h : posOf (l.take j) = posOf (l.take k)) : j = k := by
  rcases Nat.lt_trichotomy j k with hl | hl | hl
  · obtain ⟨r, h1, h2⟩ := posOf_lt hl hk
    have := h2 r (h.trans h1)
    omega
  · exact hl
  · obtain ⟨r, h1, h2⟩ := posOf_lt hl hj
    have := h2 r (h.symm.trans h1)
    omega

theorem Reach.unique {α : Type} {name : String} {b : Bytes} {m n : Nat} {o : BOut (α × BSt)} (hm : Reach name b m o)
    (hn : Reach name b n o) : m = n := by
  cases hm with
  | ok h1 e1 =>
    cases hn with
    | ok h2 e2 =>
      rw [← e1, ← e2]
      exact runeOff_inj (Nat.le_trans h1.le h1.top) (Nat.le_trans h2.le h2.top) (h1.pos.symm.trans h2.pos)
  | err h1 =>
    generalize he : posOf ((runes b).take m) = e at hn
    cases hn with
    | err h2 => exact posOf_take_inj h1 h2 he

/-- The parser does not go back beyond `low`. -/
theorem reach_low {α : Type} {Q : Bool → Prop} (name : String) {b : Bytes} (hb : CleanText b) (x : Prog α) {f : Bool} {hw : Nat}
    {sb : BSt} {sr : PSt} (hd : x.Disc Q f) (h : Rel b f hw sb sr) {m : Nat} (hr : Reach name b m (x.runB name b sb)) :
    low f sr ≤ m := by
  induction x generalizing f hw sb sr with
  | ret a =>
    have := hr.unique (Reach.ok h rfl)
    subst this
    exact low_le f sr
  | next k ih =>
    obtain ⟨hw', sr', h1, h2⟩ := h.next_clean hb
    have := ih _ (hd _) h1 hr
    have := low_le f sr
    omega
  | backup k ih =>
    obtain ⟨rfl, hd⟩ := hd
    have h1 := h.backup
    unfold runB at hr
    rw [if_neg h1.1] at hr
    exact ih (f := false) hd h1.2 hr
  | put y r k ih =>
    exact ih (f := f) (hw := hw) (sb := { sb with regexps := mapSet sb.regexps y r })
      (sr := { sr with regexps := mapSet sr.regexps y r }) hd
      ⟨h.le, h.top, h.pos, by simp only [h.reg], h.clean, h.width, h.cur, h.info⟩ hr
  | get k ih => exact ih _ (hd _) h hr
  | fail p =>
    cases p with
    | false => cases hr
    | true =>
      have he : Reach name b sr.pos (runB name b (fail (α := α) true) sb) := by
        show Reach name b sr.pos (.err (some (name, sb.current)))
        rw [h.cur]
        exact .err (Nat.le_trans h.le h.top)
      have := hr.unique he
      subst this
      exact low_le f sr
  | div => cases hr

/-- The outcome is the same for every text with the same runes up to the one after the reached position. -/
theorem runB_local {α : Type} {Q : Bool → Prop} (name : String) {b b' : Bytes} (hb : CleanText b) (hb' : CleanText b') (x : Prog α)
    {f : Bool} {hw : Nat} {sb : BSt} {sr : PSt} (hd : x.Disc Q f) (h : Rel b f hw sb sr) {m : Nat}
    (hr : Reach name b m (x.runB name b sb)) (hc : Common b b' (m + 1)) :
    x.runB name b' sb = x.runB name b sb := by
  induction x generalizing f hw sb sr with
  | ret a => rfl
  | next k ih =>
    obtain ⟨hw', sr', h1, h2⟩ := h.next_clean hb
    have hl := reach_low name hb _ (hd (bnext b sb).1) h1 hr
    have he := Common.bnext hb hb' h (hc.mono (by omega))
    show (k (bnext b' sb).1).runB name b' (bnext b' sb).2 = (k (bnext b sb).1).runB name b (bnext b sb).2
    rw [he]
    exact ih _ (hd _) h1 hr
  | backup k ih =>
    obtain ⟨rfl, hd⟩ := hd
    have h1 := h.backup
    unfold runB at hr ⊢
    rw [if_neg h1.1] at hr
    rw [if_neg h1.1, if_neg h1.1]
    exact ih (f := false) hd h1.2 hr
  | put y r k ih =>
    exact ih (f := f) (hw := hw) (sb := { sb with regexps := mapSet sb.regexps y r })
      (sr := { sr with regexps := mapSet sr.regexps y r }) hd
      ⟨h.le, h.top, h.pos, by simp only [h.reg], h.clean, h.width, h.cur, h.info⟩ hr
  | get k ih => exact ih _ (hd _) h hr
  | fail p => rfl
  | div => rfl

/-- Each outcome with a state or a position reaches some position, not below the start. -/
theorem reach_sim {α : Type} (name : String) {b : Bytes} (hb : CleanText b) (x : Prog α) {f : Bool} {hw : Nat}
    {sb : BSt} {sr : PSt} (hg : Good x) (h : Rel b f hw sb sr) :
    (∃ a sb' f' hw' sr', x.runB name b sb = .ok (a, sb') ∧ Rel b f' hw' sb' sr' ∧ sr.pos ≤ sr'.pos) ∨
    (∃ m, sr.pos ≤ m ∧ m ≤ (runes b).length ∧ x.runB name b sb = .err (some (name, posOf ((runes b).take m)))) ∨
    x.runB name b sb = .err none ∨ x.runB name b sb = .div := by
  have h0 : Rel b false hw sb sr := by
    refine ⟨h.le, h.top, h.pos, h.reg, h.clean, ?_, h.cur, h.info⟩
    rcases h.width with h1 | h1 | ⟨h1, h2⟩
    · exact .inl h1
    · exact .inr (.inl h1)
    · exact .inr (.inr ⟨rfl, h2⟩)
  have hs := sim name b x hg.d h0
  have hl := fun m => reach_low name hb x hg.d h0 (m := m)
  generalize x.runB name b sb = o at hs hl
  generalize x.run (runes b) sr = o' at hs
  cases hs with
  | ok _ hrel => exact .inl ⟨_, _, _, _, _, rfl, hrel, hl _ (.ok hrel rfl)⟩
  | silent => exact .inr (.inr (.inl rfl))
  | err hk => exact .inr (.inl ⟨_, hl _ (.err hk), hk, rfl⟩)
  | div => exact .inr (.inr (.inr rfl))

end Prog

section
variable {w : LoadWorld} {inc : String → LoadSt → BOut (Option Loaded × LoadSt)}

/-- The directives at the start of a text end at a position, fail with an included file or without a position, or
fail at a position; the text after the position does not matter. -/
def DirLocal (w : LoadWorld) (inc : String → LoadSt → BOut (Option Loaded × LoadSt)) (b : Bytes) (name dir : String)
    (fuel0 fuel : Nat) (gs : List Grammar) (st : LoadSt) (sb : BSt) (sr : PSt) : Prop :=
    (∃ a sb' f' hw' sr', bdirectives w inc b name dir fuel0 fuel gs st sb = .ok (a, sb') ∧ Prog.Rel b f' hw' sb' sr' ∧
      sr.pos ≤ sr'.pos ∧ ∀ b', CleanText b' → Common b b' (sr'.pos + 1) →
        bdirectives w inc b' name dir fuel0 fuel gs st sb = .ok (a, sb')) ∨
    (∃ m, sr.pos ≤ m ∧ m ≤ (runes b).length ∧
      bdirectives w inc b name dir fuel0 fuel gs st sb = .err (some (name, posOf ((runes b).take m))) ∧
      ∀ b', CleanText b' → Common b b' (m + 1) →
        bdirectives w inc b' name dir fuel0 fuel gs st sb = .err (some (name, posOf ((runes b).take m)))) ∨
    (∃ e, bdirectives w inc b name dir fuel0 fuel gs st sb = .err e ∧ (e = none ∨ ∃ p st', inc p st' = .err e)) ∨
    bdirectives w inc b name dir fuel0 fuel gs st sb = .panic ∨ bdirectives w inc b name dir fuel0 fuel gs st sb = .div

theorem bdirectives_local {b : Bytes} (hb : CleanText b) (name dir : String) (fuel0 fuel : Nat) (gs : List Grammar)
    (st : LoadSt) {f : Bool} {hw : Nat} {sb : BSt} {sr : PSt} (h : Prog.Rel b f hw sb sr) :
    DirLocal w inc b name dir fuel0 fuel gs st sb sr := by
  induction fuel generalizing gs st f hw sb sr with
  | zero => exact .inr (.inr (.inr (.inr rfl)))
  | succ fuel ih =>
    have hg := Prog.good_directive w.lex fuel0
    rcases Prog.reach_sim name hb (Prog.directive w.lex fuel0) hg h with
      ⟨a, sb', f', hw', sr', h1, hrel, hle⟩ | ⟨m, hle, hm, h1⟩ | h1 | h1
    · have hloc : ∀ b', CleanText b' → Common b b' (sr'.pos + 1) → (Prog.directive w.lex fuel0).runB name b' sb = .ok (a, sb') :=
        fun b' hb' hc => (Prog.runB_local name hb hb' _ hg.d h (by rw [h1]; exact .ok hrel rfl) hc).trans h1
      cases a with
      | none =>
        refine .inl ⟨(gs, st), sb', f', hw', sr', ?_, hrel, hle, fun b' hb' hc => ?_⟩
        · rw [bdirectives, h1]
        · rw [bdirectives, hloc b' hb' hc]
      | some ifile =>
        have e0 : ∀ b', (Prog.directive w.lex fuel0).runB name b' sb = .ok (some ifile, sb') →
            bdirectives w inc b' name dir fuel0 (fuel + 1) gs st sb =
            match inc (w.join dir ifile) (st.incr (w.join dir ifile)) with
            | .err e => .err e
            | .panic => .panic
            | .div => .div
            | .ok (none, st) => bdirectives w inc b' name dir fuel0 fuel gs st sb'
            | .ok (some ig, st) =>
              bdirectives w inc b' name dir fuel0 fuel (gs ++ [ig.gram.main] ++ ig.gram.includes) st
                { sb' with regexps := ig.gram.main.regexps.foldl (fun m e => mapSet m e.1 e.2) sb'.regexps } := by
          intro b' hx
          rw [bdirectives, hx]
          rfl
        have e1 := e0 b h1
        cases hi : inc (w.join dir ifile) (st.incr (w.join dir ifile)) with
        | err e =>
          rw [hi] at e1
          exact .inr (.inr (.inl ⟨e, e1, .inr ⟨_, _, hi⟩⟩))
        | panic => rw [hi] at e1; exact .inr (.inr (.inr (.inl e1)))
        | div => rw [hi] at e1; exact .inr (.inr (.inr (.inr e1)))
        | ok r =>
          obtain ⟨r, st'⟩ := r
          have main : ∀ (gs' : List Grammar) (sb2 : BSt) (sr2 : PSt), Prog.Rel b f' hw' sb2 sr2 → sr2.pos = sr'.pos →
              (∀ b', (Prog.directive w.lex fuel0).runB name b' sb = .ok (some ifile, sb') →
                bdirectives w inc b' name dir fuel0 (fuel + 1) gs st sb = bdirectives w inc b' name dir fuel0 fuel gs' st' sb2) →
              DirLocal w inc b name dir fuel0 (fuel + 1) gs st sb sr := by
            intro gs' sb2 sr2 hrel2 hpos he
            have hb0 := he b h1
            rcases ih gs' st' hrel2 with ⟨a, sb3, f3, hw3, sr3, g1, g2, g3, g4⟩ | ⟨m, g1, g2, g3, g4⟩ | ⟨e, g1, g2⟩ | g1 | g1
            · refine .inl ⟨a, sb3, f3, hw3, sr3, hb0.trans g1, g2, by omega, fun b' hb' hc => ?_⟩
              rw [he b' (hloc b' hb' (hc.mono (by omega)))]
              exact g4 b' hb' hc
            · refine .inr (.inl ⟨m, by omega, g2, hb0.trans g3, fun b' hb' hc => ?_⟩)
              rw [he b' (hloc b' hb' (hc.mono (by omega)))]
              exact g4 b' hb' hc
            · exact .inr (.inr (.inl ⟨e, hb0.trans g1, g2⟩))
            · exact .inr (.inr (.inr (.inl (hb0.trans g1))))
            · exact .inr (.inr (.inr (.inr (hb0.trans g1))))
          cases r with
          | none => exact main gs sb' sr' hrel rfl fun b' hx => by rw [e0 b' hx, hi]
          | some ig =>
            refine main (gs ++ [ig.gram.main] ++ ig.gram.includes)
              { sb' with regexps := ig.gram.main.regexps.foldl (fun m e => mapSet m e.1 e.2) sb'.regexps }
              { sr' with regexps := ig.gram.main.regexps.foldl (fun m e => mapSet m e.1 e.2) sr'.regexps }
              ⟨hrel.le, hrel.top, hrel.pos, ?_, hrel.clean, hrel.width, hrel.cur, hrel.info⟩ rfl fun b' hx => by rw [e0 b' hx, hi]
            simp only [hrel.reg]
    · refine .inr (.inl ⟨m, hle, hm, by rw [bdirectives, h1], fun b' hb' hc => ?_⟩)
      rw [bdirectives, Prog.runB_local name hb hb' _ hg.d h (by rw [h1]; exact .err hm) hc, h1]
    · exact .inr (.inr (.inl ⟨none, by rw [bdirectives, h1], .inl rfl⟩))
    · exact .inr (.inr (.inr (.inr (by rw [bdirectives, h1]))))

theorem bfromString_local {b : Bytes} (hb : CleanText b) {name dir : String} {fuel : Nat} {st : LoadSt}
    {e : Option (String × Option Position)} (h : bfromString w inc fuel b name dir st = .err e) :
    (e = none ∨ ∃ p st', inc p st' = .err e) ∨
    ∃ m, m ≤ (runes b).length ∧ e = some (name, posOf ((runes b).take m)) ∧
      ∀ b', CleanText b' → Common b b' (m + 1) → bfromString w inc fuel b' name dir st = .err e := by
  unfold bfromString at h ⊢
  split at h
  · cases h
  rename_i hcnt
  simp only [if_neg hcnt]
  have lift_none : ∀ {α β : Type} (y : Out α) (g : α → BOut β), (BOut.lift y >>= g) = .err e →
      e = none ∨ ∃ a, y = .ok a ∧ g a = .err e := by
    intro α β y g hy
    cases y with
    | ok a => exact .inr ⟨a, rfl, hy⟩
    | err => cases hy; exact .inl rfl
    | panic => cases hy
    | div => cases hy
  rcases bdirectives_local (w := w) (inc := inc) hb name dir fuel fuel [] st (Prog.Rel.init b) with
    ⟨a, sb, f, hw, sr, g1, hrel, g3, g4⟩ | ⟨m, g1, g2, g3, g4⟩ | ⟨e', g1, g2⟩ | g1 | g1
  · have hg := Prog.good_grammarRules w.lex fuel name
    have hx : bgrammarText w inc fuel b name dir st = .err e := by
      cases ht : bgrammarText w inc fuel b name dir st with
      | ok r => rw [ht] at h; cases h
      | err e' => rw [ht] at h; cases h; rfl
      | panic => rw [ht] at h; cases h
      | div => rw [ht] at h; cases h
    unfold bgrammarText at hx
    rw [g1] at hx
    rcases Prog.reach_sim name hb (Prog.grammarRules w.lex fuel name) hg hrel with
      ⟨a', sb', f', hw', sr', h1, hrel', hle⟩ | ⟨m, hle, hm, h1⟩ | h1 | h1
    · change (Prog.runB name b (Prog.grammarRules w.lex fuel name) sb >>= _) = _ at hx
      rw [h1] at hx
      change (BOut.lift _ >>= _) = _ at hx
      rcases lift_none _ _ hx with he | ⟨gi, _, hx⟩
      · exact .inl (.inl he)
      · rcases lift_none _ _ hx with he | ⟨r, _, hx⟩
        · exact .inl (.inl he)
        · cases hx
    · change (Prog.runB name b (Prog.grammarRules w.lex fuel name) sb >>= _) = _ at hx
      rw [h1] at hx
      cases hx
      refine .inr ⟨m, hm, rfl, fun b' hb' hc => ?_⟩
      have e1 := g4 b' hb' (hc.mono (by omega))
      have e2 := (Prog.runB_local name hb hb' _ hg.d hrel (by rw [h1]; exact .err hm) hc).trans h1
      unfold bgrammarText
      rw [e1]
      show (BOut.bind (BOut.bind (Prog.runB name b' (Prog.grammarRules w.lex fuel name) sb) _) _) = _
      rw [e2]
      rfl
    · change (Prog.runB name b (Prog.grammarRules w.lex fuel name) sb >>= _) = _ at hx
      rw [h1] at hx
      cases hx
      exact .inl (.inl rfl)
    · change (Prog.runB name b (Prog.grammarRules w.lex fuel name) sb >>= _) = _ at hx
      rw [h1] at hx
      cases hx
  · unfold bgrammarText at h
    rw [g3] at h
    cases h
    refine .inr ⟨m, g2, rfl, fun b' hb' hc => ?_⟩
    unfold bgrammarText
    rw [g4 b' hb' hc]
    rfl
  · unfold bgrammarText at h
    rw [g1] at h
    cases h
    exact .inl g2
  · unfold bgrammarText at h
    rw [g1] at h
    cases h
  · unfold bgrammarText at h
    rw [g1] at h
    cases h

end

end Fmr
