import Verif.Proofs.Complete
import Verif.Proofs.Reach
import Verif.Proofs.Check
import Verif.Spec.NullSafe

/-!
# Completeness of the chart in the presence of empty derivations
-/

namespace Fmr

/-! ## predicted states -/

/-- a state that has consumed nothing is a predicted one -/
theorem Item.fresh {env : Env} {i : Nat} {s : TState} (h : Item env i s)
    (hk : s.term.type = .nonterminal) (hd : s.dot = 0) : s.term.meta = .nil ∧ s.start = i := by
  cases h with
  | init hS => simp [gammaState]
  | predNT hst hty hn htt hg hr hrb => simp [predicted]
  | predAL hst hty hn htt => simp [predictedSpecial] at hk; simp [hk] at htt
  | scanAny hst hty hn hlt => simp [scannedAny] at hk
  | scanT hst hty hn htt htok hm =>
    rw [placed_dot (by simpa [scannedTerm] using hty)] at hd
    simp [scannedTerm] at hd
  | comp hst hs hc hkk hn hm =>
    rw [placed_dot (by simp at hk; simp [hk])] at hd
    simp [advanced] at hd

theorem completes_congr {t : Term} {s s' : TState} (h1 : s.term.type = s'.term.type)
    (h2 : s.term.value = s'.term.value) : completes t s = completes t s' := by
  unfold completes; rw [h1, h2]

/-- the alternatives of a rule are predicted together -/
def Together (env : Env) (i : Nat) (cur : List TState) : Prop :=
  ∀ s ∈ cur, s.start = i → s.term.type = .nonterminal → s.term.value ≠ gammaRule →
    ∀ rb, env.Defines s.term.value rb → (predicted s.term.value rb i).placed i ∈ cur

theorem processRow_together {env : Env} (hwf : env.WF) (ho : env.OrdOK) {done row st cur next}
    (h : Inv env done cur next) (hst : st ∈ cur) (hw : Together env done.length cur) :
    Together env done.length (processRow env done env.tokens[done.length]? row st cur next).1 := by
  have hpre := (processRow_prefix env done env.tokens[done.length]? row st cur next).1
  have hcl := (processRow_closed (row := row) hwf ho h hst).1
  intro s hs hstart hk hng rb hd
  rcases processRow_mem1 ho hs with hs | ⟨hc, st0, h0, t, hn, hm, rfl⟩ | ⟨ha, t, hn, hx⟩
  · exact hpre.subset (hw s hs hstart hk hng rb hd)
  · simp only [advanced, placed_start, placed_term] at hstart hk hng hd ⊢
    have h0i := h.snap st0 h0
    have h1 := (h0i.basic hwf).start
    have h2 := ((h.cur st hst).basic hwf).start
    have heq : st.start = done.length := by omega
    have h0c : st0 ∈ cur := by unfold snapOf at h0; rwa [if_pos heq] at h0
    exact hpre.subset (hw st0 h0c hstart hk hng rb hd)
  · rcases hx with ⟨htt, g, hg, r, hr, rb', hrb, rfl⟩ | ⟨htt, rfl⟩
    · simp only [predicted, placed_term] at hd ⊢
      have hname := hwf.named g hg _ _ hr
      rw [hname] at hd ⊢
      obtain ⟨g', hg', r', hr', hrb'⟩ := hd
      have hname' := hwf.named g' hg' _ _ hr'
      refine hcl _ (Or.inr ⟨ha, t, hn, Or.inl ⟨htt, g', hg', r', hr', rb, hrb', ?_⟩⟩)
      rw [hname']; rfl
    · simp [predictedSpecial] at hk
      simp [hk] at htt

/-! ## the order of the states of a column -/

/-- the last step into the state was over the term `u` -/
def TState.Passed (s : TState) (u : Term) : Prop :=
  0 < s.dot ∧ ((s.term.type = .nonterminal ∧ s.bodyTerms[s.dot - 1]? = some u) ∨
    (s.term.type = .list ∧ u = { value := s.term.value, type := .nonterminal, «meta» := .nil }))

/-- the state `x` in row `k` comes from the state `p` -/
def Step (env : Env) (i : Nat) (cur : List TState) (k : Nat) (p x : TState) : Prop :=
  (p.isCompleted = true ∧ ∃ st0, Item env p.start st0 ∧
    (p.start = i → ∃ k0 < k, cur[k0]? = some st0) ∧ CompAdd i p st0 x) ∨
  (p.term.type ≠ .any ∧ x.dot = 0 ∧ ∃ t, p.getNextTerm = some t ∧ completes t x = true)

/-- The history of a column: the first `b` states were begun before the column (or are start states),
and each later state `k` was added while state `o k` was processed; the states are processed in their
order. -/
structure Born (env : Env) (i b : Nat) (o : Nat → Nat) (row : Nat) (cur : List TState) : Prop where
  init : ∀ k x, cur[k]? = some x → k < b → (x.start < i ∨ x.term.value = gammaRule) ∧
    ∀ u, x.Passed u → u.type = .terminal ∧ 0 < i
  born : ∀ k x, cur[k]? = some x → b ≤ k → o k < row ∧ o k < k ∧
    ∃ p, cur[o k]? = some p ∧ Step env i cur k p x
  mono : ∀ k k', b ≤ k → k ≤ k' → k' < cur.length → o k ≤ o k'

theorem Born.row {env : Env} (hwf : env.WF) (ho : env.OrdOK) {b o} {done row st cur next}
    (h : Inv env done cur next) (hst : cur[row]? = some st) (hw : Born env done.length b o row cur) :
    Born env done.length (min b cur.length) (fun k => if k < cur.length then o k else row) (row + 1)
      (processRow env done env.tokens[done.length]? row st cur next).1 := by
  have hmem := List.mem_of_getElem? hst
  have hrow := (List.getElem?_eq_some_iff.1 hst).1
  obtain ⟨l, hl, _, hnew⟩ := (processRow_grow hwf ho (row := row) h hmem).1
  have lift : ∀ {k : Nat} {x : TState}, cur[k]? = some x →
      (processRow env done env.tokens[done.length]? row st cur next).1[k]? = some x := by
    intro k x hk
    rw [hl, List.getElem?_append_left (List.getElem?_eq_some_iff.1 hk).1]; exact hk
  have low : ∀ {k : Nat} {x : TState}, k < cur.length →
      (processRow env done env.tokens[done.length]? row st cur next).1[k]? = some x →
      cur[k]? = some x := by
    intro k x hk hx
    rwa [hl, List.getElem?_append_left hk] at hx
  refine ⟨?_, ?_, ?_⟩
  · intro k x hx hk
    exact hw.init k x (low (by omega) hx) (by omega)
  · intro k x hx hk
    rcases Nat.lt_or_ge k cur.length with hlt | hge
    · obtain ⟨h1, h2, p, hp, hs⟩ := hw.born k x (low hlt hx) (by omega)
      rw [if_pos hlt]
      refine ⟨by omega, h2, p, lift hp, ?_⟩
      rcases hs with ⟨hc, st0, h0, hk0, hadd⟩ | hs
      · exact Or.inl ⟨hc, st0, h0, fun hpi => by
          obtain ⟨k0, hlt0, hk0⟩ := hk0 hpi
          exact ⟨k0, hlt0, lift hk0⟩, hadd⟩
      · exact Or.inr hs
    · rw [if_neg (by omega)]
      refine ⟨by omega, by omega, st, lift hst, ?_⟩
      have hx' := hx
      rw [hl, List.getElem?_append_right hge] at hx'
      have hsl := List.mem_of_getElem? hx'
      rcases processRow_mem1 (row := row) ho (x := x) (by rw [hl]; simp [hsl]) with
        hs | ⟨hc, st0, h0, hadd⟩ | ⟨ha, t, hn, hx⟩
      · exact absurd hs (hnew x hsl)
      · refine Or.inl ⟨hc, st0, h.snap st0 h0, fun hpi => ?_, hadd⟩
        have h0c : st0 ∈ cur := by unfold snapOf at h0; rwa [if_pos hpi] at h0
        obtain ⟨k0, hk0⟩ := List.getElem?_of_mem h0c
        have := (List.getElem?_eq_some_iff.1 hk0).1
        exact ⟨k0, by omega, lift hk0⟩
      · refine Or.inr ⟨ha, ?_, t, hn, ?_⟩
        · rcases hx with ⟨htt, g, hg, r, hr, rb, hrb, rfl⟩ | ⟨htt, rfl⟩
          · rw [placed_dot (by simp [predicted])]; rfl
          · by_cases hta : t.type = .any
            · rw [placed_dot_any (by simpa [predictedSpecial] using hta)]
              simp [predictedSpecial]
            · rw [placed_dot (by simpa [predictedSpecial] using hta)]; rfl
        · rcases hx with ⟨htt, g, hg, r, hr, rb, hrb, rfl⟩ | ⟨htt, rfl⟩
          · have := hwf.named g hg _ _ hr
            simp [completes, predicted, htt, this]
          · simp [completes, predictedSpecial]
  · intro k k' hk hkk hlt'
    split
    · rename_i hlt
      split
      · rename_i hlt2
        exact hw.mono k k' (by omega) hkk hlt2
      · have := (hw.born k cur[k] (List.getElem?_eq_getElem hlt) (by omega)).1
        omega
    · rename_i hge
      rw [if_neg (by omega)]
      exact Nat.le_refl _

/-- the state in row `k` was reached over a term ending with a literal `c` levels down -/
def Lv (env : Env) (cur : List TState) (c k : Nat) : Prop :=
  ∃ x u, cur[k]? = some x ∧ x.Passed u ∧ EndsAt env c u

/-- a finished state has passed the last term -/
theorem EndsAt.finished {env : Env} (hwf : env.WF) {i c : Nat} {p : TState} {u : Term}
    (hp : Item env i p) (hc : p.isCompleted = true) (hm : completes u p = true)
    (hg : u.type = .nonterminal → u.value ≠ gammaRule) (hu : EndsAt env (c + 1) u) :
    ∃ v, p.Passed v ∧ EndsAt env c v := by
  have hb := hp.basic hwf
  rcases hu with ⟨hty, hall⟩ | ⟨hty, hnn, hitem⟩
  · have hpt : p.term.type = .nonterminal ∧ p.term.value = u.value := by
      rcases completes_cases hm with ⟨h, _⟩ | ⟨h, h'⟩
      · rw [hty] at h; simp at h
      · exact ⟨h.symm.trans hty, h'.symm⟩
    obtain ⟨rb, hrb, hle, hdef⟩ := hb.nt hpt.1
    rcases hdef with hdef | ⟨_, _, hv, _⟩
    · obtain ⟨v, hv, hve⟩ := hall rb (by rw [← hpt.2]; exact hdef)
      have hlen := (completed_nt (by simp [hpt.1]) (by simp [hpt.1])).1 hc
      simp [TState.bodyTerms, hrb] at hlen
      have hd : p.dot = rb.terms.length := by omega
      rw [List.getLast?_eq_getElem?] at hv
      have hpos := (List.getElem?_eq_some_iff.1 hv).1
      refine ⟨v, ⟨by omega, Or.inl ⟨hpt.1, ?_⟩⟩, hve⟩
      simpa [TState.bodyTerms, hrb, hd] using hv
    · exact absurd (hpt.2.symm.trans hv) (hg hty)
  · have hpt : p.term.type = .list ∧ p.term.value = u.value := by
      rcases completes_cases hm with ⟨h, _⟩ | ⟨h, h'⟩
      · rw [hty] at h; simp at h
      · exact ⟨h.symm.trans hty, h'.symm⟩
    have hpos : 0 < p.dot := by
      rcases Nat.eq_zero_or_pos p.dot with h0 | h0
      · exfalso
        obtain ⟨_, t', hocc, ht', hv', hm'⟩ := hb.list hpt.1
        have hcnt := (completed_any_list (Or.inr hpt.1)).1 hc
        rw [h0, ← hm'] at hcnt
        exact hnn (Yields.list (n := 0) (u := []) (w := []) hty
          ⟨t', hocc, ht', hv'.trans hpt.2, hcnt⟩ Yields.nil Yields.nil)
      · exact h0
    exact ⟨_, ⟨hpos, Or.inr ⟨hpt.1, rfl⟩⟩, by rw [hpt.2]; exact hitem⟩

/-- the term passed by a new state is no literal, and was finished by the state processed -/
theorem Step.passed {env : Env} (hwf : env.WF) {i : Nat} {cur : List TState} {k : Nat} {p x : TState}
    {u : Term} (hp : Item env i p) (hs : Step env i cur k p x) (hu : x.Passed u) :
    p.isCompleted = true ∧ completes u p = true ∧ u.type ≠ .terminal ∧
      (u.type = .nonterminal → u.value ≠ gammaRule) := by
  obtain ⟨hd, hu⟩ := hu
  rcases hs with ⟨hc, st0, h0, _, t, hn, hm, rfl⟩ | ⟨_, hd0, _⟩
  · have h0b := h0.basic hwf
    have key : t.type = u.type → t.value = u.value → completes u p = true ∧ u.type ≠ .terminal ∧
      (u.type = .nonterminal → u.value ≠ gammaRule) := by
      intro h1 h2
      refine ⟨?_, ?_, ?_⟩
      · unfold completes at hm ⊢; rw [← h1, ← h2]; exact hm
      · intro h3
        rw [h3] at h1
        rcases completes_cases hm with ⟨h, _⟩ | ⟨h, _⟩
        · rw [h1] at h; simp at h
        · rw [h1] at h
          rcases (hp.basic hwf).kind with h' | h' | h' <;> simp [h'] at h
      · intro h3
        rw [← h2]
        exact h0b.next_ne_gamma hwf hn (h1.trans h3)
    refine ⟨hc, ?_⟩
    rcases hu with ⟨hk, hu⟩ | ⟨hk, rfl⟩
    · have hxk : st0.term.type = .nonterminal := by simpa [advanced] using hk
      rw [placed_dot (by simp [advanced, hxk])] at hu
      have hget := next_nt (by simp [hxk]) (by simp [hxk]) hn
      simp [TState.bodyTerms, advanced] at hu hget
      rw [hu] at hget; cases hget
      exact key rfl rfl
    · have hxk : st0.term.type = .list := by simpa [advanced] using hk
      obtain ⟨rfl, _⟩ := next_list hxk hn
      exact key rfl (by simp [advanced])
  · omega

/-- a state reached over a term ending one level up was added while one that ends at the level was
processed -/
theorem Born.down {env : Env} (hwf : env.WF) {i b o row cur} (hi : ∀ s ∈ cur, Item env i s)
    (hw : Born env i b o row cur) {c k : Nat} (h : Lv env cur (c + 1) k) :
    b ≤ k ∧ Lv env cur c (o k) := by
  obtain ⟨x, u, hx, hp, hu⟩ := h
  have hge : b ≤ k := by
    rcases Nat.lt_or_ge k b with hlt | hge
    · have := ((hw.init k x hx hlt).2 u hp).1
      rcases hu with ⟨hty, _⟩ | ⟨hty, _⟩ <;> rw [hty] at this <;> simp at this
    · exact hge
  obtain ⟨_, _, p, hpo, hs⟩ := hw.born k x hx hge
  have hpi := hi p (List.mem_of_getElem? hpo)
  obtain ⟨h1, h2, _, h4⟩ := hs.passed hwf hpi hp
  obtain ⟨v, hv, hve⟩ := hu.finished hwf hpi h1 h2 h4
  exact ⟨hge, p, v, hpo, hv, hve⟩

/-- a state reached over a literal is one of the first states, and the column is not the first -/
theorem Born.zero {env : Env} (hwf : env.WF) {i b o row cur} (hi : ∀ s ∈ cur, Item env i s)
    (hw : Born env i b o row cur) {k : Nat} (h : Lv env cur 0 k) : k < b ∧ 0 < i := by
  obtain ⟨x, u, hx, hp, hu⟩ := h
  rcases Nat.lt_or_ge k b with hlt | hge
  · exact ⟨hlt, ((hw.init k x hx hlt).2 u hp).2⟩
  · exfalso
    obtain ⟨_, _, p, hpo, hs⟩ := hw.born k x hx hge
    exact (hs.passed hwf (hi p (List.mem_of_getElem? hpo)) hp).2.2.1 hu

theorem Born.pos {env : Env} (hwf : env.WF) {i b o row cur} (hi : ∀ s ∈ cur, Item env i s)
    (hw : Born env i b o row cur) {c k : Nat} (h : Lv env cur c k) : 0 < i := by
  induction c generalizing k with
  | zero => exact (hw.zero hwf hi h).2
  | succ c ih => exact ih (hw.down hwf hi h).2

theorem Lv.lt {env : Env} {cur c k} (h : Lv env cur c k) : k < cur.length := by
  obtain ⟨x, u, hx, _⟩ := h
  exact (List.getElem?_eq_some_iff.1 hx).1

/-- the states of a column are ordered by their levels -/
theorem Born.sorted {env : Env} (hwf : env.WF) {i b o row cur} (hi : ∀ s ∈ cur, Item env i s)
    (hw : Born env i b o row cur) {a c k k' : Nat} (h : Lv env cur c k) (h' : Lv env cur a k')
    (hk : k ≤ k') : c ≤ a := by
  induction a generalizing c k k' with
  | zero =>
    rcases c with _ | c
    · exact Nat.le_refl _
    · have h1 := (hw.zero hwf hi h').1
      have h2 := (hw.down hwf hi h).1
      omega
  | succ a ih =>
    rcases c with _ | c
    · omega
    · obtain ⟨h1, h2⟩ := hw.down hwf hi h
      obtain ⟨_, h4⟩ := hw.down hwf hi h'
      have := ih h2 h4 (hw.mono k k' h1 hk h'.lt)
      omega

/-- a state begun in the column has a waiting state that was processed no later than the one it came
from -/
theorem Born.waited {env : Env} (hwf : env.WF) {i b o row cur} (hi : ∀ s ∈ cur, Item env i s)
    (hw : Born env i b o row cur) (k : Nat) :
    ∀ s, cur[k]? = some s → s.start = i → s.term.value ≠ gammaRule →
      b ≤ k ∧ ∃ k' ≤ o k, ∃ w, cur[k']? = some w ∧ w.term.type ≠ .any ∧
        ∃ t, w.getNextTerm = some t ∧ completes t s = true := by
  induction k using Nat.strongRecOn with
  | _ k ih =>
    intro s hs hstart hng
    have hge : b ≤ k := by
      rcases Nat.lt_or_ge k b with hlt | hge
      · rcases (hw.init k s hs hlt).1 with h | h
        · omega
        · exact absurd h hng
      · exact hge
    refine ⟨hge, ?_⟩
    obtain ⟨_, _, p, hpo, hst⟩ := hw.born k s hs hge
    rcases hst with ⟨hc, st0, h0, hk0, t, hn, hm, rfl⟩ | ⟨ha, _, t, hn, hm⟩
    · simp only [advanced, placed_start] at hstart
      have h1 := (h0.basic hwf).start
      have h2 := ((hi p (List.mem_of_getElem? hpo)).basic hwf).start
      obtain ⟨k0, hlt, hk0⟩ := hk0 (by omega)
      obtain ⟨hb0, k', hk', w, hwk, hwa, t', hn', hm'⟩ := ih k0 hlt st0 hk0 hstart
        (by simpa [advanced] using hng)
      refine ⟨k', ?_, w, hwk, hwa, t', hn', ?_⟩
      · exact Nat.le_trans hk' (hw.mono k0 k hb0 (by omega) (List.getElem?_eq_some_iff.1 hs).1)
      · rw [← completes_congr (s := st0) (by simp [advanced]) (by simp [advanced])]; exact hm'
    · exact ⟨o k, Nat.le_refl _, p, hpo, ha, t, hn, hm⟩

/-- what waits for a rule that no production uses is a start state, one of the first states of the
first column -/
theorem Born.top {env : Env} (hwf : env.WF) {i b o row cur} (hi : ∀ s ∈ cur, Item env i s)
    (hw : Born env i b o row cur) {k : Nat} {w : TState} {t : Term} {A : String} (hA : TopRule env A)
    (hk : cur[k]? = some w) (hn : w.getNextTerm = some t) (ht : t.type = .nonterminal)
    (hv : t.value = A) : k < b ∧ i = 0 := by
  have hwi := hi w (List.mem_of_getElem? hk)
  have hb := hwi.basic hwf
  rcases hb.kind with hkd | hkd | hkd
  · obtain ⟨rb, hrb, hle, hdef⟩ := hb.nt hkd
    have hget := next_nt (by simp [hkd]) (by simp [hkd]) hn
    rcases hdef with hdef | ⟨S, hS, hg, _, hgs⟩
    · simp [TState.bodyTerms, hrb] at hget
      exact absurd hv (hA t ⟨_, rb, hdef, List.mem_of_getElem? hget⟩ (Or.inl ht))
    · have hd : w.dot = 0 := by
        have hlt := (List.getElem?_eq_some_iff.1 hget).1
        simp [TState.bodyTerms, hgs, gammaState] at hlt
        exact hlt
      have hs0 := (hwi.fresh hkd hd).2
      rcases Nat.lt_or_ge k b with hlt | hge
      · exact ⟨hlt, by omega⟩
      · exfalso
        obtain ⟨_, _, p, hpo, hst⟩ := hw.born k w hk hge
        have hpi := hi p (List.mem_of_getElem? hpo)
        rcases hst with ⟨hc, st0, h0, _, t', hn', hm', rfl⟩ | ⟨ha, _, t', hn', hm'⟩
        · have hxk : st0.term.type = .nonterminal := by simpa [advanced] using hkd
          rw [placed_dot (by simp [advanced, hxk])] at hd
          simp [advanced] at hd
        · have htt : t'.type = .nonterminal ∧ t'.value = gammaRule := by
            rcases completes_cases hm' with ⟨_, h⟩ | ⟨h, h'⟩
            · rw [hkd] at h; simp at h
            · exact ⟨h.trans hkd, h'.trans hg⟩
          exact (hpi.basic hwf).next_ne_gamma hwf hn' htt.1 htt.2
  · rw [next_any hkd hn, hkd] at ht; simp at ht
  · obtain ⟨rfl, _⟩ := next_list hkd hn
    obtain ⟨_, t', hocc, ht', hv', _⟩ := hb.list hkd
    exact absurd (hv'.trans hv) (hA t' hocc (Or.inr ht'))

/-- in a safe grammar no state is added that waits for a state finished on the empty span for which a
state of the column waits already -/
theorem NullSafe.waiter {env : Env} (hwf : env.WF) (ho : env.OrdOK) (hns : NullSafe env)
    {done row st0 cur next} (hinv : Inv env done cur next) (hst0 : st0 ∈ cur)
    (htg : Together env done.length cur) {b : Nat} {o : Nat → Nat}
    (hbo : Born env done.length b o row cur) (hrow : cur[row]? = some st0)
    {s st w : TState} {t t' : Term} {k k' : Nat} (hsk : cur[k]? = some s) (hkr : k ≤ row)
    (hc : s.isCompleted = true) (hstart : s.start = done.length) (hbk : b ≤ k)
    (hst : st ∈ (processRow env done env.tokens[done.length]? row st0 cur next).1)
    (hwk : cur[k']? = some w) (hko : k' ≤ o k)
    (hta : st.term.type ≠ .any) (hwa : w.term.type ≠ .any)
    (hn : st.getNextTerm = some t) (hn' : w.getNextTerm = some t')
    (hm : completes t s = true) (hm' : completes t' s = true) : st ∈ cur := by
  have hs := List.mem_of_getElem? hsk
  have hw := List.mem_of_getElem? hwk
  have hinv' := processRow_inv (row := row) ho hinv hst0
  have hbs := (hinv.cur s hs).basic hwf
  have hss := (hinv.cur s hs).sound hwf
  have hb := (hinv'.cur st hst).basic hwf
  have hbw := (hinv.cur w hw).basic hwf
  have hnull : ∀ m, env.Nullable { t with «meta» := m } := by
    have := (completed_yields hwf hb hbs hss hc hstart hn hm).2
    rw [slice_self] at this
    exact this
  have hnull' : ∀ m, env.Nullable { t' with «meta» := m } := by
    have := (completed_yields hwf hbw hbs hss hc hstart hn' hm').2
    rw [slice_self] at this
    exact this
  have hslot : t.SameSlot t' := by
    rcases completes_cases hm with ⟨h1, h2⟩ | ⟨h1, h2⟩ <;>
      rcases completes_cases hm' with ⟨h3, h4⟩ | ⟨h3, h4⟩
    · exact Or.inl ⟨h1, h3⟩
    · exact Or.inl ⟨h1, h3.trans h2⟩
    · exact Or.inl ⟨h1.trans h4, h3⟩
    · exact Or.inr ⟨h1.trans h3.symm, h2.trans h4.symm⟩
  -- neither waiting state is a list
  have nolist : ∀ {x : TState} {u : Term}, Item.Basic env done.length x → x.getNextTerm = some u →
      (∀ m, env.Nullable { u with «meta» := m }) → x.term.type ≠ .list := by
    intro x u hx hxn hu hl
    obtain ⟨rfl, _⟩ := next_list hl hxn
    obtain ⟨_, t1, hocc, ht1, hv, _⟩ := hx.list hl
    refine hns.items t1 hocc ht1 ?_
    have := hu .nil
    rw [hv]; exact this
  have hk : st.term.type = .nonterminal := by
    rcases hb.kind with h | h | h
    · exact h
    · exact absurd h hta
    · exact absurd h (nolist hb hn hnull)
  have hkw : w.term.type = .nonterminal := by
    rcases hbw.kind with h | h | h
    · exact h
    · exact absurd h hwa
    · exact absurd h (nolist hbw hn' hnull')
  obtain ⟨rb, hrb, hle, hdef⟩ := hb.nt hk
  obtain ⟨rb', hrb', hle', hdef'⟩ := hbw.nt hkw
  have hget : rb.terms[st.dot]? = some t := by
    have := next_nt (by simp [hk]) (by simp [hk]) hn
    simpa [TState.bodyTerms, hrb] using this
  have hget' : rb'.terms[w.dot]? = some t' := by
    have := next_nt (by simp [hkw]) (by simp [hkw]) hn'
    simpa [TState.bodyTerms, hrb'] using this
  -- a waiting start state
  have gam : ∀ {x : TState} {u : Term} {rx : RuleBody} {S : String}, x.rb = some rx →
      rx.terms[x.dot]? = some u → x.rb = (gammaState S).rb →
      x.dot = 0 ∧ u = { value := S, type := .nonterminal, «meta» := .nil } := by
    intro x u rx S h1 h2 h3
    rw [h1] at h3
    simp [gammaState] at h3
    subst h3
    have hlt := (List.getElem?_eq_some_iff.1 h2).1
    simp at hlt
    rw [hlt] at h2
    simp at h2
    exact ⟨hlt, h2.symm⟩
  rcases processRow_mem1 ho hst with hst | hadd
  · exact hst
  -- an added state that has passed a term ending with a literal came from one that ends a level down
  have hnew : ∀ {q u d}, st.dot = q + 1 → rb.terms[q]? = some u → EndsAt env d u →
      ∃ c, d = c + 1 ∧ Lv env cur c row := by
    intro q u d hq hu hd
    have hpass : st.Passed u := ⟨by omega, Or.inl ⟨hk, by
      simpa [TState.bodyTerms, hrb, hq] using hu⟩⟩
    have hi0 := hinv.cur st0 hst0
    rcases hadd with ⟨hcc, x, h0, hadd⟩ | ⟨ha, u', hxn, hx⟩
    · have hstep : Step env done.length cur cur.length st0 st :=
        Or.inl ⟨hcc, x, hinv.snap x h0, fun hpi => by
          have h0c : x ∈ cur := by unfold snapOf at h0; rwa [if_pos hpi] at h0
          obtain ⟨k0, hk0⟩ := List.getElem?_of_mem h0c
          exact ⟨k0, (List.getElem?_eq_some_iff.1 hk0).1, hk0⟩, hadd⟩
      obtain ⟨h1, h2, h3, h4⟩ := hstep.passed hwf hi0 hpass
      rcases d with _ | c
      · exact absurd hd h3
      · obtain ⟨v, hv, hve⟩ := hd.finished hwf hi0 h1 h2 h4
        exact ⟨c, rfl, st0, v, hrow, hv, hve⟩
    · exfalso
      rcases hx with ⟨htt, g, hg, r, hr, rb1, hrb1, rfl⟩ | ⟨htt, rfl⟩
      · rw [placed_dot (by simp [predicted])] at hq
        simp [predicted] at hq
      · simp [predictedSpecial] at hk
        simp [hk] at htt
  rcases hdef with hdef | ⟨S, hS, hv, _, hg⟩
  · rcases hns.slots t ⟨_, rb, hdef, List.mem_of_getElem? hget⟩ (hnull t.meta) with
      ⟨d, ha⟩ | ⟨⟨B, hB⟩, hns'⟩
    · exfalso
      have hcur := hinv.cur
      have hko' := (hbo.born k s hsk hbk).2.1
      have hrl := (List.getElem?_eq_some_iff.1 hrow).1
      rcases ha _ rb _ t ⟨hdef, hget⟩ (Or.inr ⟨rfl, rfl⟩) with ⟨q, u, hq, hu, hut⟩ | ⟨htop, hp0⟩
      rotate_left
      · -- the added state begins a rule that only a start state waits for
        rcases hadd with ⟨hcc, x, h0, u, hxn, hxm, rfl⟩ | ⟨ha, u, hxn, hx⟩
        · rw [placed_dot (by simpa using hta)] at hp0
          simp [advanced] at hp0
        · rcases hx with ⟨htt, g, hgg, r, hr, rb1, hrb1, rfl⟩ | ⟨htt, rfl⟩
          · have hname := hwf.named g hgg _ _ hr
            have := (hbo.top hwf hcur htop hrow hxn htt (by simp [predicted, hname])).1
            omega
          · simp [predictedSpecial] at hk
            simp [hk] at htt
      obtain ⟨c, hcd, hlv⟩ : ∃ c, (d = c + 1 ∨ d = c) ∧ Lv env cur c row := by
        rcases hut with hut | hut
        · obtain ⟨c, h1, h2⟩ := hnew hq hu hut
          exact ⟨c, Or.inl h1, h2⟩
        · obtain ⟨c, h1, h2⟩ := hnew hq hu hut
          exact ⟨c, Or.inr (by omega), h2⟩
      rcases hdef' with hdef' | ⟨S', hS', hv', hst', hg'⟩
      · rcases ha _ rb' _ t' ⟨hdef', hget'⟩ hslot with ⟨q', u', hq', hu', hut'⟩ | ⟨htop, hp0⟩
        rotate_left
        · -- the state waiting already is in the first column, where no literal was passed
          have hng := hwf.noGamma.1 _ _ hdef'
          obtain ⟨_, k2, _, w2, hw2, _, t2, hn2, hm2⟩ := hbo.waited hwf hcur k' w hwk
            ((hinv.cur w hw).fresh hkw hp0).2 hng
          have htt : t2.type = .nonterminal ∧ t2.value = w.term.value := by
            rcases completes_cases hm2 with ⟨_, h⟩ | ⟨h, h'⟩
            · rw [hkw] at h; simp at h
            · exact ⟨h.trans hkw, h'⟩
          have := (hbo.top hwf hcur htop hw2 hn2 htt.1 htt.2).2
          have := hbo.pos hwf hcur hlv
          omega
        have hpass : w.Passed u' := ⟨by omega, Or.inl ⟨hkw, by
          simpa [TState.bodyTerms, hrb', hq'] using hu'⟩⟩
        have hlw : Lv env cur d k' ∨ Lv env cur (d + 1) k' := by
          rcases hut' with h | h
          · exact Or.inl ⟨w, u', hwk, hpass, h⟩
          · exact Or.inr ⟨w, u', hwk, hpass, h⟩
        have hlw' : Lv env cur d k' ∧ d = c := by
          rcases hlw with h | h
          · have := hbo.sorted hwf hcur h hlv (by omega)
            exact ⟨h, by omega⟩
          · have := hbo.sorted hwf hcur h hlv (by omega)
            omega
        obtain ⟨hlw, rfl⟩ := hlw'
        rcases d with _ | d
        · have := (hbo.zero hwf hcur hlv).1
          omega
        · obtain ⟨h1, h2⟩ := hbo.down hwf hcur hlv
          have h3 := hbo.mono k row hbk hkr hrl
          have := hbo.sorted hwf hcur hlw h2 (by omega)
          omega
      · obtain ⟨hd0, rfl⟩ := gam hrb' hget' hg'
        have := ((hinv.cur w hw).fresh hkw hd0).2
        have := hbo.pos hwf hcur hlv
        omega
    · obtain ⟨h1, h2⟩ := hB _ rb _ t ⟨hdef, hget⟩ (Or.inr ⟨rfl, rfl⟩)
      rcases hdef' with hdef' | ⟨S', hS', hv', _, hg'⟩
      · obtain ⟨h3, h4⟩ := hB _ rb' _ t' ⟨hdef', hget'⟩ hslot
        obtain ⟨m1, p1⟩ := (hinv'.cur st hst).fresh hk h2
        obtain ⟨m2, p2⟩ := (hinv.cur w hw).fresh hkw h4
        have hval : w.term.value = st.term.value := h3.trans h1.symm
        have := htg w hw p2 hkw (hwf.noGamma.1 _ _ hdef') rb (by rw [hval]; exact hdef)
        rw [hval] at this
        have heq : (predicted st.term.value rb done.length).placed done.length = st := by
          have e1 := hb.stop
          obtain ⟨⟨v, ty, me⟩, r, a, b, d⟩ := st
          simp only at hk hrb h2 m1 p1 e1
          subst hk hrb h2 m1 p1 e1
          simp [TState.placed, predicted]
        rw [heq] at this
        exact this
      · exfalso
        obtain ⟨_, rfl⟩ := gam hrb' hget' hg'
        rcases hslot with ⟨_, h⟩ | ⟨h, h'⟩
        · simp at h
        · exact hns' ⟨h, by rw [h']; exact hS'⟩
  · exfalso
    obtain ⟨hd0, _⟩ := gam hrb hget hg
    rcases hadd with ⟨hc, x, h0, u, hxn, hxm, rfl⟩ | ⟨ha, u, hxn, hx⟩
    · rw [placed_dot (by simpa using hta)] at hd0
      simp [advanced] at hd0
    · rcases hx with ⟨htt, g, hgg, r, hr, rb1, hrb1, rfl⟩ | ⟨htt, rfl⟩
      · have hname := hwf.named g hgg _ _ hr
        simp only [predicted, placed_term, hname] at hv
        exact hwf.noGamma.1 _ rb1 ⟨g, hgg, r, hr, hrb1⟩ hv
      · simp [predictedSpecial] at hk
        simp [hk] at htt

/-- an `(any)` state is not changed by the completion of a state of its column -/
theorem any_advanced {env : Env} {i : Nat} {st : TState} {t : Term} (hb : Item.Basic env i st)
    (hk : st.term.type = .any) (hn : st.getNextTerm = some t) : (advanced st t).placed i = st := by
  have ht := next_any hk hn
  subst ht
  obtain ⟨_, hd, _⟩ := hb.any hk
  have h1 := hb.stop
  obtain ⟨⟨v, ty, me⟩, r, a, b, d⟩ := st
  simp only at hk hd h1
  subst hk h1
  unfold TState.placed advanced
  simp [hd]

/-- the completions of the empty-span states among the first `row` rows are present -/
def EmptyRows (i row : Nat) (cur : List TState) : Prop :=
  ∀ k < row, ∀ s, cur[k]? = some s → s.isCompleted = true → s.start = i →
    ∀ st ∈ cur, ∀ x, CompAdd i s st x → x ∈ cur

/-- a state named like the internal start symbol serves only nonterminals -/
theorem gamma_only {env : Env} (hwf : env.WF) {i : Nat} {s : TState} {t : Term} (h : Item env i s)
    (hv : s.term.value = gammaRule) (ht : t.type ≠ .nonterminal) (hm : completes t s = true) : False := by
  have hb := h.basic hwf
  rcases hb.kind with hk | hk | hk
  · rcases completes_cases hm with ⟨_, h'⟩ | ⟨h', _⟩
    · rw [hk] at h'; simp at h'
    · exact ht (h'.trans hk)
  · obtain ⟨_, _, t', ho, hat, _, h' | h'⟩ := hb.any hk
    · exact hwf.noGamma.2.1 t' ho (by simp [hat]) (h'.symm.trans hv)
    · rw [hv] at h'; exact absurd h' (by decide)
  · obtain ⟨_, t', ho, hlt, h', _⟩ := hb.list hk
    exact hwf.noGamma.2.1 t' ho (by simp [hlt]) (h'.trans hv)

theorem Reach.nullSafe {env : Env} (hwf : env.WF) (ho : env.OrdOK) (hns : NullSafe env)
    {done row cur next} (h : Reach env done row cur next) :
    EmptyClosed done ∧ (∃ b o, Born env done.length b o row cur) ∧ EmptyRows done.length row cur ∧
      (∀ s ∈ next, s.start ≤ done.length ∧ ∀ u, s.Passed u → u.type = .terminal) ∧
      Together env done.length cur := by
  induction h with
  | init =>
    refine ⟨by intro i col h; simp at h, ⟨env.starts.length, id, ?_, ?_, ?_⟩, ?_, by simp, ?_⟩
    · intro k s hs _
      have hs := List.mem_of_getElem? hs
      simp at hs
      obtain ⟨S, _, rfl⟩ := hs
      refine ⟨Or.inr rfl, ?_⟩
      rintro u ⟨hd, _⟩
      simp [gammaState] at hd
    · intro k s hs hk
      have hlt := (List.getElem?_eq_some_iff.1 hs).1
      simp at hlt
      omega
    · intro k k' _ h _; exact h
    · intro k hk; omega
    · intro s hs _ _ hng
      simp at hs
      obtain ⟨S, _, rfl⟩ := hs
      exact absurd rfl hng
  | @row done row cur next st hr hst ih =>
    obtain ⟨h1, ⟨b, o, h2⟩, h3, h4, h5⟩ := ih
    have hinv := (hr.inv ho).1
    have hmem := List.mem_of_getElem? hst
    have hpre := processRow_prefix env done env.tokens[done.length]? row st cur next
    have hinv' := processRow_inv (row := row) ho hinv hmem
    refine ⟨h1, ⟨_, _, h2.row hwf ho hinv hst⟩, ?_, ?_, processRow_together hwf ho hinv hmem h5⟩
    · intro k hk s hs hc hstart st' hst' x hx
      have hlt := (List.getElem?_eq_some_iff.1 hst).1
      have hs' : cur[k]? = some s := by
        obtain ⟨l, hl⟩ := hpre.1
        rw [← hl, List.getElem?_append_left (by omega)] at hs
        exact hs
      have hsm := List.mem_of_getElem? hs'
      obtain ⟨t, hn, hm, rfl⟩ := hx
      have hsti := hinv'.cur st' hst'
      by_cases hta : st'.term.type = .any
      · rw [any_advanced (hsti.basic hwf) hta hn]; exact hst'
      · have hcur : st' ∈ cur := by
          have hng : s.term.value ≠ gammaRule := by
            intro hg
            have htt : t.type ≠ .nonterminal := fun htt =>
              (hsti.basic hwf).next_ne_gamma hwf hn htt (by
                rcases completes_cases hm with ⟨h', _⟩ | ⟨_, h'⟩
                · rw [htt] at h'; simp at h'
                · exact h'.trans hg)
            exact gamma_only hwf (hinv.cur s hsm) hg htt hm
          obtain ⟨hbk, k', hk', w, hwk, hwa, t', hn', hm'⟩ :=
            h2.waited hwf hinv.cur k s hs' hstart hng
          exact hns.waiter hwf ho hinv hmem h5 h2 hst hs' (by omega) hc hstart hbk hst' hwk hk' hta hwa
            hn hn' hm hm'
        rcases Nat.lt_or_ge k row with hlt' | hge
        · exact hpre.1.subset (h3 k hlt' s hs' hc hstart st' hcur _ ⟨t, hn, hm, rfl⟩)
        · have : k = row := by omega
          subst this
          rw [hst] at hs'; cases hs'
          have hsn : snapOf done cur st = cur := by unfold snapOf; rw [if_pos hstart]
          have hin : (advanced st' t).placed done.length ∈ afterComplete done st cur := by
            unfold afterComplete
            rw [if_pos hc, hsn]
            refine complete_closed (hinv.wf hwf).1 ?_ hcur ⟨t, hn, hm, rfl⟩
            intro s1 hs1 y hy
            have := CurAdd.item (hinv.cur _ hmem) hinv.snap
              (Or.inl ⟨hc, s1, by rw [hsn]; exact hs1, hy⟩)
            exact (this.basic hwf).wf
          cases hnn : st.getNextTerm with
          | none => rw [processRow_none hnn]; exact hin
          | some t1 =>
            by_cases ha : st.term.type = .any
            · rw [processRow_any hnn ha]; exact hin
            · by_cases ht : t1.type = .terminal
              · rw [processRow_term hnn ha ht]; exact hin
              · rw [processRow_pred hnn ha ht]; exact (predict_prefix _ _ _ _ _).subset hin
    · intro s hs
      rcases processRow_mem2 hs with hs | ⟨t, tk, hn, htok, hor⟩
      · exact h4 s hs
      · have hb := (hinv.cur st hmem).basic hwf
        have := hb.start
        rcases hor with ⟨ha, rfl⟩ | ⟨ha, htt, _, rfl⟩
        · refine ⟨by simpa [scannedAny] using this, ?_⟩
          rintro u ⟨_, ⟨hk, _⟩ | ⟨hk, _⟩⟩ <;> simp [scannedAny] at hk
        · refine ⟨by simpa [scannedTerm] using this, ?_⟩
          rintro u ⟨_, ⟨hk, hu⟩ | ⟨hk, _⟩⟩
          · have hxk : st.term.type = .nonterminal := by simpa [scannedTerm] using hk
            rw [placed_dot (by simp [scannedTerm, hxk])] at hu
            have hget := next_nt (by simp [hxk]) (by simp [hxk]) hn
            simp [TState.bodyTerms, scannedTerm] at hu hget
            rw [hu] at hget; cases hget
            exact htt
          · have hxk : st.term.type = .list := by simpa [scannedTerm] using hk
            obtain ⟨rfl, _⟩ := next_list hxk hn
            simp at htt
  | @col done row cur next hr hnone hlt ih =>
    obtain ⟨h1, _, h3, h4, _⟩ := ih
    refine ⟨?_, ⟨next.length, id, ?_, ?_, ?_⟩, ?_, by simp, ?_⟩
    · intro i col hc s hs hcm hst st' hst' x hx
      rcases Nat.lt_trichotomy i done.length with hl | heq | hg
      · rw [List.getElem?_append_left hl] at hc
        exact h1 i col hc s hs hcm hst st' hst' x hx
      · subst heq
        simp at hc; subst hc
        obtain ⟨k, hk⟩ := List.getElem?_of_mem hs
        have hk1 := (List.getElem?_eq_some_iff.1 hk).1
        have hk2 := List.getElem?_eq_none_iff.1 hnone
        exact h3 k (by omega) s hk hcm hst st' hst' x hx
      · have : (done ++ [cur]).length ≤ i := by simp; omega
        rw [List.getElem?_eq_none this] at hc; simp at hc
    · intro k s hs _
      have := h4 s (List.mem_of_getElem? hs)
      exact ⟨Or.inl (by simp; omega), fun u hu => ⟨this.2 u hu, by simp⟩⟩
    · intro k s hs hk
      have hlt := (List.getElem?_eq_some_iff.1 hs).1
      omega
    · intro k k' _ h _; exact h
    · intro k hk; omega
    · intro s hs hst
      have := (h4 s hs).1
      simp at hst; omega

/-- in a safe grammar the chart misses nothing -/
theorem NullSafe.emptyClosed {env : Env} (hwf : env.WF) (ho : env.OrdOK) (hns : NullSafe env)
    {fuel chart} (h : chartOf env fuel = some chart) : EmptyClosed chart := by
  obtain ⟨done, row, cur, next, rfl, hr, hnone, _⟩ := chartOf_reach h
  obtain ⟨h1, _, h3, _⟩ := hr.nullSafe hwf ho hns
  intro i col hc s hs hcm hst st' hst' x hx
  rcases Nat.lt_trichotomy i done.length with hl | heq | hg
  · rw [List.getElem?_append_left hl] at hc
    exact h1 i col hc s hs hcm hst st' hst' x hx
  · subst heq
    simp at hc; subst hc
    obtain ⟨k, hk⟩ := List.getElem?_of_mem hs
    have hk1 := (List.getElem?_eq_some_iff.1 hk).1
    have hk2 := List.getElem?_eq_none_iff.1 hnone
    exact h3 k (by omega) s hk hcm hst st' hst' x hx
  · have : (done ++ [cur]).length ≤ i := by simp; omega
    rw [List.getElem?_eq_none this] at hc; simp at hc

/-! ## the condition is about the rules only -/

theorem Env.Nullable.same {env env' : Env} (hg : env'.grammars = env.grammars) {t : Term}
    (h : env.Nullable t) : env'.Nullable t := by
  have hd : ∀ {A rb}, env.Defines A rb → env'.Defines A rb := by
    intro A rb h; unfold Env.Defines at h ⊢; rw [hg]; exact h
  have hocc : ∀ {t}, env.Occurs t → env'.Occurs t := fun ⟨A, rb, h1, h2⟩ => ⟨A, rb, hd h1, h2⟩
  have key : ∀ {ts w}, Yields env.relaxedLang ts w → w = [] → Yields env'.relaxedLang ts [] := by
    intro ts w hy
    induction hy with
    | nil => intro _; exact Yields.nil
    | terminal => intro h; simp at h
    | nonterminal h1 h2 _ _ ih1 ih2 =>
      intro he
      simp at he
      obtain ⟨rb, hrb, heq⟩ := h2
      exact Yields.nonterminal (u := []) (w := []) h1 ⟨rb, hd hrb, heq⟩ (ih1 he.1) (ih2 he.2)
    | any h1 h2 _ ih =>
      intro he
      simp at he
      obtain ⟨t', h3, h4, h5⟩ := h2
      rw [he.1] at h5
      exact Yields.any (u := []) (w := []) h1 ⟨t', hocc h3, h4, h5⟩ (ih he.2)
    | list h1 h2 _ _ ih1 ih2 =>
      intro he
      simp at he
      obtain ⟨t', h3, h4⟩ := h2
      exact Yields.list (u := []) (w := []) h1 ⟨t', hocc h3, h4⟩ (ih1 he.1) (ih2 he.2)
  exact key h rfl

theorem EndsAt.same {env env' : Env} (hg : env'.grammars = env.grammars) {d : Nat} {u : Term}
    (h : EndsAt env d u) : EndsAt env' d u := by
  induction d generalizing u with
  | zero => exact h
  | succ d ih =>
    rcases h with ⟨h1, h2⟩ | ⟨h1, h2, h3⟩
    · refine Or.inl ⟨h1, fun rb hd => ?_⟩
      unfold Env.Defines at hd; rw [hg] at hd
      obtain ⟨v, hv, he⟩ := h2 rb hd
      exact ⟨v, hv, ih he⟩
    · exact Or.inr ⟨h1, fun hn => h2 (hn.same hg.symm), ih h3⟩

/-- the condition does not depend on the text, the matching of literals and the order of the maps -/
theorem NullSafe.same {env env' : Env} (hg : env'.grammars = env.grammars)
    (hs : ∀ S ∈ env'.starts, S ∈ env.starts) (h : NullSafe env) : NullSafe env' := by
  have hd : ∀ {A rb}, env'.Defines A rb → env.Defines A rb := by
    intro A rb h; unfold Env.Defines at h ⊢; rw [← hg]; exact h
  have hd' : ∀ {A rb}, env.Defines A rb → env'.Defines A rb := by
    intro A rb h; unfold Env.Defines at h ⊢; rw [hg]; exact h
  refine ⟨?_, ?_⟩
  · rintro t ⟨A, rb, h1, h2⟩ hn
    rcases h.slots t ⟨A, rb, hd h1, h2⟩ (hn.same hg.symm) with ⟨d, ha⟩ | ⟨⟨B, hB⟩, hst⟩
    · refine Or.inl ⟨d, fun A rb p t' ho hsl => ?_⟩
      rcases ha A rb p t' ⟨hd ho.1, ho.2⟩ hsl with ⟨q, u, h3, h4, h5⟩ | ⟨h3, h4⟩
      · exact Or.inl ⟨q, u, h3, h4, h5.imp (·.same hg) (·.same hg)⟩
      · exact Or.inr ⟨fun t ⟨A, rb, h5, h6⟩ => h3 t ⟨A, rb, hd h5, h6⟩, h4⟩
    · exact Or.inr ⟨⟨B, fun A rb p t' ho => hB A rb p t' ⟨hd ho.1, ho.2⟩⟩, fun h => hst ⟨h.1, hs _ h.2⟩⟩
  · rintro t ⟨A, rb, h1, h2⟩ ht hn
    exact h.items t ⟨A, rb, hd h1, h2⟩ ht (hn.same hg.symm)

/-! ## deciding the condition -/

/-- could the term be empty, if the rules named in `N` can -/
def Env.nullBy (env : Env) (N : List String) (t : Term) : Bool :=
  match t.type with
  | .terminal => false
  | .nonterminal => N.contains t.value
  | .any => env.allTerms.any (fun u => u.type == .any && decide (okCount u.meta 0))
  | .list => N.contains t.value ||
      env.allTerms.any (fun u => u.type == .list && u.value == t.value && decide (okCount u.meta 0))
  | .eof => true

/-- `N` contains every rule that can be empty -/
def Env.checkNull (env : Env) (N : List String) : Bool :=
  env.allBodies.all (fun p => !p.2.terms.all (env.nullBy N) || N.contains p.1)

theorem Env.checkNull_yields {env : Env} {N : List String} (h : env.checkNull N = true)
    {ts : List Term} {w : List Token} (hy : Yields env.relaxedLang ts w) :
    w = [] → ∀ t ∈ ts, env.nullBy N t = true := by
  unfold Env.checkNull at h
  simp only [List.all_eq_true, Bool.or_eq_true, Bool.not_eq_true'] at h
  induction hy with
  | nil => intro _ t ht; simp at ht
  | terminal _ _ _ _ => intro h; simp at h
  | @nonterminal t ts body u w h1 h2 _ _ ih1 ih2 =>
    intro he
    simp at he
    obtain ⟨rb, hd, rfl⟩ := h2
    intro t' ht'
    rcases List.mem_cons.1 ht' with rfl | ht'
    · have hall := ih1 he.1
      rcases h _ (Env.Defines.mem_allBodies hd) with h' | h'
      · exfalso
        have : rb.terms.all (env.nullBy N) = true := by
          rw [List.all_eq_true]; exact hall
        rw [this] at h'; simp at h'
      · simp only [Env.nullBy, h1]; exact h'
    · exact ih2 he.2 t' ht'
  | @any t ts u w h1 h2 _ ih =>
    intro he
    simp at he
    intro t' ht'
    rcases List.mem_cons.1 ht' with rfl | ht'
    · obtain ⟨t1, ho, ht1, hcnt⟩ := h2
      rw [he.1] at hcnt
      simp only [Env.nullBy, h1, List.any_eq_true]
      exact ⟨t1, Env.Occurs.mem_allTerms ho, by simp [ht1]; exact hcnt⟩
    · exact ih he.2 t' ht'
  | @list t ts n u w h1 h2 _ _ ih1 ih2 =>
    intro he
    simp at he
    intro t' ht'
    rcases List.mem_cons.1 ht' with rfl | ht'
    · obtain ⟨t1, ho, ht1, hv, hcnt⟩ := h2
      simp only [Env.nullBy, h1, Bool.or_eq_true, List.any_eq_true]
      rcases n with _ | n
      · right
        exact ⟨t1, Env.Occurs.mem_allTerms ho, by simp [ht1, hv]; exact hcnt⟩
      · left
        have := ih1 he.1 { value := t'.value, type := .nonterminal, «meta» := .nil } (by simp)
        simpa [Env.nullBy] using this
    · exact ih2 he.2 t' ht'

/-- the positions of the terms of all productions -/
def Env.allSlots (env : Env) : List (String × RuleBody × Nat × Term) :=
  env.allBodies.flatMap fun p => p.2.terms.zipIdx.map fun q => (p.1, p.2, q.2, q.1)

theorem Env.OccursAt.mem {env : Env} {A rb p t} (h : env.OccursAt A rb p t) :
    (A, rb, p, t) ∈ env.allSlots := by
  obtain ⟨hd, hg⟩ := h
  simp only [Env.allSlots, List.mem_flatMap, List.mem_map]
  refine ⟨(A, rb), Env.Defines.mem_allBodies hd, (t, p), ?_, rfl⟩
  rw [List.mem_zipIdx_iff_getElem?]; exact hg

def Term.sameSlot (t t' : Term) : Bool :=
  (t.type == .any && t'.type == .any) || (t.type == t'.type && t.value == t'.value)

theorem Term.sameSlot_iff {t t' : Term} : t.sameSlot t' = true ↔ t.SameSlot t' := by
  simp [Term.sameSlot, Term.SameSlot]

/-- test for `EndsAt`, given a list of the rules that can be empty -/
def Env.endsAt (env : Env) (N : List String) : Nat → Term → Bool
  | 0, u => u.type == .terminal
  | d + 1, u =>
    (u.type == .nonterminal && env.allBodies.all (fun p => !(p.1 == u.value) ||
      (match p.2.terms.getLast? with
      | some v => env.endsAt N d v
      | none => false))) ||
    (u.type == .list && !env.nullBy N u &&
      env.endsAt N d { value := u.value, type := .nonterminal, «meta» := .nil })

theorem Env.endsAt_ok {env : Env} {N : List String} (hN : env.checkNull N = true) {d : Nat} {u : Term}
    (h : env.endsAt N d u = true) : EndsAt env d u := by
  induction d generalizing u with
  | zero => simpa [Env.endsAt, EndsAt] using h
  | succ d ih =>
    simp only [Env.endsAt, Bool.or_eq_true, Bool.and_eq_true, beq_iff_eq] at h
    rcases h with ⟨h1, h2⟩ | ⟨⟨h1, h2⟩, h3⟩
    · left
      refine ⟨h1, ?_⟩
      intro rb hd
      rw [List.all_eq_true] at h2
      have := h2 _ (Env.Defines.mem_allBodies hd)
      simp only [beq_self_eq_true, Bool.not_true, Bool.false_or] at this
      split at this
      · rename_i v hv
        exact ⟨v, hv, ih this⟩
      · simp at this
    · right
      refine ⟨h1, fun hn => ?_, ih h3⟩
      have := Env.checkNull_yields hN hn rfl u (by simp)
      simp [this] at h2

/-- test for `AfterLiteral` -/
def Env.afterLiteral (env : Env) (N : List String) (d : Nat) (rb : RuleBody) (p : Nat) : Bool :=
  match p with
  | 0 => false
  | q + 1 => match rb.terms[q]? with
    | some u => env.endsAt N d u || env.endsAt N (d + 1) u
    | none => false

theorem Env.afterLiteral_ok {env : Env} {N : List String} (hN : env.checkNull N = true) {d : Nat}
    {rb : RuleBody} {p : Nat} (h : env.afterLiteral N d rb p = true) : AfterLiteral env d rb p := by
  unfold Env.afterLiteral at h
  split at h
  · simp at h
  · rename_i q
    split at h
    · rename_i u hu
      simp only [Bool.or_eq_true] at h
      exact ⟨q, u, rfl, hu, h.imp (Env.endsAt_ok hN) (Env.endsAt_ok hN)⟩
    · simp at h

/-- test for `TopRule` -/
def Env.topRule (env : Env) (A : String) : Bool :=
  env.allTerms.all (fun t => !(t.type == .nonterminal || t.type == .list) || t.value != A)

theorem Env.topRule_ok {env : Env} {A : String} (h : env.topRule A = true) : TopRule env A := by
  intro t ho ht hv
  unfold Env.topRule at h
  rw [List.all_eq_true] at h
  have := h t (Env.Occurs.mem_allTerms ho)
  rcases ht with ht | ht <;> simp [ht, hv] at this

/-- a sufficient test for `NullSafe`, given a list of the rules that can be empty -/
def Env.checkNullSafe (env : Env) (N : List String) : Bool :=
  env.checkNull N &&
  env.allSlots.all (fun a => !env.nullBy N a.2.2.2 ||
    (List.range (env.allBodies.length + 1)).any (fun d =>
      env.allSlots.all (fun b => !a.2.2.2.sameSlot b.2.2.2 || env.afterLiteral N d b.2.1 b.2.2.1 ||
        (b.2.2.1 == 0 && env.topRule b.1))) ||
    (env.allSlots.all (fun b => !a.2.2.2.sameSlot b.2.2.2 || (b.1 == a.1 && b.2.2.1 == 0)) &&
      !(a.2.2.2.type == .nonterminal && env.starts.contains a.2.2.2.value))) &&
  env.allTerms.all (fun t => !(t.type == .list) || !N.contains t.value)

theorem Env.checkNullSafe_ok {env : Env} {N : List String} (h : env.checkNullSafe N = true) :
    NullSafe env := by
  unfold Env.checkNullSafe at h
  simp only [Bool.and_eq_true] at h
  obtain ⟨⟨h1, h2⟩, h3⟩ := h
  have hnull : ∀ {t}, env.Nullable t → env.nullBy N t = true := by
    intro t ht
    exact Env.checkNull_yields h1 ht rfl t (by simp)
  refine ⟨?_, ?_⟩
  · rintro t ⟨A, rb, hd, ht⟩ hn
    obtain ⟨p, hp⟩ := List.getElem?_of_mem ht
    rw [List.all_eq_true] at h2
    have h5 := h2 _ (Env.OccursAt.mem ⟨hd, hp⟩)
    simp only [hnull hn, Bool.not_true, Bool.false_or, Bool.or_eq_true] at h5
    rcases h5 with h5 | h5
    · left
      rw [List.any_eq_true] at h5
      obtain ⟨d, _, h5⟩ := h5
      rw [List.all_eq_true] at h5
      refine ⟨d, ?_⟩
      intro A' rb' p' t' ho hs
      have := h5 _ ho.mem
      simp only [Term.sameSlot_iff.2 hs, Bool.not_true, Bool.false_or, Bool.or_eq_true,
        Bool.and_eq_true, beq_iff_eq] at this
      exact this.imp (Env.afterLiteral_ok h1) (fun h => ⟨Env.topRule_ok h.2, h.1⟩)
    · right
      simp only [Bool.and_eq_true, List.all_eq_true] at h5
      refine ⟨⟨A, ?_⟩, ?_⟩
      · intro A' rb' p' t' ho hs
        have := h5.1 _ ho.mem
        simpa [Term.sameSlot_iff.2 hs] using this
      · rintro ⟨h6, h7⟩
        have := h5.2
        simp [h6, h7] at this
  · intro t ho ht hn
    rw [List.all_eq_true] at h3
    have h5 := h3 t (Env.Occurs.mem_allTerms ho)
    have h6 := hnull hn
    simp only [Env.nullBy] at h6
    simp [ht] at h5 h6
    exact h5 h6

/-- grammars in which nothing can be empty are safe -/
theorem NoEmpty.nullSafe {env : Env} (hne : NoEmpty env) : NullSafe env := by
  have hno : ∀ {t}, ¬ env.Nullable t := by
    intro t h
    have := hne.yields h rfl
    simp at this
  exact ⟨fun _ _ h => absurd h hno, fun _ _ _ => hno⟩

end Fmr
