import Verif.Proofs.Sound

/-!
# The deduction system is complete for the intended language (any grammar),
# and the chart contains all items unless an item completes on the empty span
-/

namespace Fmr

/-- state `st'` is `st` advanced over `n` terms -/
structure Adv (st st' : TState) (n : Nat) : Prop where
  value : st'.term.value = st.term.value
  type : st'.term.type = st.term.type
  rb : st'.rb = st.rb
  start : st'.start = st.start
  dot : st'.dot = st.dot + n
  list : st.term.type = .list → st'.term.meta = st.term.meta

theorem Adv.zero (st : TState) : Adv st st 0 := ⟨rfl, rfl, rfl, rfl, rfl, fun _ => rfl⟩

theorem Adv.trans {a b c : TState} {m n : Nat} (h1 : Adv a b m) (h2 : Adv b c n) :
    Adv a c (m+n) :=
  ⟨h2.value.trans h1.value, h2.type.trans h1.type, h2.rb.trans h1.rb, h2.start.trans h1.start,
   by rw [h2.dot, h1.dot, Nat.add_assoc],
   fun h => (h2.list (h1.type.trans h)).trans (h1.list h)⟩

/-- `st` still waits for exactly the terms `ts` (nonterminal state), or can take the items `ts`
(list state) without exceeding its maximum -/
def Expects (st : TState) (ts : List Term) : Prop :=
  (st.term.type = .nonterminal ∧ ∃ rb, st.rb = some rb ∧ rb.terms.drop st.dot = ts) ∨
  (st.term.type = .list ∧
    ts = List.replicate ts.length { value := st.term.value, type := .nonterminal, «meta» := .nil } ∧
    ∀ min max, st.term.meta = .range min max → ((st.dot + ts.length : Nat) : Int) ≤ max)

theorem maxReached_false {s : TState} (h : ∀ min max, s.term.meta = .range min max → (s.dot : Int) < max) :
    s.maxReached = false := by
  unfold TState.maxReached
  cases hm : s.term.meta <;> simp
  exact h _ _ hm

theorem Expects.next {st : TState} {t : Term} {ts : List Term} (h : Expects st (t :: ts)) :
    st.term.type ≠ .any ∧ ∃ t', st.getNextTerm = some t' ∧ t'.type = t.type ∧ t'.value = t.value ∧
      (t.type ≠ .nonterminal → t' = t) ∧ (st.term.type = .list → t'.meta = st.term.meta) := by
  rcases h with ⟨hk, rb, hrb, hd⟩ | ⟨hk, hr, hm⟩
  · refine ⟨by simp [hk], t, ?_, rfl, rfl, fun _ => rfl, by simp [hk]⟩
    apply next_nt_of (by simp [hk]) (by simp [hk])
    have : (rb.terms.drop st.dot)[0]? = some t := by rw [hd]; rfl
    simpa [TState.bodyTerms, hrb] using this
  · refine ⟨by simp [hk], ?_⟩
    have hmax : st.maxReached = false := maxReached_false (by
      intro min max h
      have := hm min max h
      simp at this; omega)
    simp [List.replicate_succ] at hr
    refine ⟨_, by unfold TState.getNextTerm; simp only [hk, hmax]; simp; rfl, ?_, ?_, ?_, ?_⟩
    · simp [hr.1]
    · simp [hr.1]
    · simp [hr.1]
    · simp

theorem Expects.tail {st st' : TState} {t : Term} {ts : List Term} (h : Expects st (t :: ts))
    (ha : Adv st st' 1) : Expects st' ts := by
  rcases h with ⟨hk, rb, hrb, hd⟩ | ⟨hk, hr, hm⟩
  · left
    refine ⟨by rw [ha.type, hk], rb, by rw [ha.rb, hrb], ?_⟩
    rw [ha.dot, ← List.drop_drop, hd]; rfl
  · right
    simp [List.replicate_succ] at hr
    refine ⟨by rw [ha.type, hk], by rw [ha.value]; exact hr.2, ?_⟩
    intro min max h
    rw [ha.list hk] at h
    have := hm min max h
    rw [ha.dot]
    simp at this ⊢; omega

theorem adv_advanced {i : Nat} {st : TState} {t' : Term} (hk : st.term.type ≠ .any)
    (hl : st.term.type = .list → t'.meta = st.term.meta) :
    Adv st ((advanced st t').placed i) 1 where
  value := by simp [advanced]
  type := by simp [advanced]
  rb := by simp [advanced]
  start := by simp [advanced]
  dot := by rw [placed_dot (by simpa [advanced] using hk)]; simp [advanced]
  list := by simpa [advanced] using hl

theorem adv_scanned {i : Nat} {st : TState} (hk : st.term.type ≠ .any) :
    Adv st ((scannedTerm st).placed i) 1 where
  value := by simp [scannedTerm]
  type := by simp [scannedTerm]
  rb := by simp [scannedTerm]
  start := by simp [scannedTerm]
  dot := by rw [placed_dot (by simpa [scannedTerm] using hk)]; simp [scannedTerm]
  list := by simp [scannedTerm]

/-- an `(any)` state can absorb tokens up to its maximum -/
theorem Item.anyRun {env : Env} (n : Nat) : ∀ {i : Nat} {st : TState}, Item env i st →
    st.term.type = .any → st.start ≤ i → st.dot = i - st.start →
    (∀ min max, st.term.meta = .range min max → ((st.dot + n : Nat) : Int) ≤ max) →
    i + n ≤ env.tokens.length →
    ∃ st', Item env (i+n) st' ∧ st'.term.type = .any ∧ st'.term.meta = st.term.meta ∧
      st'.start = st.start ∧ st'.dot = st.dot + n := by
  induction n with
  | zero => intro i st h hk _ _ _ _; exact ⟨st, h, hk, rfl, rfl, rfl⟩
  | succ n ih =>
    intro i st h hk hle hdot hmax hlen
    have hn : st.getNextTerm = some st.term := by
      have : st.maxReached = false := maxReached_false (by
        intro min max hm
        have := hmax min max hm
        omega)
      unfold TState.getNextTerm; simp [hk, this]
    have h2 := Item.scanAny h hk hn (by omega)
    have hd2 : ((scannedAny st st.term).placed (i+1)).dot = (i+1) - st.start := by
      rw [placed_dot_any (by simp [scannedAny])]; simp [scannedAny]
    obtain ⟨st', h3, h4, h5, h6, h7⟩ := ih h2 (by simp [scannedAny])
      (by simp [scannedAny]; omega) (by rw [hd2]; simp [scannedAny])
      (by
        intro min max hm
        have := hmax min max (by simpa [scannedAny] using hm)
        rw [hd2]; omega)
      (by omega)
    refine ⟨st', by rw [show i + (n+1) = i + 1 + n by omega]; exact h3, h4,
      by simpa [scannedAny] using h5, by simpa [scannedAny] using h6, ?_⟩
    rw [h7, hd2]; omega

theorem drop_prefix_get {α : Type} {l u r : List α} {i : Nat} {a : α} (h : l.drop i = a :: u ++ r) :
    l[i]? = some a := by
  have : (l.drop i)[0]? = some a := by rw [h]; rfl
  simpa using this

/-- Completeness of the deduction system, for every grammar. -/
theorem Item.complete {env : Env} (hwf : env.WF) {ts : List Term} {w : List Token}
    (hy : Yields env.lang ts w) : ∀ {i : Nat} {st : TState} {r : List Token}, Item env i st →
      Expects st ts → env.tokens.drop i = w ++ r →
      ∃ st', Item env (i + w.length) st' ∧ Adv st st' ts.length := by
  induction hy with
  | nil => intro i st r h _ _; exact ⟨st, h, Adv.zero st⟩
  | @terminal t ts a w htt hm _ ih =>
    intro i st r h he hd
    obtain ⟨hk, t', hn, h1, h2, h3, h4⟩ := he.next
    have ht' : t' = t := h3 (by simp [htt])
    subst ht'
    have hget := drop_prefix_get hd
    have hitem := Item.scanT h hk hn htt hget hm
    have hadv := adv_scanned (i := i+1) hk
    obtain ⟨st', h5, h6⟩ := ih hitem (he.tail hadv) (r := r) (by
      rw [← List.drop_drop, hd]; rfl)
    refine ⟨st', ?_, ?_⟩
    · have : i + (a :: w).length = i + 1 + w.length := by simp; omega
      rw [this]; exact h5
    · have := hadv.trans h6
      rw [Nat.add_comm] at this; exact this
  | @nonterminal t ts body u w htt hp _ _ ih1 ih2 =>
    intro i st r h he hd
    obtain ⟨hk, t', hn, h1, h2, h3, h4⟩ := he.next
    obtain ⟨rb, ⟨g, hg, rl, hr, hrb⟩, rfl⟩ := hp
    have hname := hwf.named g hg _ _ hr
    have hitem := Item.predNT h hk hn (by rw [h1, htt]) hg (by rw [h2]; exact hr) hrb
    have hpd : ((predicted rl.name rb i).placed i).dot = 0 := by
      rw [placed_dot (by simp [predicted])]; simp [predicted]
    obtain ⟨s, hs, hadv⟩ := ih1 hitem
      (Or.inl ⟨by simp [predicted], rb, by simp [predicted], by rw [hpd]; simp⟩)
      (r := w ++ r) (by rw [hd]; simp)
    have hsk : s.term.type = .nonterminal := by rw [hadv.type]; simp [predicted]
    have hsc : s.isCompleted = true := by
      rw [completed_nt (by simp [hsk]) (by simp [hsk])]
      have := hadv.rb
      simp [predicted] at this
      simp [TState.bodyTerms, this, hadv.dot, hpd]
    have hss : s.start = i := by rw [hadv.start]; simp [predicted]
    have hsm : completes t' s = true := by
      have hv := hadv.value
      simp [predicted] at hv
      simp [completes, hsk, h1, htt, h2, hv, hname]
    have hnew := Item.comp h hs hsc hss hn hsm
    have hadv1 := adv_advanced (i := i + u.length) hk h4
    obtain ⟨st', h5, h6⟩ := ih2 hnew (he.tail hadv1) (r := r) (by
      rw [← List.drop_drop, hd]; simp)
    refine ⟨st', ?_, ?_⟩
    · have : i + (u ++ w).length = i + u.length + w.length := by simp; omega
      rw [this]; exact h5
    · have := hadv1.trans h6
      rw [Nat.add_comm] at this; exact this
  | @any t ts u w htt hok _ ih =>
    intro i st r h he hd
    obtain ⟨hk, t', hn, h1, h2, h3, h4⟩ := he.next
    have ht' : t' = t := h3 (by simp [htt])
    subst ht'
    have hok : okCount t'.meta u.length := hok
    have hitem := Item.predAL h hk hn (Or.inl htt)
    have hpt : ((predictedSpecial t' i).placed i).term.type = .any := by simpa [predictedSpecial] using htt
    have hpd : ((predictedSpecial t' i).placed i).dot = 0 := by
      rw [placed_dot_any (by simpa using hpt)]; simp [predictedSpecial]
    have hlen : i + u.length ≤ env.tokens.length := by
      have := congrArg List.length hd
      simp at this
      rcases Nat.lt_or_ge i env.tokens.length with h' | h'
      · omega
      · have hi := (h.basic hwf).bound
        omega
    obtain ⟨s, hs, hsk, hsm, hss, hsd⟩ := Item.anyRun u.length hitem hpt (by simp [predictedSpecial])
      (by rw [hpd]; simp [predictedSpecial])
      (by
        intro min max hm
        simp [predictedSpecial] at hm
        rw [hpd]
        rw [hm] at hok
        simpa using hok.2) hlen
    have hsc : s.isCompleted = true := by
      rw [completed_any_list (Or.inl hsk), hsm, hsd, hpd]
      simpa [predictedSpecial] using hok
    have hnew := Item.comp h hs hsc (by rw [hss]; simp [predictedSpecial]) hn
      (by simp [completes, hsk, htt])
    have hadv1 := adv_advanced (i := i + u.length) hk h4
    obtain ⟨st', h5, h6⟩ := ih hnew (he.tail hadv1) (r := r) (by
      rw [← List.drop_drop, hd]; simp)
    refine ⟨st', ?_, ?_⟩
    · have : i + (u ++ w).length = i + u.length + w.length := by simp; omega
      rw [this]; exact h5
    · have := hadv1.trans h6
      rw [Nat.add_comm] at this; exact this
  | @list t ts n u w htt hok _ _ ih1 ih2 =>
    intro i st r h he hd
    obtain ⟨hk, t', hn, h1, h2, h3, h4⟩ := he.next
    have ht' : t' = t := h3 (by simp [htt])
    subst ht'
    have hok : okCount t'.meta n := hok
    have hitem := Item.predAL h hk hn (Or.inr htt)
    have hpt : ((predictedSpecial t' i).placed i).term.type = .list := by simpa [predictedSpecial] using htt
    have hpd : ((predictedSpecial t' i).placed i).dot = 0 := by
      rw [placed_dot (by simp [predictedSpecial, htt])]; simp [predictedSpecial]
    obtain ⟨s, hs, hadv⟩ := ih1 hitem
      (Or.inr ⟨hpt, by simp [predictedSpecial], by
        intro min max hm
        simp [predictedSpecial] at hm
        rw [hpd]
        rw [hm] at hok
        simpa using hok.2⟩)
      (r := w ++ r) (by rw [hd]; simp)
    have hsk : s.term.type = .list := by rw [hadv.type, hpt]
    have hsc : s.isCompleted = true := by
      rw [completed_any_list (Or.inr hsk), hadv.list hpt, hadv.dot, hpd]
      simpa [predictedSpecial] using hok
    have hss : s.start = i := by rw [hadv.start]; simp [predictedSpecial]
    have hnew := Item.comp h hs hsc hss hn (by
      have hv := hadv.value
      simp [predictedSpecial] at hv
      simp [completes, hsk, htt, hv])
    have hadv1 := adv_advanced (i := i + u.length) hk h4
    obtain ⟨st', h5, h6⟩ := ih2 hnew (he.tail hadv1) (r := r) (by
      rw [← List.drop_drop, hd]; simp)
    refine ⟨st', ?_, ?_⟩
    · have : i + (u ++ w).length = i + u.length + w.length := by simp; omega
      rw [this]; exact h5
    · have := hadv1.trans h6
      rw [Nat.add_comm] at this; exact this

/-- every derivable prefix has a completed start item -/
theorem Item.complete_start {env : Env} (hwf : env.WF) {S : String} (hS : S ∈ env.starts) {j : Nat}
    (hj : j ≤ env.tokens.length) (h : Derives env S (env.tokens.take j)) :
    ∃ s, Item env j s ∧ s.isFinal = true ∧ s.rb = (gammaState S).rb := by
  have hd : env.tokens.drop 0 = env.tokens.take j ++ env.tokens.drop j := by simp
  obtain ⟨s, hs, ha⟩ := Item.complete hwf h (Item.init hS) (Or.inl ⟨rfl, _, rfl, rfl⟩) hd
  refine ⟨s, ?_, ?_, ha.rb⟩
  · have : 0 + (env.tokens.take j).length = j := by simp; omega
    rw [this] at hs; exact hs
  · have hk : s.term.type = .nonterminal := ha.type
    have hc : s.isCompleted = true := by
      rw [completed_nt (by simp [hk]) (by simp [hk])]
      simp [TState.bodyTerms, ha.rb, ha.dot, gammaState]
    have hv : s.term.value = gammaRule := ha.value
    simp [TState.isFinal, hc, hv]

/-! ## the chart contains every item -/

/-- the consequences of row `st` are present -/
def RowClosed (env : Env) (done : List (List TState)) (tok : Option Token) (st : TState)
    (cur next : List TState) : Prop :=
  (∀ x, CurAdd env done.length (if st.start < done.length then done.getD st.start [] else []) st x →
    x ∈ cur) ∧
  (∀ x, NextAdd env done.length tok st x → x ∈ next)

theorem RowClosed.mono {env : Env} {done tok st cur next cur' next'}
    (h : RowClosed env done tok st cur next) (h1 : cur <+: cur') (h2 : next <+: next') :
    RowClosed env done tok st cur' next' :=
  ⟨fun x hx => h1.subset (h.1 x hx), fun x hx => h2.subset (h.2 x hx)⟩

theorem Inv.wf {env : Env} (hwf : env.WF) {done cur next} (h : Inv env done cur next) :
    (∀ s ∈ cur, s.WF) ∧ ∀ s ∈ next, s.WF :=
  ⟨fun s hs => ((h.cur s hs).basic hwf).wf, fun s hs => ((h.next s hs).basic hwf).wf⟩

theorem afterComplete_inv {env : Env} {done st cur next} (h : Inv env done cur next)
    (hst : st ∈ cur) : ∀ s ∈ afterComplete done st cur, Item env done.length s := by
  intro s hs
  rcases afterComplete_mem hs with hs | hs
  · exact h.cur s hs
  · exact CurAdd.item (h.cur _ hst) h.snap (Or.inl hs)

theorem predict_closed {env : Env} (ho : env.OrdOK) {i row : Nat} {states : List TState} {t : Term}
    (hs : ∀ s ∈ states, s.WF) {x : TState}
    (hw : ∀ x, ((t.type = .nonterminal ∧ ∃ g ∈ env.grammars, PredAdd g i t x) ∨
      ((t.type = .any ∨ t.type = .list) ∧ x = (predictedSpecial t i).placed i)) → x.WF)
    (h : (t.type = .nonterminal ∧ ∃ g ∈ env.grammars, PredAdd g i t x) ∨
      ((t.type = .any ∨ t.type = .list) ∧ x = (predictedSpecial t i).placed i)) :
    x ∈ predict env i row states t := by
  have hx := hw x h
  rcases h with ⟨htt, g, hg, h⟩ | ⟨htt, rfl⟩
  · unfold predict
    simp only [htt]
    exact predictAll_closed (fun k l => ho i row k l) hs
      (fun g hg x hx => hw x (Or.inl ⟨htt, g, hg, hx⟩)) g hg x h
  · unfold predict
    rcases htt with htt | htt <;> simp only [htt] <;> exact insert_self hs hx

theorem scan_closed {env : Env} {i : Nat} {tk : Token} {next : List TState} {st x : TState} {t : Term}
    (hn : st.getNextTerm = some t) (hs : ∀ s ∈ next, s.WF) (hx : x.WF)
    (h : NextAdd env i (some tk) st x) : x ∈ scan env.tmatch (i+1) tk next st t := by
  obtain ⟨t', tk', hn', htk, h⟩ := h
  rw [hn] at hn'
  cases Option.some.inj hn'
  cases Option.some.inj htk
  rcases h with ⟨ha, rfl⟩ | ⟨ha, htt, hm, rfl⟩
  · have hta : t.type = .any := by rw [next_any ha hn]; exact ha
    unfold scan
    simp only [hta, if_true]
    exact insert_self hs hx
  · unfold scan
    simp only [htt, hm, reduceCtorEq, if_true, if_false]
    exact insert_self hs hx

theorem processRow_closed {env : Env} (hwf : env.WF) (ho : env.OrdOK) {done row st cur next}
    (h : Inv env done cur next) (hst : st ∈ cur) :
    RowClosed env done env.tokens[done.length]? st
      (processRow env done env.tokens[done.length]? row st cur next).1
      (processRow env done env.tokens[done.length]? row st cur next).2 := by
  have hcomp : ∀ x, (st.isCompleted = true ∧ ∃ st0 ∈
      (if st.start < done.length then done.getD st.start [] else []),
      CompAdd done.length st st0 x) → x ∈ afterComplete done st cur := by
    rintro x ⟨hc, st0, h0, hadd⟩
    split at h0
    · rename_i hlt
      have hsn : snapOf done cur st = done.getD st.start [] := by
        unfold snapOf; rw [if_neg (by omega)]
      unfold afterComplete
      rw [if_pos hc, hsn]
      refine complete_closed (h.wf hwf).1 ?_ h0 hadd
      intro s1 hs1 y hy
      have := CurAdd.item (h.cur _ hst) (h.snap) (Or.inl ⟨hc, s1, by rw [hsn]; exact hs1, hy⟩)
      exact (this.basic hwf).wf
    · simp at h0
  have hpre := processRow_prefix env done env.tokens[done.length]? row st cur next
  refine ⟨?_, ?_⟩
  · intro x hx
    rcases hx with hx | ⟨ha, t, hn, hx⟩
    · have hx := hcomp x hx
      cases hn : st.getNextTerm with
      | none => rw [processRow_none hn]; exact hx
      | some t =>
        by_cases ha : st.term.type = .any
        · rw [processRow_any hn ha]; exact hx
        · by_cases ht : t.type = .terminal
          · rw [processRow_term hn ha ht]; exact hx
          · rw [processRow_pred hn ha ht]; exact (predict_prefix _ _ _ _ _).subset hx
    · have htt : t.type ≠ .terminal := by
        rcases hx with ⟨h, _⟩ | ⟨h | h, _⟩ <;> simp [h]
      rw [processRow_pred hn ha htt]
      refine predict_closed ho ?_ ?_ hx
      · intro s hs; exact ((afterComplete_inv h hst s hs).basic hwf).wf
      · intro y hy
        have := CurAdd.item (h.cur _ hst) (snap := []) (by simp) (Or.inr ⟨ha, t, hn, hy⟩)
        exact (this.basic hwf).wf
  · intro x hx
    have hxwf : x.WF := ((hx.item (h.cur _ hst)).basic hwf).wf
    obtain ⟨t, tk, hn, htok, hor⟩ := hx
    have hx : NextAdd env done.length (some tk) st x := ⟨t, tk, hn, rfl, hor⟩
    rcases hor with ⟨ha, _⟩ | ⟨ha, ht, _⟩
    · rw [processRow_any hn ha, htok]
      exact scan_closed hn (h.wf hwf).2 hxwf hx
    · rw [processRow_term hn ha ht, htok]
      exact scan_closed hn (h.wf hwf).2 hxwf hx

theorem runCol_closed {env : Env} (hwf : env.WF) (ho : env.OrdOK) {done} :
    ∀ {fuel row cur next r}, Inv env done cur next →
      (∀ k st, k < row → cur[k]? = some st → RowClosed env done env.tokens[done.length]? st cur next) →
      runCol env done env.tokens[done.length]? fuel row cur next = some r →
      ∀ st ∈ r.1, RowClosed env done env.tokens[done.length]? st r.1 r.2
  | 0, _, _, _, _, _, _, h => by simp [runCol] at h
  | fuel+1, row, cur, next, r, hi, hcl, h => by
    unfold runCol at h
    cases hc : cur[row]? with
    | none =>
      rw [hc] at h; simp at h; subst h
      intro st hst
      obtain ⟨k, hk⟩ := List.getElem?_of_mem hst
      have h1 := (List.getElem?_eq_some_iff.1 hk).1
      have h2 := List.getElem?_eq_none_iff.1 hc
      exact hcl k st (by simp at h1; omega) hk
    | some st =>
      rw [hc] at h
      have hmem := List.mem_of_getElem? hc
      have hpre := processRow_prefix env done env.tokens[done.length]? row st cur next
      refine runCol_closed hwf ho (processRow_inv ho hi hmem) ?_ h
      intro k s hk hs
      have hrow := (List.getElem?_eq_some_iff.1 hc).1
      have hs' : cur[k]? = some s := by
        obtain ⟨l, hl⟩ := hpre.1
        rw [← hl, List.getElem?_append_left (by omega)] at hs
        exact hs
      rcases Nat.lt_or_ge k row with hlt | hge
      · exact (hcl k s hlt hs').mono hpre.1 hpre.2
      · have : k = row := by omega
        subst this
        rw [hc] at hs'; cases hs'
        exact processRow_closed hwf ho hi hmem

/-- all columns before the last are closed against themselves and the following one; the columns
of the chart are `chart`, and column `k` was computed with `chart.take k` finished -/
def ChartClosed (env : Env) (chart : List (List TState)) : Prop :=
  ∀ k col, chart[k]? = some col → ∀ st ∈ col,
    RowClosed env (chart.take k) env.tokens[k]? st col (chart.getD (k+1) [])

theorem runCols_closed {env : Env} (hwf : env.WF) (ho : env.OrdOK) {fuel : Nat} :
    ∀ {toks done cur chart}, env.tokens.drop done.length = toks → Inv env done cur [] →
      (∀ k col, done[k]? = some col → ∀ st ∈ col,
        RowClosed env (done.take k) env.tokens[k]? st col ((done ++ [cur]).getD (k+1) [])) →
      runCols env fuel toks done cur = some chart →
      ChartClosed env chart ∧ (done ++ [cur]).length ≤ chart.length ∧
        ∀ k, k < done.length → chart[k]? = done[k]?
  | [], done, cur, chart, hd, hi, hcl, h => by
    unfold runCols at h
    have htok : env.tokens[done.length]? = none := by
      rw [List.getElem?_eq_none]; simpa using hd
    cases hr : runCol env done none fuel 0 cur [] with
    | none => rw [hr] at h; simp at h
    | some r =>
      rw [hr] at h; simp at h; subst h
      rw [← htok] at hr
      have hc := runCol_closed hwf ho hi (by simp) hr
      have hp := runCol_prefix hr
      refine ⟨?_, by simp, fun k hk => List.getElem?_append_left hk⟩
      intro k col hk st hst
      rcases Nat.lt_trichotomy k done.length with hlt | heq | hgt
      · rw [List.getElem?_append_left hlt] at hk
        have := hcl k col hk st hst
        rw [List.take_append_of_le_length (by omega)]
        refine this.mono List.prefix_rfl ?_
        rcases Nat.lt_or_ge (k+1) done.length with h' | h'
        · simp [List.getElem?_append_left h']
        · have : k + 1 = done.length := by omega
          simp [this]; exact hp.1
      · subst heq
        simp at hk; subst hk
        have hc := hc st hst
        rw [List.take_append_of_le_length (by omega), List.take_length]
        refine ⟨hc.1, ?_⟩
        intro x hx
        rw [htok] at hx
        obtain ⟨_, _, _, h', _⟩ := hx; simp at h'
      · have : (done ++ [r.1]).length ≤ k := by simp; omega
        rw [List.getElem?_eq_none this] at hk; simp at hk
  | t :: ts, done, cur, chart, hd, hi, hcl, h => by
    unfold runCols at h
    have hlt : done.length < env.tokens.length := by
      rcases Nat.lt_or_ge done.length env.tokens.length with h' | h'
      · exact h'
      · rw [List.drop_of_length_le h'] at hd; simp at hd
    rw [List.drop_eq_getElem_cons hlt] at hd
    injection hd with hd1 hd2
    have htok : env.tokens[done.length]? = some t := by
      rw [List.getElem?_eq_getElem hlt, hd1]
    cases hr : runCol env done (some t) fuel 0 cur [] with
    | none => rw [hr] at h; simp at h
    | some r =>
      rw [hr] at h; simp at h
      rw [← htok] at hr
      have hi' := runCol_inv ho hi hr
      have hc := runCol_closed hwf ho hi (by simp) hr
      have hp := runCol_prefix hr
      have := runCols_closed hwf ho (toks := ts) (done := done ++ [r.1]) (cur := r.2)
        (by simpa using hd2) ⟨hi'.snoc, by simpa using hi'.next, by simp⟩ ?_ h
      · obtain ⟨h1, h2, h3⟩ := this
        refine ⟨h1, by simp at h2 ⊢; omega, ?_⟩
        intro k hk
        rw [h3 k (by simp; omega), List.getElem?_append_left hk]
      · intro k col hk st hst
        rcases Nat.lt_trichotomy k done.length with hlt | heq | hgt
        · rw [List.getElem?_append_left hlt] at hk
          have := hcl k col hk st hst
          rw [List.take_append_of_le_length (by omega)]
          refine this.mono List.prefix_rfl ?_
          rcases Nat.lt_or_ge (k+1) done.length with h' | h'
          · simp [List.getElem?_append_left h']
          · have : k + 1 = done.length := by omega
            simp [this]; exact hp.1
        · subst heq
          simp at hk; subst hk
          have hc := hc st hst
          rw [List.take_append_of_le_length (by omega), List.take_length]
          refine hc.mono List.prefix_rfl ?_
          simp
        · have : (done ++ [r.1]).length ≤ k := by simp; omega
          rw [List.getElem?_eq_none this] at hk; simp at hk

/-- the start items are in column 0 -/
theorem runCols_start {env : Env} {fuel : Nat} : ∀ {toks done cur chart},
    runCols env fuel toks done cur = some chart →
    (∃ col, chart[done.length]? = some col ∧ cur <+: col) ∧
      ∀ k, k < done.length → chart[k]? = done[k]?
  | [], done, cur, chart, h => by
    unfold runCols at h
    cases hr : runCol env done none fuel 0 cur [] with
    | none => rw [hr] at h; simp at h
    | some r =>
      rw [hr] at h; simp at h; subst h
      exact ⟨⟨r.1, by simp, (runCol_prefix hr).1⟩, fun k hk => List.getElem?_append_left hk⟩
  | t :: ts, done, cur, chart, h => by
    unfold runCols at h
    cases hr : runCol env done (some t) fuel 0 cur [] with
    | none => rw [hr] at h; simp at h
    | some r =>
      rw [hr] at h; simp at h
      obtain ⟨_, h2⟩ := runCols_start h
      refine ⟨⟨r.1, ?_, (runCol_prefix hr).1⟩, ?_⟩
      · rw [h2 done.length (by simp)]; simp
      · intro k hk
        rw [h2 k (by simp; omega), List.getElem?_append_left hk]

/-! ## what is missing from a chart: completions of states finished on the empty span -/

/-- the chart is closed under the completion of states finished on the empty span -/
def EmptyClosed (chart : List (List TState)) : Prop :=
  ∀ i col, chart[i]? = some col → ∀ s ∈ col, s.isCompleted = true → s.start = i →
    ∀ st ∈ col, ∀ x, CompAdd i s st x → x ∈ col

/-- a chart closed in this sense contains every item -/
theorem chart_complete {env : Env} (hwf : env.WF) (ho : env.OrdOK) {fuel chart}
    (h : chartOf env fuel = some chart) (hec : EmptyClosed chart) {i : Nat} {s : TState}
    (hi : Item env i s) : ∃ col, chart[i]? = some col ∧ s ∈ col := by
  obtain ⟨hinv, hlen⟩ := chartOf_inv ho h
  have hstart := runCols_start h
  have hcl : ChartClosed env chart := by
    unfold chartOf at h
    refine (runCols_closed hwf ho (by simp) ⟨by simp, ?_, by simp⟩ (by simp) h).1
    intro s hs
    simp at hs
    obtain ⟨S, hS, rfl⟩ := hs
    exact Item.init hS
  have htake : ∀ {k}, k ≤ env.tokens.length → (chart.take k).length = k := by
    intro k hk; simp; omega
  have hcur : ∀ {i st x col}, Item env i st → chart[i]? = some col → st ∈ col →
      CurAdd env i (if st.start < i then (chart.take i).getD st.start [] else []) st x → x ∈ col := by
    intro i st x col hit hc hst hx
    have := (hcl i col hc st hst).1 x
    rw [htake (hit.basic hwf).bound] at this
    exact this hx
  have hnext : ∀ {i st x col}, Item env i st → chart[i]? = some col → st ∈ col →
      NextAdd env i env.tokens[i]? st x → ∃ col, chart[i+1]? = some col ∧ x ∈ col := by
    intro i st x col hit hc hst hx
    have hx' := (hcl i col hc st hst).2 x
    rw [htake (hit.basic hwf).bound] at hx'
    have hx' := hx' hx
    rw [List.getD_eq_getElem?_getD] at hx'
    cases hd : chart[i+1]? with
    | none => simp [hd] at hx'
    | some c => simp [hd] at hx'; exact ⟨c, rfl, hx'⟩
  induction hi with
  | @init S hS =>
    obtain ⟨⟨col, hc, hp⟩, _⟩ := hstart
    exact ⟨col, hc, hp.subset (List.mem_map.2 ⟨S, hS, rfl⟩)⟩
  | @predNT i st t g r rb hst hty hn htt hg hr hrb ih =>
    obtain ⟨col, hc, hm⟩ := ih
    exact ⟨col, hc, hcur hst hc hm (Or.inr ⟨hty, t, hn, Or.inl ⟨htt, g, hg, r, hr, rb, hrb, rfl⟩⟩)⟩
  | @predAL i st t hst hty hn htt ih =>
    obtain ⟨col, hc, hm⟩ := ih
    exact ⟨col, hc, hcur hst hc hm (Or.inr ⟨hty, t, hn, Or.inr ⟨htt, rfl⟩⟩)⟩
  | @scanAny i st t hst hty hn hlt ih =>
    obtain ⟨col, hc, hm⟩ := ih
    exact hnext hst hc hm ⟨t, _, hn, List.getElem?_eq_getElem hlt, Or.inl ⟨hty, rfl⟩⟩
  | @scanT i st t tok hst hty hn htt htok hm ih =>
    obtain ⟨col, hc, hmem⟩ := ih
    exact hnext hst hc hmem ⟨t, tok, hn, htok, Or.inr ⟨hty, htt, hm, rfl⟩⟩
  | @comp k i st s t hst hs hc hk hn hm ih1 ih2 =>
    obtain ⟨col1, hc1, hm1⟩ := ih1
    obtain ⟨col, hc2, hm2⟩ := ih2
    refine ⟨col, hc2, ?_⟩
    rcases Nat.lt_or_ge s.start i with hlt | hge
    · refine hcur hs hc2 hm2 (Or.inl ⟨hc, st, ?_, t, hn, hm, rfl⟩)
      rw [if_pos hlt, List.getD_eq_getElem?_getD, List.getElem?_take, if_pos hlt, hk, hc1]
      exact hm1
    · have heq : s.start = i := Nat.le_antisymm (hs.basic hwf).start hge
      have : k = i := hk.symm.trans heq
      subst this
      rw [hc1] at hc2; cases hc2
      exact hec k col1 hc1 s hm2 hc heq st hm1 _ ⟨t, hn, hm, rfl⟩

/-- conversely a chart containing every item is closed -/
theorem emptyClosed_of {env : Env} (ho : env.OrdOK) {fuel chart}
    (h : chartOf env fuel = some chart)
    (hall : ∀ i s, Item env i s → ∃ col, chart[i]? = some col ∧ s ∈ col) : EmptyClosed chart := by
  obtain ⟨hinv, _⟩ := chartOf_inv ho h
  intro i col hc s hs hcomp hst st hm x hx
  obtain ⟨t, hn, hcm, rfl⟩ := hx
  obtain ⟨col', hc', hx⟩ := hall i _
    (Item.comp (hinv i col hc st hm) (hinv i col hc s hs) hcomp hst hn hcm)
  rw [hc] at hc'; cases hc'; exact hx

/-- nothing in the relaxed language derives the empty sequence -/
theorem NoEmpty.yields {env : Env} (hne : NoEmpty env) {ts w}
    (h : Yields env.relaxedLang ts w) : w = [] → ts = [] := by
  induction h with
  | nil => intro _; rfl
  | terminal _ _ _ _ => intro h; simp at h
  | nonterminal h1 h2 _ _ ih1 _ =>
    intro h
    simp at h
    obtain ⟨rb, hd, rfl⟩ := h2
    exact absurd (ih1 h.1) (hne.1 _ _ hd)
  | any h1 h2 _ ih =>
    intro h
    simp at h
    obtain ⟨t', ho, ht', hcnt⟩ := h2
    rw [h.1] at hcnt
    exact absurd hcnt (hne.2 t' ho (Or.inl ht'))
  | list h1 h2 _ _ ih1 _ =>
    intro h
    simp at h
    obtain ⟨t', ho, ht', _, hcnt⟩ := h2
    have := congrArg List.length (ih1 h.1)
    simp at this
    subst this
    exact absurd hcnt (hne.2 t' ho (Or.inr ht'))

end Fmr
