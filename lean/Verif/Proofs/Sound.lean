import Verif.Proofs.Chart

/-!
# Items are sound for the relaxed language; under uniform bounds this is the intended language
-/

namespace Fmr

/-- tokens number `a` (inclusive) to `b` (exclusive) -/
def Env.slice (env : Env) (a b : Nat) : List Token := (env.tokens.take b).drop a

theorem slice_append (env : Env) {a b c : Nat} (hab : a ≤ b) (hbc : b ≤ c) :
    env.slice a b ++ env.slice b c = env.slice a c := by
  unfold Env.slice
  have h1 : env.tokens.take b = (env.tokens.take c).take b := by
    rw [List.take_take, Nat.min_eq_left hbc]
  rw [h1]
  generalize env.tokens.take c = l
  rw [List.drop_take]
  conv => rhs; rw [← List.take_append_drop (b - a) (l.drop a)]
  rw [List.drop_drop]
  congr 2
  omega

@[simp] theorem slice_self (env : Env) (a : Nat) : env.slice a a = [] := by
  unfold Env.slice; simp

theorem slice_length (env : Env) {a b : Nat} (hb : b ≤ env.tokens.length) :
    (env.slice a b).length = b - a := by
  unfold Env.slice; simp; omega

theorem slice_succ (env : Env) {a b : Nat} {tok : Token} (hab : a ≤ b)
    (h : env.tokens[b]? = some tok) : env.slice a (b+1) = env.slice a b ++ [tok] := by
  have hlt := (List.getElem?_eq_some_iff.1 h).1
  rw [← slice_append env hab (Nat.le_succ b)]
  congr 1
  unfold Env.slice
  rw [List.take_add_one, h, List.drop_append, List.drop_of_length_le (by simp; omega)]
  have : b - (env.tokens.take b).length = 0 := by simp; omega
  rw [this]; simp

theorem slice_zero (env : Env) (b : Nat) : env.slice 0 b = env.tokens.take b := by
  simp [Env.slice]

theorem Yields.append {L : Lang} {ts : List Term} {w : List Token} (h : Yields L ts w)
    {ts' : List Term} {w' : List Token} (h' : Yields L ts' w') : Yields L (ts ++ ts') (w ++ w') := by
  induction h with
  | nil => simpa using h'
  | terminal h1 h2 _ ih => exact Yields.terminal h1 h2 ih
  | nonterminal h1 h2 h3 _ _ ih => rw [List.append_assoc]; exact Yields.nonterminal h1 h2 h3 ih
  | any h1 h2 _ ih => rw [List.append_assoc]; exact Yields.any h1 h2 ih
  | list h1 h2 h3 _ _ ih => rw [List.append_assoc]; exact Yields.list h1 h2 h3 ih

theorem Yields.any_one {L : Lang} {t : Term} {u} (h1 : t.type = .any) (h2 : L.okAny t.meta u.length) :
    Yields L [t] u := by
  simpa using Yields.any h1 h2 Yields.nil
theorem Yields.nonterminal_one {L : Lang} {t : Term} {body u} (h1 : t.type = .nonterminal)
    (h2 : L.prods t.value body) (h3 : Yields L body u) : Yields L [t] u := by
  simpa using Yields.nonterminal h1 h2 h3 Yields.nil
theorem Yields.list_one {L : Lang} {t : Term} {n u} (h1 : t.type = .list)
    (h2 : L.okList t.value t.meta n)
    (h3 : Yields L (List.replicate n { value := t.value, type := .nonterminal, «meta» := .nil }) u) :
    Yields L [t] u := by
  simpa using Yields.list h1 h2 h3 Yields.nil

/-- `isCompleted` of an any/list state is the count condition -/
theorem completed_any_list {s : TState} (h : s.term.type = .any ∨ s.term.type = .list) :
    s.isCompleted = true ↔ okCount s.term.meta s.dot := by
  have : s.isCompleted = if !s.metaEmpty then
      match s.term.meta with
      | .range min max => decide (min ≤ (s.dot : Int)) && decide ((s.dot : Int) ≤ max)
      | _ => false
    else decide (s.dot > 0) := by
    unfold TState.isCompleted
    rcases h with h | h <;> (simp only [h]; rfl)
  rw [this]
  unfold TState.metaEmpty
  cases s.term.meta <;> simp [okCount]
  omega

/-- soundness statement for one item -/
structure Item.Sound (env : Env) (i : Nat) (s : TState) : Prop where
  nt : s.term.type = .nonterminal → ∃ rb, s.rb = some rb ∧
    Yields env.relaxedLang (rb.terms.take s.dot) (env.slice s.start i)
  list : s.term.type = .list →
    Yields env.relaxedLang
      (List.replicate s.dot { value := s.term.value, type := .nonterminal, «meta» := .nil })
      (env.slice s.start i)

/-- a nonterminal that is waited for is not the internal start symbol -/
theorem Item.Basic.next_ne_gamma {env : Env} (hwf : env.WF) {i s t} (h : Item.Basic env i s)
    (hn : s.getNextTerm = some t) (ht : t.type = .nonterminal) : t.value ≠ gammaRule := by
  rcases h.kind with hk | hk | hk
  · obtain ⟨rb, _, _, hocc | ⟨S, hS, rfl⟩⟩ := h.next_mem hk hn
    · exact hwf.noGamma.2.1 t hocc (by simp [ht])
    · intro heq; simp only at heq; subst heq; exact hwf.noGamma.2.2 hS
  · rw [next_any hk hn, hk] at ht; simp at ht
  · obtain ⟨rfl, _⟩ := next_list hk hn
    obtain ⟨_, t', hocc, htt, hv, _⟩ := h.list hk
    simp only
    rw [← hv]; exact hwf.noGamma.2.1 t' hocc (by simp [htt])

theorem completes_cases {t : Term} {s : TState} (h : completes t s = true) :
    (t.type = .any ∧ s.term.type = .any) ∨ (t.type = s.term.type ∧ t.value = s.term.value) := by
  unfold completes at h
  simp at h
  exact h

/-- a completed item that was waited for: what the waiting term derives -/
theorem completed_yields {env : Env} (hwf : env.WF) {k i : Nat} {st s : TState} {t : Term}
    (hst : Item.Basic env k st) (hs : Item.Basic env i s) (hss : Item.Sound env i s)
    (hc : s.isCompleted = true) (hk : s.start = k) (hn : st.getNextTerm = some t)
    (hm : completes t s = true) :
    (t.type = .any ∨ t.type = .nonterminal ∨ t.type = .list) ∧
    ∀ m, Yields env.relaxedLang [{ value := t.value, type := t.type, «meta» := m }] (env.slice k i) := by
  rcases hs.kind with hkd | hkd | hkd
  · -- nonterminal
    rcases completes_cases hm with ⟨_, h⟩ | ⟨h1, h2⟩
    · simp [hkd] at h
    rw [hkd] at h1
    refine ⟨by simp [h1], fun m => ?_⟩
    obtain ⟨rb, hrb, hy⟩ := hss.nt hkd
    obtain ⟨rb', hrb', hle, hdef⟩ := hs.nt hkd
    have : rb' = rb := by rw [hrb] at hrb'; exact (Option.some.inj hrb').symm
    subst this
    have hlen : rb'.terms.length ≤ s.dot := by
      have := (completed_nt (by simp [hkd]) (by simp [hkd])).1 hc
      simpa [TState.bodyTerms, hrb] using this
    rw [List.take_of_length_le hlen, hk] at hy
    rcases hdef with hdef | ⟨S, _, hg, _⟩
    · exact Yields.nonterminal_one h1 ⟨rb', by simpa [h2] using hdef, rfl⟩ hy
    · exact absurd (h2.trans hg) (hst.next_ne_gamma hwf hn h1)
  · -- any
    have h1 : t.type = .any := by
      rcases completes_cases hm with ⟨h, _⟩ | ⟨h1, _⟩
      · exact h
      · rw [h1, hkd]
    refine ⟨by simp [h1], fun m => ?_⟩
    obtain ⟨_, hdot, t', hocc, ht', hmeta, _⟩ := hs.any hkd
    have hcnt := (completed_any_list (Or.inl hkd)).1 hc
    refine Yields.any_one h1 ⟨t', hocc, ht', ?_⟩
    rw [slice_length env hs.bound, hmeta, ← hk, ← hdot]
    exact hcnt
  · -- list
    rcases completes_cases hm with ⟨_, h⟩ | ⟨h1, h2⟩
    · simp [hkd] at h
    rw [hkd] at h1
    refine ⟨by simp [h1], fun m => ?_⟩
    obtain ⟨_, t', hocc, ht', hv, hmeta⟩ := hs.list hkd
    have hcnt := (completed_any_list (Or.inr hkd)).1 hc
    refine Yields.list_one h1 (n := s.dot) ⟨t', hocc, ht', by rw [hv, h2], by rw [hmeta]; exact hcnt⟩ ?_
    have := hss.list hkd
    simp only [h2]
    rw [← hk]; exact this

theorem take_succ_of_get {α : Type} {l : List α} {d : Nat} {t : α} (h : l[d]? = some t) :
    l.take (d+1) = l.take d ++ [t] := by
  rw [List.take_add_one, h]; rfl

theorem Item.sound {env : Env} (hwf : env.WF) {i : Nat} {s : TState} (h : Item env i s) :
    Item.Sound env i s := by
  induction h with
  | @init S hS =>
    refine ⟨fun _ => ⟨_, rfl, ?_⟩, by simp [gammaState]⟩
    simp [gammaState]; exact Yields.nil
  | @predNT i st t g r rb hst hty hn htt hg hr hrb ih =>
    refine ⟨fun _ => ⟨rb, by simp [predicted], ?_⟩, by simp [predicted]⟩
    rw [placed_dot (by simp [predicted])]
    simp [predicted]; exact Yields.nil
  | @predAL i st t hst hty hn htt ih =>
    refine ⟨?_, ?_⟩
    · intro h; simp [predictedSpecial] at h; simp [h] at htt
    · intro h
      rw [placed_dot (by simp at h; simp [h])]
      simp [predictedSpecial]; exact Yields.nil
  | @scanAny i st t hst hty hn hlt ih =>
    exact ⟨by simp [scannedAny], by simp [scannedAny]⟩
  | @scanT i st t tok hst hty hn htt htok hm ih =>
    have hb := hst.basic hwf
    have hk : st.term.type = .nonterminal := by
      rcases hb.kind with h | h | h
      · exact h
      · exact absurd h hty
      · obtain ⟨rfl, _⟩ := next_list h hn; simp at htt
    obtain ⟨rb, hrb, hget, hocc⟩ := hb.next_mem hk hn
    obtain ⟨rb', hrb', hy⟩ := ih.nt hk
    have : rb' = rb := by rw [hrb] at hrb'; exact (Option.some.inj hrb').symm
    subst this
    refine ⟨fun _ => ⟨rb', by simp [scannedTerm, hrb], ?_⟩, by simp [scannedTerm, hk]⟩
    rw [placed_dot (by simp [scannedTerm, hk])]
    simp only [scannedTerm, placed_start]
    rw [take_succ_of_get hget, slice_succ env hb.start htok]
    exact hy.append (Yields.terminal htt hm Yields.nil)
  | @comp k i st s t hst hs hc hk hn hm ih1 ih2 =>
    have hb := hst.basic hwf
    have hbs := hs.basic hwf
    obtain ⟨hty, hyt⟩ := completed_yields hwf hb hbs ih2 hc hk hn hm
    have hsl : env.slice st.start k ++ env.slice k i = env.slice st.start i :=
      slice_append env hb.start (by rw [← hk]; exact hbs.start)
    rcases hb.kind with h | h | h
    · obtain ⟨rb, hrb, hget, hocc⟩ := hb.next_mem h hn
      obtain ⟨rb', hrb', hy⟩ := ih1.nt h
      have : rb' = rb := by rw [hrb] at hrb'; exact (Option.some.inj hrb').symm
      subst this
      refine ⟨fun _ => ⟨rb', by simp [advanced, hrb], ?_⟩, by simp [advanced, h]⟩
      rw [placed_dot (by simp [advanced, h])]
      simp only [advanced, placed_start]
      rw [take_succ_of_get hget, ← hsl]
      exact hy.append (hyt t.meta)
    · exact ⟨by simp [advanced, h], by simp [advanced, h]⟩
    · refine ⟨by simp [advanced, h], fun _ => ?_⟩
      rw [placed_dot (by simp [advanced, h])]
      simp only [advanced, placed_start, placed_term]
      rw [List.replicate_succ', ← hsl]
      obtain ⟨rfl, _⟩ := next_list h hn
      exact (ih1.list h).append (hyt _)

/-- under uniform bounds the relaxed language is the intended one -/
theorem Yields.strict {env : Env} (hu : UniformBounds env) {ts : List Term} {w : List Token}
    (h : Yields env.relaxedLang ts w)
    (hocc : ∀ t ∈ ts, t.type = .any ∨ t.type = .list → env.Occurs t) : Yields env.lang ts w := by
  induction h with
  | nil => exact Yields.nil
  | terminal h1 h2 _ ih => exact Yields.terminal h1 h2 (ih (fun t ht => hocc t (by simp [ht])))
  | nonterminal h1 h2 _ _ ih1 ih2 =>
    refine Yields.nonterminal h1 h2 (ih1 ?_) (ih2 (fun t ht => hocc t (by simp [ht])))
    intro t' ht' _
    obtain ⟨rb, hd, rfl⟩ := h2
    exact ⟨_, rb, hd, ht'⟩
  | any h1 h2 _ ih =>
    obtain ⟨t', ho, ht', hcnt⟩ := h2
    have := hu.1 _ t' (hocc _ (by simp) (Or.inl h1)) ho h1 ht'
    refine Yields.any h1 ?_ (ih (fun t ht => hocc t (by simp [ht])))
    show okCount _ _
    rw [this]; exact hcnt
  | list h1 h2 _ _ ih1 ih2 =>
    obtain ⟨t', ho, ht', hv, hcnt⟩ := h2
    have := hu.2 _ t' (hocc _ (by simp) (Or.inr h1)) ho h1 ht' hv.symm
    refine Yields.list h1 ?_ (ih1 ?_) (ih2 (fun t ht => hocc t (by simp [ht])))
    · show okCount _ _
      rw [this]; exact hcnt
    · intro t ht htt
      rw [List.eq_of_mem_replicate ht] at htt
      simp at htt

/-- the intended language is contained in the relaxed one -/
theorem Yields.relax {env : Env} {ts : List Term} {w : List Token}
    (h : Yields env.lang ts w)
    (hocc : ∀ t ∈ ts, t.type = .any ∨ t.type = .list → env.Occurs t) :
    Yields env.relaxedLang ts w := by
  induction h with
  | nil => exact Yields.nil
  | terminal h1 h2 _ ih => exact Yields.terminal h1 h2 (ih (fun t ht => hocc t (by simp [ht])))
  | nonterminal h1 h2 _ _ ih1 ih2 =>
    refine Yields.nonterminal h1 h2 (ih1 ?_) (ih2 (fun t ht => hocc t (by simp [ht])))
    intro t' ht' _
    obtain ⟨rb, hd, rfl⟩ := h2
    exact ⟨_, rb, hd, ht'⟩
  | any h1 h2 _ ih =>
    exact Yields.any h1 ⟨_, hocc _ (by simp) (Or.inl h1), h1, h2⟩
      (ih (fun t ht => hocc t (by simp [ht])))
  | list h1 h2 _ _ ih1 ih2 =>
    refine Yields.list h1 ⟨_, hocc _ (by simp) (Or.inr h1), h1, rfl, h2⟩ (ih1 ?_)
      (ih2 (fun t ht => hocc t (by simp [ht])))
    intro t ht htt
    rw [List.eq_of_mem_replicate ht] at htt
    simp at htt

/-- a completed start item: which start rule, and what it derives -/
theorem Item.final {env : Env} (hwf : env.WF) {i : Nat} {s : TState} (h : Item env i s)
    (hf : s.isFinal = true) : ∃ S ∈ env.starts, s.start = 0 ∧ s.dot = 1 ∧
      s.rb = (gammaState S).rb ∧ DerivesRelaxed env S (env.tokens.take i) := by
  have hb := h.basic hwf
  have hs := h.sound hwf
  unfold TState.isFinal at hf
  simp at hf
  have hk : s.term.type = .nonterminal := by
    rcases hb.kind with hk | hk | hk
    · exact hk
    · obtain ⟨_, _, t, hocc, ht, _, hv | hv⟩ := hb.any hk
      · exact absurd (hv.symm.trans hf.1) (hwf.noGamma.2.1 t hocc (by simp [ht]))
      · rw [hv] at hf; exact absurd hf.1 (by decide)
    · obtain ⟨_, t, hocc, ht, hv, _⟩ := hb.list hk
      exact absurd (hv.trans hf.1) (hwf.noGamma.2.1 t hocc (by simp [ht]))
  obtain ⟨rb, hrb, hle, hdef⟩ := hb.nt hk
  rcases hdef with hdef | ⟨S, hS, hg, h0, hg2⟩
  · exact absurd hf.1 (hwf.noGamma.1 _ _ hdef)
  · have hrbe : rb = { terms := [{ value := S, type := .nonterminal, «meta» := .nil }],
                        f := some (.mk "nf.I" [.mk "index" (.int 1)]) } := by
      rw [hrb] at hg2; exact Option.some.inj hg2
    have hd : s.dot = 1 := by
      have := (completed_nt (by simp [hk]) (by simp [hk])).1 hf.2
      simp [TState.bodyTerms, hrb, hrbe] at this hle
      omega
    refine ⟨S, hS, h0, hd, hg2, ?_⟩
    obtain ⟨rb', hrb', hy⟩ := hs.nt hk
    have : rb' = rb := by rw [hrb] at hrb'; exact (Option.some.inj hrb').symm
    subst this
    rw [hd, h0, slice_zero, hrbe] at hy
    exact hy

end Fmr
