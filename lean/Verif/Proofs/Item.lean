import Verif.Proofs.Equal
import Verif.Spec.Lang

/-!
# The Earley deduction system, and the chart computed by the loop

`Item env i s`: state `s` belongs to column `i` of the *saturated* chart.
-/

namespace Fmr

theorem RuleBody.equal_eq {a b : RuleBody} (ha : a.WF) (hb : b.WF) (h : a.equal b = true) :
    a = b := by
  obtain ⟨at', af⟩ := a
  obtain ⟨bt, bf⟩ := b
  unfold RuleBody.equal at h
  split at h
  · simp at h
  rename_i hl
  split at h
  · simp at h
  rename_i ht
  simp only [Bool.not_eq_false] at ht
  have h1 : at' = bt := termsEqual_eq (by simp at hl; exact hl.symm) ht
  have h2 : af = bf := by
    cases af <;> cases bf <;> simp_all [FMR.equalPtr]
    exact fmrEqual_eq (ha.2 _ rfl) (hb.2 _ rfl) h
  rw [h1, h2]

theorem RuleBody.equal_refl {a : RuleBody} (ha : a.WF) : a.equal a = true := by
  unfold RuleBody.equal
  simp only [ne_eq, not_true_eq_false, ite_false, termsEqual_refl ha.1]
  simp
  cases h : a.f with
  | none => simp [FMR.equalPtr]
  | some f => simp [FMR.equalPtr]; exact fmrEqual_refl (ha.2 _ h)

/-- well-formed chart states -/
def TState.WF (s : TState) : Prop := s.term.WF ∧ ∀ rb, s.rb = some rb → rb.WF

theorem TState.equal_eq {s t : TState} (hs : s.WF) (ht : t.WF) (h : s.equal t = true) : s = t := by
  obtain ⟨st, srb, ss, se, sd⟩ := s
  obtain ⟨tt, trb, ts, te, td⟩ := t
  unfold TState.equal at h
  split at h
  · simp at h
  rename_i hh
  simp at hh
  obtain ⟨⟨⟨h1, h2⟩, h3⟩, h4⟩ := hh
  have h5 := Term.equal_eq h
  have h6 : srb = trb := by
    cases srb <;> cases trb <;> simp_all [RuleBody.equalPtr]
    exact RuleBody.equal_eq (hs.2 _ rfl) (ht.2 _ rfl) h4
  simp_all

theorem TState.equal_refl {s : TState} (hs : s.WF) : s.equal s = true := by
  unfold TState.equal
  have h1 : RuleBody.equalPtr s.rb s.rb = true := by
    cases h : s.rb with
    | none => rfl
    | some rb => simp [RuleBody.equalPtr]; exact RuleBody.equal_refl (hs.2 _ h)
  simp [h1, Term.equal_iff hs.1]

/-! ## insert -/

theorem insert_eq (idx : Nat) (states : List TState) (st : TState) :
    insert idx states st =
      if states.any (fun s => s.equal (st.placed idx)) then states
      else states ++ [st.placed idx] := by
  unfold insert insertToEnd
  simp only
  cases h : states.findIdx? (fun s => s.equal (st.placed idx)) with
  | none =>
    simp only
    rw [List.findIdx?_eq_none_iff] at h
    have : states.any (fun s => s.equal (st.placed idx)) = false := by
      simp only [List.any_eq_false]
      intro x hx
      simp [h x hx]
    simp [this]
  | some i =>
    have hi := h
    rw [List.findIdx?_eq_some_iff_getElem] at h
    obtain ⟨hlt, he, _⟩ := h
    have : states.any (fun s => s.equal (st.placed idx)) = true := by
      simp only [List.any_eq_true]
      exact ⟨states[i], List.getElem_mem _, he⟩
    simp [this, hlt]

theorem insert_prefix (idx : Nat) (states : List TState) (st : TState) :
    states <+: insert idx states st := by
  rw [insert_eq]; split
  · exact List.prefix_rfl
  · exact List.prefix_append _ _

theorem mem_insert {idx : Nat} {states : List TState} {st x : TState}
    (h : x ∈ insert idx states st) : x ∈ states ∨ x = st.placed idx := by
  rw [insert_eq] at h
  split at h
  · exact Or.inl h
  · simpa using h

theorem insert_self {idx : Nat} {states : List TState} {st : TState}
    (hs : ∀ s ∈ states, s.WF) (hp : (st.placed idx).WF) : st.placed idx ∈ insert idx states st := by
  rw [insert_eq]
  split
  · rename_i h
    simp only [List.any_eq_true] at h
    obtain ⟨s, hs1, hs2⟩ := h
    rw [← TState.equal_eq (hs s hs1) hp hs2]; exact hs1
  · simp

@[simp] theorem placed_stop (idx : Nat) (st : TState) : (st.placed idx).stop = idx := by
  unfold TState.placed; simp only; split <;> rfl
@[simp] theorem placed_start (idx : Nat) (st : TState) : (st.placed idx).start = st.start := by
  unfold TState.placed; simp only; split <;> rfl
@[simp] theorem placed_term (idx : Nat) (st : TState) : (st.placed idx).term = st.term := by
  unfold TState.placed; simp only; split <;> rfl
@[simp] theorem placed_rb (idx : Nat) (st : TState) : (st.placed idx).rb = st.rb := by
  unfold TState.placed; simp only; split <;> rfl
theorem placed_dot_any {idx : Nat} {st : TState} (h : st.term.type = .any) :
    (st.placed idx).dot = idx - st.start := by
  unfold TState.placed; simp [h]
theorem placed_dot {idx : Nat} {st : TState} (h : st.term.type ≠ .any) :
    (st.placed idx).dot = st.dot := by
  unfold TState.placed; simp [h]

/-- The state inserted for a predicted `(any)`/`(list)` term. -/
def predictedSpecial (t : Term) (idx : Nat) : TState :=
  { term := t, rb := none, start := idx, stop := 0, dot := 0 }

/-- The state inserted by scanning one token into an `(any)` state. -/
def scannedAny (st : TState) (t : Term) : TState :=
  { term := { value := "any", type := .any, «meta» := t.meta }, rb := st.rb,
    start := st.start, stop := 0, dot := st.dot + 1 }

/-- The state inserted by scanning a terminal. -/
def scannedTerm (st : TState) : TState :=
  { term := st.term, rb := st.rb, start := st.start, stop := 0, dot := st.dot + 1 }

/-- The Earley deduction system. -/
inductive Item (env : Env) : Nat → TState → Prop
  | init {s} : s ∈ env.starts → Item env 0 (gammaState s)
  | predNT {i st t g r rb} : Item env i st → st.term.type ≠ .any → st.getNextTerm = some t →
      t.type = .nonterminal → g ∈ env.grammars → lookupRule g t.value = some r → rb ∈ r.bodies →
      Item env i ((predicted r.name rb i).placed i)
  | predAL {i st t} : Item env i st → st.term.type ≠ .any → st.getNextTerm = some t →
      t.type = .any ∨ t.type = .list → Item env i ((predictedSpecial t i).placed i)
  | scanAny {i st t} : Item env i st → st.term.type = .any → st.getNextTerm = some t →
      i < env.tokens.length → Item env (i+1) ((scannedAny st t).placed (i+1))
  | scanT {i st t tok} : Item env i st → st.term.type ≠ .any → st.getNextTerm = some t →
      t.type = .terminal → env.tokens[i]? = some tok → env.tmatch t tok = true →
      Item env (i+1) ((scannedTerm st).placed (i+1))
  | comp {k i st s t} : Item env k st → Item env i s → s.isCompleted = true → s.start = k →
      st.getNextTerm = some t → completes t s = true → Item env i ((advanced st t).placed i)

/-- for a state whose type is `any`, the next term, if there is one, is its own term -/
theorem next_any {st : TState} {t : Term} (h : st.term.type = .any)
    (hn : st.getNextTerm = some t) : t = st.term := by
  unfold TState.getNextTerm at hn
  rw [h] at hn
  simp only at hn
  split at hn <;> simp_all

theorem next_list {st : TState} {t : Term} (h : st.term.type = .list)
    (hn : st.getNextTerm = some t) :
    t = { value := st.term.value, type := .nonterminal, «meta» := st.term.meta } ∧
      st.maxReached = false := by
  unfold TState.getNextTerm at hn
  rw [h] at hn
  simp only at hn
  split at hn <;> simp_all

theorem next_nt {st : TState} {t : Term} (h1 : st.term.type ≠ .any) (h2 : st.term.type ≠ .list)
    (hn : st.getNextTerm = some t) : st.bodyTerms[st.dot]? = some t := by
  unfold TState.getNextTerm at hn
  split at hn <;> simp_all

theorem completed_nt {st : TState} (h1 : st.term.type ≠ .any) (h2 : st.term.type ≠ .list) :
    st.isCompleted = true ↔ st.bodyTerms.length ≤ st.dot := by
  unfold TState.isCompleted
  split <;> simp_all

theorem next_nt_of {st : TState} {t : Term} (h1 : st.term.type ≠ .any) (h2 : st.term.type ≠ .list)
    (hn : st.bodyTerms[st.dot]? = some t) : st.getNextTerm = some t := by
  have hc : st.isCompleted = false := by
    rw [← Bool.not_eq_true, completed_nt h1 h2]
    have := (List.getElem?_eq_some_iff.1 hn).1
    omega
  unfold TState.getNextTerm
  split <;> simp_all

/-- Basic facts about items: the states built by the parser. -/
structure Item.Basic (env : Env) (i : Nat) (s : TState) : Prop where
  stop : s.stop = i
  start : s.start ≤ i
  bound : i ≤ env.tokens.length
  wf : s.WF
  kind : s.term.type = .nonterminal ∨ s.term.type = .any ∨ s.term.type = .list
  /-- nonterminal states carry a body of that nonterminal, or the start body -/
  nt : s.term.type = .nonterminal → ∃ rb, s.rb = some rb ∧ s.dot ≤ rb.terms.length ∧
    (env.Defines s.term.value rb ∨
      ∃ S ∈ env.starts, s.term.value = gammaRule ∧ s.start = 0 ∧ s.rb = (gammaState S).rb)
  any : s.term.type = .any → s.rb = none ∧ s.dot = i - s.start ∧
    ∃ t, env.Occurs t ∧ t.type = .any ∧ t.meta = s.term.meta ∧
      (s.term.value = t.value ∨ s.term.value = "any")
  list : s.term.type = .list → s.rb = none ∧
    ∃ t, env.Occurs t ∧ t.type = .list ∧ t.value = s.term.value ∧ t.meta = s.term.meta

theorem gammaRb_wf (S : String) : ∀ rb, (gammaState S).rb = some rb → rb.WF := by
  intro rb h
  simp [gammaState] at h
  subst h
  constructor
  · intro t ht; simp at ht; subst ht; simp [Term.WF, Meta.WF]
  · intro f hf; simp at hf; subst hf; simp [FMR.WF, argsWF, Arg.WF, Val.WFFor]

/-- the next term of a nonterminal item occurs in its body -/
theorem Item.Basic.next_mem {env : Env} {i s t} (h : Item.Basic env i s)
    (hk : s.term.type = .nonterminal) (hn : s.getNextTerm = some t) :
    ∃ rb, s.rb = some rb ∧ rb.terms[s.dot]? = some t ∧
      (env.Occurs t ∨ ∃ S ∈ env.starts, t = { value := S, type := .nonterminal, «meta» := .nil }) := by
  obtain ⟨rb, hrb, hd, hdef⟩ := h.nt hk
  have h1 := next_nt (by simp [hk]) (by simp [hk]) hn
  have h2 : rb.terms[s.dot]? = some t := by simpa [TState.bodyTerms, hrb] using h1
  refine ⟨rb, hrb, h2, ?_⟩
  rcases hdef with hdef | ⟨S, hS, _, _, hg⟩
  · exact Or.inl ⟨_, rb, hdef, List.mem_of_getElem? h2⟩
  · right
    refine ⟨S, hS, ?_⟩
    rw [hrb] at hg
    simp [gammaState] at hg
    subst hg
    have := List.mem_of_getElem? h2
    simpa using this

theorem Occurs.wf {env : Env} (hwf : env.WF) {t : Term} (h : env.Occurs t) : t.WF := by
  obtain ⟨A, rb, hd, ht⟩ := h
  exact (hwf.bodies A rb hd).1 t ht

theorem Item.basic {env : Env} (hwf : env.WF) {i : Nat} {s : TState} (h : Item env i s) :
    Item.Basic env i s := by
  induction h with
  | @init S hS =>
    exact
      { stop := rfl, start := Nat.zero_le _, bound := Nat.zero_le _,
        wf := ⟨by simp [gammaState, Term.WF, Meta.WF], gammaRb_wf S⟩,
        kind := Or.inl rfl,
        nt := fun _ => ⟨_, rfl, Nat.zero_le _, Or.inr ⟨S, hS, rfl, rfl, rfl⟩⟩,
        any := by simp [gammaState], list := by simp [gammaState] }
  | @predNT i st t g r rb hst hty hn htt hg hr hrb ih =>
    have hname := hwf.named g hg _ _ hr
    have hdef : env.Defines t.value rb := ⟨g, hg, r, hr, hrb⟩
    exact
      { stop := by simp, start := by simp [predicted], bound := ih.bound,
        wf := by
          refine ⟨by simp [predicted, Term.WF, Meta.WF], ?_⟩
          intro rb' h'; simp [predicted] at h'; subst h'
          exact hwf.bodies _ _ hdef
        kind := by simp [predicted]
        nt := by
          intro _
          refine ⟨rb, by simp [predicted], ?_, Or.inl ?_⟩
          · rw [placed_dot (by simp [predicted])]; simp [predicted]
          · simpa [predicted, hname] using hdef
        any := by simp [predicted], list := by simp [predicted] }
  | @predAL i st t hst hty hn htt ih =>
    have hk : st.term.type = .nonterminal := by
      rcases ih.kind with h | h | h
      · exact h
      · exact absurd h hty
      · obtain ⟨rfl, _⟩ := next_list h hn; simp at htt
    obtain ⟨rb, hrb, hget, hocc⟩ := ih.next_mem hk hn
    have hocc : env.Occurs t := by
      rcases hocc with h | ⟨S, _, rfl⟩
      · exact h
      · simp at htt
    exact
      { stop := by simp, start := by simp [predictedSpecial], bound := ih.bound,
        wf := ⟨by simpa [predictedSpecial] using Occurs.wf hwf hocc, by simp [predictedSpecial]⟩,
        kind := by simp [predictedSpecial]; rcases htt with h | h <;> simp [h]
        nt := by intro h; simp [predictedSpecial] at h; rcases htt with h' | h' <;> simp_all
        any := by
          intro h
          refine ⟨by simp [predictedSpecial], ?_, ?_⟩
          · rw [placed_dot_any (by simpa [predictedSpecial] using h)]; simp
          · simp [predictedSpecial] at h
            exact ⟨t, hocc, h, by simp [predictedSpecial], Or.inl (by simp [predictedSpecial])⟩
        list := by
          intro h
          refine ⟨by simp [predictedSpecial], ?_⟩
          simp [predictedSpecial] at h
          exact ⟨t, hocc, h, by simp [predictedSpecial], by simp [predictedSpecial]⟩ }
  | @scanAny i st t hst hty hn hlt ih =>
    have ht := next_any hty hn
    subst ht
    obtain ⟨hrb, hdot, hocc⟩ := ih.any hty
    exact
      { stop := by simp, start := by simp [scannedAny]; have := ih.start; omega, bound := hlt,
        wf := ⟨by simpa [scannedAny, Term.WF] using ih.wf.1, by simp [scannedAny, hrb]⟩,
        kind := by simp [scannedAny]
        nt := by simp [scannedAny]
        any := by
          intro _
          refine ⟨by simp [scannedAny, hrb], ?_, ?_⟩
          · rw [placed_dot_any (by simp [scannedAny])]; simp
          · obtain ⟨t, h1, h2, h3, _⟩ := hocc
            exact ⟨t, h1, h2, by simpa [scannedAny] using h3, Or.inr (by simp [scannedAny])⟩
        list := by simp [scannedAny] }
  | @scanT i st t tok hst hty hn htt htok hm ih =>
    have hk : st.term.type = .nonterminal := by
      rcases ih.kind with h | h | h
      · exact h
      · exact absurd h hty
      · obtain ⟨rfl, _⟩ := next_list h hn; simp at htt
    obtain ⟨rb, hrb, hget, hocc⟩ := ih.next_mem hk hn
    obtain ⟨rb', hrb', _, hdef⟩ := ih.nt hk
    have := (List.getElem?_eq_some_iff.1 hget).1
    have hb := (List.getElem?_eq_some_iff.1 htok).1
    exact
      { stop := by simp, start := by simp [scannedTerm]; have := ih.start; omega, bound := hb,
        wf := ⟨by simpa [scannedTerm, Term.WF] using ih.wf.1, by simpa [scannedTerm] using ih.wf.2⟩,
        kind := by simp [scannedTerm, hk]
        nt := by
          intro _
          refine ⟨rb, by simp [scannedTerm, hrb], ?_, ?_⟩
          · rw [placed_dot (by simp [scannedTerm, hk])]; simp [scannedTerm]; omega
          · have : rb' = rb := by rw [hrb] at hrb'; exact (Option.some.inj hrb').symm
            subst this
            simpa [scannedTerm] using hdef
        any := by simp [scannedTerm, hk]
        list := by simp [scannedTerm, hk] }
  | @comp k i st s t hst hs hc hk hn hm ih1 ih2 =>
    have hstart : st.start ≤ i := by have := ih1.start; have := ih2.start; omega
    rcases ih1.kind with h | h | h
    · -- nonterminal
      obtain ⟨rb, hrb, hget, hocc⟩ := ih1.next_mem h hn
      obtain ⟨rb', hrb', _, hdef⟩ := ih1.nt h
      have hlt := (List.getElem?_eq_some_iff.1 hget).1
      exact
        { stop := by simp, start := by simpa [advanced] using hstart, bound := ih2.bound,
          wf := by
            refine ⟨?_, by simpa [advanced] using ih1.wf.2⟩
            simp [advanced, Term.WF]
            rcases hocc with hocc | ⟨S, _, rfl⟩
            · exact Occurs.wf hwf hocc
            · simp [Meta.WF]
          kind := by simp [advanced, h]
          nt := by
            intro _
            refine ⟨rb, by simp [advanced, hrb], ?_, ?_⟩
            · rw [placed_dot (by simp [advanced, h])]; simp [advanced]; omega
            · have : rb' = rb := by rw [hrb] at hrb'; exact (Option.some.inj hrb').symm
              subst this
              simpa [advanced] using hdef
          any := by simp [advanced, h]
          list := by simp [advanced, h] }
    · -- any
      have ht := next_any h hn
      subst ht
      obtain ⟨hrb, hdot, hocc⟩ := ih1.any h
      exact
        { stop := by simp, start := by simpa [advanced] using hstart, bound := ih2.bound,
          wf := ⟨by simpa [advanced, Term.WF] using ih1.wf.1, by simp [advanced, hrb]⟩
          kind := by simp [advanced, h]
          nt := by simp [advanced, h]
          any := by
            intro _
            refine ⟨by simp [advanced, hrb], ?_, by simpa [advanced] using hocc⟩
            rw [placed_dot_any (by simp [advanced, h])]; simp
          list := by simp [advanced, h] }
    · -- list
      obtain ⟨rfl, hmax⟩ := next_list h hn
      obtain ⟨hrb, hocc⟩ := ih1.list h
      exact
        { stop := by simp, start := by simpa [advanced] using hstart, bound := ih2.bound,
          wf := ⟨by simpa [advanced, Term.WF] using ih1.wf.1, by simp [advanced, hrb]⟩
          kind := by simp [advanced, h]
          nt := by simp [advanced, h]
          any := by simp [advanced, h]
          list := by
            intro _
            exact ⟨by simp [advanced, hrb], by simpa [advanced] using hocc⟩ }

end Fmr
