import Verif.Proofs.Prov

/-!
# Trees built from the chart: valid, always found, at least one
-/

namespace Fmr

/-! ## optFlat -/

theorem optFlat_total {α β : Type} {f : α → Option (List β)} :
    ∀ {l : List α}, (∀ a ∈ l, ∃ x, f a = some x) → ∃ y, optFlat f l = some y
  | [], _ => ⟨[], rfl⟩
  | a :: l, h => by
    obtain ⟨x, hx⟩ := h a (by simp)
    obtain ⟨y, hy⟩ := optFlat_total (l := l) (fun b hb => h b (by simp [hb]))
    exact ⟨x ++ y, by simp [optFlat, hx, hy]⟩

theorem mem_optFlat {α β : Type} {f : α → Option (List β)} :
    ∀ {l : List α} {y : List β}, optFlat f l = some y →
      ∀ b, b ∈ y ↔ ∃ a ∈ l, ∃ x, f a = some x ∧ b ∈ x
  | [], y, h => by simp [optFlat] at h; subst h; simp
  | a :: l, y, h => by
    unfold optFlat at h
    split at h
    · rename_i x' y' hx hy
      simp at h; subst h
      intro b
      have ih := mem_optFlat hy b
      simp only [List.mem_append, ih, List.mem_cons]
      constructor
      · rintro (hb | ⟨a', ha', x, hx', hb⟩)
        · exact ⟨a, Or.inl rfl, x', hx, hb⟩
        · exact ⟨a', Or.inr ha', x, hx', hb⟩
      · rintro ⟨a', rfl | ha', x, hx', hb⟩
        · rw [hx] at hx'; simp at hx'; subst hx'; exact Or.inl hb
        · exact Or.inr ⟨a', ha', x, hx', hb⟩
    · simp at h

theorem optFlat_some_of {α β : Type} {f : α → Option (List β)} :
    ∀ {l : List α} {y : List β}, optFlat f l = some y → ∀ a ∈ l, ∃ x, f a = some x
  | [], _, _ => by simp
  | a :: l, y, h => by
    unfold optFlat at h
    split at h
    · rename_i x' y' hx hy
      intro b hb
      rcases List.mem_cons.1 hb with rfl | hb
      · exact ⟨_, hx⟩
      · exact optFlat_some_of hy b hb
    · simp at h

/-! ## rank of an address -/

/-- number of states before address (`c`, `r`) in the order columns, then rows -/
def rank (chart : List (List TState)) (c r : Nat) : Nat :=
  ((chart.take c).map List.length).sum + r

theorem sum_take_mono (chart : List (List TState)) {a b : Nat} (h : a ≤ b) :
    ((chart.take a).map List.length).sum ≤ ((chart.take b).map List.length).sum := by
  obtain ⟨d, rfl⟩ := Nat.exists_eq_add_of_le h
  rw [List.take_add]; simp

theorem rank_lt {chart : List (List TState)} {c r e rc : Nat} {st : TState}
    (hat : At chart e rc st) (h : e < c ∨ e = c ∧ rc < r) : rank chart e rc < rank chart c r := by
  obtain ⟨col, hc, hr⟩ := hat
  rcases h with h | ⟨rfl, h⟩
  · have h1 := sum_take_mono chart (show e + 1 ≤ c from h)
    have h2 : ((chart.take (e+1)).map List.length).sum
        = ((chart.take e).map List.length).sum + col.length := by
      rw [List.take_add_one, hc]; simp
    have := (List.getElem?_eq_some_iff.1 hr).1
    unfold rank; omega
  · unfold rank; omega

/-! ## the children loop -/

theorem mem_rowsBefore {chart : List (List TState)} {c r e : Nat} {rows p}
    (h : colAt chart (e : Int) = some rows) :
    p ∈ rowsBefore c r (e : Int) rows ↔ At chart e p.2 p.1 ∧ (e = c → p.2 < r) := by
  obtain ⟨st, rc⟩ := p
  unfold colAt at h
  rw [if_neg (by omega)] at h
  simp at h
  obtain ⟨col, hcol, rfl⟩ := h
  have hiff : (st, rc) ∈ col.zipIdx ↔ At chart e rc st := by
    rw [List.mem_zipIdx_iff_getElem?]
    constructor
    · intro h; exact ⟨col, hcol, h⟩
    · rintro ⟨col', hc', h⟩; rw [hcol] at hc'; simp at hc'; subst hc'; exact h
  unfold rowsBefore
  split
  · rename_i he
    have he : e = c := by omega
    rw [List.mem_take_iff_getElem]
    constructor
    · rintro ⟨i, hi, hg⟩
      simp at hg hi
      obtain ⟨rfl, rfl⟩ := hg
      exact ⟨⟨col, hcol, List.getElem?_eq_getElem (by omega)⟩, fun _ => by simp only; omega⟩
    · rintro ⟨⟨col', hc', hg⟩, hlt⟩
      rw [hcol] at hc'; simp at hc'; subst hc'
      obtain ⟨hl, hg⟩ := List.getElem?_eq_some_iff.1 hg
      have := hlt he
      refine ⟨rc, by simp at this ⊢; omega, by simp [hg]⟩
  · rename_i he
    have he : e ≠ c := by omega
    rw [hiff]; simp [he]

theorem childOK_iff {s : TState} {t : Term} {k : Nat} {st : TState} :
    childOK s t k st = true ↔ st.isCompleted = true ∧ st.term.value = t.value ∧
      st.term.type = t.type ∧ (k = 0 → st.start = s.start) := by
  unfold childOK
  simp [and_assoc]
  intro _ _ _
  constructor
  · rintro (h | h)
    · intro h'; exact absurd h' h
    · intro _; exact h
  · intro h
    rcases Nat.eq_zero_or_pos k with hk | hk
    · exact Or.inr (h hk)
    · exact Or.inl (by omega)

/-- one step of the helper on a term that is not a terminal -/
theorem helper_succ {chart bt c r s terms k children} {e : Nat} {t : Term}
    (ht : terms[k]? = some t) (htt : t.type ≠ .terminal) {rows}
    (hrows : colAt chart (e : Int) = some rows) :
    treesHelper chart bt c r s terms (k+1) children (e : Int) =
      optFlat (fun p =>
            if childOK s t k p.1 then
              match bt e p.2 p.1 with
              | none => none
              | some subs =>
                optFlat (fun sub => treesHelper chart bt c r s terms k (sub :: children) p.1.start) subs
            else some []) (rowsBefore c r e rows) := by
  rw [treesHelper]
  simp only [ht, htt, ite_false, hrows]
  rfl

theorem colAt_of_lt {chart : List (List TState)} {e : Nat} (h : e < chart.length) :
    ∃ rows, colAt chart (e : Int) = some rows := by
  unfold colAt
  rw [if_neg (by omega)]
  simp [h]

/-- a child that may be used below the state at (`c`, `r`) -/
def Earlier (c r e rc : Nat) : Prop := e < c ∨ e = c ∧ rc < r

/-- totality and partial correctness of the helper on bodies without terminals -/
theorem helper_nt {env : Env} {L : Lang} {chart : List (List TState)}
    {bt : Nat → Nat → TState → Option (List Node)} {c r : Nat} {s : TState} {terms : List Term}
    (hlen : c < chart.length)
    (hstart : ∀ e rc st, At chart e rc st → st.start ≤ e)
    (hbt : ∀ e rc st, At chart e rc st → st.isCompleted = true → Earlier c r e rc →
      ∃ ts, bt e rc st = some ts ∧ ∀ n ∈ ts, ∀ t ∈ terms, t.value = st.term.value →
        t.type = st.term.type → TreeOK env L t st.start e n)
    (hnt : ∀ t ∈ terms, t.type ≠ .terminal) :
    ∀ (k : Nat) (children : List Node) (e : Nat), k ≤ terms.length → e ≤ c →
      ForestOK env L (terms.drop k) e s.stop children → (k = 0 → e = s.start) →
      ∃ outs, treesHelper chart bt c r s terms k children (e : Int) = some outs ∧
        ∀ n ∈ outs, n.value = s ∧ ForestOK env L terms s.start s.stop n.children := by
  intro k
  induction k with
  | zero =>
    intro children e _ _ hf he
    refine ⟨_, rfl, ?_⟩
    intro n hn
    simp at hn
    subst hn
    refine ⟨rfl, ?_⟩
    rw [← he rfl]
    simpa [Node.children] using hf
  | succ k ih =>
    intro children e hk he hf _
    have ht : terms[k]? = some terms[k] := List.getElem?_eq_getElem hk
    have hmem : terms[k] ∈ terms := List.getElem_mem _
    have htt := hnt _ hmem
    obtain ⟨rows, hrows⟩ := colAt_of_lt (chart := chart) (e := e) (by omega)
    rw [helper_succ ht htt hrows]
    have key : ∀ p ∈ rowsBefore c r (e : Int) rows, childOK s terms[k] k p.1 = true →
        ∃ subs, bt e p.2 p.1 = some subs ∧
          ∀ sub ∈ subs, ∃ o, treesHelper chart bt c r s terms k (sub :: children) p.1.start = some o ∧
            ∀ n ∈ o, n.value = s ∧ ForestOK env L terms s.start s.stop n.children := by
      intro p hp hok
      obtain ⟨hat, hlt⟩ := (mem_rowsBefore hrows).1 hp
      obtain ⟨h1, h2, h3, h4⟩ := childOK_iff.1 hok
      have hear : Earlier c r e p.2 := by
        rcases Nat.lt_or_eq_of_le he with h | h
        · exact Or.inl h
        · exact Or.inr ⟨h, hlt h⟩
      obtain ⟨subs, hs1, hs2⟩ := hbt e p.2 p.1 hat h1 hear
      refine ⟨subs, hs1, fun sub hsub => ?_⟩
      have hst := hstart _ _ _ hat
      refine ih (sub :: children) p.1.start (by omega) (by omega) ?_ h4
      rw [List.drop_eq_getElem_cons (by omega)]
      exact ForestOK.cons (hs2 sub hsub _ hmem h2.symm h3.symm) hf
    obtain ⟨outs, houts⟩ := optFlat_total (f := fun p =>
            if childOK s terms[k] k p.1 then
              match bt e p.2 p.1 with
              | none => none
              | some subs =>
                optFlat (fun sub => treesHelper chart bt c r s terms k (sub :: children) p.1.start) subs
            else some []) (l := rowsBefore c r e rows) (by
      intro p hp
      by_cases hok : childOK s terms[k] k p.1 = true
      · obtain ⟨subs, hs1, hs2⟩ := key p hp hok
        simp only [hok, ite_true, hs1]
        exact optFlat_total (fun sub hsub => ⟨_, (hs2 sub hsub).choose_spec.1⟩)
      · exact ⟨[], by simp [hok]⟩)
    refine ⟨outs, houts, fun n hn => ?_⟩
    obtain ⟨p, hp, x, hx, hnx⟩ := (mem_optFlat houts n).1 hn
    by_cases hok : childOK s terms[k] k p.1 = true
    · obtain ⟨subs, hs1, hs2⟩ := key p hp hok
      simp only [hok, ite_true, hs1] at hx
      obtain ⟨sub, hsub, o, ho, hno⟩ := (mem_optFlat hx n).1 hnx
      obtain ⟨o', ho', hgood⟩ := hs2 sub hsub
      rw [ho'] at ho
      simp at ho; subst ho
      exact hgood n hno
    · simp [hok] at hx; subst hx; simp at hnx

/-- the helper on bodies of terminals -/
theorem helper_term {env : Env} {L : Lang} {chart : List (List TState)}
    {bt : Nat → Nat → TState → Option (List Node)} {c r : Nat} {s : TState} {terms : List Term}
    (htt : ∀ t ∈ terms, t.type = .terminal)
    (hmatch : ∀ (k : Nat) (t : Term), terms[k]? = some t →
      ∃ tok, env.tokens[s.start + k]? = some tok ∧ L.tmatch t tok = true) :
    ∀ (k : Nat) (children : List Node) (e : Int), k ≤ terms.length →
      ForestOK env L (terms.drop k) (s.start + k) s.stop children →
      ∃ n, treesHelper chart bt c r s terms k children e = some [n] ∧
        n.value = s ∧ ForestOK env L terms s.start s.stop n.children := by
  intro k
  induction k with
  | zero =>
    intro children e _ hf
    exact ⟨_, rfl, rfl, by simpa [Node.children] using hf⟩
  | succ k ih =>
    intro children e hk hf
    have ht : terms[k]? = some terms[k] := List.getElem?_eq_getElem hk
    have hty := htt _ (List.getElem_mem hk)
    rw [treesHelper]
    simp only [ht, hty, ite_true]
    apply ih _ _ (by omega)
    rw [List.drop_eq_getElem_cons (by omega)]
    obtain ⟨tok, h1, h2⟩ := hmatch k _ ht
    exact ForestOK.cons (TreeOK.terminal hty h1 h2 rfl rfl rfl rfl rfl) hf

/-! ## facts about items used for trees -/

theorem Yields.replicate_zero {L : Lang} {w} (h : Yields L [] w) : w = [] := by cases h; rfl

theorem Item.start_eq_of_dot {env : Env} (hwf : env.WF) {i s} (h : Item env i s)
    (hk : s.term.type ≠ .any) (hd : s.dot = 0) : s.start = i := by
  have hb := h.basic hwf
  have hs := h.sound hwf
  have hz : env.slice s.start i = [] := by
    rcases hb.kind with h | h | h
    · obtain ⟨rb, _, hy⟩ := hs.nt h
      rw [hd] at hy; exact Yields.replicate_zero (by simpa using hy)
    · exact absurd h hk
    · have hy := hs.list h
      rw [hd] at hy; exact Yields.replicate_zero (by simpa using hy)
  have := slice_length env (a := s.start) hb.bound
  rw [hz] at this
  have := hb.start
  simp at *
  omega

theorem Yields.all_terminal {L : Lang} {ts : List Term} {w : List Token} (h : Yields L ts w)
    (ht : ∀ t ∈ ts, t.type = .terminal) : w.length = ts.length ∧
      ∀ (k : Nat) (t : Term), ts[k]? = some t → ∃ tok, w[k]? = some tok ∧ L.tmatch t tok = true := by
  induction h with
  | nil => simp
  | @terminal t ts a w h1 h2 _ ih =>
    obtain ⟨i1, i2⟩ := ih (fun t h => ht t (by simp [h]))
    refine ⟨by simp [i1], ?_⟩
    intro k t' hk
    rcases k with _ | k
    · simp at hk; subst hk; exact ⟨a, rfl, h2⟩
    · simpa using i2 k t' (by simpa using hk)
  | nonterminal h1 => have := ht _ List.mem_cons_self; rw [h1] at this; simp at this
  | any h1 => have := ht _ List.mem_cons_self; rw [h1] at this; simp at this
  | list h1 => have := ht _ List.mem_cons_self; rw [h1] at this; simp at this

theorem slice_get {env : Env} {a b k : Nat} {tok : Token} (h : (env.slice a b)[k]? = some tok) :
    env.tokens[a + k]? = some tok := by
  unfold Env.slice at h
  rw [List.getElem?_drop, List.getElem?_take] at h
  split at h
  · exact h
  · simp at h

/-- what is known about the node built for a state -/
structure NodeFor (env : Env) (L : Lang) (s : TState) (n : Node) : Prop where
  term : n.value.term = s.term
  start : n.value.start = s.start
  stop : n.value.stop = s.stop
  any : s.term.type = .any → n = anyLeaf s
  nt : s.term.type = .nonterminal → n.value = s ∧
    ∀ rb, s.rb = some rb → ForestOK env L rb.terms s.start s.stop n.children
  list : s.term.type = .list → n.value.rb = some (listBody s.term.value s.dot) ∧
    ForestOK env L (listBody s.term.value s.dot).terms s.start s.stop n.children

/-- the node of a completed state is a tree of every term that state completes -/
theorem NodeFor.tree {env : Env} {i s n} (h : NodeFor env env.relaxedLang s n)
    (hb : Item.Basic env i s) (hc : s.isCompleted = true) {t : Term}
    (hv : t.value = s.term.value) (ht : t.type = s.term.type)
    (hg : t.type = .nonterminal → t.value ≠ gammaRule) :
    TreeOK env env.relaxedLang t s.start i n := by
  have hstop := hb.stop
  rcases hb.kind with hk | hk | hk
  · obtain ⟨rb, hrb, hle, hdef⟩ := hb.nt hk
    obtain ⟨h1, h2⟩ := h.nt hk
    rcases hdef with hdef | ⟨S, _, hgm, _⟩
    · refine TreeOK.nonterminal (rb := rb) (by rw [ht, hk]) (by rw [hv]; exact hdef)
        (by rw [h.term, hv]) (by rw [h.term, hk]) (by rw [h1, hrb]) h.start (by rw [h.stop, hstop]) ?_
      rw [← hstop]
      exact h2 rb hrb
    · exact absurd (hv.trans hgm) (hg (by rw [ht, hk]))
  · obtain ⟨hrb, hdot, t', hocc, ht', hmeta, _⟩ := hb.any hk
    have hcnt := (completed_any_list (Or.inl hk)).1 hc
    have hn := h.any hk
    subst hn
    refine TreeOK.any (by rw [ht, hk]) hb.start hb.bound ⟨t', hocc, ht', ?_⟩ hk rfl rfl hstop rfl hv.symm
    rw [hmeta, ← hdot]; exact hcnt
  · obtain ⟨hrb, t', hocc, ht', hv', hmeta⟩ := hb.list hk
    have hcnt := (completed_any_list (Or.inr hk)).1 hc
    obtain ⟨h1, h2⟩ := h.list hk
    refine TreeOK.list (m := s.dot) (by rw [ht, hk])
      ⟨t', hocc, ht', by rw [hv', hv], by rw [hmeta]; exact hcnt⟩
      (by rw [h.term, hv]) (by rw [h.term, hk]) (by rw [h1, hv]) h.start (by rw [h.stop, hstop]) ?_
    rw [← hstop, hv]
    exact h2

@[simp] theorem listed_term (s : TState) : s.listed.term = s.term := by
  unfold TState.listed; split <;> rfl
@[simp] theorem listed_start (s : TState) : s.listed.start = s.start := by
  unfold TState.listed; split <;> rfl
@[simp] theorem listed_stop (s : TState) : s.listed.stop = s.stop := by
  unfold TState.listed; split <;> rfl
@[simp] theorem listed_dot (s : TState) : s.listed.dot = s.dot := by
  unfold TState.listed; split <;> rfl
theorem listed_rb {s : TState} (h : s.term.type = .list) :
    s.listed.rb = some (listBody s.term.value s.dot) := by
  unfold TState.listed; simp [h]; rfl
theorem listed_of_ne {s : TState} (h : s.term.type ≠ .list) : s.listed = s := by
  unfold TState.listed; simp [h]

/-- C10 + C11: trees of every completed state are found, and are valid -/
theorem buildTrees_ok {env : Env} (hwf : env.WF) (hun : Unmixed env) {chart : List (List TState)}
    (hch : ∀ (c : Nat) (col : List TState), chart[c]? = some col → ∀ s ∈ col, Item env c s) :
    ∀ (fuel c r : Nat) (s : TState), At chart c r s → s.isCompleted = true → rank chart c r < fuel →
      ∃ ts, buildTrees chart fuel c r s = some ts ∧ ∀ n ∈ ts, NodeFor env env.relaxedLang s n := by
  have hitem : ∀ {c r s}, At chart c r s → Item env c s := by
    rintro c r s ⟨col, h1, h2⟩; exact hch c col h1 s (List.mem_of_getElem? h2)
  intro fuel
  induction fuel with
  | zero => intro c r s _ _ h; omega
  | succ fuel ih =>
    intro c r s hat hc hrank
    have hi := hitem hat
    have hb := hi.basic hwf
    have hlen : c < chart.length := by
      obtain ⟨col, h1, _⟩ := hat; exact (List.getElem?_eq_some_iff.1 h1).1
    unfold buildTrees
    by_cases hany : s.term.type = .any
    · rw [if_pos hany]
      refine ⟨_, rfl, ?_⟩
      intro n hn
      simp at hn; subst hn
      exact ⟨rfl, rfl, rfl, fun _ => rfl, by simp [hany], by simp [hany]⟩
    · rw [if_neg hany]
      have hbt : ∀ (terms : List Term), (∀ t ∈ terms, t.type = .nonterminal → t.value ≠ gammaRule) →
          ∀ e rc st, At chart e rc st → st.isCompleted = true → Earlier c r e rc →
          ∃ ts, buildTrees chart fuel e rc st = some ts ∧ ∀ n ∈ ts, ∀ t ∈ terms,
            t.value = st.term.value → t.type = st.term.type →
            TreeOK env env.relaxedLang t st.start e n := by
        intro terms hg e rc st hat' hc' hear
        have := rank_lt hat' hear
        obtain ⟨ts, h1, h2⟩ := ih e rc st hat' hc' (by omega)
        refine ⟨ts, h1, fun n hn t ht hv hty => ?_⟩
        exact (h2 n hn).tree ((hitem hat').basic hwf) hc' hv hty (hg t ht)
      have hstart : ∀ e rc st, At chart e rc st → st.start ≤ e := fun e rc st h =>
        ((hitem h).basic hwf).start
      rcases hb.kind with hk | hk | hk
      · obtain ⟨rb, hrb, hle, hdef⟩ := hb.nt hk
        have hl := listed_of_ne (s := s) (by simp [hk])
        rw [hl, hrb]
        simp only
        have hcl : rb.terms.length ≤ s.dot := by
          have := (completed_nt (by simp [hk]) (by simp [hk])).1 hc
          simpa [TState.bodyTerms, hrb] using this
        have hun' : (∀ t ∈ rb.terms, t.type = .terminal) ∨ (∀ t ∈ rb.terms, t.type ≠ .terminal) := by
          rcases hdef with hdef | ⟨S, _, _, _, hg⟩
          · exact hun _ _ hdef
          · right; rw [hrb] at hg; simp [gammaState] at hg; subst hg; simp
        have hgam : ∀ t ∈ rb.terms, t.type = .nonterminal → t.value ≠ gammaRule := by
          intro t ht htt
          rcases hdef with hdef | ⟨S, hS, _, _, hg⟩
          · exact hwf.noGamma.2.1 t ⟨_, rb, hdef, ht⟩ (by simp [htt])
          · rw [hrb] at hg; simp [gammaState] at hg; subst hg; simp at ht; subst ht
            intro h; simp at h; subst h; exact hwf.noGamma.2.2 hS
        have fin : ∀ n : Node, n.value = s → ForestOK env env.relaxedLang rb.terms s.start s.stop n.children →
            NodeFor env env.relaxedLang s n := by
          intro n h1 h2
          refine ⟨by rw [h1], by rw [h1], by rw [h1], by simp [hk], fun _ => ⟨h1, ?_⟩, by simp [hk]⟩
          intro rb' hrb'
          rw [hrb] at hrb'; simp at hrb'; subst hrb'
          exact h2
        rcases hun' with hun' | hun'
        · obtain ⟨rb', hrb', hy⟩ := (hi.sound hwf).nt hk
          rw [hrb] at hrb'; simp at hrb'; subst hrb'
          rw [List.take_of_length_le hcl] at hy
          obtain ⟨y1, y2⟩ := hy.all_terminal hun'
          have hstop : s.start + rb.terms.length = s.stop := by
            rw [slice_length env hb.bound] at y1
            have := hb.start; have := hb.stop; omega
          obtain ⟨n, h1, h2, h3⟩ := helper_term (env := env) (L := env.relaxedLang) (chart := chart)
            (bt := buildTrees chart fuel) (c := c) (r := r) (s := s) hun' (by
              intro k t ht
              obtain ⟨tok, h1, h2⟩ := y2 k t ht
              exact ⟨tok, slice_get h1, h2⟩) rb.terms.length [] s.stop (Nat.le_refl _) (by
              rw [List.drop_length, hstop]; exact ForestOK.nil)
          refine ⟨[n], h1, ?_⟩
          intro n' hn'
          simp at hn'; subst hn'
          exact fin _ h2 h3
        · obtain ⟨outs, h1, h2⟩ := helper_nt (env := env) (L := env.relaxedLang) (s := s) hlen hstart
            (hbt rb.terms hgam) hun' rb.terms.length [] c (Nat.le_refl _) (Nat.le_refl _) (by
              rw [List.drop_length, hb.stop]; exact ForestOK.nil) (by
              intro h0
              have hd : s.dot = 0 := by omega
              exact (hi.start_eq_of_dot hwf hany hd).symm)
          rw [hb.stop]
          exact ⟨outs, h1, fun n hn => fin n (h2 n hn).1 (h2 n hn).2⟩
      · exact absurd hk hany
      · rw [listed_rb hk]
        simp only
        obtain ⟨outs, h1, h2⟩ := helper_nt (env := env) (L := env.relaxedLang) (s := s.listed) hlen hstart
            (hbt (listBody s.term.value s.dot).terms (by
              intro t ht _
              have := List.eq_of_mem_replicate ht
              subst this
              obtain ⟨_, t', hocc, htt, hv, _⟩ := hb.list hk
              simp only; rw [← hv]; exact hwf.noGamma.2.1 t' hocc (by simp [htt]))) (by
              intro t ht
              rw [List.eq_of_mem_replicate ht]; simp)
            (listBody s.term.value s.dot).terms.length [] c (Nat.le_refl _) (Nat.le_refl _) (by
              rw [List.drop_length, listed_stop, hb.stop]; exact ForestOK.nil) (by
              intro h0
              have hd : s.dot = 0 := by simpa [listBody] using h0
              rw [listed_start]
              exact (hi.start_eq_of_dot hwf hany hd).symm)
        rw [hb.stop]
        refine ⟨outs, h1, fun n hn => ?_⟩
        obtain ⟨e1, e2⟩ := h2 n hn
        refine ⟨by rw [e1]; simp, by rw [e1]; simp, by rw [e1]; simp, by simp [hk], by simp [hk],
          fun _ => ⟨by rw [e1, listed_rb hk], ?_⟩⟩
        simpa using e2

/-! ## at least one tree -/

/-- the helper finds a tree when the chain of predecessors exists -/
theorem helper_nonempty {chart : List (List TState)}
    {bt : Nat → Nat → TState → Option (List Node)} {c r : Nat} {s0 s : TState} {terms : List Term}
    (hnt : ∀ t ∈ terms, t.type ≠ .terminal) (hna : s0.term.type ≠ .any)
    (hs : s.start = s0.start)
    (hprov : ∀ c r s, At chart c r s → Prov chart c r s)
    (hstart : ∀ e rc st, At chart e rc st → st.start ≤ e)
    (hlen : c < chart.length)
    (hdot : ∀ e rc st, At chart e rc st → st.term.type ≠ .any → st.dot = 0 → st.start = e)
    (hlast : ∀ p : TState, p.term.value = s0.term.value → p.term.type = s0.term.type → p.rb = s0.rb →
      0 < p.dot → p.dot ≤ terms.length → ∃ t, lastTerm p = some t ∧ ∃ t', terms[p.dot - 1]? = some t' ∧
        t'.type = t.type ∧ t'.value = t.value)
    (hbt : ∀ e rc st, At chart e rc st → st.isCompleted = true → Earlier c r e rc →
      ∃ ts, bt e rc st = some ts ∧ ts ≠ []) :
    ∀ (k : Nat) (children : List Node) (e rp : Nat) (p : TState) (outs : List Node),
      k ≤ terms.length → e ≤ c →
      At chart e rp p → p.dot = k → p.term.value = s0.term.value → p.term.type = s0.term.type →
      p.rb = s0.rb → p.start = s0.start → (e = c → rp ≤ r) →
      treesHelper chart bt c r s terms k children (e : Int) = some outs → outs ≠ [] := by
  intro k
  induction k with
  | zero =>
    intro children e rp p outs _ _ _ _ _ _ _ _ _ h
    simp [treesHelper] at h; subst h; simp
  | succ k ih =>
    intro children e rp p outs hk he hat hd hv ht hrb hst hrp h
    obtain ⟨t, hl, t', ht', htt, htv⟩ := hlast p hv ht hrb (by omega) (by omega)
    have hk' : p.dot - 1 = k := by omega
    rw [hk'] at ht'
    have hmem := List.mem_of_getElem? ht'
    obtain ⟨rc, child, rp', p', a1, a2, a3, a4, a5, a6, a7, a8, a9, a10, a11, a12⟩ :=
      hprov e rp p hat (by rw [ht]; exact hna) (by omega) t hl (by rw [← htt]; exact hnt _ hmem)
    obtain ⟨rows, hrows⟩ := colAt_of_lt (chart := chart) (e := e) (by omega)
    rw [helper_succ ht' (hnt _ hmem) hrows] at h
    have hcl := hstart _ _ _ a1
    have hin : (child, rc) ∈ rowsBefore c r (e : Int) rows :=
      (mem_rowsBefore hrows).2 ⟨a1, fun h => by have := hrp h; simp only; omega⟩
    have hok : childOK s t' k child = true := by
      refine childOK_iff.2 ⟨a3, by rw [htv, a5], by rw [htt, a4], ?_⟩
      intro h0
      have := hdot _ _ _ a6 (by rw [a8, ht]; exact hna) (by omega)
      rw [hs, ← hst, ← a10, this]
    have hear : Earlier c r e rc := by
      rcases Nat.lt_or_eq_of_le he with h | h
      · exact Or.inl h
      · exact Or.inr ⟨h, by have := hrp h; omega⟩
    obtain ⟨ts, hts, hne⟩ := hbt e rc child a1 a3 hear
    obtain ⟨sub, hsub⟩ := List.exists_mem_of_ne_nil _ hne
    obtain ⟨x, hx⟩ := optFlat_some_of h _ hin
    simp only [hok, ite_true, hts] at hx
    obtain ⟨o, ho⟩ := optFlat_some_of hx sub hsub
    have hone := ih (sub :: children) child.start rp' p' o (by omega) (by omega) a6 (by omega)
      (by rw [a7, hv]) (by rw [a8, ht]) (by rw [a9, hrb]) (by rw [a10, hst]) (by
        intro hcc
        have hec : e = c := by omega
        have h1 := a12 (by omega)
        have h2 := hrp hec
        omega) ho
    obtain ⟨n, hn⟩ := List.exists_mem_of_ne_nil _ hone
    have : n ∈ outs := by
      refine (mem_optFlat h n).2 ⟨_, hin, x, by simp only [hok, ite_true, hts]; exact hx, ?_⟩
      exact (mem_optFlat hx n).2 ⟨sub, hsub, o, ho, hn⟩
    exact List.ne_nil_of_mem this

/-- C12: at least one tree for every completed state -/
theorem buildTrees_nonempty {env : Env} (hwf : env.WF) (hun : Unmixed env)
    {chart : List (List TState)}
    (hch : ∀ (c : Nat) (col : List TState), chart[c]? = some col → ∀ s ∈ col, Item env c s)
    (hprov : ∀ c r s, At chart c r s → Prov chart c r s) :
    ∀ (fuel c r : Nat) (s : TState), At chart c r s → s.isCompleted = true → rank chart c r < fuel →
      ∃ ts, buildTrees chart fuel c r s = some ts ∧ ts ≠ [] := by
  have hitem : ∀ {c r s}, At chart c r s → Item env c s := by
    rintro c r s ⟨col, h1, h2⟩; exact hch c col h1 s (List.mem_of_getElem? h2)
  intro fuel
  induction fuel with
  | zero => intro c r s _ _ h; omega
  | succ fuel ih =>
    intro c r s hat hc hrank
    obtain ⟨ts, hts, _⟩ := buildTrees_ok hwf hun hch (fuel+1) c r s hat hc hrank
    refine ⟨ts, hts, ?_⟩
    have hi := hitem hat
    have hb := hi.basic hwf
    have hlen : c < chart.length := by
      obtain ⟨col, h1, _⟩ := hat; exact (List.getElem?_eq_some_iff.1 h1).1
    unfold buildTrees at hts
    by_cases hany : s.term.type = .any
    · rw [if_pos hany] at hts
      simp at hts; subst hts; simp
    · rw [if_neg hany] at hts
      have hbt : ∀ e rc st, At chart e rc st → st.isCompleted = true → Earlier c r e rc →
          ∃ ts, buildTrees chart fuel e rc st = some ts ∧ ts ≠ [] := by
        intro e rc st hat' hc' hear
        have := rank_lt hat' hear
        exact ih e rc st hat' hc' (by omega)
      have hstart : ∀ e rc st, At chart e rc st → st.start ≤ e := fun e rc st h =>
        ((hitem h).basic hwf).start
      have hdot : ∀ e rc st, At chart e rc st → st.term.type ≠ .any → st.dot = 0 → st.start = e :=
        fun e rc st h h1 h2 => (hitem h).start_eq_of_dot hwf h1 h2
      rcases hb.kind with hk | hk | hk
      · obtain ⟨rb, hrb, hle, hdef⟩ := hb.nt hk
        have hl := listed_of_ne (s := s) (by simp [hk])
        rw [hl, hrb] at hts
        simp only at hts
        have hcl : rb.terms.length ≤ s.dot := by
          have := (completed_nt (by simp [hk]) (by simp [hk])).1 hc
          simpa [TState.bodyTerms, hrb] using this
        have hun' : (∀ t ∈ rb.terms, t.type = .terminal) ∨ (∀ t ∈ rb.terms, t.type ≠ .terminal) := by
          rcases hdef with hdef | ⟨S, _, _, _, hg⟩
          · exact hun _ _ hdef
          · right; rw [hrb] at hg; simp [gammaState] at hg; subst hg; simp
        rcases hun' with hun' | hun'
        · obtain ⟨rb', hrb', hy⟩ := (hi.sound hwf).nt hk
          rw [hrb] at hrb'; simp at hrb'; subst hrb'
          rw [List.take_of_length_le hcl] at hy
          obtain ⟨y1, y2⟩ := hy.all_terminal hun'
          have hstop : s.start + rb.terms.length = s.stop := by
            rw [slice_length env hb.bound] at y1
            have := hb.start; have := hb.stop; omega
          obtain ⟨n, h1, h2, h3⟩ := helper_term (env := env) (L := env.relaxedLang) (chart := chart)
            (bt := buildTrees chart fuel) (c := c) (r := r) (s := s) hun' (by
              intro k t ht
              obtain ⟨tok, h1, h2⟩ := y2 k t ht
              exact ⟨tok, slice_get h1, h2⟩) rb.terms.length [] s.stop (Nat.le_refl _) (by
              rw [List.drop_length, hstop]; exact ForestOK.nil)
          rw [h1] at hts
          simp at hts; subst hts; simp
        · rw [hb.stop] at hts
          refine helper_nonempty (s0 := s) (s := s) hun' hany rfl hprov hstart hlen hdot ?_ hbt
            rb.terms.length [] c r s ts (Nat.le_refl _) (Nat.le_refl _) hat (by omega) rfl rfl rfl rfl
            (fun _ => Nat.le_refl _) hts
          intro p hv ht hrb' hp hple
          have : ∃ t, rb.terms[p.dot - 1]? = some t :=
            ⟨_, List.getElem?_eq_getElem (by omega)⟩
          obtain ⟨t, ht'⟩ := this
          refine ⟨t, ?_, t, ht', rfl, rfl⟩
          unfold lastTerm
          rw [if_neg (by rw [ht, hk]; simp)]
          simp [TState.bodyTerms, hrb', hrb, ht']
      · exact absurd hk hany
      · rw [listed_rb hk] at hts
        simp only at hts
        rw [hb.stop] at hts
        refine helper_nonempty (s0 := s) (s := s.listed) ?_ hany (by simp) hprov hstart hlen hdot ?_ hbt
          (listBody s.term.value s.dot).terms.length [] c r s ts (Nat.le_refl _) (Nat.le_refl _) hat
          (by simp [listBody]) rfl rfl rfl rfl (fun _ => Nat.le_refl _) hts
        · intro t ht
          rw [List.eq_of_mem_replicate ht]; simp
        · intro p hv ht hrb' hp hple
          refine ⟨{ value := s.term.value, type := .nonterminal, «meta» := .nil }, ?_,
            { value := s.term.value, type := .nonterminal, «meta» := .nil }, ?_, rfl, rfl⟩
          · unfold lastTerm; rw [if_pos (by rw [ht, hk]), hv]
          · simp only [listBody, List.length_replicate] at hple
            show (List.replicate s.dot _)[p.dot - 1]? = _
            rw [List.getElem?_replicate, if_pos (by omega)]

end Fmr
