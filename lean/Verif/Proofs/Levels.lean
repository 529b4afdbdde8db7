import Verif.Proofs.TreeSet
import Verif.Proofs.NullSafe
import Verif.Spec.Spine

/-!
# The rows of a column are ordered by the length of the right spine

If that length is determined by symbol and span, every derivation tree is laid out on the chart.
-/

namespace Fmr

/-! ## spines -/

theorem spineL_snoc (ns : List Node) (n : Node) :
    spineL (ns ++ [n]) = if n.value.term.type = .terminal then 0 else n.spine + 1 := by
  induction ns with
  | nil => simp [spineL]
  | cons a ns ih =>
    cases ns with
    | nil => simp [spineL]
    | cons b ns => simpa [spineL] using ih

theorem spine_mk (v : TState) (cs : List Node) : (Node.mk v cs).spine = spineL cs := by
  rw [Node.spine]

theorem ForestOK.snoc {env : Env} {L : Lang} : ∀ {ts : List Term} {a m b ns n} {t : Term},
    ForestOK env L ts a m ns → TreeOK env L t m b n → ForestOK env L (ts ++ [t]) a b (ns ++ [n])
  | [], _, _, _, _, _, _, .nil, h => .cons h .nil
  | _ :: _, _, _, _, _, _, _, .cons h1 h2, h => .cons h1 (h2.snoc h)

/-! ## the children of a state -/

/-- `ns` are trees for the terms before the dot -/
def Kids (env : Env) (i : Nat) (s : TState) (ns : List Node) : Prop :=
  (s.term.type = .nonterminal ∧ ∃ rb, s.rb = some rb ∧
    ForestOK env env.relaxedLang (rb.terms.take s.dot) s.start i ns) ∨
  (s.term.type = .list ∧ ForestOK env env.relaxedLang
    (List.replicate s.dot { value := s.term.value, type := .nonterminal, «meta» := .nil }) s.start i ns) ∨
  (s.term.type = .any ∧ ns = [])

/-- a node with given label, body and span -/
def nodeFor (ty : TermType) (v : String) (rb : Option RuleBody) (a b : Nat) (ns : List Node) : Node :=
  .mk { term := { value := v, type := ty, «meta» := .nil }, rb := rb, start := a, stop := b, dot := 0 } ns

/-- a completed state that is not of the start symbol is the root of a tree over its children -/
theorem Kids.tree {env : Env} (hwf : env.WF) {i s ns} (hb : Item.Basic env i s)
    (hc : s.isCompleted = true) (hk : Kids env i s ns) (hg : s.term.value ≠ gammaRule)
    {t : Term} (ht : t.type = s.term.type) (hv : t.type ≠ .any → t.value = s.term.value) :
    ∃ n, TreeOK env env.relaxedLang t s.start i n ∧ n.spine = spineL ns ∧
      n.value.term.type ≠ .terminal := by
  rcases hk with ⟨hty, rb, hrb, hf⟩ | ⟨hty, hf⟩ | ⟨hty, rfl⟩
  · obtain ⟨rb', hrb', hle, hdef⟩ := hb.nt hty
    have he : rb' = rb := by rw [hrb] at hrb'; exact (Option.some.inj hrb').symm
    subst he
    have hlen : rb'.terms.length ≤ s.dot := by
      have := (completed_nt (by simp [hty]) (by simp [hty])).1 hc
      simpa [TState.bodyTerms, hrb] using this
    rw [List.take_of_length_le hlen] at hf
    rcases hdef with hdef | ⟨_, _, h, _⟩
    · refine ⟨nodeFor .nonterminal t.value (some rb') s.start i ns, ?_, spine_mk _ _, by simp [Node.value, nodeFor]⟩
      have hv' := hv (by rw [ht, hty]; simp)
      exact TreeOK.nonterminal (by rw [ht, hty]) (by rw [hv']; exact hdef) rfl rfl rfl rfl rfl hf
    · exact absurd h hg
  · obtain ⟨_, t', hocc, ht', hv', hmeta⟩ := hb.list hty
    have hcnt := (completed_any_list (Or.inr hty)).1 hc
    have hvv := hv (by rw [ht, hty]; simp)
    refine ⟨nodeFor .list t.value (some (listBody t.value s.dot)) s.start i ns, ?_,
        spine_mk _ _, by simp [Node.value, nodeFor]⟩
    refine TreeOK.list (m := s.dot) (by rw [ht, hty])
      ⟨t', hocc, ht', by rw [hv', hvv], by rw [hmeta]; exact hcnt⟩ rfl rfl rfl rfl rfl ?_
    rw [hvv]; exact hf
  · obtain ⟨_, hdot, t', hocc, ht', hmeta, _⟩ := hb.any hty
    have hcnt := (completed_any_list (Or.inl hty)).1 hc
    refine ⟨nodeFor .any t.value none s.start i [], ?_, spine_mk _ _, by simp [Node.value, nodeFor]⟩
    refine TreeOK.any (by rw [ht, hty]) hb.start hb.bound ⟨t', hocc, ht', ?_⟩ rfl rfl rfl rfl rfl rfl
    rw [hmeta, ← hdot]; exact hcnt

/-- the children after one more term -/
theorem Kids.step {env : Env} (hwf : env.WF) {k i st s t ns0 ns} (hst : Item.Basic env k st)
    (hs : Item.Basic env i s) (hc : s.isCompleted = true) (hk : s.start = k)
    (hn : st.getNextTerm = some t) (hm : completes t s = true) (hty : st.term.type ≠ .any)
    (h0 : Kids env k st ns0) (h1 : Kids env i s ns) :
    ∃ n, Kids env i ((advanced st t).placed i) (ns0 ++ [n]) ∧ n.spine = spineL ns ∧
      n.value.term.type ≠ .terminal := by
  have htt : t.type = s.term.type := by
    rcases completes_cases hm with ⟨h, h'⟩ | ⟨h, _⟩
    · rw [h, h']
    · exact h
  have htv : t.type ≠ .any → t.value = s.term.value := by
    intro h
    rcases completes_cases hm with ⟨h', _⟩ | ⟨_, h'⟩
    · exact absurd h' h
    · exact h'
  have hg : s.term.value ≠ gammaRule := by
    rcases hs.kind with h | h | h
    · rw [← htv (by rw [htt, h]; simp)]
      exact hst.next_ne_gamma hwf hn (by rw [htt, h])
    · obtain ⟨_, _, t', hocc, ht', _, hv | hv⟩ := hs.any h
      · rw [hv]; exact hwf.noGamma.2.1 t' hocc (by simp [ht'])
      · rw [hv]; decide
    · obtain ⟨_, t', hocc, ht', hv, _⟩ := hs.list h
      rw [← hv]; exact hwf.noGamma.2.1 t' hocc (by simp [ht'])
  rcases h0 with ⟨h, rb, hrb, hf⟩ | ⟨h, hf⟩ | ⟨h, _⟩
  · obtain ⟨rb', hrb', hget, _⟩ := hst.next_mem h hn
    have he : rb' = rb := by rw [hrb] at hrb'; exact (Option.some.inj hrb').symm
    subst he
    obtain ⟨n, hn1, hn2, hn3⟩ := h1.tree hwf hs hc hg htt htv
    refine ⟨n, Or.inl ⟨by simp [advanced, h], rb', by simp [advanced, hrb], ?_⟩, hn2, hn3⟩
    rw [placed_dot (by simp [advanced, h])]
    simp only [advanced, placed_start]
    rw [take_succ_of_get hget]
    rw [hk] at hn1
    exact hf.snoc hn1
  · obtain ⟨he, _⟩ := next_list h hn
    obtain ⟨n, hn1, hn2, hn3⟩ := h1.tree hwf hs hc hg
      (t := { value := st.term.value, type := .nonterminal, «meta» := .nil })
      (by rw [← htt, he]) (by intro _; rw [← htv (by rw [he]; simp), he])
    refine ⟨n, Or.inr (Or.inl ⟨by simp [advanced, h], ?_⟩), hn2, hn3⟩
    rw [placed_dot (by simp [advanced, h])]
    simp only [advanced, placed_start, placed_term]
    rw [List.replicate_succ']
    rw [hk] at hn1
    exact hf.snoc hn1
  · exact absurd h hty

/-- every item has children -/
theorem Item.kids {env : Env} (hwf : env.WF) {i s} (h : Item env i s) : ∃ ns, Kids env i s ns := by
  induction h with
  | @init S hS =>
    exact ⟨[], Or.inl ⟨rfl, _, rfl, by simpa [gammaState] using ForestOK.nil⟩⟩
  | @predNT i st t g r rb hst hty hn htt hg hr hrb ih =>
    refine ⟨[], Or.inl ⟨by simp [predicted], rb, by simp [predicted], ?_⟩⟩
    rw [placed_dot (by simp [predicted])]
    simpa [predicted] using ForestOK.nil
  | @predAL i st t hst hty hn htt ih =>
    rcases htt with h | h
    · exact ⟨[], Or.inr (Or.inr ⟨by simp [predictedSpecial, h], rfl⟩)⟩
    · refine ⟨[], Or.inr (Or.inl ⟨by simp [predictedSpecial, h], ?_⟩)⟩
      rw [placed_dot (by simp [predictedSpecial, h])]
      simpa [predictedSpecial] using ForestOK.nil
  | @scanAny i st t hst hty hn hlt ih =>
    exact ⟨[], Or.inr (Or.inr ⟨by simp [scannedAny], rfl⟩)⟩
  | @scanT i st t tok hst hty hn htt htok hm ih =>
    have hb := hst.basic hwf
    have hk : st.term.type = .nonterminal := by
      rcases hb.kind with h | h | h
      · exact h
      · exact absurd h hty
      · obtain ⟨rfl, _⟩ := next_list h hn; simp at htt
    obtain ⟨rb, hrb, hget, hocc⟩ := hb.next_mem hk hn
    obtain ⟨ns, ⟨_, rb', hrb', hf⟩ | ⟨h, _⟩ | ⟨h, _⟩⟩ := ih
    · have he : rb' = rb := by rw [hrb] at hrb'; exact (Option.some.inj hrb').symm
      subst he
      refine ⟨ns ++ [.mk { term := t, rb := none, start := i, stop := i + 1, dot := 0 } []],
        Or.inl ⟨by simp [scannedTerm, hk], rb', by simp [scannedTerm, hrb], ?_⟩⟩
      rw [placed_dot (by simp [scannedTerm, hk])]
      simp only [scannedTerm, placed_start]
      rw [take_succ_of_get hget]
      exact hf.snoc (TreeOK.terminal htt htok hm rfl rfl rfl rfl rfl)
    · rw [hk] at h; simp at h
    · rw [hk] at h; simp at h
  | @comp k i st s t hst hs hc hk hn hm ih1 ih2 =>
    obtain ⟨ns0, h0⟩ := ih1
    obtain ⟨ns, h1⟩ := ih2
    by_cases hty : st.term.type = .any
    · exact ⟨[], Or.inr (Or.inr ⟨by simp [advanced, hty], rfl⟩)⟩
    · obtain ⟨n, hn', _⟩ := h0.step hwf (hst.basic hwf) (hs.basic hwf) hc hk hn hm hty h1
      exact ⟨_, hn'⟩

/-! ## levels -/

/-- state `s` of column `i` has a right spine of length `k` -/
def Lev (env : Env) (i : Nat) (s : TState) (k : Nat) : Prop := ∃ ns, Kids env i s ns ∧ spineL ns = k

theorem Item.lev {env : Env} (hwf : env.WF) {i s} (h : Item env i s) : ∃ k, Lev env i s k := by
  obtain ⟨ns, h⟩ := h.kids hwf
  exact ⟨_, ns, h, rfl⟩

theorem Lev.step {env : Env} (hwf : env.WF) {k i st s t j} (hst : Item env k st)
    (hs : Item env i s) (hc : s.isCompleted = true) (hk : s.start = k)
    (hn : st.getNextTerm = some t) (hm : completes t s = true) (hty : st.term.type ≠ .any)
    (h1 : Lev env i s j) : Lev env i ((advanced st t).placed i) (j+1) := by
  obtain ⟨ns0, h0⟩ := hst.kids hwf
  obtain ⟨ns, h1, rfl⟩ := h1
  obtain ⟨n, h2, h3, h4⟩ := h0.step hwf (hst.basic hwf) (hs.basic hwf) hc hk hn hm hty h1
  exact ⟨_, h2, by rw [spineL_snoc, if_neg h4, h3]⟩

/-- trees of an any term have no spine -/
theorem TreeOK.any_spine {env : Env} {L : Lang} {t a b n} (h : TreeOK env L t a b n)
    (ht : t.type = .any) : n.spine = 0 := by
  obtain ⟨v, cs⟩ := n
  cases h with
  | any h1 h2 h3 h4 h5 h6 h7 h8 h9 => simp [Node.children] at h9; subst h9; rw [spine_mk]; rfl
  | terminal h => simp [ht] at h
  | nonterminal h => simp [ht] at h
  | list h => simp [ht] at h

/-- the root of a tree of a nonterminal is not a literal -/
theorem TreeOK.nt_root {env : Env} {L : Lang} {t a b n} (h : TreeOK env L t a b n)
    (ht : t.type = .nonterminal) : n.value.term.type ≠ .terminal := by
  cases h with
  | nonterminal h1 h2 h3 h4 => rw [h4]; simp
  | terminal h1 => simp [ht] at h1
  | any h1 => simp [ht] at h1
  | list h1 => simp [ht] at h1

/-- the level of a completed state is determined -/
theorem Lev.unique {env : Env} (hwf : env.WF)
    (hsp : ∀ t t' a b n n', t.type = t'.type → t.value = t'.value → t.type ≠ .any →
      TreeOK env env.relaxedLang t a b n → TreeOK env env.relaxedLang t' a b n' → n.spine = n'.spine)
    {i s k k'} (hi : Item env i s) (hc : s.isCompleted = true) (h : Lev env i s k)
    (h' : Lev env i s k') : k = k' := by
  have hb := hi.basic hwf
  obtain ⟨ns, h, rfl⟩ := h
  obtain ⟨ns', h', rfl⟩ := h'
  by_cases hg : s.term.value = gammaRule
  · have hfin : s.isFinal = true := by simp [TState.isFinal, hg, hc]
    obtain ⟨S, hS, h0, hd, hrb, _⟩ := hi.final hwf hfin
    have hone : ∀ {ns}, Kids env i s ns → ∃ n, ns = [n] ∧
        TreeOK env env.relaxedLang { value := S, type := .nonterminal, «meta» := .nil } 0 i n := by
      intro ns h
      rcases h with ⟨_, rb, hrb', hf⟩ | ⟨h, _⟩ | ⟨h, _⟩
      · rw [hrb] at hrb'
        simp [gammaState] at hrb'
        subst hrb'
        rw [hd, h0] at hf
        simp at hf
        cases hf with
        | cons h1 h2 => cases h2; exact ⟨_, rfl, h1⟩
      · have := (hb.list h).1; rw [hrb] at this; simp [gammaState] at this
      · have := (hb.any h).1; rw [hrb] at this; simp [gammaState] at this
    have hnt : ∀ {n}, TreeOK env env.relaxedLang { value := S, type := .nonterminal, «meta» := .nil } 0 i n →
        n.value.term.type ≠ .terminal := fun h => h.nt_root rfl
    obtain ⟨n, rfl, h1⟩ := hone h
    obtain ⟨n', rfl, h2⟩ := hone h'
    simp [spineL, hnt h1, hnt h2]
    exact hsp _ _ _ _ _ _ rfl rfl (by simp) h1 h2
  · obtain ⟨n, h1, h2, _⟩ := h.tree hwf hb hc hg (t := s.term) rfl (fun _ => rfl)
    obtain ⟨n', h1', h2', _⟩ := h'.tree hwf hb hc hg (t := s.term) rfl (fun _ => rfl)
    rw [← h2, ← h2']
    by_cases ha : s.term.type = .any
    · rw [h1.any_spine ha, h1'.any_spine ha]
    · exact hsp _ _ _ _ _ _ rfl rfl ha h1 h1'

/-! ## any states are scanned, not completed, into a column -/

/-- what scanning an any state puts into the next column is there -/
theorem Reach.anyClosed {env : Env} (hwf : env.WF) (ho : env.OrdOK) {done row cur next}
    (h : Reach env done row cur next) :
    (∀ (k : Nat) (col : List TState) (st : TState) (t : Term), done[k]? = some col → st ∈ col →
      st.term.type = .any → st.getNextTerm = some t →
      ∃ col', (done ++ [cur])[k+1]? = some col' ∧ (scannedAny st t).placed (k+1) ∈ col') ∧
    (∀ (r : Nat) (st : TState) (t : Term), r < row → cur[r]? = some st → st.term.type = .any →
      st.getNextTerm = some t → done.length < env.tokens.length →
      (scannedAny st t).placed (done.length+1) ∈ next) := by
  induction h with
  | init => exact ⟨by simp, by simp⟩
  | @row done row cur next st hreach hst ih =>
    have hinv := (hreach.inv ho).1
    have hmem := List.mem_of_getElem? hst
    have hpre := processRow_prefix env done env.tokens[done.length]? row st cur next
    refine ⟨?_, ?_⟩
    · intro k col s t hk hs hty hn
      obtain ⟨col', h1, h2⟩ := ih.1 k col s t hk hs hty hn
      have hlt := (List.getElem?_eq_some_iff.1 hk).1
      rcases Nat.lt_or_ge (k+1) done.length with hl | hg
      · rw [List.getElem?_append_left hl] at h1
        exact ⟨col', by rw [List.getElem?_append_left hl]; exact h1, h2⟩
      · have he : k + 1 = done.length := by omega
        rw [he] at h1 ⊢
        simp at h1
        subst h1
        exact ⟨_, by simp, hpre.1.subset (he ▸ h2)⟩
    · intro r s t hr hs hty hn hlen
      have hrow := (List.getElem?_eq_some_iff.1 hst).1
      have hs' : cur[r]? = some s := by
        obtain ⟨l, hl⟩ := hpre.1
        rw [← hl, List.getElem?_append_left (by omega)] at hs
        exact hs
      rcases Nat.lt_or_ge r row with hl | hg
      · exact hpre.2.subset (ih.2 r s t hl hs' hty hn hlen)
      · have he : r = row := by omega
        subst he
        rw [hst] at hs'
        have := Option.some.inj hs'
        subst this
        exact (processRow_closed hwf ho (row := r) hinv hmem).2 _
          ⟨t, env.tokens[done.length], hn, List.getElem?_eq_getElem hlen, Or.inl ⟨hty, rfl⟩⟩
  | @col done row cur next hreach hnone hlt ih =>
    refine ⟨?_, by simp⟩
    intro k col s t hk hs hty hn
    rcases Nat.lt_or_ge k done.length with hl | hg
    · rw [List.getElem?_append_left hl] at hk
      obtain ⟨col', h1, h2⟩ := ih.1 k col s t hk hs hty hn
      refine ⟨col', ?_, h2⟩
      rw [List.getElem?_append_left (List.getElem?_eq_some_iff.1 h1).1]
      exact h1
    · rw [List.getElem?_append_right hg] at hk
      have he : k = done.length := by
        have := (List.getElem?_eq_some_iff.1 hk).1
        simp at this; omega
      subst he
      simp at hk
      subst hk
      obtain ⟨r, hr⟩ := List.getElem?_of_mem hs
      refine ⟨next, by simp, ih.2 r s t ?_ hr hty hn hlt⟩
      have h1 := (List.getElem?_eq_some_iff.1 hr).1
      have h2 := List.getElem?_eq_none_iff.1 hnone
      omega

/-- an any state of an earlier column is found, grown, in the current one, as far as its maximum
permits -/
theorem Reach.anyGrown {env : Env} (hwf : env.WF) (ho : env.OrdOK) {done row cur next}
    (h : Reach env done row cur next) : ∀ (n : Nat) (k : Nat) (col : List TState) (st : TState),
    done[k]? = some col → st ∈ col → st.term.type = .any → k + n + 1 = done.length →
    (∀ min max, st.term.meta = .range min max → ((done.length - st.start : Nat) : Int) ≤ max) →
    ∃ x ∈ cur, x.term = { value := "any", type := .any, «meta» := st.term.meta } ∧ x.rb = st.rb ∧
      x.start = st.start
  | n, k, cl, st, hk, hs, hty, hkn, hmax => by
    have hinv := (h.inv ho).1
    have hb := (hinv.done k cl hk st hs).basic hwf
    have hdot := (hb.any hty).2.1
    have hstart := hb.start
    have hn : st.getNextTerm = some st.term := by
      have : st.maxReached = false := maxReached_false (by
        intro min max hm
        have := hmax min max hm
        omega)
      unfold TState.getNextTerm; simp [hty, this]
    obtain ⟨col', h1, h2⟩ := (h.anyClosed hwf ho).1 k cl st st.term hk hs hty hn
    cases n with
    | zero =>
      have he : k + 1 = done.length := by omega
      rw [he] at h1 h2
      simp at h1
      subst h1
      exact ⟨_, h2, by simp [scannedAny], by simp [scannedAny], by simp [scannedAny]⟩
    | succ n =>
      rw [List.getElem?_append_left (by omega)] at h1
      obtain ⟨x, a1, a2, a3, a4⟩ := h.anyGrown hwf ho n (k+1) col' _ h1 h2 (by simp [scannedAny])
        (by omega) (by simpa [scannedAny] using hmax)
      exact ⟨x, a1, by rw [a2]; simp [scannedAny], by rw [a3]; simp [scannedAny],
        by rw [a4]; simp [scannedAny]⟩

/-! ## the order of the rows -/

/-- completed states come in the order of their levels -/
def ColSorted (env : Env) (c : Nat) (col : List TState) : Prop :=
  ∀ (r r' : Nat) (s s' : TState) (k k' : Nat), col[r]? = some s → col[r']? = some s' → r < r' →
    s.isCompleted = true → s'.isCompleted = true → Lev env c s k → Lev env c s' k' → k ≤ k'

/-- completed items are not empty -/
theorem NoEmpty.start_lt {env : Env} (hwf : env.WF) (hne : NoEmpty env) {i s} (h : Item env i s)
    (hc : s.isCompleted = true) : s.start < i := by
  have hb := h.basic hwf
  have hs := h.sound hwf
  rcases Nat.lt_or_ge s.start i with hl | hg
  · exact hl
  · exfalso
    have he : s.start = i := Nat.le_antisymm hb.start hg
    have hnil : env.slice s.start i = [] := by
      rw [he]; apply List.eq_nil_of_length_eq_zero; rw [slice_length env hb.bound]; omega
    rcases hb.kind with hk | hk | hk
    · obtain ⟨rb, hrb, hle, hdef⟩ := hb.nt hk
      obtain ⟨rb', hrb', hy⟩ := hs.nt hk
      have hee : rb' = rb := by rw [hrb] at hrb'; exact (Option.some.inj hrb').symm
      subst hee
      have hlen : rb'.terms.length ≤ s.dot := by
        have := (completed_nt (by simp [hk]) (by simp [hk])).1 hc
        simpa [TState.bodyTerms, hrb] using this
      rw [List.take_of_length_le hlen] at hy
      have := hne.yields hy hnil
      rcases hdef with hdef | ⟨S, _, _, _, hg2⟩
      · exact hne.1 _ _ hdef this
      · rw [hrb] at hg2; simp [gammaState] at hg2; subst hg2; simp at this
    · obtain ⟨_, hdot, t, hocc, ht, hm, _⟩ := hb.any hk
      have := (completed_any_list (Or.inl hk)).1 hc
      rw [hdot, he, Nat.sub_self, ← hm] at this
      exact hne.2 t hocc (Or.inl ht) this
    · obtain ⟨_, t, hocc, ht, hv, hm⟩ := hb.list hk
      have hcnt := (completed_any_list (Or.inr hk)).1 hc
      have := congrArg List.length (hne.yields (hs.list hk) hnil)
      simp at this
      rw [this, ← hm] at hcnt
      exact hne.2 t hocc (Or.inr ht) hcnt

/-- where a new completed state of the current column comes from -/
theorem new_completed {env : Env} (hwf : env.WF) (ho : env.OrdOK) (hany : AnyNamed env)
    (hne : NoEmpty env) {done row cur next st x} (hr : Reach env done row cur next) (hst : st ∈ cur)
    (hx : CurAdd env done.length (snapOf done cur st) st x) (hnew : x ∉ cur)
    (hc : x.isCompleted = true) :
    st.isCompleted = true ∧ ∀ k, Lev env done.length st k → Lev env done.length x (k+1) := by
  have hinv := (hr.inv ho).1
  have hxi : Item env done.length x := hx.item (hinv.cur _ hst) hinv.snap
  have hlt := hne.start_lt hwf hxi hc
  rcases hx with ⟨hcm, st0, h0, t0, hn, hm, rfl⟩ |
    ⟨ha, t0, hn, ⟨htt, g, hg', r', hr', rb, hrb, rfl⟩ | ⟨htt, rfl⟩⟩
  · refine ⟨hcm, fun k hk => ?_⟩
    have hi0 := hinv.snap st0 h0
    have hsi := hinv.cur st hst
    by_cases hty : st0.term.type = .any
    · exfalso
      apply hnew
      have hslt := hne.start_lt hwf hsi hcm
      have hb0 := hi0.basic hwf
      have ht0 : t0 = st0.term := next_any hty hn
      subst ht0
      unfold snapOf at h0
      rw [if_neg (by omega), List.getD_eq_getElem?_getD] at h0
      cases hd : done[st.start]? with
      | none => simp [hd] at h0
      | some col =>
        simp [hd] at h0
        have hxt : ((advanced st0 st0.term).placed done.length).term.type = .any := by
          simp [advanced, hty]
        have hcnt := (completed_any_list (Or.inl hxt)).1 hc
        rw [placed_dot_any (by simp [advanced, hty])] at hcnt
        simp [advanced] at hcnt
        obtain ⟨y, hy, y1, y2, y3⟩ := hr.anyGrown hwf ho (done.length - st.start - 1) st.start col st0
          hd h0 hty (by omega) (by
            intro min max hmm
            rw [hmm] at hcnt
            exact hcnt.2)
        have hyb := (hinv.cur y hy).basic hwf
        have hye : y = (advanced st0 st0.term).placed done.length := by
          obtain ⟨yt, yr, ys, ye, yd⟩ := y
          have e1 : ye = done.length := hyb.stop
          have e2 := (hyb.any (by rw [y1])).2.1
          have e3 := any_value hwf hany hi0 hty
          simp only at y1 y2 y3 e2
          subst y1 y2 y3 e1 e2
          unfold TState.placed
          simp [advanced, hty, e3]
        rw [← hye]; exact hy
    · exact hk.step hwf hi0 hsi hcm rfl hn hm hty
  · exfalso
    simp [predicted] at hlt
  · exfalso
    simp [predictedSpecial] at hlt

/-- a completed state that was scanned into its column has level 0 -/
theorem scanned_lev {env : Env} (hwf : env.WF) {i tok st x} (hst : Item env i st)
    (hx : NextAdd env i tok st x) (htok : tok = env.tokens[i]?) : Lev env (i+1) x 0 := by
  obtain ⟨t0, tk, hn, ht, ⟨ha, rfl⟩ | ⟨ha, htt, hm, rfl⟩⟩ := hx
  · exact ⟨[], Or.inr (Or.inr ⟨by simp [scannedAny], rfl⟩), rfl⟩
  · have hb := hst.basic hwf
    have hk : st.term.type = .nonterminal := by
      rcases hb.kind with h | h | h
      · exact h
      · exact absurd h ha
      · obtain ⟨rfl, _⟩ := next_list h hn; simp at htt
    obtain ⟨rb, hrb, hget, hocc⟩ := hb.next_mem hk hn
    obtain ⟨ns, ⟨_, rb', hrb', hf⟩ | ⟨h, _⟩ | ⟨h, _⟩⟩ := hst.kids hwf
    · have he : rb' = rb := by rw [hrb] at hrb'; exact (Option.some.inj hrb').symm
      subst he
      refine ⟨ns ++ [.mk { term := t0, rb := none, start := i, stop := i + 1, dot := 0 } []],
        Or.inl ⟨by simp [scannedTerm, hk], rb', by simp [scannedTerm, hrb], ?_⟩, ?_⟩
      · rw [placed_dot (by simp [scannedTerm, hk])]
        simp only [scannedTerm, placed_start]
        rw [take_succ_of_get hget]
        exact hf.snoc (TreeOK.terminal htt (by rw [← htok]; exact ht) hm rfl rfl rfl rfl rfl)
      · rw [spineL_snoc, if_pos (by simpa [Node.value] using htt)]
    · rw [hk] at h; simp at h
    · rw [hk] at h; simp at h

/-- trees for the same symbol and span have spines of the same length (relaxed bounds) -/
def SpinesRel (env : Env) : Prop :=
  ∀ t t' a b n n', t.type = t'.type → t.value = t'.value → t.type ≠ .any →
    TreeOK env env.relaxedLang t a b n → TreeOK env env.relaxedLang t' a b n' → n.spine = n'.spine

theorem Reach.sorted {env : Env} (hwf : env.WF) (ho : env.OrdOK) (hany : AnyNamed env)
    (hne : NoEmpty env) (hsp : SpinesRel env) {done row cur next}
    (h : Reach env done row cur next) :
    (∀ (c : Nat) (col : List TState), done[c]? = some col → ColSorted env c col) ∧
    ColSorted env done.length cur ∧
    (∀ (r q : Nat) (s s' : TState) (k k' : Nat), cur[r]? = some s → cur[q]? = some s' → row ≤ q →
      s.isCompleted = true → s'.isCompleted = true → Lev env done.length s k →
      Lev env done.length s' k' → k ≤ k' + 1) ∧
    (∀ s ∈ next, s.isCompleted = true → ∀ k, Lev env (done.length+1) s k → k = 0) := by
  induction h with
  | init =>
    have hno : ∀ (r : Nat) (s : TState), (env.starts.map gammaState)[r]? = some s →
        s.isCompleted = true → False := by
      intro r s hr hc
      have := List.mem_of_getElem? hr
      simp at this
      obtain ⟨S, _, rfl⟩ := this
      simp [TState.isCompleted, gammaState, TState.bodyTerms] at hc
    refine ⟨by simp, ?_, ?_, by simp⟩
    · intro r r' s s' k k' h1 h2 h3 h4 h5 h6 h7
      exact (hno r s h1 h4).elim
    · intro r q s s' k k' h1 h2 h3 h4 h5 h6 h7
      exact (hno r s h1 h4).elim
  | @row done row cur next st hreach hst ih =>
    obtain ⟨i1, i2, i3, i4⟩ := ih
    have hinv := (hreach.inv ho).1
    have hmem := List.mem_of_getElem? hst
    have hsti := hinv.cur st hmem
    have hg := processRow_grow hwf ho (row := row) hinv hmem
    obtain ⟨l, hl, hnd, hnew⟩ := hg.1
    have hu : ∀ {s k k'}, Item env done.length s → s.isCompleted = true →
        Lev env done.length s k → Lev env done.length s k' → k = k' :=
      fun a b c d => Lev.unique hwf hsp a b c d
    have hinv' := processRow_inv ho (row := row) hinv hmem
    have hpart : ∀ (r : Nat) (s : TState),
        (processRow env done env.tokens[done.length]? row st cur next).1[r]? = some s →
        s.isCompleted = true →
        (r < cur.length ∧ cur[r]? = some s) ∨ (cur.length ≤ r ∧ st.isCompleted = true ∧
          ∀ k, Lev env done.length st k → Lev env done.length s (k+1)) := by
      intro r s hr hc
      rcases Nat.lt_or_ge r cur.length with hrl | hrg
      · left; rw [hl, List.getElem?_append_left hrl] at hr; exact ⟨hrl, hr⟩
      · right
        have hsl : s ∈ l := by
          rw [hl, List.getElem?_append_right hrg] at hr
          exact List.mem_of_getElem? hr
        rcases processRow_mem1 ho (List.mem_of_getElem? hr) with hs | hs
        · exact absurd hs (hnew s hsl)
        · exact ⟨hrg, new_completed hwf ho hany hne hreach hmem hs (hnew s hsl) hc⟩
    have hitem : ∀ (r : Nat) (s : TState),
        (processRow env done env.tokens[done.length]? row st cur next).1[r]? = some s →
        Item env done.length s := fun r s hr => hinv'.cur s (List.mem_of_getElem? hr)
    have hrow := (List.getElem?_eq_some_iff.1 hst).1
    obtain ⟨L, hL⟩ := hsti.lev hwf
    refine ⟨i1, ?_, ?_, ?_⟩
    · intro r r' s s' k k' h1 h2 h3 h4 h5 h6 h7
      rcases hpart r s h1 h4 with ⟨_, a1⟩ | ⟨a0, a1, a2⟩ <;>
        rcases hpart r' s' h2 h5 with ⟨_, b1⟩ | ⟨b0, b1, b2⟩
      · exact i2 r r' s s' k k' a1 b1 h3 h4 h5 h6 h7
      · have e := hu (hitem r' s' h2) h5 h7 (b2 L hL)
        have := i3 r row s st k L a1 hst (Nat.le_refl _) h4 b1 h6 hL
        omega
      · omega
      · have e := hu (hitem r' s' h2) h5 h7 (b2 L hL)
        have e' := hu (hitem r s h1) h4 h6 (a2 L hL)
        omega
    · intro r q s s' k k' h1 h2 h3 h4 h5 h6 h7
      rcases hpart r s h1 h4 with ⟨_, a1⟩ | ⟨a0, a1, a2⟩ <;>
        rcases hpart q s' h2 h5 with ⟨_, b1⟩ | ⟨b0, b1, b2⟩
      · exact i3 r q s s' k k' a1 b1 (by omega) h4 h5 h6 h7
      · have e := hu (hitem q s' h2) h5 h7 (b2 L hL)
        have := i3 r row s st k L a1 hst (Nat.le_refl _) h4 b1 h6 hL
        omega
      · have e' := hu (hitem r s h1) h4 h6 (a2 L hL)
        have := i2 row q st s' L k' hst b1 (by omega) a1 h5 hL h7
        omega
      · have e := hu (hitem q s' h2) h5 h7 (b2 L hL)
        have e' := hu (hitem r s h1) h4 h6 (a2 L hL)
        omega
    · intro s hs hc k hk
      rcases processRow_mem2 hs with hs' | hs'
      · exact i4 s hs' hc k hk
      · exact Lev.unique hwf hsp (hinv'.next s hs) hc hk (scanned_lev hwf hsti hs' rfl)
  | @col done row cur next hreach hnone hlt ih =>
    obtain ⟨i1, i2, i3, i4⟩ := ih
    have hlen : (done ++ [cur]).length = done.length + 1 := by simp
    refine ⟨?_, ?_, ?_, by simp⟩
    · intro c col hc
      rcases Nat.lt_or_ge c done.length with hl | hg
      · rw [List.getElem?_append_left hl] at hc; exact i1 c col hc
      · rw [List.getElem?_append_right hg] at hc
        have he : c = done.length := by
          have := (List.getElem?_eq_some_iff.1 hc).1
          simp at this; omega
        subst he
        simp at hc
        subst hc
        exact i2
    · intro r r' s s' k k' h1 h2 h3 h4 h5 h6 h7
      rw [hlen] at h6
      have := i4 s (List.mem_of_getElem? h1) h4 k h6
      omega
    · intro r r' s s' k k' h1 h2 h3 h4 h5 h6 h7
      rw [hlen] at h6
      have := i4 s (List.mem_of_getElem? h1) h4 k h6
      omega

/-- in the finished chart a completed state with a shorter spine comes first -/
theorem chart_sorted {env : Env} (hwf : env.WF) (ho : env.OrdOK) (hany : AnyNamed env)
    (hne : NoEmpty env) (hsp : SpinesRel env) {fuel chart} (h : chartOf env fuel = some chart)
    {c r r' s s' k} (h1 : At chart c r s) (h2 : At chart c r' s') (h3 : s.isCompleted = true)
    (h4 : s'.isCompleted = true) (h5 : Lev env c s k) (h6 : Lev env c s' (k+1)) : r < r' := by
  obtain ⟨done, row, cur, next, rfl, hreach, _, _⟩ := chartOf_reach h
  obtain ⟨i1, i2, _⟩ := hreach.sorted hwf ho hany hne hsp
  have hinv := (hreach.inv ho).1
  obtain ⟨col, hc, hr⟩ := h1
  obtain ⟨col', hc', hr'⟩ := h2
  rw [hc] at hc'
  have := Option.some.inj hc'
  subst this
  have hsort : ColSorted env c col := by
    rcases Nat.lt_or_ge c done.length with hl | hg
    · rw [List.getElem?_append_left hl] at hc; exact i1 c col hc
    · rw [List.getElem?_append_right hg] at hc
      have he : c = done.length := by
        have := (List.getElem?_eq_some_iff.1 hc).1
        simp at this; omega
      subst he
      simp at hc
      subst hc
      exact i2
  have hi : Item env c s := hinv.snoc c col hc s (List.mem_of_getElem? hr)
  rcases Nat.lt_trichotomy r r' with hl | he | hg
  · exact hl
  · subst he
    rw [hr] at hr'
    have := Option.some.inj hr'
    subst this
    have := Lev.unique hwf hsp hi h3 h5 h6
    omega
  · have := hsort r' r s' s (k+1) k hr' hr hg h4 h3 h6 h5
    omega

end Fmr
