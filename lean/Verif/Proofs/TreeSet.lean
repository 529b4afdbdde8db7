import Verif.Proofs.Trees

/-!
# Which trees are returned: no duplicates, exact characterisation, leaves
-/

namespace Fmr

/-! ## rows of a column differ, except for repeated start rules -/

/-- equal rows only for the internal start symbol -/
def Distinct (col : List TState) : Prop :=
  ∀ (i j : Nat) (s : TState), i < j → col[i]? = some s → col[j]? = some s → s.term.value = gammaRule

theorem Grow.distinct {a b : List TState} (h : Grow a b) (ha : Distinct a) : Distinct b := by
  obtain ⟨l, rfl, hn, hd⟩ := h
  intro i j s hij hi hj
  rcases Nat.lt_or_ge j a.length with h1 | h1
  · rw [List.getElem?_append_left (by omega)] at hi hj
    exact ha i j s hij hi hj
  · rw [List.getElem?_append_right h1] at hj
    rcases Nat.lt_or_ge i a.length with h2 | h2
    · rw [List.getElem?_append_left h2] at hi
      exact absurd (List.mem_of_getElem? hi) (hd s (List.mem_of_getElem? hj))
    · rw [List.getElem?_append_right h2] at hi
      have hlt := (List.getElem?_eq_some_iff.1 hi).1
      rw [List.nodup_iff_pairwise_ne, List.pairwise_iff_getElem] at hn
      obtain ⟨h3, h4⟩ := List.getElem?_eq_some_iff.1 hi
      obtain ⟨h5, h6⟩ := List.getElem?_eq_some_iff.1 hj
      exact absurd (h4.trans h6.symm) (hn _ _ h3 h5 (by omega))

theorem Reach.distinct {env : Env} (hwf : env.WF) (ho : env.OrdOK)
    {done row cur next} (h : Reach env done row cur next) :
    (∀ col ∈ done, Distinct col) ∧ Distinct cur ∧ Distinct next := by
  have hnil : Distinct [] := by intro i j s _ h; simp at h
  induction h with
  | init =>
    refine ⟨by simp, ?_, hnil⟩
    intro i j s _ hi _
    have := List.mem_of_getElem? hi
    simp at this
    obtain ⟨S, _, rfl⟩ := this
    rfl
  | @row done row cur next st hr hst ih =>
    obtain ⟨h1, h2⟩ := processRow_grow hwf ho (row := row) (hr.inv ho).1 (List.mem_of_getElem? hst)
    exact ⟨ih.1, h1.distinct ih.2.1, h2.distinct ih.2.2⟩
  | col _ _ _ ih =>
    refine ⟨?_, ih.2.2, hnil⟩
    intro c hc
    simp at hc
    rcases hc with hc | rfl
    · exact ih.1 c hc
    · exact ih.2.1

theorem chart_distinct {env : Env} (hwf : env.WF) (ho : env.OrdOK) {fuel chart}
    (h : chartOf env fuel = some chart) : ∀ col ∈ chart, Distinct col := by
  obtain ⟨done, row, cur, next, rfl, hreach, _⟩ := chartOf_reach h
  obtain ⟨h1, h2, _⟩ := hreach.distinct hwf ho
  intro col hc
  simp at hc
  rcases hc with hc | rfl
  · exact h1 col hc
  · exact h2

theorem at_unique {chart : List (List TState)} (hd : ∀ col ∈ chart, Distinct col) {e i j s}
    (hi : At chart e i s) (hj : At chart e j s) (hg : s.term.value ≠ gammaRule) : i = j := by
  obtain ⟨col, h1, h2⟩ := hi
  obtain ⟨col', h1', h2'⟩ := hj
  rw [h1] at h1'; simp at h1'; subst h1'
  have hdc := hd col (List.mem_of_getElem? h1)
  rcases Nat.lt_trichotomy i j with h | h | h
  · exact absurd (hdc i j s h h2 h2') hg
  · exact h
  · exact absurd (hdc j i s h h2' h2) hg

/-! ## the root of a built tree identifies the state -/

/-- the state at the root of a tree built for `s` -/
def nodeVal (s : TState) : TState := if s.term.type = .any then (anyLeaf s).value else s.listed

theorem nodeVal_inj {env : Env} {i s s'} (h : Item.Basic env i s) (h' : Item.Basic env i s')
    (he : nodeVal s = nodeVal s') : s = s' := by
  have ht : s.term = s'.term := by
    have := congrArg TState.term he
    unfold nodeVal at this
    split at this <;> split at this <;> simpa [anyLeaf, Node.value] using this
  unfold nodeVal at he
  obtain ⟨t, rb, a, b, d⟩ := s
  obtain ⟨t', rb', a', b', d'⟩ := s'
  simp at ht
  subst ht
  by_cases hk : t.type = .any
  · simp [hk, anyLeaf, Node.value] at he
    obtain ⟨h1, h2, _⟩ := h.any hk
    obtain ⟨h1', h2', _⟩ := h'.any hk
    simp at h1 h2 h1' h2'
    simp [h1, h1', h2, h2', he]
  · simp only [hk, ite_false] at he
    by_cases hl : t.type = .list
    · unfold TState.listed at he
      simp [hl] at he
      obtain ⟨h1, _⟩ := h.list hl
      obtain ⟨h1', _⟩ := h'.list hl
      simp at h1 h1'
      simp [h1, h1', he]
    · rwa [listed_of_ne (by simpa using hl), listed_of_ne (by simpa using hl)] at he

theorem helper_children {chart bt c r s terms} : ∀ (k : Nat) (children : List Node) (e : Int)
    (outs : List Node), treesHelper chart bt c r s terms k children e = some outs →
    ∀ n ∈ outs, ∃ pre, pre.length = k ∧ n = .mk s (pre ++ children)
  | 0, children, e, outs, h => by
    simp [treesHelper] at h; subst h
    intro n hn; simp at hn; subst hn; exact ⟨[], rfl, rfl⟩
  | k+1, children, e, outs, h => by
    rw [treesHelper] at h
    cases ht : terms[k]? with
    | none => rw [ht] at h; simp at h
    | some t =>
      rw [ht] at h
      simp only at h
      split at h
      · intro n hn
        obtain ⟨pre, h1, h2⟩ := helper_children k _ _ _ h n hn
        exact ⟨pre ++ [termLeaf s t k], by simp [h1], by simp [h2]⟩
      · cases hc : colAt chart e with
        | none => rw [hc] at h; simp at h
        | some rows =>
          rw [hc] at h
          simp only at h
          intro n hn
          obtain ⟨p, _, x, hx, hnx⟩ := (mem_optFlat h n).1 hn
          split at hx
          · split at hx
            · simp at hx
            · rename_i subs _
              obtain ⟨sub, _, o, ho, hno⟩ := (mem_optFlat hx n).1 hnx
              obtain ⟨pre, h1, h2⟩ := helper_children k _ _ _ ho n hno
              exact ⟨pre ++ [sub], by simp [h1], by simp [h2]⟩
          · simp at hx; subst hx; simp at hnx

theorem buildTrees_value {chart fuel c r s ts} (h : buildTrees chart fuel c r s = some ts) :
    ∀ n ∈ ts, n.value = nodeVal s := by
  cases fuel with
  | zero => simp [buildTrees] at h
  | succ fuel =>
    unfold buildTrees at h
    unfold nodeVal
    split at h
    · rename_i hk
      simp at h; subst h
      intro n hn; simp at hn; subst hn
      simp [hk]
    · rename_i hk
      split at h
      · simp at h
      · intro n hn
        obtain ⟨pre, _, rfl⟩ := helper_children _ _ _ _ h n hn
        simp [hk, Node.value]

/-! ## no duplicates -/

theorem optFlat_nodup {α β : Type} {f : α → Option (List β)} :
    ∀ {l : List α} {y : List β}, optFlat f l = some y →
      (∀ a ∈ l, ∀ x, f a = some x → x.Nodup) →
      l.Pairwise (fun a a' => ∀ x x', f a = some x → f a' = some x' → ∀ b ∈ x, b ∉ x') →
      y.Nodup
  | [], y, h, _, _ => by simp [optFlat] at h; subst h; simp
  | a :: l, y, h, h1, h2 => by
    unfold optFlat at h
    split at h
    · rename_i x' y' hx hy
      simp at h; subst h
      rw [List.pairwise_cons] at h2
      rw [List.nodup_append]
      refine ⟨h1 a (by simp) _ hx, optFlat_nodup hy (fun a ha => h1 a (by simp [ha])) h2.2, ?_⟩
      intro b hb b' hb' he
      subst he
      obtain ⟨a', ha', x, hxa, hbx⟩ := (mem_optFlat hy b).1 hb'
      exact h2.1 a' ha' _ _ hx hxa b hb hbx
    · simp at h

theorem rowsBefore_pairwise {chart c r} {e : Int} {rows} (h : colAt chart e = some rows) :
    (rowsBefore c r e rows).Pairwise (fun p q => p.2 ≠ q.2) := by
  have : rows.Pairwise (fun p q => p.2 ≠ q.2) := by
    unfold colAt at h
    split at h
    · simp at h
    · simp at h
      obtain ⟨col, _, rfl⟩ := h
      rw [List.pairwise_iff_getElem]
      intro i j hi hj hij
      simp
      omega
  unfold rowsBefore
  split
  · exact this.sublist (List.take_sublist _ _)
  · exact this

theorem append_cons_inj {α : Type} {pre pre' l : List α} {a a' : α}
    (hl : pre.length = pre'.length) (h : pre ++ a :: l = pre' ++ a' :: l) : a = a' := by
  have := (List.append_inj h hl).2
  injection this

theorem helper_nodup {env : Env} {chart : List (List TState)}
    (hbasic : ∀ e rc st, At chart e rc st → Item.Basic env e st)
    (hdist : ∀ col ∈ chart, Distinct col)
    {bt : Nat → Nat → TState → Option (List Node)} {c r : Nat} {s : TState} {terms : List Term}
    (hg : ∀ t ∈ terms, t.type ≠ .terminal → t.value ≠ gammaRule)
    (hbt : ∀ e rc st ts, At chart e rc st → bt e rc st = some ts →
      ts.Nodup ∧ ∀ n ∈ ts, n.value = nodeVal st) :
    ∀ (k : Nat) (children : List Node) (e : Int) (outs : List Node),
      treesHelper chart bt c r s terms k children e = some outs → outs.Nodup
  | 0, children, e, outs, h => by simp [treesHelper] at h; subst h; simp
  | k+1, children, e, outs, h => by
    rw [treesHelper] at h
    cases ht : terms[k]? with
    | none => rw [ht] at h; simp at h
    | some t =>
      rw [ht] at h
      simp only at h
      split at h
      · exact helper_nodup hbasic hdist hg hbt k _ _ _ h
      · rename_i htt
        cases hc : colAt chart e with
        | none => rw [hc] at h; simp at h
        | some rows =>
          rw [hc] at h
          simp only at h
          have he : ∃ e' : Nat, e = (e' : Int) := by
            unfold colAt at hc
            split at hc
            · simp at hc
            · exact ⟨e.toNat, by omega⟩
          obtain ⟨e, rfl⟩ := he
          have hrow : ∀ p ∈ rowsBefore c r (e : Int) rows, At chart e p.2 p.1 := fun p hp =>
            ((mem_rowsBefore hc).1 hp).1
          have hgt := hg t (List.mem_of_getElem? ht) htt
          -- every output comes from a child built for the row's state
          have hfrom : ∀ p ∈ rowsBefore c r (e : Int) rows, ∀ x,
              (if childOK s t k p.1 = true then
                match bt (e : Int).toNat p.2 p.1 with
                | none => none
                | some subs => optFlat (fun sub =>
                    treesHelper chart bt c r s terms k (sub :: children) p.1.start) subs
               else some []) = some x →
              ∀ n ∈ x, p.1.term.value = t.value ∧ ∃ pre sub, pre.length = k ∧
                n = .mk s (pre ++ sub :: children) ∧ sub.value = nodeVal p.1 := by
            intro p hp x hx n hn
            split at hx
            · rename_i hok
              split at hx
              · simp at hx
              · rename_i subs hsubs
                obtain ⟨sub, hsub, o, ho, hno⟩ := (mem_optFlat hx n).1 hn
                obtain ⟨pre, h1, h2⟩ := helper_children k _ _ _ ho n hno
                exact ⟨(childOK_iff.1 hok).2.1, pre, sub, h1, h2,
                  (hbt _ _ _ _ (hrow p hp) hsubs).2 sub hsub⟩
            · simp at hx; subst hx; simp at hn
          refine optFlat_nodup h ?_ ?_
          · intro p hp x hx
            split at hx
            · split at hx
              · simp at hx
              · rename_i subs hsubs
                refine optFlat_nodup hx (fun sub _ o ho => helper_nodup hbasic hdist hg hbt k _ _ _ ho) ?_
                have hnd := (hbt _ _ _ _ (hrow p hp) hsubs).1
                rw [List.nodup_iff_pairwise_ne] at hnd
                refine hnd.imp ?_
                intro a a' hne x x' hx hx' n hn hn'
                obtain ⟨pre, h1, h2⟩ := helper_children k _ _ _ hx n hn
                obtain ⟨pre', h1', h2'⟩ := helper_children k _ _ _ hx' n hn'
                rw [h2] at h2'
                injection h2' with _ h3
                exact hne (append_cons_inj (by rw [h1, h1']) h3)
            · simp at hx; subst hx; simp
          · refine (rowsBefore_pairwise hc).imp_of_mem ?_
            intro p q hp hq hne x x' hx hx' n hn hn'
            obtain ⟨hv, pre, sub, h1, h2, h3⟩ := hfrom p hp x hx n hn
            obtain ⟨hv', pre', sub', h1', h2', h3'⟩ := hfrom q hq x' hx' n hn'
            rw [h2] at h2'
            injection h2' with _ h4
            have hsub := append_cons_inj (by rw [h1, h1']) h4
            subst hsub
            have hs := nodeVal_inj (hbasic _ _ _ (hrow p hp)) (hbasic _ _ _ (hrow q hq))
              (h3.symm.trans h3')
            have hq' := hrow q hq
            rw [← hs] at hq'
            exact hne (at_unique hdist (hrow p hp) hq' (by rw [hv]; exact hgt))

/-- terms in the body of a chart state are never the internal start symbol -/
theorem body_ne_gamma {env : Env} (hwf : env.WF) {i s rb} (hb : Item.Basic env i s)
    (hrb : s.listed.rb = some rb) : ∀ t ∈ rb.terms, t.type ≠ .terminal → t.value ≠ gammaRule := by
  intro t ht htt
  rcases hb.kind with hk | hk | hk
  · rw [listed_of_ne (by simp [hk])] at hrb
    obtain ⟨rb', hrb', _, hdef⟩ := hb.nt hk
    rw [hrb] at hrb'; simp at hrb'; subst hrb'
    rcases hdef with hdef | ⟨S, hS, _, _, hg⟩
    · exact hwf.noGamma.2.1 t ⟨_, rb, hdef, ht⟩ htt
    · rw [hrb] at hg; simp [gammaState] at hg; subst hg; simp at ht; subst ht
      intro h; simp at h; subst h; exact hwf.noGamma.2.2 hS
  · rw [listed_of_ne (by simp [hk]), (hb.any hk).1] at hrb; simp at hrb
  · rw [listed_rb hk] at hrb; simp at hrb; subst hrb
    have := List.eq_of_mem_replicate ht
    subst this
    obtain ⟨_, t', hocc, hlt, hv, _⟩ := hb.list hk
    simp only; rw [← hv]; exact hwf.noGamma.2.1 t' hocc (by simp [hlt])

/-- C14: no tree twice -/
theorem buildTrees_nodup {env : Env} (hwf : env.WF) {chart : List (List TState)}
    (hbasic : ∀ e rc st, At chart e rc st → Item.Basic env e st)
    (hdist : ∀ col ∈ chart, Distinct col) :
    ∀ (fuel c r : Nat) (s : TState) (ts : List Node), At chart c r s →
      buildTrees chart fuel c r s = some ts → ts.Nodup := by
  intro fuel
  induction fuel with
  | zero => intro c r s ts _ h; simp [buildTrees] at h
  | succ fuel ih =>
    intro c r s ts hat h
    unfold buildTrees at h
    split at h
    · simp at h; subst h; simp
    · cases hrb : s.listed.rb with
      | none => rw [hrb] at h; simp at h
      | some rb =>
        rw [hrb] at h
        exact helper_nodup hbasic hdist (body_ne_gamma hwf (hbasic _ _ _ hat) hrb)
          (fun e rc st ts hat' h' => ⟨ih e rc st ts hat' h', buildTrees_value h'⟩) _ _ _ _ h

/-! ## exact characterisation -/

theorem LaidKids.snoc_leaf {chart c r} : ∀ {ts : List Term} {a m ns} {t : Term},
    LaidKids chart c r ts a m ns → t.type = .terminal →
    LaidKids chart c r (ts ++ [t]) a (m+1)
      (ns ++ [.mk { term := t, rb := none, start := m, stop := m + 1, dot := 0 } []])
  | [], _, _, _, t, h, ht => by cases h; exact LaidKids.leaf ht LaidKids.nil
  | _ :: _, _, _, _, t, h, ht => by
    cases h with
    | leaf h1 h2 => exact LaidKids.leaf h1 (h2.snoc_leaf ht)
    | cons h1 h2 h3 h4 h5 h6 => exact LaidKids.cons h1 h2 h3 h4 h5 (h6.snoc_leaf ht)

theorem LaidKids.snoc {chart c r} : ∀ {ts : List Term} {a ns} {t : Term} {m rc n},
    LaidKids chart c r ts a n.value.start ns → t.type ≠ .terminal → Laid chart m rc n →
    n.value.term.value = t.value → n.value.term.type = t.type → Earlier c r m rc →
    LaidKids chart c r (ts ++ [t]) a m (ns ++ [n])
  | [], _, _, _, _, _, _, h, a1, a2, a3, a4, a5 => by
    generalize hs : Node.value _ = v at h
    cases h; subst hs; exact LaidKids.cons a1 a2 a3 a4 a5 LaidKids.nil
  | _ :: _, _, _, _, _, _, _, h, a1, a2, a3, a4, a5 => by
    cases h with
    | leaf h1 h2 => exact LaidKids.leaf h1 (h2.snoc a1 a2 a3 a4 a5)
    | cons h1 h2 h3 h4 h5 h6 => exact LaidKids.cons h1 h2 h3 h4 h5 (h6.snoc a1 a2 a3 a4 a5)

/-- the last child -/
theorem LaidKids.unsnoc {chart c r} : ∀ {ts : List Term} {a b ns} {t : Term},
    LaidKids chart c r (ts ++ [t]) a b ns →
    (t.type = .terminal ∧ ∃ m ns', b = m + 1 ∧ ns = ns' ++
      [.mk { term := t, rb := none, start := m, stop := m + 1, dot := 0 } []] ∧
      LaidKids chart c r ts a m ns') ∨
    (t.type ≠ .terminal ∧ ∃ ns' n rc, ns = ns' ++ [n] ∧ Laid chart b rc n ∧
      n.value.term.value = t.value ∧ n.value.term.type = t.type ∧ Earlier c r b rc ∧
      LaidKids chart c r ts a n.value.start ns')
  | [], _, _, _, t, h => by
    cases h with
    | leaf h1 h2 => cases h2; exact Or.inl ⟨h1, _, [], rfl, rfl, LaidKids.nil⟩
    | cons h1 h2 h3 h4 h5 h6 =>
      cases h6; exact Or.inr ⟨h1, [], _, _, rfl, h2, h3, h4, h5, LaidKids.nil⟩
  | _ :: _, _, _, _, t, h => by
    cases h with
    | leaf h1 h2 =>
      rcases h2.unsnoc with ⟨a1, m, ns', a2, a3, a4⟩ | ⟨a1, ns', n, rc, a2, a3, a4, a5, a6, a7⟩
      · exact Or.inl ⟨a1, m, _ :: ns', a2, by rw [a3]; rfl, LaidKids.leaf h1 a4⟩
      · exact Or.inr ⟨a1, _ :: ns', n, rc, by rw [a2]; rfl, a3, a4, a5, a6, LaidKids.leaf h1 a7⟩
    | cons h1 h2 h3 h4 h5 h6 =>
      rcases h6.unsnoc with ⟨a1, m, ns', a2, a3, a4⟩ | ⟨a1, ns', n, rc, a2, a3, a4, a5, a6, a7⟩
      · exact Or.inl ⟨a1, m, _ :: ns', a2, by rw [a3]; rfl, LaidKids.cons h1 h2 h3 h4 h5 a4⟩
      · exact Or.inr ⟨a1, _ :: ns', n, rc, by rw [a2]; rfl, a3, a4, a5, a6,
          LaidKids.cons h1 h2 h3 h4 h5 a7⟩

/-- a laid node is placed at a completed chart state and has that state at its root -/
theorem Laid.at {chart c r n} (h : Laid chart c r n) :
    ∃ s, At chart c r s ∧ s.isCompleted = true ∧ n.value = nodeVal s := by
  cases h with
  | @any c r s col h1 h2 h3 h4 =>
    exact ⟨s, ⟨col, h1, h2⟩, h3, by simp [nodeVal, h4, anyLeaf, Node.value]⟩
  | @nonterminal c r s rb ns col h1 h2 h3 h4 h5 h6 =>
    exact ⟨s, ⟨col, h1, h2⟩, h3, by simp [nodeVal, h4, Node.value, listed_of_ne]⟩
  | @list c r s ns col h1 h2 h3 h4 h5 =>
    refine ⟨s, ⟨col, h1, h2⟩, h3, ?_⟩
    simp [nodeVal, h4, Node.value, TState.listed]
    rfl

@[simp] theorem nodeVal_term (s : TState) : (nodeVal s).term = s.term := by
  unfold nodeVal; split
  · rfl
  · simp
@[simp] theorem nodeVal_start (s : TState) : (nodeVal s).start = s.start := by
  unfold nodeVal; split
  · rfl
  · simp

theorem at_inj {chart : List (List TState)} {c r s s'} (h : At chart c r s) (h' : At chart c r s') :
    s = s' := by
  obtain ⟨col, h1, h2⟩ := h
  obtain ⟨col', h1', h2'⟩ := h'
  rw [h1] at h1'; simp at h1'; subst h1'
  rw [h2] at h2'; simpa using h2'

/-- a laid-out body without terminals ends where the last child ends -/
theorem LaidKids.end_le {chart c r} (hstart : ∀ e rc st, At chart e rc st → st.start ≤ e) :
    ∀ {ts : List Term} {a b ns}, LaidKids chart c r ts a b ns → a ≤ b
  | [], _, _, _, h => by cases h; exact Nat.le_refl _
  | _ :: _, _, _, _, h => by
    cases h with
    | leaf h1 h2 => have := h2.end_le hstart; omega
    | cons h1 h2 h3 h4 h5 h6 =>
      have := h6.end_le hstart
      obtain ⟨s, hs1, _, hs2⟩ := h2.at
      have := hstart _ _ _ hs1
      rw [hs2, nodeVal_start]; omega

theorem helper_laid_nt {chart : List (List TState)}
    (hstart : ∀ e rc st, At chart e rc st → st.start ≤ e)
    {bt : Nat → Nat → TState → Option (List Node)} {c r : Nat} {s : TState} {terms : List Term}
    (hnt : ∀ t ∈ terms, t.type ≠ .terminal)
    (hbt : ∀ e rc st ts, At chart e rc st → st.isCompleted = true → bt e rc st = some ts →
      ∀ n, n ∈ ts ↔ Laid chart e rc n) :
    ∀ (k : Nat) (children : List Node) (e : Nat) (outs : List Node), k ≤ terms.length → e ≤ c →
      (k = 0 → e = s.start) →
      treesHelper chart bt c r s terms k children (e : Int) = some outs →
      ∀ n, n ∈ outs ↔ ∃ pre, n = .mk s (pre ++ children) ∧
        LaidKids chart c r (terms.take k) s.start e pre
  | 0, children, e, outs, _, _, he, h => by
    simp [treesHelper] at h; subst h
    intro n
    simp
    constructor
    · rintro rfl; exact ⟨[], rfl, by rw [he rfl]; exact LaidKids.nil⟩
    · rintro ⟨pre, rfl, hl⟩; cases hl; rfl
  | k+1, children, e, outs, hk, he, _, h => by
    have ht : terms[k]? = some terms[k] := List.getElem?_eq_getElem hk
    have hmem : terms[k] ∈ terms := List.getElem_mem _
    have htt := hnt _ hmem
    cases hc : colAt chart (e : Int) with
    | none =>
      rw [treesHelper] at h
      simp [ht, htt, hc] at h
    | some rows =>
      rw [helper_succ ht htt hc] at h
      intro n
      rw [mem_optFlat h n, take_succ_of_get ht]
      constructor
      · rintro ⟨p, hp, x, hx, hnx⟩
        split at hx
        · rename_i hok
          split at hx
          · simp at hx
          · rename_i subs hsubs
            obtain ⟨sub, hsub, o, ho, hno⟩ := (mem_optFlat hx n).1 hnx
            obtain ⟨hat, hlt⟩ := (mem_rowsBefore hc).1 hp
            obtain ⟨h1, h2, h3, h4⟩ := childOK_iff.1 hok
            have hle := hstart _ _ _ hat
            obtain ⟨pre, hpre, hkids⟩ := (helper_laid_nt hstart hnt hbt k (sub :: children) p.1.start o
              (by omega) (by omega) h4 ho n).1 hno
            have hl := (hbt _ _ _ _ hat h1 hsubs sub).1 hsub
            obtain ⟨s', hs1, _, hs2⟩ := hl.at
            rw [← at_inj hat hs1] at hs2
            refine ⟨pre ++ [sub], by simp [hpre], ?_⟩
            refine LaidKids.snoc (by rw [hs2, nodeVal_start]; exact hkids) htt hl
              (by rw [hs2, nodeVal_term]; exact h2) (by rw [hs2, nodeVal_term]; exact h3) ?_
            rcases Nat.lt_or_eq_of_le he with h | h
            · exact Or.inl h
            · exact Or.inr ⟨h, hlt h⟩
        · simp at hx; subst hx; simp at hnx
      · rintro ⟨pre, rfl, hkids⟩
        rcases hkids.unsnoc with ⟨a1, _⟩ | ⟨_, ns', sub, rc, rfl, a2, a3, a4, a5, a6⟩
        · exact absurd a1 htt
        · obtain ⟨st, hs1, hs2, hs3⟩ := a2.at
          rw [hs3, nodeVal_term] at a3 a4
          rw [hs3, nodeVal_start] at a6
          have hin : (st, rc) ∈ rowsBefore c r (e : Int) rows := by
            refine (mem_rowsBefore hc).2 ⟨hs1, fun hec => ?_⟩
            rcases a5 with h | ⟨_, h⟩
            · omega
            · exact h
          have hz : k = 0 → st.start = s.start := by
            intro h0
            subst h0
            rw [List.take_zero] at a6
            generalize st.start = v at a6
            cases a6; rfl
          have hok : childOK s terms[k] k st = true := childOK_iff.2 ⟨hs2, a3, a4, hz⟩
          obtain ⟨x, hx⟩ := optFlat_some_of h _ hin
          refine ⟨_, hin, x, hx, ?_⟩
          simp only [hok, ite_true] at hx
          cases hb : bt e rc st with
          | none => rw [hb] at hx; simp at hx
          | some subs =>
            rw [hb] at hx
            simp only at hx
            have hsub := (hbt _ _ _ _ hs1 hs2 hb sub).2 a2
            obtain ⟨o, ho⟩ := optFlat_some_of hx sub hsub
            refine (mem_optFlat hx _).2 ⟨sub, hsub, o, ho, ?_⟩
            have hle := hstart _ _ _ hs1
            refine (helper_laid_nt hstart hnt hbt k (sub :: children) st.start o
              (by omega) (by omega) hz ho _).2 ⟨ns', by simp, a6⟩

theorem helper_laid_term {chart : List (List TState)}
    {bt : Nat → Nat → TState → Option (List Node)} {c r : Nat} {s : TState} {terms : List Term}
    (htt : ∀ t ∈ terms, t.type = .terminal) :
    ∀ (k : Nat) (children : List Node) (e : Int) (outs : List Node), k ≤ terms.length →
      treesHelper chart bt c r s terms k children e = some outs →
      ∀ n, n ∈ outs ↔ ∃ pre, n = .mk s (pre ++ children) ∧
        LaidKids chart c r (terms.take k) s.start (s.start + k) pre
  | 0, children, e, outs, _, h => by
    simp [treesHelper] at h; subst h
    intro n
    simp
    constructor
    · rintro rfl; exact ⟨[], rfl, LaidKids.nil⟩
    · rintro ⟨pre, rfl, hl⟩; cases hl; rfl
  | k+1, children, e, outs, hk, h => by
    have ht : terms[k]? = some terms[k] := List.getElem?_eq_getElem hk
    have hty := htt _ (List.getElem_mem hk)
    rw [treesHelper] at h
    simp only [ht, hty, ite_true] at h
    intro n
    rw [helper_laid_term htt k _ _ _ (by omega) h n, take_succ_of_get ht]
    constructor
    · rintro ⟨pre, rfl, hk⟩
      exact ⟨pre ++ [termLeaf s terms[k] k], by simp, hk.snoc_leaf hty⟩
    · rintro ⟨pre, rfl, hkids⟩
      rcases hkids.unsnoc with ⟨_, m, ns', hm, rfl, a4⟩ | ⟨a1, _⟩
      · have : m = s.start + k := by omega
        subst this
        exact ⟨ns', by simp [termLeaf], a4⟩
      · exact absurd hty a1

/-- exactly the trees laid out on the chart are built -/
theorem buildTrees_laid {env : Env} (hwf : env.WF) (hun : Unmixed env) {chart : List (List TState)}
    (hch : ∀ (c : Nat) (col : List TState), chart[c]? = some col → ∀ s ∈ col, Item env c s) :
    ∀ (fuel c r : Nat) (s : TState) (ts : List Node), At chart c r s → s.isCompleted = true →
      buildTrees chart fuel c r s = some ts → ∀ n, n ∈ ts ↔ Laid chart c r n := by
  have hitem : ∀ {c r s}, At chart c r s → Item env c s := by
    rintro c r s ⟨col, h1, h2⟩; exact hch c col h1 s (List.mem_of_getElem? h2)
  have hstart : ∀ e rc st, At chart e rc st → st.start ≤ e := fun e rc st h =>
    ((hitem h).basic hwf).start
  intro fuel
  induction fuel with
  | zero => intro c r s ts _ _ h; simp [buildTrees] at h
  | succ fuel ih =>
    intro c r s ts hat hc h n
    have hi := hitem hat
    have hb := hi.basic hwf
    obtain ⟨col, hcol, hrow⟩ := hat
    have hat : At chart c r s := ⟨col, hcol, hrow⟩
    -- a laid node at (c, r) is for `s`
    have hsame : ∀ {s' col'}, chart[c]? = some col' → col'[r]? = some s' → s' = s := fun h1 h2 =>
      at_inj ⟨_, h1, h2⟩ hat
    unfold buildTrees at h
    split at h
    · rename_i hany
      simp at h; subst h
      simp only [List.mem_singleton]
      constructor
      · rintro rfl; exact Laid.any hcol hrow hc hany
      · intro hl
        cases hl with
        | any h1 h2 h3 h4 => rw [hsame h1 h2]; rfl
        | nonterminal h1 h2 h3 h4 => rw [hsame h1 h2, hany] at h4; simp at h4
        | list h1 h2 h3 h4 => rw [hsame h1 h2, hany] at h4; simp at h4
    · rename_i hany
      rcases hb.kind with hk | hk | hk
      · obtain ⟨rb, hrb, hle, hdef⟩ := hb.nt hk
        have hl := listed_of_ne (s := s) (by simp [hk])
        rw [hl, hrb] at h
        simp only at h
        have hcl : rb.terms.length ≤ s.dot := by
          have := (completed_nt (by simp [hk]) (by simp [hk])).1 hc
          simpa [TState.bodyTerms, hrb] using this
        have hun' : (∀ t ∈ rb.terms, t.type = .terminal) ∨ (∀ t ∈ rb.terms, t.type ≠ .terminal) := by
          rcases hdef with hdef | ⟨S, _, _, _, hg⟩
          · exact hun _ _ hdef
          · right; rw [hrb] at hg; simp [gammaState] at hg; subst hg; simp
        have conv : (∃ pre, n = .mk s (pre ++ []) ∧
            LaidKids chart c r (rb.terms.take rb.terms.length) s.start s.stop pre) ↔ Laid chart c r n := by
          rw [List.take_length]
          constructor
          · rintro ⟨pre, rfl, hkids⟩
            rw [List.append_nil]
            exact Laid.nonterminal hcol hrow hc hk hrb hkids
          · intro hl
            cases hl with
            | any h1 h2 h3 h4 => rw [hsame h1 h2] at h4; exact absurd h4 hany
            | nonterminal h1 h2 h3 h4 h5 h6 =>
              have := hsame h1 h2; subst this
              rw [hrb] at h5; simp at h5; subst h5
              exact ⟨_, by rw [List.append_nil], h6⟩
            | list h1 h2 h3 h4 => rw [hsame h1 h2, hk] at h4; simp at h4
        rcases hun' with hun' | hun'
        · obtain ⟨rb', hrb', hy⟩ := (hi.sound hwf).nt hk
          rw [hrb] at hrb'; simp at hrb'; subst hrb'
          rw [List.take_of_length_le hcl] at hy
          obtain ⟨y1, y2⟩ := hy.all_terminal hun'
          have hstop : s.start + rb.terms.length = s.stop := by
            rw [slice_length env hb.bound] at y1
            have := hb.start; have := hb.stop; omega
          rw [helper_laid_term hun' _ _ _ _ (Nat.le_refl _) h n, hstop, conv]
        · have hstop := hb.stop
          rw [hstop] at h conv
          rw [helper_laid_nt hstart hun' (fun e rc st ts h1 h2 h3 => ih e rc st ts h1 h2 h3)
            _ _ c _ (Nat.le_refl _) (Nat.le_refl _) ?_ h n, conv]
          intro h0
          have hd : s.dot = 0 := by omega
          exact (hi.start_eq_of_dot hwf hany hd).symm
      · exact absurd hk hany
      · rw [listed_rb hk] at h
        simp only at h
        have hstop := hb.stop
        rw [hstop] at h
        rw [helper_laid_nt hstart ?_ (fun e rc st ts h1 h2 h3 => ih e rc st ts h1 h2 h3)
            _ _ c _ (Nat.le_refl _) (Nat.le_refl _) ?_ h n]
        · rw [List.take_length, listed_start]
          constructor
          · rintro ⟨pre, rfl, hkids⟩
            rw [List.append_nil]
            have := Laid.list hcol hrow hc hk (by rw [hstop]; exact hkids)
            unfold TState.listed
            rw [if_pos hk]
            exact this
          · intro hl
            cases hl with
            | any h1 h2 h3 h4 => rw [hsame h1 h2] at h4; exact absurd h4 hany
            | nonterminal h1 h2 h3 h4 h5 h6 => rw [hsame h1 h2, hk] at h4; simp at h4
            | list h1 h2 h3 h4 h5 =>
              have := hsame h1 h2; subst this
              rw [hstop] at h5
              refine ⟨_, ?_, h5⟩
              rw [List.append_nil]
              unfold TState.listed
              rw [if_pos hk]
              rfl
        · intro t ht
          rw [List.eq_of_mem_replicate ht]; simp
        · intro h0
          have hd : s.dot = 0 := by simpa [listBody] using h0
          rw [listed_start]
          exact (hi.start_eq_of_dot hwf hany hd).symm

/-! ## leaves -/

mutual
theorem TreeOK.leaves {env : Env} {L : Lang} {t a b n} (h : TreeOK env L t a b n) :
    a ≤ b ∧ n.leafToks = (List.range (b - a)).map (a + ·) := by
  obtain ⟨v, cs⟩ := n
  cases h with
  | terminal h1 h2 h3 h4 h5 h6 h7 h8 =>
    simp [Node.children, Node.value] at h8 h6 h7
    subst h8
    simp [Node.leafToks, h6, h7]
  | any h1 h2 h3 h4 h5 h6 h7 h8 h9 =>
    simp [Node.children, Node.value] at h7 h8 h9
    subst h9
    simp [Node.leafToks, h7, h8, h2]
  | nonterminal h1 h2 h3 h4 h5 h6 h7 h8 =>
    have := ForestOK.leaves h8
    simp [Node.children, Node.value] at h6 h7 this
    refine ⟨this.1, ?_⟩
    cases cs with
    | nil => simp [Node.leafToks, h6, h7]
    | cons c cs => rw [← this.2]; rfl
  | list h1 h2 h3 h4 h5 h6 h7 h8 =>
    have := ForestOK.leaves h8
    simp [Node.children, Node.value] at h6 h7 this
    refine ⟨this.1, ?_⟩
    cases cs with
    | nil => simp [Node.leafToks, h6, h7]
    | cons c cs => rw [← this.2]; rfl
theorem ForestOK.leaves {env : Env} {L : Lang} {ts a b ns} (h : ForestOK env L ts a b ns) :
    a ≤ b ∧ leafToksL ns = (List.range (b - a)).map (a + ·) := by
  cases h with
  | nil => simp [leafToksL]
  | @cons t ts a m b n ns h1 h2 =>
    obtain ⟨l1, l2⟩ := TreeOK.leaves h1
    obtain ⟨l3, l4⟩ := ForestOK.leaves h2
    refine ⟨by omega, ?_⟩
    simp only [leafToksL, l2, l4]
    have : b - a = (m - a) + (b - m) := by omega
    rw [this, List.range_add]
    simp
    intro x _
    omega
end

theorem ForestOK.mem {env : Env} {L : Lang} : ∀ {ts : List Term} {a b ns},
    ForestOK env L ts a b ns → ∀ n ∈ ns, ∃ t a b, TreeOK env L t a b n
  | _, _, _, [], _ => by simp
  | _, _, _, _ :: _, .cons h1 h2 => by
    intro n hn
    rcases List.mem_cons.1 hn with rfl | hn
    · exact ⟨_, _, _, h1⟩
    · exact h2.mem n hn

theorem TreeOK.span {env : Env} {L : Lang} {t a b n} (h : TreeOK env L t a b n) :
    n.value.start = a ∧ n.value.stop = b := by
  cases h <;> exact ⟨by assumption, by assumption⟩

/-- every node below a valid tree is a valid tree -/
theorem TreeOK.sub {env : Env} {L : Lang} {m n : Node} (hs : Node.Sub m n) :
    ∀ {t a b}, TreeOK env L t a b n → ∃ t a b, TreeOK env L t a b m := by
  induction hs with
  | refl => intro t a b h; exact ⟨t, a, b, h⟩
  | @child n k hk _ ih =>
    intro t a b h
    cases h with
    | terminal h1 h2 h3 h4 h5 h6 h7 h8 => rw [h8] at hk; simp at hk
    | any h1 h2 h3 h4 h5 h6 h7 h8 h9 => rw [h9] at hk; simp at hk
    | nonterminal h1 h2 h3 h4 h5 h6 h7 h8 =>
      obtain ⟨_, _, _, h⟩ := h8.mem k hk; exact ih h
    | list h1 h2 h3 h4 h5 h6 h7 h8 =>
      obtain ⟨_, _, _, h⟩ := h8.mem k hk; exact ih h

mutual
theorem TreeOK.yields {env : Env} {L : Lang}
    (hL : ∀ A rb, env.Defines A rb → L.prods A rb.terms)
    {t a b n} (h : TreeOK env L t a b n) (hb : b ≤ env.tokens.length) :
    a ≤ b ∧ Yields L [t] (env.slice a b) := by
  obtain ⟨v, cs⟩ := n
  cases h with
  | terminal h1 h2 h3 h4 h5 h6 h7 h8 =>
    refine ⟨by omega, ?_⟩
    rw [slice_succ env (Nat.le_refl _) h2]
    simp
    exact Yields.terminal h1 h3 Yields.nil
  | any h1 h2 h3 h4 h5 h6 h7 h8 h9 =>
    exact ⟨h2, Yields.any_one h1 (by rw [slice_length env hb]; exact h4)⟩
  | nonterminal h1 h2 h3 h4 h5 h6 h7 h8 =>
    have := ForestOK.yields hL h8 hb
    exact ⟨this.1, Yields.nonterminal_one h1 (hL _ _ h2) this.2⟩
  | list h1 h2 h3 h4 h5 h6 h7 h8 =>
    have := ForestOK.yields hL h8 hb
    exact ⟨this.1, Yields.list_one h1 h2 this.2⟩
theorem ForestOK.yields {env : Env} {L : Lang}
    (hL : ∀ A rb, env.Defines A rb → L.prods A rb.terms)
    {ts a b ns} (h : ForestOK env L ts a b ns) (hb : b ≤ env.tokens.length) :
    a ≤ b ∧ Yields L ts (env.slice a b) := by
  cases h with
  | nil => simp; exact Yields.nil
  | @cons t ts a m b n ns h1 h2 =>
    obtain ⟨l3, l4⟩ := ForestOK.yields hL h2 hb
    obtain ⟨l1, l2⟩ := TreeOK.yields hL h1 (by omega)
    refine ⟨by omega, ?_⟩
    rw [← slice_append env l1 l3]
    exact l2.append l4
end

mutual
theorem TreeOK.strict {env : Env} (hu : UniformBounds env) {t a b n}
    (h : TreeOK env env.relaxedLang t a b n)
    (hocc : t.type = .any ∨ t.type = .list → env.Occurs t) : TreeOK env env.lang t a b n := by
  obtain ⟨v, cs⟩ := n
  cases h with
  | terminal h1 h2 h3 h4 h5 h6 h7 h8 => exact TreeOK.terminal h1 h2 h3 h4 h5 h6 h7 h8
  | any h1 h2 h3 h4 h5 h6 h7 h8 h9 h10 =>
    refine TreeOK.any h1 h2 h3 ?_ h5 h6 h7 h8 h9 h10
    obtain ⟨t', ho, ht', hc⟩ := h4
    show okCount _ _
    rw [hu.1 _ t' (hocc (Or.inl h1)) ho h1 ht']
    exact hc
  | nonterminal h1 h2 h3 h4 h5 h6 h7 h8 =>
    exact TreeOK.nonterminal h1 h2 h3 h4 h5 h6 h7
      (ForestOK.strict hu h8 (fun t' ht' _ => ⟨_, _, h2, ht'⟩))
  | list h1 h2 h3 h4 h5 h6 h7 h8 =>
    obtain ⟨t', ho, ht', hv, hc⟩ := h2
    refine TreeOK.list h1 ?_ h3 h4 h5 h6 h7 (ForestOK.strict hu h8 ?_)
    · show okCount _ _
      rw [hu.2 _ t' (hocc (Or.inr h1)) ho h1 ht' hv.symm]
      exact hc
    · intro t ht htt
      rw [List.eq_of_mem_replicate ht] at htt
      simp at htt
theorem ForestOK.strict {env : Env} (hu : UniformBounds env) {ts a b ns}
    (h : ForestOK env env.relaxedLang ts a b ns)
    (hocc : ∀ t ∈ ts, t.type = .any ∨ t.type = .list → env.Occurs t) :
    ForestOK env env.lang ts a b ns := by
  cases h with
  | nil => exact ForestOK.nil
  | cons h1 h2 =>
    exact ForestOK.cons (TreeOK.strict hu h1 (hocc _ (by simp)))
      (ForestOK.strict hu h2 (fun t ht => hocc t (by simp [ht])))
end

/-! ## more fuel does not change the result -/

theorem optFlat_congr {α β : Type} {f g : α → Option (List β)} :
    ∀ {l : List α} {y}, (∀ a ∈ l, ∀ x, f a = some x → g a = some x) → optFlat f l = some y →
      optFlat g l = some y
  | [], _, _, h => h
  | a :: l, y, hfg, h => by
    unfold optFlat at h ⊢
    split at h
    · rename_i x' y' hx hy
      rw [hfg a (by simp) _ hx, optFlat_congr (fun b hb => hfg b (by simp [hb])) hy]
      exact h
    · simp at h

theorem helper_mono {chart : List (List TState)} {bt bt' : Nat → Nat → TState → Option (List Node)}
    {c r : Nat} {s : TState} {terms : List Term}
    (hbt : ∀ e rc st x, bt e rc st = some x → bt' e rc st = some x) :
    ∀ (k : Nat) (children : List Node) (e : Int) (outs : List Node),
      treesHelper chart bt c r s terms k children e = some outs →
      treesHelper chart bt' c r s terms k children e = some outs
  | 0, _, _, _, h => h
  | k+1, children, e, outs, h => by
    rw [treesHelper] at h ⊢
    cases ht : terms[k]? with
    | none => rw [ht] at h; simp at h
    | some t =>
      rw [ht] at h
      simp only at h ⊢
      split
      · rename_i htt
        rw [if_pos htt] at h
        exact helper_mono hbt k _ _ _ h
      · rename_i htt
        rw [if_neg htt] at h
        cases hc : colAt chart e with
        | none => rw [hc] at h; simp at h
        | some rows =>
          rw [hc] at h
          simp only at h ⊢
          refine optFlat_congr ?_ h
          intro p _ x hx
          split
          · rename_i hok
            rw [if_pos hok] at hx
            cases hb : bt e.toNat p.2 p.1 with
            | none => rw [hb] at hx; simp at hx
            | some subs =>
              rw [hb] at hx
              rw [hbt _ _ _ _ hb]
              exact optFlat_congr (fun sub _ o ho => helper_mono hbt k _ _ _ ho) hx
          · rename_i hok
            rw [if_neg hok] at hx
            exact hx

theorem buildTrees_mono {chart : List (List TState)} : ∀ {fuel fuel' c r s ts}, fuel ≤ fuel' →
    buildTrees chart fuel c r s = some ts → buildTrees chart fuel' c r s = some ts
  | 0, _, _, _, _, _, _, h => by simp [buildTrees] at h
  | fuel+1, 0, _, _, _, _, hle, _ => by omega
  | fuel+1, fuel'+1, c, r, s, ts, hle, h => by
    unfold buildTrees at h ⊢
    split
    · rename_i hany; rw [if_pos hany] at h; exact h
    · rename_i hany
      rw [if_neg hany] at h
      cases hrb : s.listed.rb with
      | none => rw [hrb] at h; simp at h
      | some rb =>
        rw [hrb] at h
        exact helper_mono (fun e rc st x hx => buildTrees_mono (by omega) hx) _ _ _ _ h

end Fmr
