import Verif.Proofs.TreeSet

/-!
# The write to list states during tree building is invisible
-/

namespace Fmr

/-- pointwise related lists -/
inductive Rel2 {α β : Type} (R : α → β → Prop) : List α → List β → Prop
  | nil : Rel2 R [] []
  | cons {a b l₁ l₂} : R a b → Rel2 R l₁ l₂ → Rel2 R (a :: l₁) (b :: l₂)

/-- equal up to the body of list states -/
def SameChart (a b : List (List TState)) : Prop :=
  a.map (·.map TState.listed) = b.map (·.map TState.listed)

theorem listed_listed (s : TState) : s.listed.listed = s.listed := by
  unfold TState.listed
  split
  · simp [listRb]
  · simp

theorem isCompleted_listed (s : TState) : s.listed.isCompleted = s.isCompleted := by
  by_cases h : s.term.type = .list
  · unfold TState.isCompleted TState.metaEmpty
    simp only [listed_term, listed_dot, h]
  · rw [listed_of_ne h]

theorem childOK_listed {s s' st st' : TState} {t : Term} {k : Nat} (h : s.listed = s'.listed)
    (h' : st.listed = st'.listed) : childOK s t k st = childOK s' t k st' := by
  have e1 : s.start = s'.start := by rw [← listed_start s, h, listed_start]
  have e2 : st.isCompleted = st'.isCompleted := by
    rw [← isCompleted_listed st, h', isCompleted_listed]
  have e3 : st.term = st'.term := by rw [← listed_term st, h', listed_term]
  have e4 : st.start = st'.start := by rw [← listed_start st, h', listed_start]
  unfold childOK
  rw [e1, e2, e3, e4]

theorem SameChart.symm {a b : List (List TState)} (h : SameChart a b) : SameChart b a := Eq.symm h

theorem chartGet_iff {chart : List (List TState)} {c r s} :
    chartGet chart c r = some s ↔ At chart c r s := by
  unfold chartGet At
  cases h : chart[c]? with
  | none => simp
  | some col => simp

theorem SameChart.at {a b : List (List TState)} (h : SameChart a b) {c r s} (ha : At a c r s) :
    ∃ s', At b c r s' ∧ s.listed = s'.listed := by
  obtain ⟨col, h1, h2⟩ := ha
  have := congrArg (·[c]?) h
  simp [h1] at this
  obtain ⟨col', h3, h4⟩ := Option.map_eq_some_iff.1 this.symm
  have h5 := congrArg (·[r]?) h4
  simp [h2] at h5
  obtain ⟨s', h6, h7⟩ := h5
  exact ⟨s', ⟨col', h3, h6⟩, h7.symm⟩

theorem SameChart.set {a b : List (List TState)} (h : SameChart a b) {c r s s'}
    (ha : At b c r s) (hs : s.listed = s'.listed) : SameChart a (chartSet b c r s') := by
  obtain ⟨col, h1, h2⟩ := ha
  unfold SameChart at *
  rw [h]
  apply List.ext_getElem?
  intro i
  unfold chartSet
  simp only [List.getElem?_map, List.getElem?_modify]
  cases hb : b[i]? with
  | none => simp
  | some coli =>
    simp
    split
    · rename_i hci
      subst hci
      rw [h1] at hb; simp at hb; subst hb
      apply List.ext_getElem?
      intro j
      simp only [List.getElem?_map, List.getElem?_set]
      split
      · rename_i hj
        subst hj
        obtain ⟨h3, h4⟩ := List.getElem?_eq_some_iff.1 h2
        simp [h3, h4, hs]
      · rfl
    · rfl

theorem SameChart.colAt {a b : List (List TState)} (h : SameChart a b) {e : Int} {rows}
    (ha : colAt a e = some rows) : ∃ rows', Fmr.colAt b e = some rows' ∧
      rows.map (fun p => (p.1.listed, p.2)) = rows'.map (fun p => (p.1.listed, p.2)) := by
  unfold Fmr.colAt at *
  split at ha
  · simp at ha
  · simp at ha
    obtain ⟨col, h1, rfl⟩ := ha
    have := congrArg (·[e.toNat]?) h
    simp [h1] at this
    obtain ⟨col', h3, h4⟩ := Option.map_eq_some_iff.1 this.symm
    refine ⟨col'.zipIdx, by simp [h3]; omega, ?_⟩
    have e1 : ∀ l : List TState, l.zipIdx.map (fun p => (p.1.listed, p.2)) = (l.map TState.listed).zipIdx := by
      intro l
      rw [List.zipIdx_map]
      rfl
    rw [e1, e1, h4]

theorem SameChart.colAt_none {a b : List (List TState)} (h : SameChart a b) {e : Int}
    (ha : Fmr.colAt a e = none) : Fmr.colAt b e = none := by
  cases hb : Fmr.colAt b e with
  | none => rfl
  | some rows =>
    obtain ⟨_, h', _⟩ := h.symm.colAt hb
    rw [ha] at h'; simp at h'

/-- agreement of a computation on the fixed chart with one that passes the chart along -/
def Agree (chart0 : List (List TState)) {β : Type} (p : Option (List β))
    (m : List (List TState) → Option (List β × List (List TState))) : Prop :=
  ∀ chart, SameChart chart0 chart →
    match p with
    | none => m chart = none
    | some x => ∃ chart', m chart = some (x, chart') ∧ SameChart chart0 chart'

theorem optFlat_agree {α α' β : Type} {chart0 : List (List TState)} {f : α → Option (List β)}
    {g : α' → List (List TState) → Option (List β × List (List TState))} :
    ∀ {l : List α} {l' : List α'}, Rel2 (fun a a' => Agree chart0 (f a) (g a')) l l' →
      Agree chart0 (optFlat f l) (optFlatM g l')
  | _, _, .nil => by
    intro chart hs
    exact ⟨chart, rfl, hs⟩
  | _, _, .cons (a := a) (b := b) (l₁ := l) (l₂ := l') hab hrest => by
    intro chart hs
    have h1 := hab chart hs
    simp only [optFlat, optFlatM]
    cases hfa : f a with
    | none =>
      rw [hfa] at h1
      simp only at h1
      simp [h1]
    | some x =>
      rw [hfa] at h1
      simp only at h1
      obtain ⟨chart', h1, hs'⟩ := h1
      rw [h1]
      simp only
      have h2 := optFlat_agree hrest chart' hs'
      cases hfl : optFlat f l with
      | none => rw [hfl] at h2; simp only at h2; simp [h2]
      | some y =>
        rw [hfl] at h2
        simp only at h2
        obtain ⟨chart'', h2, hs''⟩ := h2
        exact ⟨chart'', by rw [h2], hs''⟩

theorem forall2_of_map {α α' γ : Type} {R : α → α' → Prop} {u : α → γ} {v : α' → γ} :
    ∀ {l : List α} {l' : List α'}, l.map u = l'.map v →
      (∀ a ∈ l, ∀ a', u a = v a' → R a a') → Rel2 R l l'
  | [], [], _, _ => .nil
  | [], _ :: _, h, _ => by simp at h
  | _ :: _, [], h, _ => by simp at h
  | a :: l, a' :: l', h, hr => by
    simp at h
    exact .cons (hr a (by simp) a' h.1) (forall2_of_map h.2 (fun b hb => hr b (by simp [hb])))

theorem forall2_refl {α : Type} {R : α → α → Prop} : ∀ {l : List α}, (∀ a ∈ l, R a a) → Rel2 R l l
  | [], _ => .nil
  | a :: l, h => .cons (h a (by simp)) (forall2_refl (fun b hb => h b (by simp [hb])))

theorem helper_agree {chart0 : List (List TState)}
    {bt : Nat → Nat → TState → Option (List Node)}
    {btM : Nat → Nat → List (List TState) → Option (List Node × List (List TState))}
    {c r : Nat} {s : TState} {terms : List Term}
    (hbt : ∀ e rc st, At chart0 e rc st → Agree chart0 (bt e rc st) (btM e rc)) :
    ∀ (k : Nat) (children : List Node) (e : Int),
      Agree chart0 (treesHelper chart0 bt c r s terms k children e)
        (treesHelperM btM c r s terms k children e)
  | 0, children, e => by
    intro chart hs
    exact ⟨chart, rfl, hs⟩
  | k+1, children, e => by
    intro chart hs
    rw [treesHelper, treesHelperM]
    cases ht : terms[k]? with
    | none => simp
    | some t =>
      simp only
      by_cases htt : t.type = .terminal
      · simp only [htt, ite_true]
        exact helper_agree hbt k _ _ chart hs
      · simp only [htt, ite_false]
        cases hc : colAt chart0 e with
        | none => simp [hs.colAt_none hc]
        | some rows =>
          obtain ⟨rows', hc', hrows⟩ := hs.colAt hc
          simp only [hc']
          have he : ∃ e' : Nat, e = (e' : Int) := by
            unfold colAt at hc
            split at hc
            · simp at hc
            · exact ⟨e.toNat, by omega⟩
          obtain ⟨e, rfl⟩ := he
          have hrb : (rowsBefore c r (e : Int) rows).map (fun p => (p.1.listed, p.2))
              = (rowsBefore c r (e : Int) rows').map (fun p => (p.1.listed, p.2)) := by
            unfold rowsBefore
            split
            · rw [List.map_take, List.map_take, hrows]
            · exact hrows
          refine optFlat_agree (forall2_of_map hrb ?_) chart hs
          intro p hp p' hpp chart1 hs1
          obtain ⟨hat, _⟩ := (mem_rowsBefore hc).1 hp
          obtain ⟨st', hat', hst'⟩ := hs1.at hat
          simp only [Prod.mk.injEq] at hpp
          have hget : chartGet chart1 (e : Int).toNat p'.2 = some st' := by
            rw [← hpp.2]; exact chartGet_iff.2 hat'
          have hstart : p.1.start = st'.start := by
            rw [← listed_start p.1, hst', listed_start]
          simp only [hget]
          rw [← childOK_listed (t := t) (k := k) (rfl : s.listed = s.listed) hst']
          by_cases hok : childOK s t k p.1 = true
          · simp only [hok, ite_true]
            have h1 := hbt e p.2 p.1 hat chart1 hs1
            rw [← hpp.2]
            simp only [Int.toNat_natCast]
            cases hb : bt e p.2 p.1 with
            | none =>
              rw [hb] at h1; simp only at h1
              simp only [h1]
            | some subs =>
              rw [hb] at h1; simp only at h1
              obtain ⟨chart2, h1, hs2⟩ := h1
              simp only [h1]
              refine optFlat_agree (forall2_refl ?_) chart2 hs2
              intro sub _
              rw [← hstart]
              exact helper_agree hbt k _ _
          · simp only [hok]
            exact ⟨chart1, rfl, hs1⟩

/-- the stateful version computes the same trees and leaves an equivalent chart -/
theorem buildTrees_agree {chart0 : List (List TState)} : ∀ (fuel c r : Nat) (s : TState),
    At chart0 c r s → Agree chart0 (buildTrees chart0 fuel c r s) (buildTreesM fuel c r)
  | 0, c, r, s, _ => by intro chart _; simp [buildTrees, buildTreesM]
  | fuel+1, c, r, s, hat => by
    intro chart hs
    obtain ⟨s', hat', hs'⟩ := hs.at hat
    have hterm : s.term = s'.term := by rw [← listed_term s, hs', listed_term]
    have hstop : s.stop = s'.stop := by rw [← listed_stop s, hs', listed_stop]
    have hstart : s.start = s'.start := by rw [← listed_start s, hs', listed_start]
    rw [buildTrees, buildTreesM]
    rw [chartGet_iff.2 hat']
    simp only
    rw [← hterm]
    by_cases hany : s.term.type = .any
    · simp only [hany, ite_true]
      refine ⟨chart, ?_, hs⟩
      simp [anyLeaf, hterm, hstop, hstart]
    · simp only [hany, ite_false]
      rw [← hs']
      cases hrb : s.listed.rb with
      | none => simp
      | some rb =>
        simp only
        rw [← hstop]
        have hs2 : SameChart chart0 (if s.term.type = .list then chartSet chart c r s.listed else chart) := by
          split
          · exact hs.set hat' (by rw [hs', listed_listed])
          · exact hs
        exact helper_agree (fun e rc st h => buildTrees_agree fuel e rc st h) _ _ _ _ hs2

end Fmr
