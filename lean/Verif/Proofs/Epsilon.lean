import Verif.Model.Epsilon
import Verif.Proofs.Terminate

/-!
# `handleEpsilons`: what a round adds, when it stops
-/

namespace Fmr

/-- the column grows, and the flag says whether it does -/
def Flagged (a : List TState) (r : List TState × Bool) : Prop :=
  a <+: r.1 ∧ (r.2 = true ↔ a.length < r.1.length)

theorem Flagged.refl (a : List TState) : Flagged a (a, false) := ⟨List.prefix_rfl, by simp⟩

theorem Flagged.trans {a : List TState} {r : List TState × Bool} {s : List TState × Bool} {b : Bool}
    (h1 : Flagged a r) (h2 : Flagged r.1 s) (hb : b = true ↔ r.2 = true ∨ s.2 = true) : Flagged a (s.1, b) := by
  refine ⟨h1.1.trans h2.1, ?_⟩
  have l1 := h1.1.length_le
  have l2 := h2.1.length_le
  rw [hb, h1.2, h2.2]
  simp only
  omega

theorem insertCh_fst (idx : Nat) (states : List TState) (st : TState) :
    (insertCh idx states st).1 = insert idx states st := rfl

theorem insertCh_flag (idx : Nat) (states : List TState) (st : TState) :
    Flagged states (insertCh idx states st) := by
  refine ⟨insert_prefix idx states st, ?_⟩
  unfold insertCh insertToEnd
  simp only
  cases h : states.findIdx? (fun s => s.equal (st.placed idx)) with
  | none => simp
  | some i =>
    have hlt := (List.findIdx?_eq_some_iff_getElem.1 h).1
    simp [hlt]

theorem foldCh_fst {β : Type} {f : List TState → β → List TState} {g : List TState × Bool → β → List TState × Bool}
    (h : ∀ acc b, (g acc b).1 = f acc.1 b) : ∀ (l : List β) acc, (l.foldl g acc).1 = l.foldl f acc.1
  | [], _ => rfl
  | b :: l, acc => by
    rw [List.foldl_cons, List.foldl_cons, foldCh_fst h l, h]

theorem foldCh_flag {β : Type} {g : List TState × Bool → β → List TState × Bool} {a : List TState}
    (h : ∀ acc b, Flagged a acc → Flagged a (g acc b)) : ∀ (l : List β) acc, Flagged a acc → Flagged a (l.foldl g acc)
  | [], _, hf => hf
  | b :: l, acc, hf => by
    rw [List.foldl_cons]
    exact foldCh_flag h l _ (h acc b hf)

theorem completeCh_fst (idx : Nat) (snap states : List TState) (state : TState) :
    (completeCh idx snap states state).1 = complete idx snap states state := by
  unfold completeCh complete
  refine foldCh_fst (f := completeStep idx state) ?_ snap (states, false)
  intro acc st
  unfold completeStepCh completeStep
  cases st.getNextTerm with
  | none => rfl
  | some t =>
    simp only
    split <;> rfl

theorem completeCh_flag (idx : Nat) (snap states : List TState) (state : TState) :
    Flagged states (completeCh idx snap states state) := by
  unfold completeCh
  refine foldCh_flag ?_ snap _ (Flagged.refl _)
  intro acc st hf
  unfold completeStepCh
  split
  · exact hf
  · split
    · exact hf.trans (insertCh_flag _ _ _) (by simp)
    · exact hf

theorem predictGCh_fst (g : Grammar) (order : List RuleBody → List RuleBody) (idx : Nat)
    (states : List TState) (term : Term) : (predictGCh g order idx states term).1 = predictG g order idx states term := by
  unfold predictGCh predictG
  cases lookupRule g term.value with
  | none => rfl
  | some r =>
    exact foldCh_fst (f := fun acc prod => insert idx acc (predicted r.name prod idx))
      (g := fun acc prod =>
        let x := insertCh idx acc.1 (predicted r.name prod idx)
        (x.1, acc.2 || x.2)) (fun _ _ => rfl) _ (states, false)

theorem predictGCh_flag (g : Grammar) (order : List RuleBody → List RuleBody) (idx : Nat)
    (states : List TState) (term : Term) : Flagged states (predictGCh g order idx states term) := by
  unfold predictGCh
  split
  · exact Flagged.refl _
  · exact foldCh_flag (fun acc prod hf => hf.trans (insertCh_flag _ _ _) (by simp)) _ _ (Flagged.refl _)

theorem predictAllCh_fst (order : Nat → List RuleBody → List RuleBody) (idx : Nat) (term : Term) :
    ∀ k gs acc, (predictAllCh order idx term k gs acc).1 = predictAll order idx term k gs acc.1
  | _, [], _ => rfl
  | k, g :: gs, acc => by
    unfold predictAllCh predictAll
    rw [predictAllCh_fst order idx term, predictGCh_fst]

theorem predictAllCh_flag (order : Nat → List RuleBody → List RuleBody) (idx : Nat) (term : Term) {a : List TState} :
    ∀ k gs acc, Flagged a acc → Flagged a (predictAllCh order idx term k gs acc)
  | _, [], _, h => h
  | k, g :: gs, acc, h => by
    unfold predictAllCh
    refine predictAllCh_flag order idx term (k+1) gs _ (h.trans (predictGCh_flag g _ idx acc.1 term) ?_)
    simp [or_comm]

/-! ## one row -/

/-- the column after one row -/
def epsRowCol (env : Env) (done : List (List TState)) (order : Nat → List RuleBody → List RuleBody)
    (cur : List TState) (st : TState) : List TState :=
  match st.getNextTerm with
  | none => afterComplete done st cur
  | some term =>
    if term.type = .nonterminal then
      predictAll order done.length term 0 env.grammars (afterComplete done st cur)
    else afterComplete done st cur

theorem epsRow_fst (env : Env) (done : List (List TState)) (order : Nat → List RuleBody → List RuleBody)
    (acc : List TState × Bool) (st : TState) : (epsRow env done order acc st).1 = epsRowCol env done order acc.1 st := by
  have h1 : (if st.isCompleted then
      let x := completeCh done.length (if st.start = done.length then acc.1 else done.getD st.start []) acc.1 st
      (x.1, x.2 || acc.2)
    else acc).1 = afterComplete done st acc.1 := by
    unfold afterComplete snapOf
    split
    · exact completeCh_fst _ _ _ _
    · rfl
  unfold epsRow epsRowCol
  cases st.getNextTerm with
  | none => exact h1
  | some t =>
    simp only at h1 ⊢
    split
    · rw [predictAllCh_fst, h1]
    · exact h1

theorem epsRow_flag (env : Env) (done : List (List TState)) (order : Nat → List RuleBody → List RuleBody)
    {a : List TState} {acc : List TState × Bool} (st : TState) (hf : Flagged a acc) :
    Flagged a (epsRow env done order acc st) := by
  have h1 : Flagged a (if st.isCompleted then
      let x := completeCh done.length (if st.start = done.length then acc.1 else done.getD st.start []) acc.1 st
      (x.1, x.2 || acc.2)
    else acc) := by
    split
    · exact hf.trans (completeCh_flag _ _ _ _) (by simp [or_comm])
    · exact hf
  unfold epsRow
  simp only
  split
  · exact h1
  · split
    · exact h1.trans (predictAllCh_flag order _ _ 0 _ _ (Flagged.refl _)) (by simp [or_comm])
    · exact h1

theorem epsRowCol_mem {env : Env} {done : List (List TState)} {order : Nat → List RuleBody → List RuleBody}
    (ho : ∀ k l, (order k l).Perm l) {cur : List TState} {st x : TState}
    (h : x ∈ epsRowCol env done order cur st) : x ∈ cur ∨ CurAdd env done.length (snapOf done cur st) st x := by
  have hc : x ∈ afterComplete done st cur → x ∈ cur ∨ CurAdd env done.length (snapOf done cur st) st x := by
    intro h
    rcases afterComplete_mem h with h | h
    · exact Or.inl h
    · exact Or.inr (Or.inl h)
  unfold epsRowCol at h
  split at h
  · exact hc h
  · rename_i t ht
    split at h
    · rename_i htt
      rcases predictAll_mem ho h with h | h
      · exact hc h
      · refine Or.inr (Or.inr ⟨?_, t, ht, Or.inl ⟨htt, h⟩⟩)
        intro ha
        rw [next_any ha ht, ha] at htt
        cases htt
    · exact hc h

theorem epsRowCol_inv {env : Env} {done : List (List TState)} {order : Nat → List RuleBody → List RuleBody}
    (ho : ∀ k l, (order k l).Perm l) {cur : List TState} {st : TState} (hi : Inv env done cur [])
    (hst : st ∈ cur) : Inv env done (epsRowCol env done order cur st) [] := by
  refine ⟨hi.done, ?_, hi.next⟩
  intro x hx
  rcases epsRowCol_mem ho hx with h | h
  · exact hi.cur x h
  · exact CurAdd.item (hi.cur _ hst) hi.snap h

theorem epsRowCol_grow {env : Env} (hwf : env.WF) {done : List (List TState)}
    {order : Nat → List RuleBody → List RuleBody} (ho : ∀ k l, (order k l).Perm l) {cur : List TState} {st : TState}
    (hi : Inv env done cur []) (hst : st ∈ cur) : Grow cur (epsRowCol env done order cur st) := by
  have hac : Grow cur (afterComplete done st cur) := by
    unfold afterComplete
    split
    · rename_i hc
      apply complete_grow
      intro s1 hs1 y hy
      have := CurAdd.item (h := Or.inl ⟨hc, s1, hs1, hy⟩) (hi.cur _ hst) (hi.snap)
      exact (this.basic hwf).wf
    · exact Grow.refl _
  unfold epsRowCol
  split
  · exact hac
  · rename_i t ht
    split
    · rename_i htt
      refine hac.trans (predictAll_grow ho ?_)
      intro g hg x hx
      have hna : st.term.type ≠ .any := by
        intro ha
        rw [next_any ha ht, ha] at htt
        cases htt
      have := CurAdd.item (h := Or.inr ⟨hna, t, ht, Or.inl ⟨htt, g, hg, hx⟩⟩) (hi.cur _ hst) (snap := []) (by simp)
      exact (this.basic hwf).wf
    · exact hac

/-! ## one round -/

theorem epsRows_inv {env : Env} (hwf : env.WF) {done : List (List TState)}
    {ord : Nat → Nat → List RuleBody → List RuleBody} (ho : ∀ r k l, (ord r k l).Perm l) :
    ∀ (sts : List TState) (row : Nat) (acc : List TState × Bool), Inv env done acc.1 [] → (∀ s ∈ sts, s ∈ acc.1) →
      Inv env done (epsRows env done ord row sts acc).1 [] ∧ Grow acc.1 (epsRows env done ord row sts acc).1
  | [], _, acc, hi, _ => ⟨hi, Grow.refl _⟩
  | st :: sts, row, acc, hi, hs => by
    have hst := hs st (by simp)
    have h1 := epsRowCol_inv (ho row) hi hst
    have h2 := epsRowCol_grow hwf (ho row) hi hst
    rw [← epsRow_fst] at h1 h2
    have h3 := epsRows_inv hwf ho sts (row+1) _ h1 (by
      intro s hm
      obtain ⟨l, hl, _⟩ := h2
      rw [hl]
      exact List.mem_append_left _ (hs s (by simp [hm])))
    exact ⟨h3.1, h2.trans h3.2⟩

theorem epsRows_flag (env : Env) (done : List (List TState)) (ord : Nat → Nat → List RuleBody → List RuleBody)
    {a : List TState} : ∀ (sts : List TState) (row : Nat) (acc : List TState × Bool), Flagged a acc →
      Flagged a (epsRows env done ord row sts acc)
  | [], _, _, h => h
  | st :: sts, row, _, h => epsRows_flag env done ord sts (row+1) _ (epsRow_flag env done (ord row) st h)

/-- in a round that changes nothing every row leaves the column as it is -/
theorem epsRows_same {env : Env} {done : List (List TState)} {ord : Nat → Nat → List RuleBody → List RuleBody} :
    ∀ (sts : List TState) (row : Nat) (acc : List TState × Bool),
      (epsRows env done ord row sts acc).1.length = acc.1.length →
      ∀ st ∈ sts, ∃ r, epsRowCol env done (ord r) acc.1 st = acc.1
  | [], _, _, _ => by simp
  | st :: sts, row, acc, h => by
    have f1 := epsRow_flag env done (ord row) (a := acc.1) (acc := (acc.1, false)) st (Flagged.refl _)
    have e1 : (epsRow env done (ord row) (acc.1, false) st).1 = (epsRow env done (ord row) acc st).1 := by
      rw [epsRow_fst, epsRow_fst]
    have p1 := f1.1
    rw [e1] at p1
    have f2 := epsRows_flag env done ord (a := (epsRow env done (ord row) acc st).1) sts (row+1)
      ((epsRow env done (ord row) acc st).1, false) (Flagged.refl _)
    have e2 : ∀ (sts : List TState) (row : Nat) (l : List TState) (b b' : Bool),
        (epsRows env done ord row sts (l, b)).1 = (epsRows env done ord row sts (l, b')).1 := by
      intro sts
      induction sts with
      | nil => intros; rfl
      | cons s sts ih =>
        intro row l b b'
        show (epsRows env done ord (row+1) sts (epsRow env done (ord row) (l, b) s)).1 =
          (epsRows env done ord (row+1) sts (epsRow env done (ord row) (l, b') s)).1
        have : (epsRow env done (ord row) (l, b) s).1 = (epsRow env done (ord row) (l, b') s).1 := by
          rw [epsRow_fst, epsRow_fst]
        rw [show epsRow env done (ord row) (l, b) s = ((epsRow env done (ord row) (l, b') s).1,
          (epsRow env done (ord row) (l, b) s).2) by rw [← this]]
        exact ih _ _ _ _
    have p2 := f2.1
    rw [e2 sts (row+1) _ false (epsRow env done (ord row) acc st).2] at p2
    have h' : (epsRows env done ord (row+1) sts (epsRow env done (ord row) acc st)).1.length = acc.1.length := h
    have l1 := p1.length_le
    have l2 := p2.length_le
    have heq : acc.1 = (epsRow env done (ord row) acc st).1 := p1.eq_of_length (by
      have : (epsRows env done ord (row+1) sts (epsRow env done (ord row) acc st)).1.length =
        (epsRows env done ord (row+1) sts
          ((epsRow env done (ord row) acc st).1, (epsRow env done (ord row) acc st).2)).1.length := rfl
      omega)
    intro s hs
    rcases List.mem_cons.1 hs with rfl | hs
    · exact ⟨row, by rw [← epsRow_fst]; exact heq.symm⟩
    · have := epsRows_same sts (row+1) (epsRow env done (ord row) acc st) (by rw [h', ← heq]) s hs
      rw [← heq] at this
      exact this

/-- a row that leaves the column as it is: everything it could add is there -/
theorem epsRowCol_closed {env : Env} (hwf : env.WF) {done : List (List TState)}
    {order : Nat → List RuleBody → List RuleBody} (ho : ∀ k l, (order k l).Perm l) {cur : List TState} {st : TState}
    (hi : Inv env done cur []) (hst : st ∈ cur) (h : epsRowCol env done order cur st = cur) :
    (st.isCompleted = true → ∀ st0 ∈ snapOf done cur st, ∀ x, CompAdd done.length st st0 x → x ∈ cur) ∧
    (∀ t, st.getNextTerm = some t → t.type = .nonterminal → ∀ g ∈ env.grammars, ∀ x, PredAdd g done.length t x →
      x ∈ cur) := by
  have hwfc : ∀ s ∈ cur, s.WF := fun s hs => ((hi.cur s hs).basic hwf).wf
  have hacp : cur <+: afterComplete done st cur := by
    unfold afterComplete
    split
    · exact complete_prefix _ _ _ _
    · exact List.prefix_rfl
  have hac : afterComplete done st cur = cur := by
    have : afterComplete done st cur <+: cur := by
      rw [← h]
      conv_rhs => unfold epsRowCol
      rw [h]
      split
      · exact List.prefix_rfl
      · split
        · exact predictAll_prefix _ _ _ _ _ _
        · exact List.prefix_rfl
    exact (hacp.eq_of_length (Nat.le_antisymm hacp.length_le this.length_le)).symm
  constructor
  · intro hc st0 h0 x hx
    rw [← hac]
    unfold afterComplete
    rw [if_pos hc]
    refine complete_closed hwfc ?_ h0 hx
    intro s1 hs1 y hy
    have := CurAdd.item (h := Or.inl ⟨hc, s1, hs1, hy⟩) (hi.cur _ hst) (hi.snap)
    exact (this.basic hwf).wf
  · intro t ht htt g hg x hx
    rw [← h]
    unfold epsRowCol
    rw [ht]
    simp only [htt, if_true]
    rw [hac]
    refine predictAll_closed ho hwfc ?_ g hg x hx
    intro g hg x hx
    have hna : st.term.type ≠ .any := by
      intro ha
      rw [next_any ha ht, ha] at htt
      cases htt
    have := CurAdd.item (h := Or.inr ⟨hna, t, ht, Or.inl ⟨htt, g, hg, hx⟩⟩) (hi.cur _ hst) (snap := []) (by simp)
    exact (this.basic hwf).wf

/-! ## the loop -/

theorem nodup_length_le {α : Type} : ∀ {l u : List α}, l.Nodup → (∀ x ∈ l, x ∈ u) → l.length ≤ u.length
  | [], _, _, _ => Nat.zero_le _
  | a :: l, u, hn, hs => by
    obtain ⟨u1, u2, rfl⟩ := List.append_of_mem (hs a (by simp))
    rw [List.nodup_cons] at hn
    have := nodup_length_le (u := u1 ++ u2) hn.2 (by
      intro x hx
      have h1 := hs x (by simp [hx])
      have h2 : x ≠ a := fun h => hn.1 (h ▸ hx)
      simpa [h2] using h1)
    simp at this ⊢
    omega

theorem handleEpsilons_ok {env : Env} (hwf : env.WF) {done : List (List TState)}
    {ord : Nat → Nat → Nat → List RuleBody → List RuleBody} (ho : ∀ n r k l, (ord n r k l).Perm l) :
    ∀ (fuel round : Nat) (col r : List TState), Inv env done col [] → handleEpsilons env done ord fuel round col = some r →
      Inv env done r [] ∧ Grow col r ∧ ∀ st ∈ r, ∃ n row, epsRowCol env done (ord n row) r st = r
  | 0, _, _, _, _, h => by simp [handleEpsilons] at h
  | fuel+1, round, col, r, hi, h => by
    have hr := epsRows_inv hwf (ho round) col 0 (col, false) hi (by simp)
    have hf := epsRows_flag env done (ord round) col 0 (col, false) (Flagged.refl col)
    unfold handleEpsilons at h
    simp only at h
    split at h
    · have := handleEpsilons_ok hwf ho fuel (round+1) _ r hr.1 h
      exact ⟨this.1, hr.2.trans this.2.1, this.2.2⟩
    · rename_i hn
      obtain rfl := Option.some.inj h
      have hlen : (epsRows env done (ord round) 0 col (col, false)).1.length = col.length := by
        have := hf.1.length_le
        have := mt hf.2.2 hn
        omega
      have heq : col = (epsRows env done (ord round) 0 col (col, false)).1 := hf.1.eq_of_length hlen.symm
      refine ⟨hr.1, hr.2, ?_⟩
      rw [← heq]
      intro st hst
      obtain ⟨row, h⟩ := epsRows_same col 0 (col, false) hlen st hst
      exact ⟨round, row, h⟩

theorem handleEpsilons_halts {env : Env} (hwf : env.WF) {done : List (List TState)}
    {ord : Nat → Nat → Nat → List RuleBody → List RuleBody} (ho : ∀ n r k l, (ord n r k l).Perm l)
    (U : List TState) (hU : ∀ s, Item env done.length s → s ∈ U) {base : List TState} :
    ∀ (n round : Nat) (col : List TState), Inv env done col [] → Grow base col →
      base.length + U.length - col.length ≤ n → ∃ r, handleEpsilons env done ord (n+1) round col = some r := by
  have hbound : ∀ col : List TState, Inv env done col [] → Grow base col → col.length ≤ base.length + U.length := by
    rintro col hi ⟨l, rfl, hn, -⟩
    rw [List.length_append]
    exact Nat.add_le_add_left (nodup_length_le hn (fun s hs => hU s (hi.cur s (by simp [hs])))) _
  intro n
  induction n with
  | zero =>
    intro round col hi hg hle
    have hr := epsRows_inv hwf (ho round) col 0 (col, false) hi (by simp)
    have hf := epsRows_flag env done (ord round) col 0 (col, false) (Flagged.refl col)
    have hb := hbound _ hr.1 (hg.trans hr.2)
    unfold handleEpsilons
    simp only
    split
    · rename_i hc
      have := hf.2.1 hc
      omega
    · exact ⟨_, rfl⟩
  | succ n ih =>
    intro round col hi hg hle
    have hr := epsRows_inv hwf (ho round) col 0 (col, false) hi (by simp)
    have hf := epsRows_flag env done (ord round) col 0 (col, false) (Flagged.refl col)
    unfold handleEpsilons
    simp only
    split
    · rename_i hc
      have := hf.2.1 hc
      exact ih (round+1) _ hr.1 (hg.trans hr.2) (by omega)
    · exact ⟨_, rfl⟩

theorem handleEpsilons_mono {env : Env} {done : List (List TState)}
    {ord : Nat → Nat → Nat → List RuleBody → List RuleBody} : ∀ {fuel round : Nat} {col r : List TState},
      handleEpsilons env done ord fuel round col = some r → ∀ n, handleEpsilons env done ord (fuel+n) round col = some r
  | 0, _, _, _, h, _ => by simp [handleEpsilons] at h
  | fuel+1, round, col, r, h, n => by
    rw [show fuel + 1 + n = (fuel + n) + 1 by omega]
    unfold handleEpsilons at h ⊢
    simp only at h ⊢
    split
    · rename_i hc
      rw [if_pos hc] at h
      exact handleEpsilons_mono h n
    · rename_i hc
      rw [if_neg hc] at h
      exact h

/-! ## the items of a column are finitely many if lists are bounded -/

/-- every `(list<x>…)` has bounds, or its items cannot be empty -/
def FiniteLists (env : Env) : Prop :=
  ∀ t, env.Occurs t → t.type = .list → (∃ a b, t.meta = .range a b) ∨ ¬ DerivesRelaxed env t.value []

theorem list_dots {env : Env} {v : String} (hv : ¬ DerivesRelaxed env v []) :
    ∀ {n : Nat} {w : List Token},
      Yields env.relaxedLang (List.replicate n { value := v, type := .nonterminal, «meta» := .nil }) w → n ≤ w.length
  | 0, _, _ => Nat.zero_le _
  | n+1, w, h => by
    rw [List.replicate_succ] at h
    cases h with
    | nonterminal h1 h2 h3 h4 =>
      rename_i body u w
      have ih := list_dots hv h4
      have : u ≠ [] := by
        rintro rfl
        exact hv (Yields.nonterminal_one h1 h2 h3)
      have := List.length_pos_iff.2 this
      rw [List.length_append]; omega
    | terminal h1 _ _ => simp at h1
    | any h1 _ _ => simp at h1
    | list h1 _ _ _ => simp at h1

/-- the number of items of a list with bounds -/
theorem Item.range_dot {env : Env} {i : Nat} {s : TState} (h : Item env i s)
    (hk : s.term.type = .list) {a b : Int} (hm : s.term.meta = .range a b) : s.dot ≤ b.toNat := by
  induction h with
  | init _ => simp [gammaState] at hk
  | predNT _ _ _ _ _ _ _ _ => simp [predicted] at hk
  | @predAL i st t hst hty hn htt ih =>
    rw [placed_dot (by simpa using by rw [placed_term] at hk; rw [hk]; simp)]
    exact Nat.zero_le _
  | scanAny _ _ _ _ _ => simp [scannedAny] at hk
  | @scanT i st t tok hst hty hn htt htok hmt ih =>
    simp [scannedTerm] at hk
    obtain ⟨rfl, -⟩ := next_list hk hn
    simp at htt
  | @comp k i st s t hst hs hc hks hn hcm ih1 ih2 =>
    simp [advanced] at hk hm
    obtain ⟨rfl, hmax⟩ := next_list hk hn
    simp only at hm
    rw [placed_dot (by simp [advanced, hk])]
    unfold TState.maxReached at hmax
    rw [hm] at hmax
    simp at hmax
    simp only [advanced]
    omega

/-- the bound for the number of items of a list in column `i` -/
def listBound (t : Term) (i : Nat) : Nat :=
  match t.meta with
  | .range _ b => max i b.toNat
  | _ => i

/-- all items of column `i` -/
def Env.boundedItems (env : Env) (i : Nat) : List TState :=
  env.universe i ++
  (env.allTerms.flatMap fun t => (List.range (i+1)).flatMap fun s => (List.range (listBound t i + 1)).map fun d =>
    { term := { value := t.value, type := .list, «meta» := t.meta }, rb := none, start := s, stop := i, dot := d })

theorem Item.mem_bounded {env : Env} (hwf : env.WF) (hf : FiniteLists env) {i : Nat} {s : TState} (h : Item env i s) :
    s ∈ env.boundedItems i := by
  by_cases hl : s.term.type = .list
  · refine List.mem_append_right _ ?_
    have hb := h.basic hwf
    have hy := (h.sound hwf).list hl
    have hd : ∀ a b, s.term.meta = .range a b → s.dot ≤ b.toNat := fun a b hm => h.range_dot hl hm
    have hstart := hb.start
    obtain ⟨hrb, t, ht, htt, hv, hmt⟩ := hb.list hl
    have hstop := hb.stop
    obtain ⟨⟨v, ty, m⟩, rb, st, en, d⟩ := s
    simp only at hl hstart hrb hv hmt hstop hd hy
    subst hl; subst hrb; subst hv; subst hmt; subst hstop
    simp only [List.mem_flatMap]
    refine ⟨t, Env.Occurs.mem_allTerms ht, st, by simp; omega, List.mem_map.2 ⟨d, ?_, rfl⟩⟩
    rw [List.mem_range]
    unfold listBound
    rcases hf t ht htt with ⟨a, b, hab⟩ | hne
    · have := hd a b hab
      rw [hab]
      simp only
      omega
    · have := list_dots hne hy
      rw [slice_length env hb.bound] at this
      split <;> omega
  · exact List.mem_append_left _ (h.mem_universe hwf hl)

end Fmr
