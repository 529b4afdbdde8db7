import Verif.Proofs.Complete

/-!
# Termination of the column loop, and absence of duplicates
-/

namespace Fmr

/-- `acc'` extends `acc` by new, pairwise different elements -/
def Grow (acc acc' : List TState) : Prop :=
  ∃ l, acc' = acc ++ l ∧ l.Nodup ∧ ∀ x ∈ l, x ∉ acc

theorem Grow.refl (acc : List TState) : Grow acc acc := ⟨[], by simp, by simp, by simp⟩

theorem Grow.trans {a b c : List TState} (h1 : Grow a b) (h2 : Grow b c) : Grow a c := by
  obtain ⟨l, rfl, hn, hd⟩ := h1
  obtain ⟨l', rfl, hn', hd'⟩ := h2
  refine ⟨l ++ l', by simp, ?_, ?_⟩
  · rw [List.nodup_append]
    refine ⟨hn, hn', ?_⟩
    intro x hx y hy he
    subst he
    exact hd' x hy (by simp [hx])
  · intro x hx
    rcases List.mem_append.1 hx with h | h
    · exact hd x h
    · intro hxa; exact hd' x h (by simp [hxa])

theorem Grow.insert {idx : Nat} {states : List TState} {st : TState} (h : (st.placed idx).WF) :
    Grow states (insert idx states st) := by
  rw [insert_eq]
  split
  · exact Grow.refl _
  · rename_i hn
    refine ⟨[st.placed idx], rfl, by simp, ?_⟩
    intro x hx hmem
    simp at hx; subst hx
    apply hn
    simp only [List.any_eq_true]
    exact ⟨_, hmem, TState.equal_refl h⟩

theorem Grow.foldl {β : Type} {f : List TState → β → List TState} :
    ∀ {l : List β} {acc}, (∀ acc, ∀ b ∈ l, Grow acc (f acc b)) → Grow acc (l.foldl f acc)
  | [], _, _ => Grow.refl _
  | b :: _, acc, h => (h acc b (by simp)).trans (Grow.foldl (fun acc b hb => h acc b (by simp [hb])))

theorem complete_grow {idx : Nat} {snap states : List TState} {state : TState}
    (hw : ∀ st ∈ snap, ∀ x, CompAdd idx state st x → x.WF) :
    Grow states (complete idx snap states state) := by
  apply Grow.foldl
  intro acc st hst
  unfold completeStep
  split
  · exact Grow.refl _
  · rename_i t ht
    split
    · rename_i hc
      exact Grow.insert (hw st hst _ ⟨t, ht, hc, rfl⟩)
    · exact Grow.refl _

theorem predictG_grow {g : Grammar} {order : List RuleBody → List RuleBody}
    (ho : ∀ l, (order l).Perm l) {idx : Nat} {states : List TState} {term : Term}
    (hw : ∀ x, PredAdd g idx term x → x.WF) : Grow states (predictG g order idx states term) := by
  unfold predictG
  split
  · exact Grow.refl _
  · rename_i r hr
    apply Grow.foldl
    intro acc rb hrb
    exact Grow.insert (hw _ ⟨r, hr, rb, (ho _).mem_iff.1 hrb, rfl⟩)

theorem predictAll_grow {order : Nat → List RuleBody → List RuleBody}
    (ho : ∀ k l, (order k l).Perm l) {idx : Nat} {term : Term} :
    ∀ {k gs states}, (∀ g ∈ gs, ∀ x, PredAdd g idx term x → x.WF) →
      Grow states (predictAll order idx term k gs states)
  | _, [], _, _ => Grow.refl _
  | k, g :: _, _, hw => (predictG_grow (ho k) (hw g (by simp))).trans
      (predictAll_grow ho (fun g hg => hw g (by simp [hg])))

theorem predict_grow {env : Env} (ho : env.OrdOK) {i row : Nat} {states : List TState} {t : Term}
    (hw : ∀ x, ((t.type = .nonterminal ∧ ∃ g ∈ env.grammars, PredAdd g i t x) ∨
      ((t.type = .any ∨ t.type = .list) ∧ x = (predictedSpecial t i).placed i)) → x.WF) :
    Grow states (predict env i row states t) := by
  unfold predict
  split
  · rename_i htt
    exact predictAll_grow (fun k l => ho i row k l)
      (fun g hg x hx => hw x (Or.inl ⟨htt, g, hg, hx⟩))
  · rename_i htt
    exact Grow.insert (hw _ (Or.inr ⟨Or.inl htt, rfl⟩))
  · rename_i htt
    exact Grow.insert (hw _ (Or.inr ⟨Or.inr htt, rfl⟩))
  · exact Grow.refl _

theorem scan_grow {env : Env} {i : Nat} {tk : Token} {next : List TState} {st : TState} {t : Term}
    (hn : st.getNextTerm = some t) (hor : st.term.type = .any ∨ t.type = .terminal)
    (hw : ∀ x, NextAdd env i (some tk) st x → x.WF) :
    Grow next (scan env.tmatch (i+1) tk next st t) := by
  unfold scan
  by_cases ha : st.term.type = .any
  · have hta : t.type = .any := by rw [next_any ha hn]; exact ha
    rw [if_pos hta]
    exact Grow.insert (hw _ ⟨t, tk, hn, rfl, Or.inl ⟨ha, rfl⟩⟩)
  · have ht : t.type = .terminal := by rcases hor with h' | h'; exact absurd h' ha; exact h'
    simp only [ht, reduceCtorEq, if_false]
    split
    · rename_i hm
      exact Grow.insert (hw _ ⟨t, tk, hn, rfl, Or.inr ⟨ha, ht, hm, rfl⟩⟩)
    · exact Grow.refl _

theorem processRow_grow {env : Env} (hwf : env.WF) (ho : env.OrdOK) {done row st cur next}
    (h : Inv env done cur next) (hst : st ∈ cur) :
    Grow cur (processRow env done env.tokens[done.length]? row st cur next).1 ∧
    Grow next (processRow env done env.tokens[done.length]? row st cur next).2 := by
  have hac : Grow cur (afterComplete done st cur) := by
    unfold afterComplete
    split
    · rename_i hc
      apply complete_grow
      intro s1 hs1 y hy
      have := CurAdd.item (h.cur _ hst) (h.snap) (Or.inl ⟨hc, s1, hs1, hy⟩)
      exact (this.basic hwf).wf
    · exact Grow.refl _
  have hsc : ∀ t, st.getNextTerm = some t → st.term.type = .any ∨ t.type = .terminal →
      Grow next (match env.tokens[done.length]? with
      | some tk => scan env.tmatch (done.length+1) tk next st t
      | none => next) := by
    intro t hn hor
    cases htk : env.tokens[done.length]? with
    | none => exact Grow.refl _
    | some tk =>
      apply scan_grow hn hor
      intro x hx
      rw [← htk] at hx
      exact ((hx.item (h.cur _ hst)).basic hwf).wf
  cases hn : st.getNextTerm with
  | none => rw [processRow_none hn]; exact ⟨hac, Grow.refl _⟩
  | some t =>
    by_cases ha : st.term.type = .any
    · rw [processRow_any hn ha]; exact ⟨hac, hsc t hn (Or.inl ha)⟩
    · by_cases ht : t.type = .terminal
      · rw [processRow_term hn ha ht]; exact ⟨hac, hsc t hn (Or.inr ht)⟩
      · rw [processRow_pred hn ha ht]
        refine ⟨hac.trans (predict_grow ho ?_), Grow.refl _⟩
        intro y hy
        have := CurAdd.item (h.cur _ hst) (snap := []) (by simp) (Or.inr ⟨ha, t, hn, hy⟩)
        exact (this.basic hwf).wf

theorem runCol_grow {env : Env} (hwf : env.WF) (ho : env.OrdOK) {done} :
    ∀ {fuel row cur next r}, Inv env done cur next →
      runCol env done env.tokens[done.length]? fuel row cur next = some r →
      Grow cur r.1 ∧ Grow next r.2
  | 0, _, _, _, _, _, h => by simp [runCol] at h
  | fuel+1, row, cur, next, r, hi, h => by
    unfold runCol at h
    cases hc : cur[row]? with
    | none => rw [hc] at h; simp at h; subst h; exact ⟨Grow.refl _, Grow.refl _⟩
    | some st =>
      rw [hc] at h
      have hm := List.mem_of_getElem? hc
      have h1 := processRow_grow hwf ho (row := row) hi hm
      have h2 := runCol_grow hwf ho (processRow_inv ho hi hm) h
      exact ⟨h1.1.trans h2.1, h1.2.trans h2.2⟩

theorem Grow.nodup {a b : List TState} (h : Grow a b) (ha : a.Nodup) : b.Nodup := by
  obtain ⟨l, rfl, hn, hd⟩ := h
  rw [List.nodup_append]
  refine ⟨ha, hn, ?_⟩
  intro x hx y hy he
  subst he
  exact hd x hy hx

theorem runCols_nodup {env : Env} (hwf : env.WF) (ho : env.OrdOK) {fuel : Nat} :
    ∀ {toks done cur chart}, env.tokens.drop done.length = toks → Inv env done cur [] →
      (∀ col ∈ done, col.Nodup) → cur.Nodup →
      runCols env fuel toks done cur = some chart → ∀ col ∈ chart, col.Nodup
  | [], done, cur, chart, hd, hi, hnd, hnc, h => by
    unfold runCols at h
    have htok : env.tokens[done.length]? = none := by
      rw [List.getElem?_eq_none]; simpa using hd
    cases hr : runCol env done none fuel 0 cur [] with
    | none => rw [hr] at h; simp at h
    | some r =>
      rw [hr] at h; simp at h; subst h
      rw [← htok] at hr
      have hg := runCol_grow hwf ho hi hr
      intro col hc
      simp at hc
      rcases hc with hc | rfl
      · exact hnd col hc
      · exact hg.1.nodup hnc
  | t :: ts, done, cur, chart, hd, hi, hnd, hnc, h => by
    unfold runCols at h
    have hlt : done.length < env.tokens.length := by
      rcases Nat.lt_or_ge done.length env.tokens.length with h' | h'
      · exact h'
      · rw [List.drop_of_length_le h'] at hd; simp at hd
    rw [List.drop_eq_getElem_cons hlt] at hd
    injection hd with hd1 hd2
    have htok : env.tokens[done.length]? = some t := by
      rw [List.getElem?_eq_getElem hlt, hd1]
    cases hr : runCol env done (some t) fuel 0 cur [] with
    | none => rw [hr] at h; simp at h
    | some r =>
      rw [hr] at h; simp at h
      rw [← htok] at hr
      have hi' := runCol_inv ho hi hr
      have hg := runCol_grow hwf ho hi hr
      refine runCols_nodup hwf ho (toks := ts) (done := done ++ [r.1]) (cur := r.2)
        (by simpa using hd2) ⟨hi'.snoc, by simpa using hi'.next, by simp⟩ ?_
        (hg.2.nodup (by simp)) h
      intro col hc
      simp at hc
      rcases hc with hc | rfl
      · exact hnd col hc
      · exact hg.1.nodup hnc

/-! ## a finite universe of non-list items -/

/-- all productions, with their names -/
def Env.allBodies (env : Env) : List (String × RuleBody) :=
  env.grammars.flatMap fun g => g.rules.flatMap fun p => p.2.bodies.map fun rb => (p.1, rb)

theorem lookup_mem {α β : Type} [BEq α] [LawfulBEq α] {l : List (α × β)} {a : α} {b : β}
    (h : l.lookup a = some b) : (a, b) ∈ l := by
  induction l with
  | nil => simp at h
  | cons p l ih =>
    obtain ⟨x, y⟩ := p
    rw [List.lookup_cons] at h
    split at h
    · rename_i he
      simp at he; cases h; subst he; simp
    · simp [ih h]

theorem Env.Defines.mem_allBodies {env : Env} {A : String} {rb : RuleBody} (h : env.Defines A rb) :
    (A, rb) ∈ env.allBodies := by
  obtain ⟨g, hg, r, hr, hrb⟩ := h
  simp only [Env.allBodies, List.mem_flatMap, List.mem_map]
  exact ⟨g, hg, (A, r), lookup_mem hr, rb, hrb, rfl⟩

/-- all terms of productions -/
def Env.allTerms (env : Env) : List Term := env.allBodies.flatMap fun p => p.2.terms

theorem Env.Occurs.mem_allTerms {env : Env} {t : Term} (h : env.Occurs t) : t ∈ env.allTerms := by
  obtain ⟨A, rb, hd, ht⟩ := h
  simp only [Env.allTerms, List.mem_flatMap]
  exact ⟨_, Env.Defines.mem_allBodies hd, ht⟩

def Env.allMetas (env : Env) : List Meta := .nil :: env.allTerms.map (·.meta)

def gammaRb (S : String) : RuleBody :=
  { terms := [{ value := S, type := .nonterminal, «meta» := .nil }],
    f := some (.mk "nf.I" [.mk "index" (.int 1)]) }

/-- the universe of non-list items of column `i` -/
def Env.universe (env : Env) (i : Nat) : List TState :=
  ((env.allBodies ++ env.starts.map (fun S => (gammaRule, gammaRb S))).flatMap fun p =>
    env.allMetas.flatMap fun m => (List.range (i+1)).flatMap fun s =>
      (List.range (p.2.terms.length+1)).map fun d =>
        { term := { value := p.1, type := .nonterminal, «meta» := m }, rb := some p.2,
          start := s, stop := i, dot := d }) ++
  (env.allTerms.flatMap fun t => [t.value, "any"].flatMap fun v => (List.range (i+1)).map fun s =>
    { term := { value := v, type := .any, «meta» := t.meta }, rb := none,
      start := s, stop := i, dot := i - s })

theorem Item.meta {env : Env} (hwf : env.WF) {i : Nat} {s : TState} (h : Item env i s)
    (hk : s.term.type = .nonterminal) :
    s.term.meta = .nil ∨ ∃ t, env.Occurs t ∧ t.meta = s.term.meta := by
  induction h with
  | init _ => left; rfl
  | predNT _ _ _ _ _ _ _ _ => left; simp [predicted]
  | predAL _ _ _ htt _ => simp [predictedSpecial] at hk; simp [hk] at htt
  | scanAny _ _ _ _ _ => simp [scannedAny] at hk
  | scanT _ _ _ _ _ _ ih => simp [scannedTerm] at hk ⊢; exact ih hk
  | @comp k i st s t hst hs hc hks hn hm ih1 ih2 =>
    simp [advanced] at hk ⊢
    obtain ⟨rb, _, _, hocc | ⟨S, _, rfl⟩⟩ := (hst.basic hwf).next_mem hk hn
    · exact Or.inr ⟨t, hocc, rfl⟩
    · exact Or.inl rfl

theorem Item.mem_universe {env : Env} (hwf : env.WF) {i : Nat} {s : TState} (h : Item env i s)
    (hl : s.term.type ≠ .list) : s ∈ env.universe i := by
  have hb := h.basic hwf
  obtain ⟨⟨v, ty, m⟩, rb, st, en, d⟩ := s
  have hstop := hb.stop
  simp only at hstop
  subst hstop
  rcases hb.kind with hk | hk | hk
  · simp only at hk; subst hk
    obtain ⟨rb', hrb, hle, hdef⟩ := hb.nt rfl
    simp only at hrb hle; subst hrb
    have hm := h.meta hwf rfl
    refine List.mem_append_left _ ?_
    simp only [List.mem_flatMap]
    refine ⟨(v, rb'), ?_, m, ?_, st, ?_, ?_⟩
    · rcases hdef with hdef | ⟨S, hS, hg, _, hg2⟩
      · exact List.mem_append_left _ (Env.Defines.mem_allBodies hdef)
      · refine List.mem_append_right _ (List.mem_map.2 ⟨S, hS, ?_⟩)
        simp only at hg hg2
        have : rb' = gammaRb S := Option.some.inj hg2
        rw [this, hg]
    · rcases hm with hm | ⟨t, ht, hm⟩
      · simp only at hm; simp [Env.allMetas, hm]
      · simp only at hm
        refine List.mem_cons_of_mem _ (List.mem_map.2 ⟨t, Env.Occurs.mem_allTerms ht, hm⟩)
    · have := hb.start; simp only at this; simp; omega
    · exact List.mem_map.2 ⟨d, by simp; omega, rfl⟩
  · simp only at hk; subst hk
    obtain ⟨hrb, hdot, t, ht, _, hmeta, hv⟩ := hb.any rfl
    simp only at hrb hdot hmeta hv
    subst hrb; subst hdot
    refine List.mem_append_right _ ?_
    simp only [List.mem_flatMap]
    refine ⟨t, Env.Occurs.mem_allTerms ht, v, ?_, List.mem_map.2 ⟨st, ?_, ?_⟩⟩
    · rcases hv with h | h <;> simp [h]
    · have := hb.start; simp only at this; simp; omega
    · rw [hmeta]
  · exact absurd hk hl

/-- a list row produces no list rows in its own column -/
theorem CurAdd.not_list {env : Env} {i : Nat} {snap : List TState} {st x : TState}
    (hst : st.term.type = .list) (h : CurAdd env i snap st x)
    : x.term.type ≠ .list := by
  rcases h with ⟨hc, st0, h0, t, hn, hm, rfl⟩ | ⟨ha, t, hn, ⟨htt, g, hg, r, hr, rb, hrb, rfl⟩ | ⟨htt, rfl⟩⟩
  · have ht : t.type = .list := by
      rcases completes_cases hm with ⟨_, h⟩ | ⟨h, _⟩
      · simp [hst] at h
      · rw [h, hst]
    intro hx
    simp [advanced] at hx
    obtain ⟨rfl, _⟩ := next_list hx hn
    simp at ht
  · simp [predicted]
  · obtain ⟨rfl, _⟩ := next_list hst hn
    simp at htt

open Classical in
/-- universe elements not yet in the column -/
noncomputable def missing (env : Env) (i : Nat) (cur : List TState) : Nat :=
  ((env.universe i).filter (fun x => x ∉ cur)).length

theorem filter_length_le {α : Type} {p q : α → Bool} (h : ∀ x, p x = true → q x = true) :
    ∀ l : List α, (l.filter p).length ≤ (l.filter q).length
  | [] => by simp
  | a :: l => by
    have ih := filter_length_le h l
    by_cases hp : p a = true
    · simp [hp, h a hp]; exact ih
    · by_cases hq : q a = true
      · simp [hp, hq]; omega
      · simp [hp, hq]; exact ih

theorem filter_length_lt {α : Type} {p q : α → Bool} (h : ∀ x, p x = true → q x = true) :
    ∀ {l : List α} {a}, a ∈ l → p a = false → q a = true →
      (l.filter p).length < (l.filter q).length
  | b :: l, a, hm, hp, hq => by
    rcases List.mem_cons.1 hm with rfl | hm
    · have := filter_length_le h l
      simp [hp, hq]; omega
    · have ih := filter_length_lt h hm hp hq
      by_cases hp' : p b = true
      · simp [hp', h b hp']; exact ih
      · by_cases hq' : q b = true
        · simp [hp', hq']; omega
        · simp [hp', hq']; exact ih

theorem missing_le {env : Env} {i : Nat} {cur l : List TState} :
    missing env i (cur ++ l) ≤ missing env i cur := by
  unfold missing
  apply filter_length_le
  intro x
  simp
  intro h _; exact h

theorem missing_lt {env : Env} {i : Nat} {cur l : List TState} {x : TState} (hx : x ∈ l)
    (hn : x ∉ cur) (hu : x ∈ env.universe i) : missing env i (cur ++ l) < missing env i cur := by
  unfold missing
  refine filter_length_lt ?_ hu ?_ ?_
  · intro y; simp; intro h _; exact h
  · simp [hx]
  · simp [hn]

/-- number of non-list rows -/
def nonListCount (l : List TState) : Nat := (l.filter (fun s => s.term.type ≠ .list)).length
/-- number of list rows -/
def listCount (l : List TState) : Nat := (l.filter (fun s => s.term.type = .list)).length

theorem runCol_terminates {env : Env} (hwf : env.WF) (ho : env.OrdOK) {done : List (List TState)}
    (row : Nat) (cur next : List TState) (hi : Inv env done cur next) :
    ∃ fuel r, runCol env done env.tokens[done.length]? fuel row cur next = some r := by
  cases hc : cur[row]? with
  | none => exact ⟨1, (cur, next), by unfold runCol; simp [hc]⟩
  | some st =>
    have hm := List.mem_of_getElem? hc
    have hinv := processRow_inv ho (row := row) hi hm
    have hg := (processRow_grow hwf ho (row := row) hi hm).1
    obtain ⟨l, hl, hnd, hnew⟩ := hg
    have hlt := (List.getElem?_eq_some_iff.1 hc).1
    have hdrop : cur.drop row = st :: cur.drop (row+1) := by
      rw [List.drop_eq_getElem_cons hlt]
      rw [List.getElem?_eq_getElem hlt] at hc
      rw [Option.some.inj hc]
    have hdrop' : (cur ++ l).drop (row+1) = cur.drop (row+1) ++ l :=
      List.drop_append_of_le_length (by omega)
    have hitem : ∀ x ∈ l, Item env done.length x := by
      intro x hx
      exact hinv.cur x (by rw [hl]; simp [hx])
    have hdec : Prod.Lex (· < ·) (Prod.Lex (· < ·) (· < ·))
        (missing env done.length (cur ++ l), nonListCount ((cur ++ l).drop (row+1)),
          listCount ((cur ++ l).drop (row+1)))
        (missing env done.length cur, nonListCount (cur.drop row), listCount (cur.drop row)) := by
      by_cases hex : ∃ x ∈ l, x.term.type ≠ .list
      · obtain ⟨x, hx, hxl⟩ := hex
        exact Prod.Lex.left _ _ (missing_lt hx (hnew x hx) ((hitem x hx).mem_universe hwf hxl))
      · have hall : ∀ x ∈ l, x.term.type = .list := by
          intro x hx
          by_cases h : x.term.type = .list
          · exact h
          · exact absurd ⟨x, hx, h⟩ hex
        have hnl : nonListCount l = 0 := by
          unfold nonListCount
          rw [List.length_eq_zero_iff, List.filter_eq_nil_iff]
          intro x hx; simp [hall x hx]
        rcases Nat.lt_or_eq_of_le (missing_le (env := env) (i := done.length) (cur := cur) (l := l)) with h | h
        · exact Prod.Lex.left _ _ h
        · rw [h, hdrop, hdrop']
          apply Prod.Lex.right
          by_cases hst : st.term.type = .list
          · have hlnil : l = [] := by
              cases l with
              | nil => rfl
              | cons x l' =>
                exfalso
                have hx := hall x (by simp)
                have hmem : x ∈ (processRow env done env.tokens[done.length]? row st cur next).1 := by
                  rw [hl]; simp
                rcases processRow_mem1 ho hmem with h | h
                · exact hnew x (by simp) h
                · exact h.not_list hst hx
            subst hlnil
            have h1 : nonListCount (cur.drop (row+1) ++ []) =
                nonListCount (st :: cur.drop (row+1)) := by
              simp [nonListCount, hst]
            rw [h1]
            apply Prod.Lex.right
            simp [listCount, hst]
          · apply Prod.Lex.left
            have : nonListCount (cur.drop (row+1) ++ l) = nonListCount (cur.drop (row+1)) := by
              unfold nonListCount at hnl ⊢
              simp only [List.filter_append, List.length_append, hnl]; omega
            rw [this]
            simp [nonListCount, hst]
    have key := runCol_terminates hwf ho (row+1) _ _ hinv
    obtain ⟨fuel, r, hr⟩ := key
    refine ⟨fuel+1, r, ?_⟩
    unfold runCol
    simp only [hc]
    exact hr
termination_by (missing env done.length cur, nonListCount (cur.drop row), listCount (cur.drop row))
decreasing_by
  rw [hl]
  exact hdec

theorem runCol_mono {env : Env} {done tok} : ∀ {fuel row cur next r},
    runCol env done tok fuel row cur next = some r →
    ∀ n, runCol env done tok (fuel+n) row cur next = some r
  | 0, _, _, _, _, h, _ => by simp [runCol] at h
  | fuel+1, row, cur, next, r, h, n => by
    rw [show fuel + 1 + n = (fuel + n) + 1 by omega]
    unfold runCol at h ⊢
    cases hc : cur[row]? with
    | none => rw [hc] at h; simpa using h
    | some st =>
      rw [hc] at h
      exact runCol_mono h n

theorem runCols_mono {env : Env} {fuel : Nat} : ∀ {toks done cur chart},
    runCols env fuel toks done cur = some chart →
    ∀ n, runCols env (fuel+n) toks done cur = some chart
  | [], done, cur, chart, h, n => by
    unfold runCols at h ⊢
    cases hr : runCol env done none fuel 0 cur [] with
    | none => rw [hr] at h; simp at h
    | some r => rw [hr] at h; rw [runCol_mono hr n]; exact h
  | t :: ts, done, cur, chart, h, n => by
    unfold runCols at h ⊢
    cases hr : runCol env done (some t) fuel 0 cur [] with
    | none => rw [hr] at h; simp at h
    | some r => rw [hr] at h; rw [runCol_mono hr n]; exact runCols_mono h n

theorem runCols_terminates {env : Env} (hwf : env.WF) (ho : env.OrdOK) :
    ∀ {toks done cur}, env.tokens.drop done.length = toks → Inv env done cur [] →
      ∃ fuel chart, runCols env fuel toks done cur = some chart
  | [], done, cur, hd, hi => by
    have htok : env.tokens[done.length]? = none := by
      rw [List.getElem?_eq_none]; simpa using hd
    obtain ⟨fuel, r, hr⟩ := runCol_terminates hwf ho 0 cur [] hi
    rw [htok] at hr
    exact ⟨fuel, done ++ [r.1], by unfold runCols; rw [hr]⟩
  | t :: ts, done, cur, hd, hi => by
    have hlt : done.length < env.tokens.length := by
      rcases Nat.lt_or_ge done.length env.tokens.length with h' | h'
      · exact h'
      · rw [List.drop_of_length_le h'] at hd; simp at hd
    rw [List.drop_eq_getElem_cons hlt] at hd
    injection hd with hd1 hd2
    have htok : env.tokens[done.length]? = some t := by
      rw [List.getElem?_eq_getElem hlt, hd1]
    obtain ⟨fuel, r, hr⟩ := runCol_terminates hwf ho 0 cur [] hi
    have hi' := runCol_inv ho hi hr
    obtain ⟨fuel', chart, hc⟩ := runCols_terminates hwf ho (toks := ts) (done := done ++ [r.1])
      (cur := r.2) (by simpa using hd2) ⟨hi'.snoc, by simpa using hi'.next, by simp⟩
    rw [htok] at hr
    refine ⟨fuel + fuel', chart, ?_⟩
    unfold runCols
    rw [runCol_mono hr fuel']
    simp only
    rw [Nat.add_comm]
    exact runCols_mono hc fuel

theorem inv_start (env : Env) : Inv env [] (env.starts.map gammaState) [] := by
  refine ⟨by simp, ?_, by simp⟩
  intro s hs
  simp at hs
  obtain ⟨S, hS, rfl⟩ := hs
  exact Item.init hS

theorem chartOf_terminates {env : Env} (hwf : env.WF) (ho : env.OrdOK) :
    ∃ fuel chart, chartOf env fuel = some chart :=
  runCols_terminates hwf ho (by simp) (inv_start env)

theorem chartOf_mono {env : Env} {fuel chart} (h : chartOf env fuel = some chart) (n : Nat) :
    chartOf env (fuel+n) = some chart := runCols_mono h n

theorem chartOf_nodup {env : Env} (hwf : env.WF) (ho : env.OrdOK) (hs : env.starts.Nodup) {fuel chart}
    (h : chartOf env fuel = some chart) : ∀ col ∈ chart, col.Nodup := by
  refine runCols_nodup hwf ho (by simp) (inv_start env) (by simp) ?_ h
  rw [List.nodup_iff_pairwise_ne, List.pairwise_map]
  rw [List.nodup_iff_pairwise_ne] at hs
  refine hs.imp ?_
  intro a b hab he
  apply hab
  simp [gammaState] at he
  exact he

end Fmr
