import Verif.Proofs.Item

/-!
# The loop computes only items, and computes all of them unless something is nullable
-/

namespace Fmr

/-! ## folds of insertions -/

section fold
variable {β : Type} (f : List TState → β → List TState) (P : β → TState → Prop)

theorem foldl_prefix (hpre : ∀ acc b, acc <+: f acc b) :
    ∀ (l : List β) acc, acc <+: l.foldl f acc
  | [], _ => List.prefix_rfl
  | b :: l, acc => (hpre acc b).trans (foldl_prefix hpre l (f acc b))

theorem foldl_mem (hmem : ∀ acc b x, x ∈ f acc b → x ∈ acc ∨ P b x) :
    ∀ (l : List β) acc x, x ∈ l.foldl f acc → x ∈ acc ∨ ∃ b ∈ l, P b x
  | [], acc, x, h => Or.inl h
  | b :: l, acc, x, h => by
    rcases foldl_mem hmem l (f acc b) x h with h | ⟨b', hb', h⟩
    · rcases hmem acc b x h with h | h
      · exact Or.inl h
      · exact Or.inr ⟨b, by simp, h⟩
    · exact Or.inr ⟨b', by simp [hb'], h⟩

theorem foldl_closed (hpre : ∀ acc b, acc <+: f acc b)
    (hmem : ∀ acc b x, x ∈ f acc b → x ∈ acc ∨ P b x)
    (hcl : ∀ acc b x, (∀ s ∈ acc, s.WF) → P b x → x.WF → x ∈ f acc b) :
    ∀ (l : List β) acc, (∀ s ∈ acc, s.WF) → (∀ b ∈ l, ∀ x, P b x → x.WF) →
      ∀ b ∈ l, ∀ x, P b x → x ∈ l.foldl f acc
  | c :: l, acc, hacc, hwf, b, hb, x, hx => by
    have hacc' : ∀ s ∈ f acc c, s.WF := by
      intro s hs
      rcases hmem acc c s hs with h | h
      · exact hacc s h
      · exact hwf c (by simp) s h
    rcases List.mem_cons.1 hb with rfl | hb
    · exact (foldl_prefix f hpre l _).subset (hcl acc b x hacc hx (hwf b (by simp) x hx))
    · exact foldl_closed hpre hmem hcl l (f acc c) hacc' (fun b hb => hwf b (by simp [hb])) b hb x hx
end fold

/-! ## complete -/

theorem completeStep_prefix (idx : Nat) (state : TState) (acc : List TState) (st : TState) :
    acc <+: completeStep idx state acc st := by
  unfold completeStep
  split
  · exact List.prefix_rfl
  · split
    · exact insert_prefix _ _ _
    · exact List.prefix_rfl

/-- what `complete` adds for one waiting state -/
def CompAdd (idx : Nat) (state st x : TState) : Prop :=
  ∃ t, st.getNextTerm = some t ∧ completes t state = true ∧ x = (advanced st t).placed idx

theorem completeStep_mem (idx : Nat) (state : TState) (acc : List TState) (st x : TState)
    (h : x ∈ completeStep idx state acc st) : x ∈ acc ∨ CompAdd idx state st x := by
  unfold completeStep at h
  split at h
  · exact Or.inl h
  · rename_i t ht
    split at h
    · rename_i hc
      rcases mem_insert h with h | h
      · exact Or.inl h
      · exact Or.inr ⟨t, ht, hc, h⟩
    · exact Or.inl h

theorem completeStep_closed (idx : Nat) (state : TState) (acc : List TState) (st x : TState)
    (hacc : ∀ s ∈ acc, s.WF) (h : CompAdd idx state st x) (hx : x.WF) :
    x ∈ completeStep idx state acc st := by
  obtain ⟨t, ht, hc, rfl⟩ := h
  unfold completeStep
  simp only [ht, hc, if_true]
  exact insert_self hacc hx

theorem complete_prefix (idx : Nat) (snap states : List TState) (state : TState) :
    states <+: complete idx snap states state :=
  foldl_prefix _ (completeStep_prefix idx state) snap states

theorem complete_mem {idx : Nat} {snap states : List TState} {state x : TState}
    (h : x ∈ complete idx snap states state) :
    x ∈ states ∨ ∃ st ∈ snap, CompAdd idx state st x :=
  foldl_mem _ _ (completeStep_mem idx state) snap states x h

theorem complete_closed {idx : Nat} {snap states : List TState} {state : TState}
    (hs : ∀ s ∈ states, s.WF) (hw : ∀ st ∈ snap, ∀ x, CompAdd idx state st x → x.WF)
    {st x : TState} (hst : st ∈ snap) (h : CompAdd idx state st x) :
    x ∈ complete idx snap states state :=
  foldl_closed _ _ (completeStep_prefix idx state) (completeStep_mem idx state)
    (completeStep_closed idx state) snap states hs hw st hst x h

/-! ## predict -/

theorem predictG_prefix (g : Grammar) (order) (idx : Nat) (states : List TState) (term : Term) :
    states <+: predictG g order idx states term := by
  unfold predictG
  split
  · exact List.prefix_rfl
  · exact foldl_prefix _ (fun acc b => insert_prefix _ _ _) _ _

/-- what `predict` adds for one grammar -/
def PredAdd (g : Grammar) (idx : Nat) (term : Term) (x : TState) : Prop :=
  ∃ r, lookupRule g term.value = some r ∧ ∃ rb ∈ r.bodies, x = (predicted r.name rb idx).placed idx

theorem predictG_mem {g : Grammar} {order : List RuleBody → List RuleBody}
    (ho : ∀ l, (order l).Perm l) {idx : Nat} {states : List TState}
    {term : Term} {x : TState} (h : x ∈ predictG g order idx states term) :
    x ∈ states ∨ PredAdd g idx term x := by
  unfold predictG at h
  split at h
  · exact Or.inl h
  · rename_i r hr
    rcases foldl_mem _ (fun rb x => x = (predicted r.name rb idx).placed idx)
      (fun acc b x hx => mem_insert hx) _ _ _ h with h | ⟨rb, hrb, h⟩
    · exact Or.inl h
    · exact Or.inr ⟨r, hr, rb, (ho _).mem_iff.1 hrb, h⟩

theorem predictG_closed {g : Grammar} {order : List RuleBody → List RuleBody}
    (ho : ∀ l, (order l).Perm l) {idx : Nat} {states : List TState} {term : Term}
    (hs : ∀ s ∈ states, s.WF) (hw : ∀ x, PredAdd g idx term x → x.WF) {x : TState}
    (h : PredAdd g idx term x) : x ∈ predictG g order idx states term := by
  obtain ⟨r, hr, rb, hrb, rfl⟩ := h
  unfold predictG
  simp only [hr]
  refine foldl_closed _ (fun rb x => x = (predicted r.name rb idx).placed idx)
    (fun acc b => insert_prefix _ _ _) (fun acc b x hx => mem_insert hx) ?_ _ _ hs ?_ rb
    ((ho _).mem_iff.2 hrb) _ rfl
  · rintro acc b x hacc rfl hx
    exact insert_self hacc hx
  · rintro b hb x rfl
    exact hw _ ⟨r, hr, b, (ho _).mem_iff.1 hb, rfl⟩

theorem predictAll_prefix (order) (idx : Nat) (term : Term) :
    ∀ k gs states, states <+: predictAll order idx term k gs states
  | _, [], _ => List.prefix_rfl
  | k, g :: gs, states =>
    (predictG_prefix g (order k) idx states term).trans
      (predictAll_prefix order idx term (k+1) gs _)

theorem predictAll_mem {order : Nat → List RuleBody → List RuleBody}
    (ho : ∀ k l, (order k l).Perm l) {idx : Nat} {term : Term} :
    ∀ {k gs states x}, x ∈ predictAll order idx term k gs states →
      x ∈ states ∨ ∃ g ∈ gs, PredAdd g idx term x
  | _, [], _, _, h => Or.inl h
  | k, g :: gs, states, x, h => by
    rcases predictAll_mem ho (k := k+1) (gs := gs) h with h | ⟨g', hg', h⟩
    · rcases predictG_mem (ho k) h with h | h
      · exact Or.inl h
      · exact Or.inr ⟨g, by simp, h⟩
    · exact Or.inr ⟨g', by simp [hg'], h⟩

theorem predictAll_closed {order : Nat → List RuleBody → List RuleBody}
    (ho : ∀ k l, (order k l).Perm l) {idx : Nat} {term : Term} :
    ∀ {k gs states}, (∀ s ∈ states, s.WF) → (∀ g ∈ gs, ∀ x, PredAdd g idx term x → x.WF) →
      ∀ g ∈ gs, ∀ x, PredAdd g idx term x → x ∈ predictAll order idx term k gs states
  | k, g :: gs, states, hs, hw, g', hg', x, hx => by
    have hs' : ∀ s ∈ predictG g (order k) idx states term, s.WF := by
      intro s h
      rcases predictG_mem (ho k) h with h | h
      · exact hs s h
      · exact hw g (by simp) s h
    rcases List.mem_cons.1 hg' with rfl | hg'
    · exact (predictAll_prefix order idx term (k+1) gs _).subset
        (predictG_closed (ho k) hs (hw g' (by simp)) hx)
    · exact predictAll_closed ho (k := k+1) hs' (fun g hg => hw g (by simp [hg])) g' hg' x hx

/-! ## one row -/

/-- what processing a row adds to the current column -/
def CurAdd (env : Env) (i : Nat) (snap : List TState) (st x : TState) : Prop :=
  (st.isCompleted = true ∧ ∃ st0 ∈ snap, CompAdd i st st0 x) ∨
  (st.term.type ≠ .any ∧ ∃ t, st.getNextTerm = some t ∧
    ((t.type = .nonterminal ∧ ∃ g ∈ env.grammars, PredAdd g i t x) ∨
     ((t.type = .any ∨ t.type = .list) ∧ x = (predictedSpecial t i).placed i)))

/-- what processing a row adds to the next column -/
def NextAdd (env : Env) (i : Nat) (tok : Option Token) (st x : TState) : Prop :=
  ∃ t tk, st.getNextTerm = some t ∧ tok = some tk ∧
    ((st.term.type = .any ∧ x = (scannedAny st t).placed (i+1)) ∨
     (st.term.type ≠ .any ∧ t.type = .terminal ∧ env.tmatch t tk = true ∧
       x = (scannedTerm st).placed (i+1)))

/-- the column consulted by `complete` for row `st` -/
def snapOf (done : List (List TState)) (cur : List TState) (st : TState) : List TState :=
  if st.start = done.length then cur else done.getD st.start []

theorem predict_prefix (env : Env) (i row : Nat) (states : List TState) (term : Term) :
    states <+: predict env i row states term := by
  unfold predict
  split
  · exact predictAll_prefix _ _ _ _ _ _
  · exact insert_prefix _ _ _
  · exact insert_prefix _ _ _
  · exact List.prefix_rfl

theorem scan_prefix (tm) (i : Nat) (tok : Token) (states : List TState) (st : TState) (t : Term) :
    states <+: scan tm i tok states st t := by
  unfold scan
  split
  · exact insert_prefix _ _ _
  · split
    · exact insert_prefix _ _ _
    · exact List.prefix_rfl

theorem processRow_prefix (env : Env) (done : List (List TState)) (tok : Option Token) (row : Nat)
    (st : TState) (cur next : List TState) :
    cur <+: (processRow env done tok row st cur next).1 ∧
    next <+: (processRow env done tok row st cur next).2 := by
  have h1 : cur <+: (if st.isCompleted then
      complete done.length (if st.start = done.length then cur else done.getD st.start []) cur st
      else cur) := by
    split
    · exact complete_prefix _ _ _ _
    · exact List.prefix_rfl
  unfold processRow
  simp only
  repeat' split
  all_goals refine ⟨?_, ?_⟩
  all_goals simp only
  all_goals first
    | exact List.prefix_rfl
    | exact scan_prefix _ _ _ _ _ _
    | exact complete_prefix _ _ _ _
    | exact predict_prefix _ _ _ _ _
    | exact (complete_prefix _ _ _ _).trans (predict_prefix _ _ _ _ _)

/-- the current column after the `complete` part of a row -/
def afterComplete (done : List (List TState)) (st : TState) (cur : List TState) : List TState :=
  if st.isCompleted then complete done.length (snapOf done cur st) cur st else cur

theorem processRow_none {env : Env} {done tok row st cur next} (h : st.getNextTerm = none) :
    processRow env done tok row st cur next = (afterComplete done st cur, next) := by
  unfold processRow afterComplete snapOf; simp [h]

theorem processRow_any {env : Env} {done tok row st cur next t} (h : st.getNextTerm = some t)
    (ha : st.term.type = .any) :
    processRow env done tok row st cur next = (afterComplete done st cur,
      match tok with
      | some tk => scan env.tmatch (done.length+1) tk next st t
      | none => next) := by
  unfold processRow afterComplete snapOf
  cases tok <;> simp [h, ha]

theorem processRow_term {env : Env} {done tok row st cur next t} (h : st.getNextTerm = some t)
    (ha : st.term.type ≠ .any) (ht : t.type = .terminal) :
    processRow env done tok row st cur next = (afterComplete done st cur,
      match tok with
      | some tk => scan env.tmatch (done.length+1) tk next st t
      | none => next) := by
  unfold processRow afterComplete snapOf
  cases tok <;> simp [h, ha, ht]

theorem processRow_pred {env : Env} {done tok row st cur next t} (h : st.getNextTerm = some t)
    (ha : st.term.type ≠ .any) (ht : t.type ≠ .terminal) :
    processRow env done tok row st cur next =
      (predict env done.length row (afterComplete done st cur) t, next) := by
  unfold processRow afterComplete snapOf
  simp only [h, ha, if_false]
  cases htt : t.type <;> simp_all [predict]

theorem predict_mem {env : Env} (ho : env.OrdOK) {i row : Nat} {states : List TState} {t : Term}
    {x : TState} (h : x ∈ predict env i row states t) : x ∈ states ∨
      (t.type = .nonterminal ∧ ∃ g ∈ env.grammars, PredAdd g i t x) ∨
      ((t.type = .any ∨ t.type = .list) ∧ x = (predictedSpecial t i).placed i) := by
  unfold predict at h
  split at h
  · rename_i ht
    rcases predictAll_mem (fun k l => ho i row k l) h with h | h
    · exact Or.inl h
    · exact Or.inr (Or.inl ⟨ht, h⟩)
  · rename_i ht
    rcases mem_insert h with h | h
    · exact Or.inl h
    · exact Or.inr (Or.inr ⟨Or.inl ht, h⟩)
  · rename_i ht
    rcases mem_insert h with h | h
    · exact Or.inl h
    · exact Or.inr (Or.inr ⟨Or.inr ht, h⟩)
  · exact Or.inl h

theorem afterComplete_mem {done : List (List TState)} {st x : TState} {cur : List TState}
    (h : x ∈ afterComplete done st cur) : x ∈ cur ∨
      (st.isCompleted = true ∧ ∃ st0 ∈ snapOf done cur st, CompAdd done.length st st0 x) := by
  unfold afterComplete at h
  split at h
  · rename_i hc
    rcases complete_mem h with h | h
    · exact Or.inl h
    · exact Or.inr ⟨hc, h⟩
  · exact Or.inl h

theorem processRow_mem1 {env : Env} (ho : env.OrdOK) {done tok row st cur next x}
    (h : x ∈ (processRow env done tok row st cur next).1) :
    x ∈ cur ∨ CurAdd env done.length (snapOf done cur st) st x := by
  have key : x ∈ afterComplete done st cur →
      x ∈ cur ∨ CurAdd env done.length (snapOf done cur st) st x := by
    intro h
    rcases afterComplete_mem h with h | h
    · exact Or.inl h
    · exact Or.inr (Or.inl h)
  cases hn : st.getNextTerm with
  | none => rw [processRow_none hn] at h; exact key h
  | some t =>
    by_cases ha : st.term.type = .any
    · rw [processRow_any hn ha] at h; exact key h
    · by_cases ht : t.type = .terminal
      · rw [processRow_term hn ha ht] at h; exact key h
      · rw [processRow_pred hn ha ht] at h
        rcases predict_mem ho h with h | h
        · exact key h
        · exact Or.inr (Or.inr ⟨ha, t, hn, h⟩)

theorem scan_mem {env : Env} {i : Nat} {tk : Token} {next : List TState} {st x : TState} {t : Term}
    (hn : st.getNextTerm = some t) (hor : st.term.type = .any ∨ t.type = .terminal)
    (h : x ∈ scan env.tmatch (i+1) tk next st t) : x ∈ next ∨ NextAdd env i (some tk) st x := by
  unfold scan at h
  by_cases ha : st.term.type = .any
  · have hta : t.type = .any := by rw [next_any ha hn]; exact ha
    rw [if_pos hta] at h
    rcases mem_insert h with h | h
    · exact Or.inl h
    · exact Or.inr ⟨t, tk, hn, rfl, Or.inl ⟨ha, h⟩⟩
  · have ht : t.type = .terminal := by rcases hor with h' | h'; exact absurd h' ha; exact h'
    simp only [ht, reduceCtorEq, if_false] at h
    split at h
    · rename_i hm
      rcases mem_insert h with h | h
      · exact Or.inl h
      · exact Or.inr ⟨t, tk, hn, rfl, Or.inr ⟨ha, ht, hm, h⟩⟩
    · exact Or.inl h

theorem processRow_mem2 {env : Env} {done tok row st cur next x}
    (h : x ∈ (processRow env done tok row st cur next).2) :
    x ∈ next ∨ NextAdd env done.length tok st x := by
  cases hn : st.getNextTerm with
  | none => rw [processRow_none hn] at h; exact Or.inl h
  | some t =>
    by_cases ha : st.term.type = .any
    · rw [processRow_any hn ha] at h
      cases tok with
      | none => exact Or.inl h
      | some tk => exact scan_mem hn (Or.inl ha) h
    · by_cases ht : t.type = .terminal
      · rw [processRow_term hn ha ht] at h
        cases tok with
        | none => exact Or.inl h
        | some tk => exact scan_mem hn (Or.inr ht) h
      · rw [processRow_pred hn ha ht] at h; exact Or.inl h

/-! ## the loop invariant: everything in the chart is an item -/

/-- everything computed so far is an item of its column -/
structure Inv (env : Env) (cols : List (List TState)) (cur next : List TState) : Prop where
  done : ∀ k col, cols[k]? = some col → ∀ s ∈ col, Item env k s
  cur : ∀ s ∈ cur, Item env cols.length s
  next : ∀ s ∈ next, Item env (cols.length+1) s

theorem Inv.snap {env : Env} {done cur next} (h : Inv env done cur next) {st : TState} :
    ∀ s ∈ snapOf done cur st, Item env st.start s := by
  intro s hs
  unfold snapOf at hs
  split at hs
  · rename_i heq; rw [heq]; exact h.cur s hs
  · rw [List.getD_eq_getElem?_getD] at hs
    cases hd : done[st.start]? with
    | none => simp [hd] at hs
    | some col => simp [hd] at hs; exact h.done _ _ hd s hs

theorem CurAdd.item {env : Env} {i : Nat} {snap : List TState} {st x : TState}
    (hst : Item env i st) (hsnap : ∀ s ∈ snap, Item env st.start s) (h : CurAdd env i snap st x) :
    Item env i x := by
  rcases h with ⟨hc, st0, h0, t, hn, hm, rfl⟩ | ⟨ha, t, hn, ⟨htt, g, hg, r, hr, rb, hrb, rfl⟩ | ⟨htt, rfl⟩⟩
  · exact Item.comp (hsnap st0 h0) hst hc rfl hn hm
  · exact Item.predNT hst ha hn htt hg hr hrb
  · exact Item.predAL hst ha hn htt

theorem NextAdd.item {env : Env} {i : Nat} {st x : TState}
    (hst : Item env i st) (h : NextAdd env i env.tokens[i]? st x) : Item env (i+1) x := by
  obtain ⟨t, tk, hn, htok, ⟨ha, rfl⟩ | ⟨ha, htt, hm, rfl⟩⟩ := h
  · exact Item.scanAny hst ha hn (List.getElem?_eq_some_iff.1 htok).1
  · exact Item.scanT hst ha hn htt htok hm

theorem processRow_inv {env : Env} (ho : env.OrdOK) {done row st cur next}
    (h : Inv env done cur next) (hst : st ∈ cur) :
    Inv env done (processRow env done env.tokens[done.length]? row st cur next).1
      (processRow env done env.tokens[done.length]? row st cur next).2 := by
  refine ⟨h.done, ?_, ?_⟩
  · intro s hs
    rcases processRow_mem1 ho hs with hs | hs
    · exact h.cur s hs
    · exact hs.item (h.cur _ hst) h.snap
  · intro s hs
    rcases processRow_mem2 hs with hs | hs
    · exact h.next s hs
    · exact hs.item (h.cur _ hst)

theorem runCol_inv {env : Env} (ho : env.OrdOK) {done} :
    ∀ {fuel row cur next r}, Inv env done cur next →
      runCol env done env.tokens[done.length]? fuel row cur next = some r → Inv env done r.1 r.2
  | 0, _, _, _, _, _, h => by simp [runCol] at h
  | fuel+1, row, cur, next, r, hi, h => by
    unfold runCol at h
    cases hc : cur[row]? with
    | none => rw [hc] at h; simp at h; subst h; exact hi
    | some st =>
      rw [hc] at h
      exact runCol_inv ho (processRow_inv ho hi (List.mem_of_getElem? hc)) h

theorem runCol_prefix {env : Env} {done tok} :
    ∀ {fuel row cur next r}, runCol env done tok fuel row cur next = some r →
      cur <+: r.1 ∧ next <+: r.2
  | 0, _, _, _, _, h => by simp [runCol] at h
  | fuel+1, row, cur, next, r, h => by
    unfold runCol at h
    cases hc : cur[row]? with
    | none => rw [hc] at h; simp at h; subst h; exact ⟨List.prefix_rfl, List.prefix_rfl⟩
    | some st =>
      rw [hc] at h
      have h1 := processRow_prefix env done tok row st cur next
      have h2 := runCol_prefix h
      exact ⟨h1.1.trans h2.1, h1.2.trans h2.2⟩

/-- chart columns consist of items -/
def ChartInv (env : Env) (chart : List (List TState)) : Prop :=
  ∀ k col, chart[k]? = some col → ∀ s ∈ col, Item env k s

theorem Inv.snoc {env : Env} {done cur next} (h : Inv env done cur next) :
    ChartInv env (done ++ [cur]) := by
  intro k col hk s hs
  rcases Nat.lt_trichotomy k done.length with hlt | heq | hgt
  · rw [List.getElem?_append_left hlt] at hk; exact h.done k col hk s hs
  · subst heq; simp at hk; subst hk; exact h.cur s hs
  · have : (done ++ [cur]).length ≤ k := by simp; omega
    rw [List.getElem?_eq_none this] at hk; simp at hk

theorem runCols_inv {env : Env} (ho : env.OrdOK) {fuel : Nat} :
    ∀ {toks done cur chart}, env.tokens.drop done.length = toks → Inv env done cur [] →
      runCols env fuel toks done cur = some chart →
      ChartInv env chart ∧ chart.length = done.length + toks.length + 1
  | [], done, cur, chart, hd, hi, h => by
    unfold runCols at h
    have htok : env.tokens[done.length]? = none := by
      rw [List.getElem?_eq_none]; simpa using hd
    cases hr : runCol env done none fuel 0 cur [] with
    | none => rw [hr] at h; simp at h
    | some r =>
      rw [hr] at h; simp at h; subst h
      rw [← htok] at hr
      have := runCol_inv ho hi hr
      exact ⟨this.snoc, by simp⟩
  | t :: ts, done, cur, chart, hd, hi, h => by
    unfold runCols at h
    have hlt : done.length < env.tokens.length := by
      rcases Nat.lt_or_ge done.length env.tokens.length with h' | h'
      · exact h'
      · rw [List.drop_of_length_le h'] at hd; simp at hd
    rw [List.drop_eq_getElem_cons hlt] at hd
    injection hd with hd1 hd2
    have htok : env.tokens[done.length]? = some t := by
      rw [List.getElem?_eq_getElem hlt, hd1]
    cases hr : runCol env done (some t) fuel 0 cur [] with
    | none => rw [hr] at h; simp at h
    | some r =>
      rw [hr] at h; simp at h
      rw [← htok] at hr
      have hi' := runCol_inv ho hi hr
      have := runCols_inv ho (toks := ts) (done := done ++ [r.1]) (cur := r.2)
        (by simpa using hd2) ⟨hi'.snoc, by simpa using hi'.next, by simp⟩ h
      refine ⟨this.1, ?_⟩
      have := this.2
      simp at this ⊢; omega

theorem chartOf_inv {env : Env} (ho : env.OrdOK) {fuel chart} (h : chartOf env fuel = some chart) :
    ChartInv env chart ∧ chart.length = env.tokens.length + 1 := by
  unfold chartOf at h
  have := runCols_inv ho (by simp) ⟨by simp, ?_, by simp⟩ h
  · simpa using this
  · intro s hs
    simp at hs
    obtain ⟨S, hS, rfl⟩ := hs
    exact Item.init hS

end Fmr
