import Verif.Spec.Rename
import Verif.Proofs.Chart

/-!
# Parsing commutes with the renaming of rules
-/

namespace Fmr

section
variable {ρ : String → String}

@[simp] theorem Term.ren_type (t : Term) : (t.ren ρ).type = t.type := by
  unfold Term.ren; split <;> rfl
@[simp] theorem Term.ren_meta (t : Term) : (t.ren ρ).meta = t.meta := by
  unfold Term.ren; split <;> rfl
theorem Term.ren_name {t : Term} (h : t.type = .nonterminal ∨ t.type = .list) : (t.ren ρ).value = ρ t.value := by
  unfold Term.ren; rcases h with h | h <;> rw [h]
theorem Term.ren_other {t : Term} (h1 : t.type ≠ .nonterminal) (h2 : t.type ≠ .list) : t.ren ρ = t := by
  unfold Term.ren; split <;> simp_all

@[simp] theorem TState.ren_term (s : TState) : (s.ren ρ).term = s.term.ren ρ := rfl
@[simp] theorem TState.ren_start (s : TState) : (s.ren ρ).start = s.start := rfl
@[simp] theorem TState.ren_stop (s : TState) : (s.ren ρ).stop = s.stop := rfl
@[simp] theorem TState.ren_dot (s : TState) : (s.ren ρ).dot = s.dot := rfl
@[simp] theorem TState.ren_rb (s : TState) : (s.ren ρ).rb = s.rb.map (RuleBody.ren ρ) := rfl
@[simp] theorem RuleBody.ren_terms (b : RuleBody) : (b.ren ρ).terms = b.terms.map (Term.ren ρ) := rfl
@[simp] theorem RuleBody.ren_f (b : RuleBody) : (b.ren ρ).f = b.f := rfl

theorem ren_bodyTerms (s : TState) : (s.ren ρ).bodyTerms = s.bodyTerms.map (Term.ren ρ) := by
  unfold TState.bodyTerms; cases h : s.rb <;> simp [h]

theorem ren_completed (s : TState) : (s.ren ρ).isCompleted = s.isCompleted := by
  unfold TState.isCompleted TState.metaEmpty
  simp only [ren_bodyTerms, TState.ren_term, Term.ren_type, Term.ren_meta, TState.ren_dot, List.length_map]
  rfl

theorem ren_nextTerm (s : TState) : (s.ren ρ).getNextTerm = s.getNextTerm.map (Term.ren ρ) := by
  have hm : (s.ren ρ).maxReached = s.maxReached := by
    unfold TState.maxReached; simp only [TState.ren_term, Term.ren_meta, TState.ren_dot]; rfl
  unfold TState.getNextTerm
  rw [ren_completed, ren_bodyTerms, hm]
  simp only [TState.ren_term, Term.ren_type, Term.ren_meta, TState.ren_dot]
  cases h : s.term.type <;> simp only
  · split <;> simp
  · split <;> simp
  · split <;> simp
  · split <;> simp
  · split
    · simp
    · simp [Term.ren, h]

theorem ren_placed (i : Nat) (s : TState) : (s.ren ρ).placed i = (s.placed i).ren ρ := by
  unfold TState.placed
  simp only [TState.ren_term, Term.ren_type]
  split <;> simp [TState.ren]

theorem ren_advanced (s : TState) (t : Term) : advanced (s.ren ρ) (t.ren ρ) = (advanced s t).ren ρ := by
  unfold advanced TState.ren
  simp only [Term.ren_meta]
  congr 1
  unfold Term.ren
  simp only
  split <;> rfl

theorem ren_predicted (A : String) (b : RuleBody) (i : Nat) :
    predicted (ρ A) (b.ren ρ) i = (predicted A b i).ren ρ := rfl

theorem ren_gamma (hg : ρ "ɣ" = "ɣ") (S : String) : gammaState (ρ S) = (gammaState S).ren ρ := by
  simp [gammaState, TState.ren, Term.ren, RuleBody.ren, gammaRule, hg]

variable (hinj : ∀ a b, ρ a = ρ b → a = b)
include hinj

theorem ren_value {t u : Term} (h : t.type = u.type) : (t.ren ρ).value = (u.ren ρ).value ↔ t.value = u.value := by
  by_cases h1 : t.type = .nonterminal ∨ t.type = .list
  · rw [Term.ren_name h1, Term.ren_name (h ▸ h1)]
    exact ⟨hinj _ _, fun h => by rw [h]⟩
  · rw [not_or] at h1
    rw [Term.ren_other h1.1 h1.2, Term.ren_other (h ▸ h1.1) (h ▸ h1.2)]

theorem ren_termEqual (t u : Term) : (t.ren ρ).equal (u.ren ρ) = t.equal u := by
  unfold Term.equal
  simp only [Term.ren_type, Term.ren_meta]
  by_cases h : t.type = u.type
  · have := ren_value hinj h
    by_cases h' : t.value = u.value <;> simp_all
  · simp [h]

theorem ren_termsEqual : ∀ l m : List Term, termsEqual (l.map (Term.ren ρ)) (m.map (Term.ren ρ)) = termsEqual l m
  | [], _ => rfl
  | _ :: _, [] => rfl
  | a :: l, b :: m => by simp [termsEqual, ren_termEqual hinj, ren_termsEqual l m]

theorem ren_equal (s u : TState) : (s.ren ρ).equal (u.ren ρ) = s.equal u := by
  unfold TState.equal
  have : RuleBody.equalPtr (s.ren ρ).rb (u.ren ρ).rb = RuleBody.equalPtr s.rb u.rb := by
    simp only [TState.ren_rb]
    cases s.rb <;> cases u.rb <;>
      simp [RuleBody.equalPtr, RuleBody.equal, ren_termsEqual hinj]
  rw [this]
  simp only [TState.ren_start, TState.ren_stop, TState.ren_dot, TState.ren_term, ren_termEqual hinj]
  rfl

theorem ren_insert (i : Nat) (l : List TState) (s : TState) :
    insert i (l.map (TState.ren ρ)) (s.ren ρ) = (insert i l s).map (TState.ren ρ) := by
  unfold insert insertToEnd
  simp only [ren_placed, List.findIdx?_map]
  have : ((fun x => x.equal ((s.placed i).ren ρ)) ∘ TState.ren ρ) = (fun x => x.equal (s.placed i)) := by
    funext x; simp [ren_equal hinj]
  rw [this]
  cases h : l.findIdx? (fun x => x.equal (s.placed i)) with
  | none => simp
  | some k =>
    simp only [List.getElem?_map]
    cases l[k]? <;> simp

theorem ren_completes (t : Term) (s : TState) : completes (t.ren ρ) (s.ren ρ) = completes t s := by
  unfold completes
  simp only [Term.ren_type, TState.ren_term]
  by_cases h : t.type = s.term.type
  · have := ren_value hinj h
    have hb : ((t.ren ρ).value == (s.term.ren ρ).value) = (t.value == s.term.value) := by
      rw [Bool.eq_iff_iff, beq_iff_eq, beq_iff_eq]; exact this
    rw [hb]
  · have hb : (t.type == s.term.type) = false := by simp [h]
    simp [hb]

theorem ren_complete (i : Nat) (s : TState) : ∀ snap l : List TState,
    complete i (snap.map (TState.ren ρ)) (l.map (TState.ren ρ)) (s.ren ρ) = (complete i snap l s).map (TState.ren ρ)
  | [], l => rfl
  | x :: snap, l => by
    have hstep : completeStep i (s.ren ρ) (l.map (TState.ren ρ)) (x.ren ρ) =
        (completeStep i s l x).map (TState.ren ρ) := by
      unfold completeStep
      rw [ren_nextTerm]
      cases x.getNextTerm with
      | none => rfl
      | some t =>
        simp only [Option.map_some, ren_completes hinj]
        split
        · rw [ren_advanced, ren_insert hinj]
        · rfl
    have := ren_complete i s snap (completeStep i s l x)
    unfold complete at this ⊢
    simp only [List.map_cons, List.foldl_cons, hstep]
    exact this

theorem ren_scan (m : Term → Token → Bool) (i : Nat) (tok : Token) (l : List TState) (s : TState) (t : Term)
    : scan m i tok (l.map (TState.ren ρ)) (s.ren ρ) t = (scan m i tok l s t).map (TState.ren ρ) := by
  unfold scan
  split
  · rw [← ren_insert hinj]; rfl
  · split
    · rw [← ren_insert hinj]; rfl
    · rfl

theorem ren_foldl (A : String) (i : Nat) : ∀ (bs : List RuleBody) (l : List TState),
    (bs.map (RuleBody.ren ρ)).foldl (fun acc b => insert i acc (predicted (ρ A) b i)) (l.map (TState.ren ρ)) =
      (bs.foldl (fun acc b => insert i acc (predicted A b i)) l).map (TState.ren ρ)
  | [], _ => rfl
  | b :: bs, l => by
    simp only [List.map_cons, List.foldl_cons]
    rw [ren_predicted, ren_insert hinj, ren_foldl A i bs]
end

section
variable {ρ : String → String} {R : String → Prop} {env env' : Env}

theorem ren_predictAll (hinj : ∀ a b, ρ a = ρ b → a = b) {o o' : Nat → List RuleBody → List RuleBody}
    (ho : ∀ k l, o' k (l.map (RuleBody.ren ρ)) = (o k l).map (RuleBody.ren ρ)) (i : Nat) (t : Term)
    (ht : t.type = .nonterminal) (hR : R t.value) : ∀ (k : Nat) (gs gs' : List Grammar) (l : List TState),
    List.Forall₂ (fun g g' => ∀ A, R A → (g'.rules.lookup (ρ A)).map Rule.view =
      (g.rules.lookup A).map (fun r => (ρ r.name, r.bodies.map (RuleBody.ren ρ)))) gs gs' →
    predictAll o' i (t.ren ρ) k gs' (l.map (TState.ren ρ)) = (predictAll o i t k gs l).map (TState.ren ρ)
  | k, _, _, l, .nil => rfl
  | k, _, _, l, .cons (a := g) (b := g') h hs => by
    have : predictG g' (o' k) i (l.map (TState.ren ρ)) (t.ren ρ) = (predictG g (o k) i l t).map (TState.ren ρ) := by
      unfold predictG lookupRule
      have hl := h _ hR
      rw [Term.ren_name (Or.inl ht)]
      cases hr : g.rules.lookup t.value with
      | none =>
        rw [hr] at hl
        rw [Option.map_eq_none_iff.1 hl]
      | some r =>
        rw [hr] at hl
        obtain ⟨r', h1, h2⟩ := Option.map_eq_some_iff.1 hl
        simp only [Rule.view, Prod.mk.injEq] at h2
        rw [h1]
        simp only [h2.1, h2.2, ho]
        exact ren_foldl hinj r.name i _ _
    simp only [predictAll, this]
    exact ren_predictAll hinj ho i t ht hR (k+1) _ _ _ hs

/-- the names that a state refers to are among `R` -/
def TState.within (R : String → Prop) (s : TState) : Prop :=
  (∀ t ∈ s.bodyTerms, t.within R) ∧ (s.term.type = .list → R s.term.value)

theorem within_next {s : TState} {t : Term} (h : s.within R) (hn : s.getNextTerm = some t) : t.within R := by
  unfold TState.getNextTerm at hn
  split at hn
  · split at hn
    · simp at hn
    · have := Option.some.inj hn
      subst this
      intro h'
      rename_i ht _
      rw [ht] at h'
      simp at h'
  · split at hn
    · simp at hn
    · have := Option.some.inj hn
      subst this
      rename_i ht _
      exact fun _ => h.2 ht
  · split at hn
    · simp at hn
    · exact h.1 t (List.mem_of_getElem? hn)

theorem within_placed {i : Nat} {s : TState} : (s.placed i).within R ↔ s.within R := by
  unfold TState.placed
  simp only
  split <;> rfl

theorem within_insert {i : Nat} {l : List TState} {s : TState} (hl : ∀ x ∈ l, x.within R) (hs : s.within R) :
    ∀ x ∈ insert i l s, x.within R := by
  intro x hx
  rcases mem_insert hx with h | h
  · exact hl x h
  · rw [h]; exact within_placed.2 hs

theorem within_complete {i : Nat} {snap l : List TState} {s : TState} (hsn : ∀ x ∈ snap, x.within R)
    (hl : ∀ x ∈ l, x.within R) : ∀ x ∈ complete i snap l s, x.within R := by
  intro x hx
  rcases complete_mem hx with h | ⟨st, hst, t, _, _, rfl⟩
  · exact hl x h
  · exact within_placed.2 (hsn st hst)

theorem within_scan {m : Term → Token → Bool} {i : Nat} {tok : Token} {l : List TState} {s : TState} {t : Term}
    (hs : s.within R) (hl : ∀ x ∈ l, x.within R) : ∀ x ∈ scan m i tok l s t, x.within R := by
  unfold scan
  split
  · exact within_insert hl ⟨hs.1, fun h => by simp at h⟩
  · split
    · exact within_insert hl hs
    · exact hl

theorem within_predict (ho : env.OrdOK)
    (hc : ∀ A, R A → ∀ g ∈ env.grammars, ∀ r, g.rules.lookup A = some r → ∀ b ∈ r.bodies, ∀ t ∈ b.terms, t.within R)
    {i row : Nat} {l : List TState} {t : Term} (ht : t.within R) (hl : ∀ x ∈ l, x.within R) :
    ∀ x ∈ predict env i row l t, x.within R := by
  intro x hx
  rcases predict_mem ho hx with h | ⟨hn, g, hg, r, hr, b, hb, rfl⟩ | ⟨ha, rfl⟩
  · exact hl x h
  · refine within_placed.2 ⟨hc _ (ht (Or.inl hn)) g hg r hr b hb, fun h => ?_⟩
    simp [predicted] at h
  · refine within_placed.2 ⟨by simp [predictedSpecial, TState.bodyTerms], fun h => ht (Or.inr h)⟩

theorem ren_predict (h : Renames ρ R env env') (hso : SameOrder ρ env env') {i row : Nat} {l : List TState} {t : Term} (ht : t.within R) :
    predict env' i row (l.map (TState.ren ρ)) (t.ren ρ) = (predict env i row l t).map (TState.ren ρ) := by
  unfold predict
  simp only [Term.ren_type]
  cases htt : t.type <;> simp only
  · exact ren_predictAll h.inj (hso i row) i t htt (ht (Or.inl htt)) 0 _ _ l h.rules
  · rw [← ren_insert h.inj]; rfl
  · rw [← ren_insert h.inj]; rfl

theorem ren_processRow (h : Renames ρ R env env') (hso : SameOrder ρ env env') (ho : env.OrdOK) {done : List (List TState)} {tok : Option Token}
    {row : Nat} {st : TState} {cur next : List TState} (hd : ∀ c ∈ done, ∀ x ∈ c, x.within R)
    (hst : st.within R) (hcur : ∀ x ∈ cur, x.within R) (hnext : ∀ x ∈ next, x.within R) :
    processRow env' (done.map (·.map (TState.ren ρ))) tok row (st.ren ρ) (cur.map (TState.ren ρ))
        (next.map (TState.ren ρ)) =
      ((processRow env done tok row st cur next).1.map (TState.ren ρ),
        (processRow env done tok row st cur next).2.map (TState.ren ρ)) ∧
    (∀ x ∈ (processRow env done tok row st cur next).1, x.within R) ∧
    ∀ x ∈ (processRow env done tok row st cur next).2, x.within R := by
  have hsnap : snapOf (done.map (·.map (TState.ren ρ))) (cur.map (TState.ren ρ)) (st.ren ρ) =
      (snapOf done cur st).map (TState.ren ρ) := by
    unfold snapOf
    simp only [TState.ren_start, List.length_map]
    split
    · rfl
    · simp only [List.getD_eq_getElem?_getD, List.getElem?_map]
      cases done[st.start]? <;> simp
  have hac : afterComplete (done.map (·.map (TState.ren ρ))) (st.ren ρ) (cur.map (TState.ren ρ)) =
      (afterComplete done st cur).map (TState.ren ρ) := by
    unfold afterComplete
    rw [hsnap, ren_completed, List.length_map, ren_complete h.inj]
    split <;> rfl
  have hsw : ∀ x ∈ snapOf done cur st, x.within R := by
    unfold snapOf
    split
    · exact hcur
    · intro x hx
      rw [List.getD_eq_getElem?_getD] at hx
      cases hg : done[st.start]? with
      | none => rw [hg] at hx; simp at hx
      | some c => rw [hg] at hx; exact hd c (List.mem_of_getElem? hg) x hx
  have haw : ∀ x ∈ afterComplete done st cur, x.within R := by
    unfold afterComplete
    split
    · exact within_complete hsw hcur
    · exact hcur
  cases hn : st.getNextTerm with
  | none =>
    have hn' : (st.ren ρ).getNextTerm = none := by rw [ren_nextTerm, hn]; rfl
    rw [processRow_none hn', processRow_none hn, hac]
    exact ⟨rfl, haw, hnext⟩
  | some t =>
    have hn' : (st.ren ρ).getNextTerm = some (t.ren ρ) := by rw [ren_nextTerm, hn]; rfl
    have htw := within_next hst hn
    have hscan : t.type ≠ .nonterminal → t.type ≠ .list →
        (match tok with
          | some tk => scan env'.tmatch ((done.map (·.map (TState.ren ρ))).length+1) tk (next.map (TState.ren ρ))
              (st.ren ρ) (t.ren ρ)
          | none => next.map (TState.ren ρ)) =
        (match tok with
          | some tk => scan env.tmatch (done.length+1) tk next st t
          | none => next).map (TState.ren ρ) := by
      intro h1 h2
      rw [Term.ren_other h1 h2, h.tmatch, List.length_map]
      cases tok with
      | none => rfl
      | some tk => exact ren_scan h.inj _ _ _ _ _ _
    have hscw : ∀ x ∈ (match tok with
          | some tk => scan env.tmatch (done.length+1) tk next st t
          | none => next), x.within R := by
      cases tok with
      | none => exact hnext
      | some tk => exact within_scan hst hnext
    by_cases ha : st.term.type = .any
    · have htt : t.type = .any := by
        unfold TState.getNextTerm at hn
        rw [ha] at hn
        simp only at hn
        split at hn
        · simp at hn
        · rw [← Option.some.inj hn]; exact ha
      rw [processRow_any hn' (by simpa using ha), processRow_any hn ha, hac]
      exact ⟨Prod.ext rfl (hscan (by simp [htt]) (by simp [htt])), haw, hscw⟩
    · by_cases ht : t.type = .terminal
      · rw [processRow_term hn' (by simpa using ha) (by simpa using ht), processRow_term hn ha ht, hac]
        exact ⟨Prod.ext rfl (hscan (by simp [ht]) (by simp [ht])), haw, hscw⟩
      · rw [processRow_pred hn' (by simpa using ha) (by simpa using ht), processRow_pred hn ha ht, hac,
          List.length_map, ren_predict h hso htw]
        exact ⟨rfl, within_predict ho h.closed htw haw, hnext⟩

theorem ren_runCol (h : Renames ρ R env env') (hso : SameOrder ρ env env') (ho : env.OrdOK) {done : List (List TState)} {tok : Option Token}
    (hd : ∀ c ∈ done, ∀ x ∈ c, x.within R) : ∀ (fuel row : Nat) (cur next : List TState),
    (∀ x ∈ cur, x.within R) → (∀ x ∈ next, x.within R) →
    runCol env' (done.map (·.map (TState.ren ρ))) tok fuel row (cur.map (TState.ren ρ)) (next.map (TState.ren ρ)) =
      (runCol env done tok fuel row cur next).map
        (fun p => (p.1.map (TState.ren ρ), p.2.map (TState.ren ρ))) ∧
    ∀ p, runCol env done tok fuel row cur next = some p →
      (∀ x ∈ p.1, x.within R) ∧ ∀ x ∈ p.2, x.within R
  | 0, _, _, _, _, _ => ⟨rfl, by simp [runCol]⟩
  | fuel+1, row, cur, next, hcur, hnext => by
    simp only [runCol, List.getElem?_map]
    cases hr : cur[row]? with
    | none => exact ⟨rfl, fun p hp => by simp at hp; subst hp; exact ⟨hcur, hnext⟩⟩
    | some st =>
      simp only [Option.map_some]
      obtain ⟨h1, h2, h3⟩ := ren_processRow h hso ho (tok := tok) (row := row) hd
        (hcur st (List.mem_of_getElem? hr)) hcur hnext
      rw [h1]
      exact ren_runCol h hso ho hd fuel (row+1) _ _ h2 h3

theorem ren_runCols (h : Renames ρ R env env') (hso : SameOrder ρ env env') (ho : env.OrdOK) (fuel : Nat) :
    ∀ (ts : List Token) (done : List (List TState)) (cur : List TState),
    (∀ c ∈ done, ∀ x ∈ c, x.within R) → (∀ x ∈ cur, x.within R) →
    runCols env' fuel ts (done.map (·.map (TState.ren ρ))) (cur.map (TState.ren ρ)) =
      (runCols env fuel ts done cur).map (·.map (·.map (TState.ren ρ)))
  | [], done, cur, hd, hc => by
    obtain ⟨h1, h2⟩ := ren_runCol h hso ho (tok := none) hd fuel 0 cur [] hc (by simp)
    simp only [List.map_nil] at h1
    simp only [runCols, h1]
    cases runCol env done none fuel 0 cur [] with
    | none => rfl
    | some p => simp
  | t :: ts, done, cur, hd, hc => by
    obtain ⟨h1, h2⟩ := ren_runCol h hso ho (tok := some t) hd fuel 0 cur [] hc (by simp)
    simp only [List.map_nil] at h1
    simp only [runCols, h1]
    cases hr : runCol env done (some t) fuel 0 cur [] with
    | none => rfl
    | some p =>
      obtain ⟨hp1, hp2⟩ := h2 p hr
      have := ren_runCols h hso ho fuel ts (done ++ [p.1]) p.2 (by
        intro c hc x hx
        rcases List.mem_append.1 hc with hc | hc
        · exact hd c hc x hx
        · rw [List.mem_singleton.1 hc] at hx; exact hp1 x hx) hp2
      simpa using this

theorem ren_chartOf (h : Renames ρ R env env') (hso : SameOrder ρ env env') (ho : env.OrdOK) (fuel : Nat) :
    chartOf env' fuel = (chartOf env fuel).map (·.map (·.map (TState.ren ρ))) := by
  unfold chartOf
  have hs : env'.starts.map gammaState = (env.starts.map gammaState).map (TState.ren ρ) := by
    rw [h.starts, List.map_map, List.map_map]
    exact List.map_congr_left fun S _ => ren_gamma h.gamma S
  rw [hs, h.tokens]
  have := ren_runCols h hso ho fuel env.tokens [] (env.starts.map gammaState) (by simp) (by
    intro x hx
    obtain ⟨S, hS, rfl⟩ := List.mem_map.1 hx
    refine ⟨?_, by simp [gammaState]⟩
    intro t ht
    simp [gammaState, TState.bodyTerms] at ht
    subst ht
    exact fun _ => h.roots S hS)
  simpa using this

theorem ren_isFinal (hinj : ∀ a b, ρ a = ρ b → a = b) (hg : ρ "ɣ" = "ɣ") (s : TState) :
    (s.ren ρ).isFinal = s.isFinal := by
  unfold TState.isFinal
  rw [ren_completed]
  congr 1
  rw [Bool.eq_iff_iff, beq_iff_eq, beq_iff_eq, TState.ren_term]
  unfold gammaRule
  by_cases h1 : s.term.type = .nonterminal ∨ s.term.type = .list
  · rw [Term.ren_name h1]
    exact ⟨fun h => hinj _ _ (h.trans hg.symm), fun h => by rw [h, hg]⟩
  · rw [not_or] at h1
    rw [Term.ren_other h1.1 h1.2]

theorem ren_finalsOf (hinj : ∀ a b, ρ a = ρ b → a = b) (hg : ρ "ɣ" = "ɣ") (m : Bool) (c : List (List TState)) :
    finalsOf m (c.map (·.map (TState.ren ρ))) = (finalsOf m c).map (TState.ren ρ) := by
  have : finalsAll (c.map (·.map (TState.ren ρ))) = (finalsAll c).map (TState.ren ρ) := by
    unfold finalsAll
    rw [← List.map_reverse, List.flatMap_map, List.map_flatMap]
    congr 1
    funext col
    rw [List.filter_map]
    congr 1
    congr 1
    funext s
    exact ren_isFinal hinj hg s
  unfold finalsOf
  rw [this]
  split
  · rw [List.map_take]
  · rfl

theorem ren_parse (h : Renames ρ R env env') (hso : SameOrder ρ env env') (ho : env.OrdOK) (m : Bool) (fuel : Nat) :
    parse env' m fuel = (parse env m fuel).map (ParseResult.ren ρ) := by
  unfold parse
  have : env'.starts = [] ↔ env.starts = [] := by rw [h.starts]; simp
  rw [ren_chartOf h hso ho]
  by_cases he : env.starts = []
  · rw [if_pos (this.2 he), if_pos he, h.tokens]
    simp [ParseResult.ren]
  · rw [if_neg (fun h' => he (this.1 h')), if_neg he]
    cases chartOf env fuel with
    | none => rfl
    | some c => simp [ParseResult.ren, ren_finalsOf h.inj h.gamma]

/-! ## trees -/

theorem nodesRen_eq (l : List Node) : nodesRen ρ l = l.map (Node.ren ρ) := by
  induction l with
  | nil => rfl
  | cons a l ih => simp [nodesRen, ih]

theorem optFlat_map {α β α' β' : Type} (f : α → Option (List β)) (f' : α' → Option (List β')) (p : α → α') (q : β → β')
    (h : ∀ a, f' (p a) = (f a).map (·.map q)) : ∀ l : List α, optFlat f' (l.map p) = (optFlat f l).map (·.map q)
  | [] => rfl
  | a :: l => by
    simp only [List.map_cons, optFlat, h, optFlat_map f f' p q h l]
    cases f a <;> cases optFlat f l <;> simp

theorem ren_childOK (hinj : ∀ a b, ρ a = ρ b → a = b) (s : TState) (t : Term) (k : Nat) (st : TState) :
    childOK (s.ren ρ) (t.ren ρ) k (st.ren ρ) = childOK s t k st := by
  unfold childOK
  simp only [ren_completed, TState.ren_term, TState.ren_start, Term.ren_type]
  by_cases h : st.term.type = t.type
  · have hb : ((st.term.ren ρ).value == (t.ren ρ).value) = (st.term.value == t.value) := by
      rw [Bool.eq_iff_iff, beq_iff_eq, beq_iff_eq]; exact ren_value hinj h
    rw [hb]
  · have hb : (st.term.type == t.type) = false := by simp [h]
    simp [hb]

theorem ren_listed (s : TState) : (s.ren ρ).listed = s.listed.ren ρ := by
  unfold TState.listed
  simp only [TState.ren_term, Term.ren_type]
  split
  · rename_i h
    simp [TState.ren, RuleBody.ren, listRb, Term.ren, h]
  · rfl

theorem ren_termLeaf (s : TState) (t : Term) (k : Nat) : termLeaf (s.ren ρ) (t.ren ρ) k = (termLeaf s t k).ren ρ := by
  simp [termLeaf, Node.ren, nodesRen, TState.ren]

theorem ren_anyLeaf (s : TState) : anyLeaf (s.ren ρ) = (anyLeaf s).ren ρ := by
  simp [anyLeaf, Node.ren, nodesRen, TState.ren]

theorem ren_colAt (chart : List (List TState)) (e : Int) :
    colAt (chart.map (·.map (TState.ren ρ))) e = (colAt chart e).map (·.map (fun p => (p.1.ren ρ, p.2))) := by
  unfold colAt
  split
  · rfl
  · rw [List.getElem?_map]
    cases chart[e.toNat]? with
    | none => rfl
    | some c => simp [List.zipIdx_map, Prod.map]

theorem ren_rowsBefore (c r : Nat) (e : Int) (rows : List (TState × Nat)) :
    rowsBefore c r e (rows.map (fun p => (p.1.ren ρ, p.2))) =
      (rowsBefore c r e rows).map (fun p => (p.1.ren ρ, p.2)) := by
  unfold rowsBefore
  split
  · rw [List.map_take]
  · rfl

theorem ren_treesHelper (hinj : ∀ a b, ρ a = ρ b → a = b) (chart : List (List TState))
    (bt bt' : Nat → Nat → TState → Option (List Node))
    (hb : ∀ c r s, bt' c r (s.ren ρ) = (bt c r s).map (·.map (Node.ren ρ)))
    (c r : Nat) (s : TState) (terms : List Term) : ∀ (k : Nat) (ch : List Node) (e : Int),
    treesHelper (chart.map (·.map (TState.ren ρ))) bt' c r (s.ren ρ) (terms.map (Term.ren ρ)) k
        (ch.map (Node.ren ρ)) e =
      (treesHelper chart bt c r s terms k ch e).map (·.map (Node.ren ρ))
  | 0, ch, e => by simp [treesHelper, Node.ren, nodesRen_eq]
  | k+1, ch, e => by
    simp only [treesHelper, List.getElem?_map]
    cases terms[k]? with
    | none => rfl
    | some t =>
      simp only [Option.map_some, Term.ren_type]
      split
      · rw [ren_termLeaf]
        exact ren_treesHelper hinj chart bt bt' hb c r s terms k (termLeaf s t k :: ch) (e-1)
      · rw [ren_colAt]
        cases colAt chart e with
        | none => rfl
        | some rows =>
          simp only [Option.map_some, ren_rowsBefore]
          refine optFlat_map _ _ _ _ (fun p => ?_) _
          simp only [ren_childOK hinj, hb, TState.ren_start]
          split
          · cases bt e.toNat p.2 p.1 with
            | none => rfl
            | some subs =>
              simp only [Option.map_some]
              exact optFlat_map _ _ _ _ (fun sub =>
                ren_treesHelper hinj chart bt bt' hb c r s terms k (sub :: ch) p.1.start) _
          · rfl

theorem ren_buildTrees (hinj : ∀ a b, ρ a = ρ b → a = b) (chart : List (List TState)) :
    ∀ (fuel c r : Nat) (s : TState),
    buildTrees (chart.map (·.map (TState.ren ρ))) fuel c r (s.ren ρ) =
      (buildTrees chart fuel c r s).map (·.map (Node.ren ρ))
  | 0, _, _, _ => rfl
  | fuel+1, c, r, s => by
    simp only [buildTrees, TState.ren_term, Term.ren_type, ren_listed, TState.ren_stop]
    split
    · rw [ren_anyLeaf]; rfl
    · simp only [TState.ren_rb]
      cases s.listed.rb with
      | none => rfl
      | some rb =>
        simp only [Option.map_some, RuleBody.ren_terms, List.length_map]
        exact ren_treesHelper hinj chart _ _ (ren_buildTrees hinj chart fuel) c r s.listed rb.terms _ [] s.stop

theorem ren_getTrees (hinj : ∀ a b, ρ a = ρ b → a = b) (chart : List (List TState)) (fuel c r : Nat) :
    getTrees (chart.map (·.map (TState.ren ρ))) fuel c r = (getTrees chart fuel c r).map (·.map (Node.ren ρ)) := by
  unfold getTrees
  rw [List.getElem?_map]
  cases chart[c]? with
  | none => rfl
  | some col =>
    simp only [Option.map_some, List.getElem?_map]
    cases col[r]? with
    | none => rfl
    | some s => exact ren_buildTrees hinj chart fuel c r s

/-! ## any order -/

theorem perm_preimage {α β : Type} {f : α → β} {l' m : List β} (h : l'.Perm m) :
    ∀ l : List α, m = l.map f → ∃ l0 : List α, l0.Perm l ∧ l0.map f = l' := by
  induction h with
  | nil => intro l h; exact ⟨[], by simp at h; subst h; exact .refl _, rfl⟩
  | cons x _ ih =>
    intro l h
    cases l with
    | nil => simp at h
    | cons a l =>
      simp only [List.map_cons, List.cons.injEq] at h
      obtain ⟨l0, h1, h2⟩ := ih l h.2
      exact ⟨a :: l0, h1.cons a, by simp [h2, h.1]⟩
  | swap x y l' =>
    intro l h
    match l, h with
    | [], h => simp at h
    | [_], h => simp at h
    | a :: b :: l, h =>
      simp only [List.map_cons, List.cons.injEq] at h
      exact ⟨b :: a :: l, .swap _ _ _, by simp [h.1, h.2.1, h.2.2]⟩
  | trans _ _ ih1 ih2 =>
    intro l h
    obtain ⟨l0, h1, h2⟩ := ih2 l h
    obtain ⟨l1, h3, h4⟩ := ih1 l0 h2.symm
    exact ⟨l1, h3.trans h1, h4⟩

/-- Whatever order the run with the new names takes, there is one for the old names. -/
theorem sameOrder_exists (ho : env'.OrdOK) :
    ∃ ord, ({ env with ord := ord } : Env).OrdOK ∧ SameOrder ρ { env with ord := ord } env' := by
  have hex : ∀ c r k l, ∃ l0 : List RuleBody, l0.Perm l ∧ l0.map (RuleBody.ren ρ) =
      env'.ord c r k (l.map (RuleBody.ren ρ)) := fun c r k l => perm_preimage (ho c r k _) l rfl
  exact ⟨fun c r k l => (hex c r k l).choose, fun c r k l => (hex c r k l).choose_spec.1,
    fun c r k l => (hex c r k l).choose_spec.2.symm⟩

theorem Renames.withOrd (h : Renames ρ R env env') (ord : Nat → Nat → Nat → List RuleBody → List RuleBody) :
    Renames ρ R { env with ord := ord } env' :=
  ⟨h.inj, h.gamma, h.tokens, h.tmatch, h.starts, h.rules, h.roots, h.closed⟩

/-! ## meanings -/

/-- what a function without context uses of a child -/
def Kid.view (k : Kid) : Out Bytes × Out Value × Out String := (k.orig, k.eval, k.sem)

section
variable {w : NodeWorld} {self self' : Self} {ks ks' : List (Option Kid)}
  (hks : ks'.map (Option.map Kid.view) = ks.map (Option.map Kid.view))
include hks

theorem kids_length : ks'.length = ks.length := by simpa using congrArg List.length hks

theorem kids_get (i : Nat) : (ks'[i]?).map (Option.map Kid.view) = (ks[i]?).map (Option.map Kid.view) := by
  have := congrArg (·[i]?) hks
  simpa using this

theorem indexStr_same (nl : String) (i : Int) : indexStr ks' nl i = indexStr ks nl i := by
  unfold indexStr
  rw [kids_length hks]
  have := kids_get hks (i - 1).toNat
  split
  · rfl
  · split
    · rfl
    · revert this
      cases ks'[(i-1).toNat]? with
      | none => cases ks[(i-1).toNat]? <;> simp
      | some k' =>
        cases ks[(i-1).toNat]? with
        | none => simp
        | some k =>
          cases k <;> cases k' <;> simp [Kid.view]

theorem indexEval_same (hnl : self'.nl = self.nl) (i : Int) : indexEval self' ks' i = indexEval self ks i := by
  unfold indexEval
  rw [kids_length hks, hnl]
  have := kids_get hks (i - 1).toNat
  split
  · rfl
  · split
    · rfl
    · revert this
      cases ks'[(i-1).toNat]? with
      | none => cases ks[(i-1).toNat]? <;> simp
      | some k' =>
        cases ks[(i-1).toNat]? with
        | none => simp
        | some k =>
          cases k <;> cases k' <;> simp [Kid.view]
          exact fun _ h _ => h

mutual
theorem fmrStr_same (nl : String) : ∀ f : FMR, f.NoContext → fmrStr w self' ks' nl f = fmrStr w self ks nl f
  | .mk fn args, h => by
    unfold FMR.NoContext at h
    have h1 := semStrs_same nl args h
    unfold fmrStr
    split
    · split
      · rename_i a
        have h2 : a.NoContext := by unfold NoContexts at h; exact h.1
        exact semStr_same nl a h2
      · rfl
    · rw [h1]
theorem semStrs_same (nl : String) : ∀ as : List Arg, NoContexts as →
    semStrs w self' ks' nl as = semStrs w self ks nl as
  | [], _ => by simp [semStrs]
  | a :: as, h => by
    unfold NoContexts at h
    unfold semStrs
    rw [semStr_same nl a h.1, semStrs_same nl as h.2]
theorem semStr_same (nl : String) : ∀ a : Arg, a.NoContext → semStr w self' ks' nl a = semStr w self ks nl a
  | .mk t v, h => by
    unfold Arg.NoContext at h
    unfold semStr
    exact semVal_same nl t h.1 v h.2
theorem semVal_same (nl : String) (t : String) (ht : t ≠ "context") : ∀ v : Val, v.NoContext →
    semVal w self' ks' nl t v = semVal w self ks nl t v
  | .str _, _ => by unfold semVal; simp only [if_neg ht]
  | .bigInt _, _ => by unfold semVal; simp only [if_neg ht]
  | .bigFloat _, _ => by unfold semVal; simp only [if_neg ht]
  | .int i, _ => by unfold semVal; simp only [if_neg ht, indexStr_same hks]
  | .fmr f, h => by
    unfold Val.NoContext at h
    unfold semVal
    simp only [if_neg ht, fmrStr_same nl f h]
  | .nilFmr, _ => by unfold semVal; simp only [if_neg ht]
  | .other _, _ => by unfold semVal; simp only [if_neg ht]
end

mutual
theorem fmrEval_same (hnl : self'.nl = self.nl) : ∀ f : FMR, f.NoContext → fmrEval w self' ks' f = fmrEval w self ks f
  | .mk fn args, h => by
    unfold FMR.NoContext at h
    have h1 := semEvals_same hnl args h
    unfold fmrEval
    split
    · split
      · rename_i a
        have h2 : a.NoContext := by unfold NoContexts at h; exact h.1
        exact semEval_same hnl a h2
      · rfl
    · rw [h1]
theorem semEvals_same (hnl : self'.nl = self.nl) : ∀ as : List Arg, NoContexts as →
    semEvals w self' ks' as = semEvals w self ks as
  | [], _ => by simp [semEvals]
  | a :: as, h => by
    unfold NoContexts at h
    unfold semEvals
    rw [semEval_same hnl a h.1, semEvals_same hnl as h.2]
theorem semEval_same (hnl : self'.nl = self.nl) : ∀ a : Arg, a.NoContext → semEval w self' ks' a = semEval w self ks a
  | .mk t v, h => by
    unfold Arg.NoContext at h
    unfold semEval
    exact evalVal_same hnl t h.1 v h.2
theorem evalVal_same (hnl : self'.nl = self.nl) (t : String) (ht : t ≠ "context") : ∀ v : Val, v.NoContext →
    evalVal w self' ks' t v = evalVal w self ks t v
  | .str _, _ => by unfold evalVal; simp only [if_neg ht]
  | .bigInt _, _ => by unfold evalVal; simp only [if_neg ht]
  | .bigFloat _, _ => by unfold evalVal; simp only [if_neg ht]
  | .int i, _ => by unfold evalVal; simp only [if_neg ht, indexEval_same hks hnl]
  | .fmr f, h => by
    unfold Val.NoContext at h
    unfold evalVal
    simp only [if_neg ht, fmrEval_same hnl f h]
  | .nilFmr, _ => by unfold evalVal; simp only [if_neg ht]
  | .other _, _ => by unfold evalVal; simp only [if_neg ht]
end
end

section
variable {w : NodeWorld} {p p' : Parsed} (htext : p'.text = p.text) (htok : p'.env.tokens = p.env.tokens)
include htext htok

theorem ren_orig (v : TState) : p'.originalText (.mk (v.ren ρ) []) = p.originalText (.mk v []) := by
  unfold Parsed.originalText Parsed.pos boundary
  simp only [Node.value, TState.ren_start, TState.ren_stop, htext, htok]

omit htext in
theorem ren_nl (v : TState) : nodeNL w p' (v.ren ρ) = nodeNL w p v := by
  unfold nodeNL
  simp only [TState.ren_start, TState.ren_stop, htok]

mutual
theorem ren_kid : ∀ n : Node, n.Plain → ((n.ren ρ).kid w p').view = (n.kid w p).view
  | .mk v cs, h => by
    unfold Node.Plain at h
    have hk := ren_kidsOf cs h.2
    have hnl : (nodeSelf w p' (v.ren ρ)).nl = (nodeSelf w p v).nl := ren_nl htok v
    have ho : (nodeSelf w p' (v.ren ρ)).orig = (nodeSelf w p v).orig := ren_orig htext htok v
    have he : evalWith w (nodeSelf w p' (v.ren ρ)) (v.ren ρ).rb (kidsOf w p' (nodesRen ρ cs)) =
        evalWith w (nodeSelf w p v) v.rb (kidsOf w p cs) := by
      unfold evalWith
      rw [ho, TState.ren_rb]
      cases hr : v.rb with
      | none => rfl
      | some rb =>
        simp only [Option.map_some, RuleBody.ren_f]
        cases hf : rb.f with
        | none => rfl
        | some f => exact fmrEval_same hk hnl f (h.1 rb f hr hf)
    have hs : semanticWith w (nodeSelf w p' (v.ren ρ)) (v.ren ρ).rb (kidsOf w p' (nodesRen ρ cs)) =
        semanticWith w (nodeSelf w p v) v.rb (kidsOf w p cs) := by
      unfold semanticWith
      rw [hnl, TState.ren_rb]
      congr 1
      funext nl
      cases hr : v.rb with
      | none => rfl
      | some rb =>
        simp only [Option.map_some, RuleBody.ren_f]
        cases hf : rb.f with
        | none => rfl
        | some f => exact fmrStr_same hk _ f (h.1 rb f hr hf)
    simp only [Node.ren, Node.kid, Kid.view, he, hs, ren_orig htext htok]
theorem ren_kidsOf : ∀ cs : List Node, nodesPlain cs →
    (kidsOf w p' (nodesRen ρ cs)).map (Option.map Kid.view) = (kidsOf w p cs).map (Option.map Kid.view)
  | [], _ => rfl
  | c :: cs, h => by
    unfold nodesPlain at h
    simp only [nodesRen, kidsOf, List.map_cons, Option.map_some, ren_kid c h.1, ren_kidsOf cs h.2]
end
end

/-! ## the trees of a grammar without contexts -/

theorem listRb_plain (s : TState) (f : FMR) (h : (listRb s).f = some f) : f.NoContext := by
  simp only [listRb, Option.some.injEq] at h
  subst h
  unfold FMR.NoContext
  generalize List.range s.dot = l
  induction l with
  | nil => simp [NoContexts]
  | cons a l ih => simp only [List.map_cons, NoContexts, Arg.NoContext, Val.NoContext]; exact ⟨by simp, ih⟩

theorem nodesPlain_iff {l : List Node} : nodesPlain l ↔ ∀ n ∈ l, n.Plain := by
  induction l with
  | nil => simp [nodesPlain]
  | cons a l ih => simp [nodesPlain, ih]

theorem optFlat_all {α β : Type} {f : α → Option (List β)} {P : β → Prop} : ∀ {l : List α} {out : List β},
    (∀ a ∈ l, ∀ x, f a = some x → ∀ b ∈ x, P b) → optFlat f l = some out → ∀ b ∈ out, P b
  | [], out, _, h => by simp [optFlat] at h; subst h; simp
  | a :: l, out, hf, h => by
    simp only [optFlat] at h
    cases h1 : f a with
    | none => rw [h1] at h; simp at h
    | some x =>
      cases h2 : optFlat f l with
      | none => rw [h1, h2] at h; simp at h
      | some y =>
        rw [h1, h2] at h
        simp at h
        subst h
        intro b hb
        rcases List.mem_append.1 hb with hb | hb
        · exact hf a (by simp) x h1 b hb
        · exact optFlat_all (fun a ha => hf a (by simp [ha])) h2 b hb

/-- the function of a state takes no context -/
def TState.Plain (s : TState) : Prop := ∀ rb f, s.rb = some rb → rb.f = some f → f.NoContext

theorem TState.Plain.listed {s : TState} (h : s.Plain) : s.listed.Plain := by
  unfold TState.listed
  split
  · intro rb f hr hf
    simp at hr
    subst hr
    exact listRb_plain s f hf
  · exact h

theorem treesHelper_plain {chart : List (List TState)} (hch : ∀ c ∈ chart, ∀ x ∈ c, x.Plain)
    {bt : Nat → Nat → TState → Option (List Node)}
    (hb : ∀ c r s ts, s.Plain → bt c r s = some ts → ∀ n ∈ ts, n.Plain)
    {c r : Nat} {s : TState} (hs : s.Plain) {terms : List Term} : ∀ (k : Nat) (ch : List Node) (e : Int)
    (ts : List Node), (∀ n ∈ ch, n.Plain) → treesHelper chart bt c r s terms k ch e = some ts → ∀ n ∈ ts, n.Plain
  | 0, ch, e, ts, hc, h => by
    simp [treesHelper] at h
    subst h
    intro n hn
    rw [List.mem_singleton.1 hn]
    unfold Node.Plain
    exact ⟨hs, nodesPlain_iff.2 hc⟩
  | k+1, ch, e, ts, hc, h => by
    simp only [treesHelper] at h
    cases ht : terms[k]? with
    | none => rw [ht] at h; simp at h
    | some t =>
      rw [ht] at h
      simp only at h
      split at h
      · refine treesHelper_plain hch hb hs k _ _ ts ?_ h
        intro n hn
        rcases List.mem_cons.1 hn with rfl | hn
        · unfold termLeaf Node.Plain
          exact ⟨by simp, trivial⟩
        · exact hc n hn
      · cases hca : colAt chart e with
        | none => rw [hca] at h; simp at h
        | some rows =>
          rw [hca] at h
          unfold colAt at hca
          split at hca
          · simp at hca
          · obtain ⟨col, hcol, hrows⟩ := Option.map_eq_some_iff.1 hca
            subst hrows
            simp only at h
            refine optFlat_all (fun q hq x hx => ?_) h
            have hq1 : q.1 ∈ col := by
              have : q ∈ col.zipIdx := by
                unfold rowsBefore at hq
                split at hq
                · exact List.mem_of_mem_take hq
                · exact hq
              exact List.fst_mem_of_mem_zipIdx this
            split at hx
            · cases hbt : bt e.toNat q.2 q.1 with
              | none => rw [hbt] at hx; simp at hx
              | some subs =>
                rw [hbt] at hx
                simp only at hx
                have hsub := hb _ _ _ _ (hch col (List.mem_of_getElem? hcol) q.1 hq1) hbt
                refine optFlat_all (fun sub hsu y hy => ?_) hx
                refine treesHelper_plain hch hb hs k _ _ y ?_ hy
                intro n hn
                rcases List.mem_cons.1 hn with rfl | hn
                · exact hsub _ hsu
                · exact hc n hn
            · simp at hx; subst hx; simp

theorem buildTrees_plain {chart : List (List TState)} (hch : ∀ c ∈ chart, ∀ x ∈ c, x.Plain) :
    ∀ (fuel c r : Nat) (s : TState) (ts : List Node), s.Plain → buildTrees chart fuel c r s = some ts →
      ∀ n ∈ ts, n.Plain
  | 0, _, _, _, _, _, h => by simp [buildTrees] at h
  | fuel+1, c, r, s, ts, hs, h => by
    simp only [buildTrees] at h
    split at h
    · simp at h
      subst h
      intro n hn
      rw [List.mem_singleton.1 hn]
      unfold anyLeaf Node.Plain
      exact ⟨by simp, trivial⟩
    · split at h
      · simp at h
      · exact treesHelper_plain hch (buildTrees_plain hch fuel) hs.listed _ _ _ ts (by simp) h

theorem item_plain (hp : env.Plain) {i : Nat} {s : TState} (h : Item env i s) : s.Plain := by
  have hpl : ∀ {j : Nat} {u : TState}, (u.placed j).Plain ↔ u.Plain := by
    intro j u
    unfold TState.placed
    simp only
    split <;> rfl
  induction h with
  | init _ =>
    intro rb f hr hf
    simp [gammaState] at hr
    subst hr
    simp at hf
    subst hf
    simp [FMR.NoContext, NoContexts, Arg.NoContext, Val.NoContext]
  | @predNT i st t g r rb _ _ _ _ hg hr hrb _ =>
    refine hpl.2 (fun rb' f h1 h2 => ?_)
    simp [predicted] at h1
    subst h1
    exact hp t.value rb f ⟨g, hg, r, hr, hrb⟩ h2
  | predAL _ _ _ _ _ => exact hpl.2 (fun rb f h1 h2 => by simp [predictedSpecial] at h1)
  | scanAny _ _ _ _ ih => exact hpl.2 ih
  | scanT _ _ _ _ _ _ ih => exact hpl.2 ih
  | comp _ _ _ _ _ _ ih _ => exact hpl.2 ih

end

end Fmr
