import Verif.Spec.Alike
import Verif.Proofs.Rename

/-!
# The chart depends on the tokens only through what the literals see
-/

namespace Fmr

theorem predictAll_unused {R : String → Prop} (o : Nat → List RuleBody → List RuleBody) (i : Nat) (t : Term)
    (ht : R t.value) : ∀ (k : Nat) (gs more : List Grammar) (l : List TState), Unused R more →
    predictAll o i t k (gs ++ more) l = predictAll o i t k gs l
  | _, [], [], _, _ => rfl
  | k, [], g :: more, l, hu => by
    have : predictG g (o k) i l t = l := by
      unfold predictG lookupRule
      rw [hu g List.mem_cons_self _ ht]
    simp only [List.nil_append, predictAll, this]
    have := predictAll_unused o i t ht (k+1) [] more l (fun g hg => hu g (List.mem_cons_of_mem _ hg))
    simpa [predictAll] using this
  | k, g :: gs, more, l, hu => by
    simp only [List.cons_append, predictAll]
    exact predictAll_unused o i t ht (k+1) gs more _ hu

section
variable {R : String → Prop} {gs : List Grammar} {env env' : Env}

/-- the state refers to rules in `R` and its literals are literals of rules in `R` -/
def TState.known (R : String → Prop) (gs : List Grammar) (s : TState) : Prop :=
  s.within R ∧ ∀ t ∈ s.bodyTerms, t.type = .terminal → IsLiteral R gs t

theorem known_placed {i : Nat} {s : TState} : (s.placed i).known R gs ↔ s.known R gs := by
  unfold TState.placed
  simp only
  split <;> rfl

theorem known_insert {i : Nat} {l : List TState} {s : TState} (hl : ∀ x ∈ l, x.known R gs) (hs : s.known R gs) :
    ∀ x ∈ insert i l s, x.known R gs := by
  intro x hx
  rcases mem_insert hx with h | h
  · exact hl x h
  · rw [h]; exact known_placed.2 hs

theorem known_complete {i : Nat} {snap l : List TState} {s : TState} (hsn : ∀ x ∈ snap, x.known R gs)
    (hl : ∀ x ∈ l, x.known R gs) : ∀ x ∈ complete i snap l s, x.known R gs := by
  intro x hx
  rcases complete_mem hx with h | ⟨st, hst, t, _, _, rfl⟩
  · exact hl x h
  · exact known_placed.2 (hsn st hst)

theorem known_scan {m : Term → Token → Bool} {i : Nat} {tok : Token} {l : List TState} {s : TState} {t : Term}
    (hs : s.known R gs) (hl : ∀ x ∈ l, x.known R gs) : ∀ x ∈ scan m i tok l s t, x.known R gs := by
  unfold scan
  split
  · exact known_insert hl ⟨⟨hs.1.1, fun h => by simp at h⟩, hs.2⟩
  · split
    · exact known_insert hl hs
    · exact hl

theorem alike_next_literal {s : TState} {t : Term} (h : s.known R gs) (hn : s.getNextTerm = some t)
    (ht : t.type = .terminal) : IsLiteral R gs t := by
  unfold TState.getNextTerm at hn
  split at hn
  · split at hn
    · simp at hn
    · have := Option.some.inj hn
      subst this
      simp_all
  · split at hn
    · simp at hn
    · have := Option.some.inj hn
      subst this
      simp at ht
  · split at hn
    · simp at hn
    · exact h.2 t (List.mem_of_getElem? hn) ht

theorem known_predict (h : Alike R gs env env') (ho : env.OrdOK) {i row : Nat} {l : List TState} {t : Term}
    (ht : t.within R) (hl : ∀ x ∈ l, x.known R gs) : ∀ x ∈ predict env i row l t, x.known R gs := by
  intro x hx
  rcases predict_mem ho hx with hx | ⟨hn, g, hg, r, hr, b, hb, rfl⟩ | ⟨ha, rfl⟩
  · exact hl x hx
  · obtain ⟨more, hm, hu⟩ := h.left
    have hA := ht (Or.inl hn)
    have hg' : g ∈ gs := by
      rw [hm] at hg
      rcases List.mem_append.1 hg with hg | hg
      · exact hg
      · have := hu g hg _ hA
        rw [lookupRule, this] at hr
        simp at hr
    refine known_placed.2 ⟨⟨h.closed.closed _ hA g hg' r hr b hb, fun h => ?_⟩, ?_⟩
    · simp [predicted] at h
    · exact fun u hu htt => ⟨htt, _, g, r, b, hA, hg', hr, hb, hu⟩
  · exact known_placed.2 ⟨⟨by simp [predictedSpecial, TState.bodyTerms], fun h => ht (Or.inr h)⟩,
      by simp [predictedSpecial, TState.bodyTerms]⟩

theorem alike_predict (h : Alike R gs env env') {i row : Nat} {l : List TState} {t : Term} (ht : t.within R) :
    predict env' i row l t = predict env i row l t := by
  unfold predict
  cases htt : t.type <;> simp only
  obtain ⟨m1, h1, u1⟩ := h.left
  obtain ⟨m2, h2, u2⟩ := h.right
  have hA := ht (Or.inl htt)
  rw [h1, h2, predictAll_unused _ _ _ hA _ _ _ _ u1, predictAll_unused _ _ _ hA _ _ _ _ u2, h.ord]

/-- the token of the next column in both runs -/
inductive AlikeTok (R : String → Prop) (gs : List Grammar) (env env' : Env) : Option Token → Option Token → Prop
  | none : AlikeTok R gs env env' none none
  | some {a a' : Token} (h : AlikeTokens R gs env.tmatch env'.tmatch a a') : AlikeTok R gs env env' (some a) (some a')

theorem alike_processRow (h : Alike R gs env env') (ho : env.OrdOK) {done : List (List TState)}
    {tok tok' : Option Token} (htok : AlikeTok R gs env env' tok tok')
    {row : Nat} {st : TState} {cur next : List TState} (hd : ∀ c ∈ done, ∀ x ∈ c, x.known R gs)
    (hst : st.known R gs) (hcur : ∀ x ∈ cur, x.known R gs) (hnext : ∀ x ∈ next, x.known R gs) :
    processRow env' done tok' row st cur next = processRow env done tok row st cur next ∧
    (∀ x ∈ (processRow env done tok row st cur next).1, x.known R gs) ∧
    ∀ x ∈ (processRow env done tok row st cur next).2, x.known R gs := by
  have hsw : ∀ x ∈ snapOf done cur st, x.known R gs := by
    unfold snapOf
    split
    · exact hcur
    · intro x hx
      rw [List.getD_eq_getElem?_getD] at hx
      cases hg : done[st.start]? with
      | none => rw [hg] at hx; simp at hx
      | some c => rw [hg] at hx; exact hd c (List.mem_of_getElem? hg) x hx
  have haw : ∀ x ∈ afterComplete done st cur, x.known R gs := by
    unfold afterComplete
    split
    · exact known_complete hsw hcur
    · exact hcur
  cases hn : st.getNextTerm with
  | none =>
    rw [processRow_none hn, processRow_none hn]
    exact ⟨rfl, haw, hnext⟩
  | some t =>
    have htw := within_next hst.1 hn
    have hscan : t.type = .any ∨ t.type = .terminal →
        (match (generalizing := false) tok' with
          | some tk => scan env'.tmatch (done.length+1) tk next st t
          | none => next) =
        (match (generalizing := false) tok with
          | some tk => scan env.tmatch (done.length+1) tk next st t
          | none => next) := by
      intro htt
      cases htok with
      | none => rfl
      | some ha =>
        simp only
        unfold scan
        rcases htt with htt | htt
        · simp [htt]
        · rw [ha t (alike_next_literal hst hn htt)]
    have hscw : ∀ x ∈ (match (generalizing := false) tok with
          | some tk => scan env.tmatch (done.length+1) tk next st t
          | none => next), x.known R gs := by
      cases tok with
      | none => exact hnext
      | some tk => exact known_scan hst hnext
    by_cases ha : st.term.type = .any
    · have htt : t.type = .any := by
        unfold TState.getNextTerm at hn
        rw [ha] at hn
        simp only at hn
        split at hn
        · simp at hn
        · rw [← Option.some.inj hn]; exact ha
      rw [processRow_any hn ha, processRow_any hn ha]
      exact ⟨Prod.ext rfl (hscan (Or.inl htt)), haw, hscw⟩
    · by_cases ht : t.type = .terminal
      · rw [processRow_term hn ha ht, processRow_term hn ha ht]
        exact ⟨Prod.ext rfl (hscan (Or.inr ht)), haw, hscw⟩
      · rw [processRow_pred hn ha ht, processRow_pred hn ha ht, alike_predict h htw]
        exact ⟨rfl, known_predict h ho htw haw, hnext⟩

theorem alike_runCol (h : Alike R gs env env') (ho : env.OrdOK) {done : List (List TState)}
    {tok tok' : Option Token} (htok : AlikeTok R gs env env' tok tok') (hd : ∀ c ∈ done, ∀ x ∈ c, x.known R gs) :
    ∀ (fuel row : Nat) (cur next : List TState), (∀ x ∈ cur, x.known R gs) → (∀ x ∈ next, x.known R gs) →
    runCol env' done tok' fuel row cur next = runCol env done tok fuel row cur next ∧
    ∀ r, runCol env done tok fuel row cur next = some r →
      (∀ x ∈ r.1, x.known R gs) ∧ ∀ x ∈ r.2, x.known R gs
  | 0, _, _, _, _, _ => ⟨rfl, by simp [runCol]⟩
  | fuel+1, row, cur, next, hcur, hnext => by
    unfold runCol
    cases hc : cur[row]? with
    | none =>
      refine ⟨rfl, fun r hr => ?_⟩
      rw [← Option.some.inj hr]
      exact ⟨hcur, hnext⟩
    | some st =>
      obtain ⟨h1, h2, h3⟩ := alike_processRow h ho htok (row := row) hd (hcur st (List.mem_of_getElem? hc)) hcur hnext
      simp only [h1]
      exact alike_runCol h ho htok hd fuel (row+1) _ _ h2 h3

theorem alike_runCols (h : Alike R gs env env') (ho : env.OrdOK) (fuel : Nat) :
    ∀ (toks toks' : List Token) (done : List (List TState)) (cur : List TState),
    List.Forall₂ (AlikeTokens R gs env.tmatch env'.tmatch) toks toks' →
    (∀ c ∈ done, ∀ x ∈ c, x.known R gs) → (∀ x ∈ cur, x.known R gs) →
    runCols env' fuel toks' done cur = runCols env fuel toks done cur
  | [], _, done, cur, .nil, hd, hcur => by
    unfold runCols
    rw [(alike_runCol h ho .none hd fuel 0 cur [] hcur (by simp)).1]
  | t :: ts, _, done, cur, .cons (b := t') (l₂ := ts') ha hs, hd, hcur => by
    obtain ⟨h1, h2⟩ := alike_runCol h ho (.some ha) hd fuel 0 cur [] hcur (by simp)
    simp only [runCols, h1]
    cases hr : runCol env done (some t) fuel 0 cur [] with
    | none => rfl
    | some r =>
      obtain ⟨k1, k2⟩ := h2 r hr
      refine alike_runCols h ho fuel ts ts' _ _ hs (fun c hc => ?_) k2
      rcases List.mem_append.1 hc with hc | hc
      · exact hd c hc
      · rw [List.mem_singleton.1 hc]; exact k1

theorem alike_parse (h : Alike R gs env env') (ho : env.OrdOK) (flag : Bool) (fuel : Nat) :
    parse env' flag fuel = parse env flag fuel := by
  have hc : chartOf env' fuel = chartOf env fuel := by
    unfold chartOf
    rw [h.starts]
    refine alike_runCols h ho fuel _ _ [] _ h.tokens (by simp) (fun x hx => ?_)
    obtain ⟨S, hS, rfl⟩ := List.mem_map.1 hx
    refine ⟨⟨fun t ht => ?_, fun h => by simp [gammaState] at h⟩, fun t ht htt => ?_⟩
    · simp only [gammaState, TState.bodyTerms, List.mem_singleton] at ht
      subst ht
      exact fun _ => h.closed.roots S hS
    · simp only [gammaState, TState.bodyTerms, List.mem_singleton] at ht
      subst ht
      simp at htt
  unfold parse
  rw [hc, h.starts, h.tokens.length_eq]

end

end Fmr
