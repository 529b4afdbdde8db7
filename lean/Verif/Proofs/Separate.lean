import Verif.Spec.Separate
import Verif.Proofs.Alike
import Verif.Props.Prefix

/-!
# Parsing stops at a separator
-/

namespace Fmr

theorem Alike.self {R : String → Prop} {gs : List Grammar} {env : Env}
    (hg : ∃ more, env.grammars = gs ++ more ∧ Unused R more) (hc : Closed R gs env.starts) : Alike R gs env env where
  left := hg
  right := hg
  starts := rfl
  ord := rfl
  closed := hc
  tokens := by
    induction env.tokens with
    | nil => exact .nil
    | cons t ts ih => exact .cons (fun _ _ => rfl) ih

section
variable {R : String → Prop} {gs : List Grammar} {env : Env} {sep : Token}

/-- a state of rules in `R` without `(any)` -/
def TState.quiet (R : String → Prop) (gs : List Grammar) (s : TState) : Prop :=
  s.known R gs ∧ s.term.type ≠ .any ∧ ∀ t ∈ s.bodyTerms, t.type ≠ .any

theorem quiet_placed {i : Nat} {s : TState} : (s.placed i).quiet R gs ↔ s.quiet R gs := by
  unfold TState.placed
  simp only
  split <;> rfl

theorem quiet_insert {i : Nat} {l : List TState} {s : TState} (hl : ∀ x ∈ l, x.quiet R gs) (hs : s.quiet R gs) :
    ∀ x ∈ insert i l s, x.quiet R gs := by
  intro x hx
  rcases mem_insert hx with h | h
  · exact hl x h
  · rw [h]; exact quiet_placed.2 hs

theorem quiet_complete {i : Nat} {snap l : List TState} {s : TState} (hsn : ∀ x ∈ snap, x.quiet R gs)
    (hl : ∀ x ∈ l, x.quiet R gs) : ∀ x ∈ complete i snap l s, x.quiet R gs := by
  intro x hx
  rcases complete_mem hx with h | ⟨st, hst, t, _, _, rfl⟩
  · exact hl x h
  · exact quiet_placed.2 (hsn st hst)

theorem quiet_next {s : TState} {t : Term} (h : s.quiet R gs) (hn : s.getNextTerm = some t) : t.type ≠ .any := by
  unfold TState.getNextTerm at hn
  split at hn
  · rename_i ht
    exact absurd ht h.2.1
  · split at hn
    · simp at hn
    · rw [← Option.some.inj hn]; simp
  · split at hn
    · simp at hn
    · exact h.2.2 t (List.mem_of_getElem? hn)

theorem quiet_scan {m : Term → Token → Bool} {i : Nat} {tok : Token} {l : List TState} {s : TState} {t : Term}
    (hs : s.quiet R gs) (ht : t.type ≠ .any) (hl : ∀ x ∈ l, x.quiet R gs) : ∀ x ∈ scan m i tok l s t, x.quiet R gs := by
  unfold scan
  rw [if_neg ht]
  split
  · exact quiet_insert hl hs
  · exact hl

theorem quiet_predict (h : Alike R gs env env) (hs : Separates R gs env.tmatch sep) (ho : env.OrdOK) {i row : Nat}
    {l : List TState} {t : Term} (ht : t.within R) (hta : t.type ≠ .any) (hl : ∀ x ∈ l, x.quiet R gs) :
    ∀ x ∈ predict env i row l t, x.quiet R gs := by
  intro x hx
  rcases predict_mem ho hx with hx | ⟨hn, g, hg, r, hr, b, hb, rfl⟩ | ⟨ha, rfl⟩
  · exact hl x hx
  · obtain ⟨more, hm, hu⟩ := h.left
    have hA := ht (Or.inl hn)
    have hg' : g ∈ gs := by
      rw [hm] at hg
      rcases List.mem_append.1 hg with hg | hg
      · exact hg
      · have := hu g hg _ hA
        rw [lookupRule, this] at hr
        simp at hr
    refine quiet_placed.2 ⟨⟨⟨h.closed.closed _ hA g hg' r hr b hb, fun h => ?_⟩, ?_⟩, ?_, ?_⟩
    · simp [predicted] at h
    · exact fun u hu htt => ⟨htt, _, g, r, b, hA, hg', hr, hb, hu⟩
    · simp [predicted]
    · exact hs.noAny _ hA g hg' r hr b hb
  · refine quiet_placed.2 ⟨⟨⟨by simp [predictedSpecial, TState.bodyTerms], fun h => ht (Or.inr h)⟩,
      by simp [predictedSpecial, TState.bodyTerms]⟩, hta, by simp [predictedSpecial, TState.bodyTerms]⟩

theorem quiet_processRow (h : Alike R gs env env) (hs : Separates R gs env.tmatch sep) (ho : env.OrdOK)
    {done : List (List TState)} {tok : Option Token} {row : Nat} {st : TState} {cur next : List TState}
    (hd : ∀ c ∈ done, ∀ x ∈ c, x.quiet R gs) (hst : st.quiet R gs) (hcur : ∀ x ∈ cur, x.quiet R gs)
    (hnext : ∀ x ∈ next, x.quiet R gs) :
    (∀ x ∈ (processRow env done tok row st cur next).1, x.quiet R gs) ∧
    (∀ x ∈ (processRow env done tok row st cur next).2, x.quiet R gs) ∧
    (tok = some sep → (processRow env done tok row st cur next).2 = next) := by
  have hsw : ∀ x ∈ snapOf done cur st, x.quiet R gs := by
    unfold snapOf
    split
    · exact hcur
    · intro x hx
      rw [List.getD_eq_getElem?_getD] at hx
      cases hg : done[st.start]? with
      | none => rw [hg] at hx; simp at hx
      | some c => rw [hg] at hx; exact hd c (List.mem_of_getElem? hg) x hx
  have haw : ∀ x ∈ afterComplete done st cur, x.quiet R gs := by
    unfold afterComplete
    split
    · exact quiet_complete hsw hcur
    · exact hcur
  cases hn : st.getNextTerm with
  | none =>
    rw [processRow_none hn]
    exact ⟨haw, hnext, fun _ => rfl⟩
  | some t =>
    have hta := quiet_next hst hn
    by_cases ht : t.type = .terminal
    · rw [processRow_term hn hst.2.1 ht]
      refine ⟨haw, ?_, ?_⟩
      · cases tok with
        | none => exact hnext
        | some tk => exact quiet_scan hst hta hnext
      · rintro rfl
        simp only
        unfold scan
        rw [if_neg hta, hs.literals t (alike_next_literal hst.1 hn ht)]
        simp
    · rw [processRow_pred hn hst.2.1 ht]
      exact ⟨quiet_predict h hs ho (within_next hst.1.1 hn) hta haw, hnext, fun _ => rfl⟩

theorem quiet_runCol (h : Alike R gs env env) (hs : Separates R gs env.tmatch sep) (ho : env.OrdOK)
    {done : List (List TState)} {tok : Option Token} (hd : ∀ c ∈ done, ∀ x ∈ c, x.quiet R gs) :
    ∀ (fuel row : Nat) (cur next : List TState) {r : List TState × List TState}, (∀ x ∈ cur, x.quiet R gs) →
    (∀ x ∈ next, x.quiet R gs) → runCol env done tok fuel row cur next = some r →
    (∀ x ∈ r.1, x.quiet R gs) ∧ (∀ x ∈ r.2, x.quiet R gs) ∧ (tok = some sep → r.2 = next)
  | 0, _, _, _, _, _, _, hr => by simp [runCol] at hr
  | fuel+1, row, cur, next, r, hcur, hnext, hr => by
    unfold runCol at hr
    cases hc : cur[row]? with
    | none =>
      rw [hc] at hr
      rw [← Option.some.inj hr]
      exact ⟨hcur, hnext, fun _ => rfl⟩
    | some st =>
      rw [hc] at hr
      obtain ⟨h1, h2, h3⟩ := quiet_processRow h hs ho (tok := tok) (row := row) hd
        (hcur st (List.mem_of_getElem? hc)) hcur hnext
      obtain ⟨k1, k2, k3⟩ := quiet_runCol h hs ho hd fuel (row+1) _ _ h1 h2 hr
      exact ⟨k1, k2, fun e => by rw [k3 e, h3 e]⟩

/-- with nothing in the current column nothing follows -/
theorem runCols_empty (fuel : Nat) : ∀ (toks : List Token) (done : List (List TState)) {chart : List (List TState)},
    runCols env fuel toks done [] = some chart → chart = done ++ List.replicate (toks.length + 1) []
  | [], done, chart, h => by
    cases fuel with
    | zero => simp [runCols, runCol] at h
    | succ f => simpa [runCols, runCol, eq_comm] using h
  | t :: ts, done, chart, h => by
    cases fuel with
    | zero => simp [runCols, runCol] at h
    | succ f =>
      simp only [runCols, runCol, List.getElem?_nil] at h
      rw [runCols_empty (f+1) ts _ h, List.append_assoc, List.length_cons, List.replicate_succ]
      rfl

theorem quiet_runCols (h : Alike R gs env env) (hs : Separates R gs env.tmatch sep) (ho : env.OrdOK) (fuel : Nat)
    (v : List Token) : ∀ (u : List Token) (done : List (List TState)) (cur : List TState) {chart : List (List TState)},
    (∀ c ∈ done, ∀ x ∈ c, x.quiet R gs) → (∀ x ∈ cur, x.quiet R gs) →
    runCols env fuel (u ++ sep :: v) done cur = some chart →
    ∃ front : List (List TState), front.length = done.length + u.length + 1 ∧
      chart = front ++ List.replicate (v.length + 1) []
  | [], done, cur, chart, hd, hcur, hr => by
    rw [List.nil_append, runCols] at hr
    cases hc : runCol env done (some sep) fuel 0 cur [] with
    | none => rw [hc] at hr; simp at hr
    | some r =>
      rw [hc] at hr
      obtain ⟨-, -, h3⟩ := quiet_runCol h hs ho hd fuel 0 cur [] hcur (by simp) hc
      obtain ⟨c, nx⟩ := r
      have : nx = [] := h3 rfl
      subst this
      exact ⟨done ++ [c], by simp, runCols_empty fuel v _ hr⟩
  | t :: u, done, cur, chart, hd, hcur, hr => by
    rw [List.cons_append, runCols] at hr
    cases hc : runCol env done (some t) fuel 0 cur [] with
    | none => rw [hc] at hr; simp at hr
    | some r =>
      rw [hc] at hr
      obtain ⟨h1, h2, -⟩ := quiet_runCol h hs ho hd fuel 0 cur [] hcur (by simp) hc
      obtain ⟨c, nx⟩ := r
      obtain ⟨front, k1, k2⟩ := quiet_runCols h hs ho fuel v u _ _ (fun x hx => by
        rcases List.mem_append.1 hx with hx | hx
        · exact hd x hx
        · rw [List.mem_singleton.1 hx]; exact h1) h2 hr
      exact ⟨front, by rw [k1]; simp; omega, k2⟩

/-- Parsing `u`, a separator and more is parsing `u`, with empty columns after it. -/
theorem separate_parse (h : Alike R gs env env) (hs : Separates R gs env.tmatch sep) (ho : env.OrdOK)
    (hst : Started env) {u v : List Token} (ht : env.tokens = u ++ sep :: v) {flag : Bool} {fuel : Nat} {r : ParseResult}
    (hr : parse env flag fuel = some r) :
    ∃ r', parse { env with tokens := u } flag fuel = some r' ∧
      r.chart = r'.chart ++ List.replicate (v.length + 1) [] ∧ r'.chart = r.chart.take (u.length + 1) ∧
      r'.chart.length = u.length + 1 ∧ r.finals = r'.finals := by
  obtain ⟨r', h1, h2, h3⟩ := C58_chart (n := u.length) (flag' := flag) hst (by rw [ht]; simp) hr
  obtain ⟨hc, hf⟩ := parse_chart hst hr
  have e : env.upTo u.length = { env with tokens := u } := by
    unfold Env.upTo; rw [ht]; simp
  rw [e] at h1
  obtain ⟨front, k1, k2⟩ : ∃ front : List (List TState), front.length = u.length + 1 ∧
      r.chart = front ++ List.replicate (v.length + 1) [] := by
    unfold chartOf at hc
    rw [ht] at hc
    obtain ⟨front, k1, k2⟩ := quiet_runCols h hs ho fuel v u [] _ (by simp) (fun x hx => by
      obtain ⟨S, hS, rfl⟩ := List.mem_map.1 hx
      refine ⟨⟨⟨fun t ht => ?_, fun h => by simp [gammaState] at h⟩, fun t ht htt => ?_⟩, by simp [gammaState],
        fun t ht => ?_⟩ <;>
      · simp only [gammaState, TState.bodyTerms, List.mem_singleton] at ht
        subst ht
        first | exact fun _ => h.closed.roots S hS | simp at htt | simp) hc
    exact ⟨front, by simpa using k1, k2⟩
  have hfront : r'.chart = front := by
    rw [h2, k2, List.take_append_of_le_length (by omega), List.take_of_length_le (by omega)]
  refine ⟨r', h1, by rw [hfront]; exact k2, h2, by rw [hfront, k1], ?_⟩
  have hfa : finalsAll r.chart = finalsAll r'.chart := by
    rw [hfront, k2]
    unfold finalsAll
    rw [List.reverse_append, List.flatMap_append, List.reverse_replicate]
    have : ∀ n, (List.replicate n ([] : List TState)).flatMap (fun col => col.filter TState.isFinal) = [] := by
      intro n
      rw [List.flatMap_eq_nil_iff]
      intro x hx
      rw [List.eq_of_mem_replicate hx]
      rfl
    rw [this, List.nil_append]
  rw [hf, h3, ← h2]
  unfold finalsOf
  rw [hfa]

end

theorem finalPtrsAll_pad (chart : List (List TState)) (n : Nat) :
    finalPtrsAll (chart ++ List.replicate n []) = finalPtrsAll chart := by
  unfold finalPtrsAll
  rw [List.zipIdx_append, List.reverse_append, List.flatMap_append]
  have : ∀ k, ((List.replicate n ([] : List TState)).zipIdx k).reverse.flatMap (fun p =>
      (p.1.zipIdx.filter (fun q => q.1.isFinal)).map (fun q => (p.2, q.2))) = [] := by
    intro k
    rw [List.flatMap_eq_nil_iff]
    intro x hx
    have h1 := List.mem_reverse.1 hx
    have h2 := List.fst_mem_of_mem_zipIdx h1
    rw [List.eq_of_mem_replicate h2]
    rfl
  rw [this, List.nil_append]

end Fmr
