import Verif.Proofs.Terminate

/-!
# Every point of the execution: reachable configurations of the chart loop
-/

namespace Fmr

/-- Configurations of the double loop earley.go:152-186: finished columns, number of the row to be
processed next, current column, following column. -/
inductive Reach (env : Env) : List (List TState) → Nat → List TState → List TState → Prop
  | init : Reach env [] 0 (env.starts.map gammaState) []
  | row {done row cur next st} : Reach env done row cur next → cur[row]? = some st →
      Reach env done (row+1)
        (processRow env done env.tokens[done.length]? row st cur next).1
        (processRow env done env.tokens[done.length]? row st cur next).2
  | col {done row cur next} : Reach env done row cur next → cur[row]? = none →
      done.length < env.tokens.length → Reach env (done ++ [cur]) 0 next []

theorem Reach.inv {env : Env} (ho : env.OrdOK) {done row cur next} (h : Reach env done row cur next) :
    Inv env done cur next ∧ done.length ≤ env.tokens.length := by
  induction h with
  | init => exact ⟨inv_start env, Nat.zero_le _⟩
  | row _ hst ih => exact ⟨processRow_inv ho ih.1 (List.mem_of_getElem? hst), ih.2⟩
  | col _ _ hlt ih =>
    exact ⟨⟨ih.1.snoc, by simpa using ih.1.next, by simp⟩, by simp; omega⟩

/-- the executable row loop follows reachable configurations -/
theorem runCol_reach {env : Env} {done} : ∀ {fuel row cur next r},
    Reach env done row cur next →
    runCol env done env.tokens[done.length]? fuel row cur next = some r →
    ∃ row', Reach env done row' r.1 r.2 ∧ r.1[row']? = none
  | 0, _, _, _, _, _, h => by simp [runCol] at h
  | fuel+1, row, cur, next, r, hr, h => by
    unfold runCol at h
    cases hc : cur[row]? with
    | none => rw [hc] at h; simp at h; subst h; exact ⟨row, hr, hc⟩
    | some st => rw [hc] at h; exact runCol_reach (Reach.row hr hc) h

theorem runCols_reach {env : Env} {fuel : Nat} : ∀ {toks done cur chart},
    env.tokens.drop done.length = toks → Reach env done 0 cur [] →
    runCols env fuel toks done cur = some chart →
    ∃ done' row cur' next, chart = done' ++ [cur'] ∧ Reach env done' row cur' next ∧
      cur'[row]? = none ∧ done'.length = env.tokens.length
  | [], done, cur, chart, hd, hi, h => by
    unfold runCols at h
    have hle : env.tokens.length ≤ done.length := by simpa using hd
    have htok : env.tokens[done.length]? = none := by rw [List.getElem?_eq_none]; exact hle
    cases hr : runCol env done none fuel 0 cur [] with
    | none => rw [hr] at h; simp at h
    | some r =>
      rw [hr] at h; simp at h; subst h
      rw [← htok] at hr
      obtain ⟨row', h1, h2⟩ := runCol_reach hi hr
      refine ⟨done, row', r.1, r.2, rfl, h1, h2, ?_⟩
      refine Nat.le_antisymm ?_ hle
      clear h2 hr
      have : ∀ {d r c n}, Reach env d r c n → d.length ≤ env.tokens.length := by
        intro d r c n h
        induction h with
        | init => exact Nat.zero_le _
        | row _ _ ih => exact ih
        | col _ _ hlt _ => simp; omega
      exact this h1
  | t :: ts, done, cur, chart, hd, hi, h => by
    unfold runCols at h
    have hlt : done.length < env.tokens.length := by
      rcases Nat.lt_or_ge done.length env.tokens.length with h' | h'
      · exact h'
      · rw [List.drop_of_length_le h'] at hd; simp at hd
    rw [List.drop_eq_getElem_cons hlt] at hd
    injection hd with hd1 hd2
    have htok : env.tokens[done.length]? = some t := by
      rw [List.getElem?_eq_getElem hlt, hd1]
    cases hr : runCol env done (some t) fuel 0 cur [] with
    | none => rw [hr] at h; simp at h
    | some r =>
      rw [hr] at h; simp at h
      rw [← htok] at hr
      obtain ⟨row', h1, h2⟩ := runCol_reach hi hr
      exact runCols_reach (toks := ts) (done := done ++ [r.1]) (by simpa using hd2)
        (Reach.col h1 h2 hlt) h

theorem chartOf_reach {env : Env} {fuel chart} (h : chartOf env fuel = some chart) :
    ∃ done row cur next, chart = done ++ [cur] ∧ Reach env done row cur next ∧
      cur[row]? = none ∧ done.length = env.tokens.length :=
  runCols_reach (by simp) Reach.init h

theorem Reach.nodup {env : Env} (hwf : env.WF) (ho : env.OrdOK) (hs : env.starts.Nodup)
    {done row cur next} (h : Reach env done row cur next) :
    (∀ col ∈ done, col.Nodup) ∧ cur.Nodup ∧ next.Nodup := by
  induction h with
  | init =>
    refine ⟨by simp, ?_, by simp⟩
    rw [List.nodup_iff_pairwise_ne, List.pairwise_map]
    rw [List.nodup_iff_pairwise_ne] at hs
    refine hs.imp ?_
    intro a b hab he
    apply hab
    simp [gammaState] at he
    exact he
  | @row done row cur next st hr hst ih =>
    obtain ⟨h1, h2⟩ := processRow_grow hwf ho (row := row) (hr.inv ho).1 (List.mem_of_getElem? hst)
    exact ⟨ih.1, h1.nodup ih.2.1, h2.nodup ih.2.2⟩
  | col _ _ _ ih =>
    refine ⟨?_, ih.2.2, by simp⟩
    intro c hc
    simp at hc
    rcases hc with hc | rfl
    · exact ih.1 c hc
    · exact ih.2.1

end Fmr
