import Verif.Proofs.Reach
import Verif.Spec.Trees

/-!
# Provenance: every advanced state was inserted after its completing child and its predecessor
-/

namespace Fmr

/-- state `s` is row `r` of column `c` -/
def At (cs : List (List TState)) (c r : Nat) (s : TState) : Prop :=
  ∃ col, cs[c]? = some col ∧ col[r]? = some s

/-- the term the dot has just passed -/
def lastTerm (s : TState) : Option Term :=
  if s.term.type = .list then some { value := s.term.value, type := .nonterminal, «meta» := .nil }
  else s.bodyTerms[s.dot - 1]?

/-- provenance of the state at (`c`, `r`) -/
def Prov (cs : List (List TState)) (c r : Nat) (s : TState) : Prop :=
  s.term.type ≠ .any → 0 < s.dot → ∀ t, lastTerm s = some t → t.type ≠ .terminal →
    ∃ rc child rp p, At cs c rc child ∧ rc < r ∧ child.isCompleted = true ∧
      child.term.type = t.type ∧ child.term.value = t.value ∧
      At cs child.start rp p ∧ p.term.value = s.term.value ∧ p.term.type = s.term.type ∧
      p.rb = s.rb ∧ p.start = s.start ∧ p.dot + 1 = s.dot ∧ (child.start = c → rp < r)

/-- columns only grow at the end -/
def ColsLE (cs cs' : List (List TState)) : Prop :=
  ∀ (c : Nat) (col : List TState), cs[c]? = some col → ∃ col', cs'[c]? = some col' ∧ col <+: col'

theorem At.mono {cs cs' : List (List TState)} (h : ColsLE cs cs') {c r s} (ha : At cs c r s) :
    At cs' c r s := by
  obtain ⟨col, hc, hr⟩ := ha
  obtain ⟨col', hc', hp⟩ := h c col hc
  refine ⟨col', hc', ?_⟩
  obtain ⟨l, rfl⟩ := hp
  rw [List.getElem?_append_left (List.getElem?_eq_some_iff.1 hr).1]
  exact hr

theorem Prov.mono {cs cs' : List (List TState)} (h : ColsLE cs cs') {c r s} (hp : Prov cs c r s) :
    Prov cs' c r s := by
  intro h1 h2 t h3 h4
  obtain ⟨rc, child, rp, p, a1, a2, a3, a4, a5, a6, a7⟩ := hp h1 h2 t h3 h4
  exact ⟨rc, child, rp, p, a1.mono h, a2, a3, a4, a5, a6.mono h, a7⟩

theorem colsLE_two {done : List (List TState)} {cur next cur' next' : List TState}
    (h1 : cur <+: cur') (h2 : next <+: next') :
    ColsLE (done ++ [cur, next]) (done ++ [cur', next']) := by
  intro c col hc
  rcases Nat.lt_or_ge c done.length with hlt | hge
  · rw [List.getElem?_append_left hlt] at hc
    exact ⟨col, by rw [List.getElem?_append_left hlt]; exact hc, List.prefix_rfl⟩
  · rw [List.getElem?_append_right hge] at hc
    rw [List.getElem?_append_right hge]
    generalize c - done.length = k at hc ⊢
    rcases k with _ | _ | n
    · simp at hc; subst hc; exact ⟨cur', rfl, h1⟩
    · simp at hc; subst hc; exact ⟨next', rfl, h2⟩
    · simp at hc

theorem at_cur {done : List (List TState)} {cur next : List TState} {r s} (h : cur[r]? = some s) :
    At (done ++ [cur, next]) done.length r s := ⟨cur, by simp, h⟩

theorem at_done {done : List (List TState)} {cur next : List TState} {c col r s}
    (hc : done[c]? = some col) (h : col[r]? = some s) :
    At (done ++ [cur, next]) c r s :=
  ⟨col, by rw [List.getElem?_append_left (List.getElem?_eq_some_iff.1 hc).1]; exact hc, h⟩

theorem mem_snap_at {done : List (List TState)} {cur next : List TState} {st st0 : TState}
    (h : st0 ∈ snapOf done cur st) : ∃ rp, At (done ++ [cur, next]) st.start rp st0 ∧
      (st.start = done.length → rp < cur.length) := by
  unfold snapOf at h
  split at h
  · rename_i he
    obtain ⟨rp, hr⟩ := List.getElem?_of_mem h
    exact ⟨rp, by rw [he]; exact at_cur hr, fun _ => (List.getElem?_eq_some_iff.1 hr).1⟩
  · rename_i he
    rw [List.getD_eq_getElem?_getD] at h
    cases hd : done[st.start]? with
    | none => simp [hd] at h
    | some col =>
      simp [hd] at h
      obtain ⟨rp, hr⟩ := List.getElem?_of_mem h
      exact ⟨rp, at_done hd hr, fun h => absurd h he⟩

/-- the value of an any state -/
theorem any_value {env : Env} (hwf : env.WF) (hany : AnyNamed env) {i s} (h : Item env i s)
    (hk : s.term.type = .any) : s.term.value = "any" := by
  obtain ⟨_, _, t, hocc, ht, _, hv | hv⟩ := (h.basic hwf).any hk
  · rw [hv, hany t hocc ht]
  · exact hv

theorem Reach.prov {env : Env} (hwf : env.WF) (ho : env.OrdOK) (hany : AnyNamed env)
    {done row cur next} (h : Reach env done row cur next) :
    ∀ c r s, At (done ++ [cur, next]) c r s → Prov (done ++ [cur, next]) c r s := by
  induction h with
  | init =>
    rintro c r s ⟨col, hc, hr⟩
    intro _ hd
    rcases c with _ | _ | n
    · simp at hc
      subst hc
      have := List.mem_of_getElem? hr
      simp at this
      obtain ⟨S, _, rfl⟩ := this
      simp [gammaState] at hd
    · simp at hc; subst hc; simp at hr
    · simp at hc
  | @row done row cur next st hreach hst ih =>
    have hinv := (hreach.inv ho).1
    have hmem := List.mem_of_getElem? hst
    have hpre := processRow_prefix env done env.tokens[done.length]? row st cur next
    have hg := processRow_grow hwf ho (row := row) hinv hmem
    have hle : ColsLE (done ++ [cur, next])
        (done ++ [(processRow env done env.tokens[done.length]? row st cur next).1,
          (processRow env done env.tokens[done.length]? row st cur next).2]) :=
      colsLE_two hpre.1 hpre.2
    rintro c r s ⟨col, hc, hr⟩
    rcases Nat.lt_or_ge c done.length with hlt | hge
    · rw [List.getElem?_append_left hlt] at hc
      exact (ih c r s (at_done hc hr)).mono hle
    · rw [List.getElem?_append_right hge] at hc
      rcases hcd : c - done.length with _ | _ | n
      · rw [hcd] at hc
        have hcc : c = done.length := by omega
        subst hcc
        simp only [List.getElem?_cons_zero, Option.some.injEq] at hc
        rw [← hc] at hr
        obtain ⟨l, hl, hnd, hnew⟩ := hg.1
        rcases Nat.lt_or_ge r cur.length with hrl | hrg
        · have : cur[r]? = some s := by
            rw [hl, List.getElem?_append_left hrl] at hr; exact hr
          exact (ih _ r s (at_cur this)).mono hle
        · have hsl : s ∈ l := by
            rw [hl, List.getElem?_append_right hrg] at hr
            exact List.mem_of_getElem? hr
          have hsr : s ∈ (processRow env done env.tokens[done.length]? row st cur next).1 :=
            List.mem_of_getElem? hr
          have hrow := (List.getElem?_eq_some_iff.1 hst).1
          rcases processRow_mem1 ho hsr with hs | hs
          · exact absurd hs (hnew s hsl)
          · intro h1 h2 t h3 h4
            rcases hs with ⟨hcm, st0, h0, t0, hn, hm, rfl⟩ |
              ⟨ha, t0, hn, ⟨htt, g, hg', r', hr', rb, hrb, rfl⟩ | ⟨htt, rfl⟩⟩
            · have hi0 := hinv.snap st0 h0
              have hb0 := hi0.basic hwf
              have hty0 : st0.term.type ≠ .any := by simpa [advanced] using h1
              obtain ⟨rp, hat, hrp⟩ := mem_snap_at (next := next) h0
              have hdot : ((advanced st0 t0).placed done.length).dot = st0.dot + 1 := by
                rw [placed_dot (by simpa [advanced] using hty0)]; simp [advanced]
              have htt : t0.type = t.type ∧ t0.value = t.value ∧ (t0.type = .any → env.Occurs t0) := by
                rcases hb0.kind with hk | hk | hk
                · obtain ⟨rb, hrb, hget, hocc⟩ := hb0.next_mem hk hn
                  have h3' : (advanced st0 t0).bodyTerms[st0.dot]? = some t := by
                    unfold lastTerm at h3
                    rw [if_neg (by simp [advanced, hk]), hdot] at h3
                    simpa [TState.bodyTerms, advanced] using h3
                  simp [TState.bodyTerms, advanced, hrb, hget] at h3'
                  subst h3'
                  refine ⟨rfl, rfl, ?_⟩
                  intro hta
                  rcases hocc with hocc | ⟨S, _, rfl⟩
                  · exact hocc
                  · simp at hta
                · exact absurd hk hty0
                · obtain ⟨rfl, _⟩ := next_list hk hn
                  unfold lastTerm at h3
                  rw [if_pos (by simp [advanced, hk])] at h3
                  simp [advanced] at h3
                  subst h3
                  exact ⟨rfl, rfl, by simp⟩
              have hcv : st.term.type = t.type ∧ st.term.value = t.value := by
                rcases completes_cases hm with ⟨e1, e2⟩ | ⟨e1, e2⟩
                · refine ⟨by rw [e2, ← htt.1, e1], ?_⟩
                  rw [any_value hwf hany (hinv.cur st hmem) e2, ← htt.2.1]
                  exact (hany t0 (htt.2.2 e1) e1).symm
                · exact ⟨by rw [← e1, htt.1], by rw [← e2, htt.2.1]⟩
              refine ⟨row, st, rp, st0, (at_cur hst).mono hle, by omega, hcm, hcv.1, hcv.2,
                hat.mono hle, by simp [advanced], by simp [advanced], by simp [advanced],
                by simp [advanced], by rw [hdot], ?_⟩
              intro he
              have := hrp he
              omega
            · rw [placed_dot (by simp [predicted])] at h2
              simp [predicted] at h2
            · rw [placed_dot (by simpa [predictedSpecial] using h1)] at h2
              simp [predictedSpecial] at h2
      · rw [hcd] at hc
        have hcc : c = done.length + 1 := by omega
        subst hcc
        simp at hc
        rw [← hc] at hr
        obtain ⟨l, hl, hnd, hnew⟩ := hg.2
        rcases Nat.lt_or_ge r next.length with hrl | hrg
        · have : next[r]? = some s := by
            rw [hl, List.getElem?_append_left hrl] at hr; exact hr
          exact (ih _ r s ⟨next, by simp, this⟩).mono hle
        · have hsl : s ∈ l := by
            rw [hl, List.getElem?_append_right hrg] at hr
            exact List.mem_of_getElem? hr
          rcases processRow_mem2 (List.mem_of_getElem? hr) with hs | hs
          · exact absurd hs (hnew s hsl)
          · intro h1 h2 t h3 h4
            obtain ⟨t0, tk, hn, htok, ⟨ha, rfl⟩ | ⟨ha, htt, hm, rfl⟩⟩ := hs
            · simp [scannedAny] at h1
            · exfalso
              have hb0 := (hinv.cur st hmem).basic hwf
              have hk : st.term.type = .nonterminal := by
                rcases hb0.kind with h | h | h
                · exact h
                · exact absurd h ha
                · obtain ⟨rfl, _⟩ := next_list h hn; simp at htt
              obtain ⟨rb, hrb, hget, hocc⟩ := hb0.next_mem hk hn
              unfold lastTerm at h3
              rw [if_neg (by simp [scannedTerm, hk]), placed_dot (by simp [scannedTerm, hk])] at h3
              simp [TState.bodyTerms, scannedTerm, hrb, hget] at h3
              subst h3
              exact h4 htt
      · rw [hcd] at hc; simp at hc
  | @col done row cur next hreach hnone hlt ih =>
    have hle : ColsLE (done ++ [cur, next]) (done ++ [cur] ++ [next, []]) := by
      intro c col hc
      refine ⟨col, ?_, List.prefix_rfl⟩
      have : done ++ [cur] ++ [next, []] = (done ++ [cur, next]) ++ [[]] := by simp
      rw [this, List.getElem?_append_left (List.getElem?_eq_some_iff.1 hc).1]
      exact hc
    rintro c r s ⟨col, hc, hr⟩
    have : done ++ [cur] ++ [next, []] = (done ++ [cur, next]) ++ [[]] := by simp
    rw [this] at hc
    rcases Nat.lt_or_ge c (done ++ [cur, next]).length with hl | hg
    · rw [List.getElem?_append_left hl] at hc
      exact (ih c r s ⟨col, hc, hr⟩).mono hle
    · rw [List.getElem?_append_right hg] at hc
      rcases hcd : c - (done ++ [cur, next]).length with _ | n
      · rw [hcd] at hc; simp at hc; subst hc; simp at hr
      · rw [hcd] at hc; simp at hc

/-- provenance in the finished chart -/
theorem chart_prov {env : Env} (hwf : env.WF) (ho : env.OrdOK) (hany : AnyNamed env) {fuel chart}
    (h : chartOf env fuel = some chart) {c r s} (ha : At chart c r s) : Prov chart c r s := by
  obtain ⟨done, row, cur, next, rfl, hreach, hnone, hlen⟩ := chartOf_reach h
  have hinv := (hreach.inv ho).1
  have hlt : ∀ {c r s}, At (done ++ [cur]) c r s → c ≤ done.length := by
    rintro c r s ⟨col, hc, _⟩
    have := (List.getElem?_eq_some_iff.1 hc).1
    simp at this; omega
  have hin : ∀ {c r s}, At (done ++ [cur]) c r s → At (done ++ [cur, next]) c r s := by
    rintro c r s ⟨col, hc, hr⟩
    refine ⟨col, ?_, hr⟩
    have : done ++ [cur, next] = (done ++ [cur]) ++ [next] := by simp
    rw [this, List.getElem?_append_left (List.getElem?_eq_some_iff.1 hc).1]; exact hc
  have hout : ∀ {c r s}, c ≤ done.length → At (done ++ [cur, next]) c r s → At (done ++ [cur]) c r s := by
    rintro c r s hcl ⟨col, hc, hr⟩
    refine ⟨col, ?_, hr⟩
    have : done ++ [cur, next] = (done ++ [cur]) ++ [next] := by simp
    rw [this, List.getElem?_append_left (by simp; omega)] at hc; exact hc
  have hstart : ∀ {c r s}, At (done ++ [cur]) c r s → s.start ≤ c := by
    rintro c r s ⟨col, hc, hr⟩
    have := hinv.snoc c col hc s (List.mem_of_getElem? hr)
    exact (this.basic hwf).start
  have hp := hreach.prov hwf ho hany c r s (hin ha)
  intro h1 h2 t h3 h4
  obtain ⟨rc, child, rp, p, a1, a2, a3, a4, a5, a6, a7⟩ := hp h1 h2 t h3 h4
  have hcl := hlt ha
  have a1' := hout hcl a1
  exact ⟨rc, child, rp, p, a1', a2, a3, a4, a5, hout (Nat.le_trans (hstart a1') hcl) a6, a7⟩

end Fmr
