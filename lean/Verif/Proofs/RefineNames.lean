import Verif.Props.Refine

/-!
# The names of literals after refinement, also where several literals have the same words
-/

namespace Fmr

/-- `n` is the name made from the words of `v`, possibly with a number. -/
def NameFor (w : RefineWorld) (pre v n : String) : Prop :=
  n = literalName w pre v ∨ ∃ k : Nat, n = literalName w pre v ++ "_" ++ toString k

theorem freshName_form {used : String → Bool} {tname : String} : ∀ {fuel n name r}, freshName used tname fuel n name = some r →
    r = name ∨ ∃ k : Nat, r = tname ++ "_" ++ toString k
  | 0, _, _, _, h => by simp [freshName] at h
  | fuel + 1, n, name, r, h => by
    rw [freshName] at h
    split at h
    · rcases freshName_form h with h | h
      · exact .inr ⟨n, h⟩
      · exact .inr h
    · exact .inl (Option.some.inj h).symm

/-- each literal has a name made from its words, and the name without a number is in use -/
def NamesInv (w : RefineWorld) (pre : String) (rules : List (String × Rule)) (st : RefineSt) : Prop :=
  ∀ e ∈ st.terminals, NameFor w pre e.1 e.2 ∧ (rules.lookup (literalName w pre e.1) = none → literalName w pre e.1 ∈ st.names)

section
variable {w : RefineWorld} {pre : String} {rules : List (String × Rule)} {fuel : Nat}

theorem refineTerm_names {st st' : RefineSt} {t t' : Term} (hi : NamesInv w pre rules st)
    (h : refineTerm w pre rules fuel st t = .ok (st', t')) : NamesInv w pre rules st' := by
  unfold refineTerm at h
  split at h
  · cases h
    exact hi
  · split at h
    · cases h
      exact hi
    · next hn =>
      simp only [Out.bind_eq_ok, Out.ofErr_eq_ok] at h
      obtain ⟨toks, htoks, h⟩ := h
      rcases hl : literalLoop w t.meta toks (pre ++ "_t") [] st.reg with ⟨tname, terms, reg⟩
      rw [hl] at h
      simp only [Out.ofFuel_eq_ok, Out.bind_eq_ok, Out.ofErr_eq_ok] at h
      obtain ⟨name, hname, hh, hhash, h⟩ := h
      cases h
      have htname : tname = literalName w pre t.value := by
        have := literalLoop_fold w t.meta toks (pre ++ "_t") [] st.reg
        rw [hl] at this
        rw [literalName, htoks]
        exact this
      intro e he
      simp only [mapSet_new hn, List.mem_append, List.mem_singleton] at he ⊢
      rcases he with he | rfl
      · exact ⟨(hi e he).1, fun h => .inl ((hi e he).2 h)⟩
      · refine ⟨by
          unfold NameFor
          rw [← htname]
          exact freshName_form hname, fun h => ?_⟩
        by_cases hu : literalName w pre t.value ∈ st.names
        · exact .inl hu
        · right
          rw [← htname] at h hu ⊢
          exact (freshName_first hname (by simp [h, hu])).symm

theorem mapState_keeps {σ α : Type} {f : σ → α → Out (σ × α)} {I : σ → Prop} : ∀ {l : List α} {st st' : σ} {l' : List α},
    (∀ a st st' a', I st → f st a = .ok (st', a') → I st') → I st → mapState f st l = .ok (st', l') → I st'
  | [], _, _, _, _, hi, h => by
    cases h
    exact hi
  | a :: l, st, st', l', hf, hi, h => by
    simp only [mapState, Out.bind_eq_ok] at h
    obtain ⟨⟨st1, a1⟩, h1, ⟨st2, l2⟩, h2, h3⟩ := h
    cases h3
    exact mapState_keeps hf (hf _ _ _ _ hi h1) h2

theorem refineBody_names {st st' : RefineSt} {e e' : Nat × RuleBody} (hi : NamesInv w pre rules st)
    (h : refineBody w pre rules fuel st e = .ok (st', e')) : NamesInv w pre rules st' := by
  unfold refineBody at h
  simp only [Out.bind_eq_ok] at h
  obtain ⟨⟨st1, ts⟩, h1, h2⟩ := h
  cases h2
  exact mapState_keeps (fun _ _ _ _ => refineTerm_names) hi h1

theorem refineRule_names {st st' : RefineSt} {e e' : String × Rule} (hi : NamesInv w pre rules st)
    (h : refineRule w pre rules fuel st e = .ok (st', e')) : NamesInv w pre rules st' := by
  unfold refineRule at h
  simp only [Out.bind_eq_ok] at h
  obtain ⟨⟨st1, ts⟩, h1, h2⟩ := h
  cases h2
  exact mapState_keeps (fun _ _ _ _ => refineBody_names) hi h1

end

/-- What refinement produces, with the names of the literals. -/
theorem refine_named {w : RefineWorld} {pre : String} {fuel : Nat} {reg reg' : Registry} {g g' : Grammar}
    (hg : g.refined = false) (h : refine w pre fuel reg g = .ok (reg', g')) :
    ∃ es rules, Refined w g g' es rules ∧ ∀ e ∈ es, NameFor w pre e.lit e.name ∧
      (g.rules.lookup (literalName w pre e.lit) = none → ∃ e' ∈ es, e'.name = literalName w pre e.lit) := by
  unfold refine at h
  simp only [hg, Bool.false_eq_true, if_false, Out.bind_eq_ok] at h
  obtain ⟨⟨st, rules⟩, h1, h2⟩ := h
  simp at h2
  obtain ⟨rfl, rfl⟩ := h2
  obtain ⟨es, _, i, r⟩ := mapState_spec (R := RuleRel) (fun h _ _ => RuleRel.mono h)
    (fun a ha st es st' a' hi h =>
      refineRule_spec hi (fun rb hrb t ht htt => ⟨a, ha, rb, hrb, ht, htt⟩) h) (rinv_start w pre g reg) h1
  have hn : NamesInv w pre g.rules st :=
    mapState_keeps (fun _ _ _ _ => refineRule_names) (fun e he => by cases he) h1
  refine ⟨es, rules, ⟨r, by rw [i.rules], i.namesNodup, i.litsNodup, i.fresh, i.body, i.annot, i.occurs⟩, fun e he => ?_⟩
  have := hn (e.lit, e.name) (by rw [i.terminals]; exact List.mem_map_of_mem (f := fun e => (e.lit, e.name)) he)
  refine ⟨this.1, fun h => ?_⟩
  have h2 := this.2 h
  rw [i.names] at h2
  obtain ⟨e', h3, h4⟩ := List.mem_map.1 h2
  exact ⟨e', h3, h4⟩

end Fmr
