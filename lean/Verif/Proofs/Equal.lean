import Verif.Model.Earley
import Verif.Spec.WellFormed

/-! # Lemmas about the `Equal` functions -/

namespace Fmr

theorem metaEqual_iff {a b : Meta} (ha : a.WF) : metaEqual a b = true ↔ a = b := by
  cases a <;> cases b <;> simp_all [metaEqual, Meta.WF]

theorem metaEqual_eq {a b : Meta} (h : metaEqual a b = true) : a = b := by
  cases a <;> cases b <;> simp_all [metaEqual]

theorem metaEqual_symm (a b : Meta) : metaEqual a b = metaEqual b a := by
  cases a <;> cases b <;> simp [metaEqual, Bool.beq_comm]

theorem Term.equal_eq {a b : Term} (h : a.equal b = true) : a = b := by
  obtain ⟨av, at', am⟩ := a
  obtain ⟨bv, bt, bm⟩ := b
  unfold Term.equal at h
  split at h
  · simp at h
  · rename_i hh
    simp at hh
    have := metaEqual_eq h
    simp_all

theorem Term.equal_iff {a b : Term} (ha : a.WF) : a.equal b = true ↔ a = b := by
  constructor
  · exact Term.equal_eq
  · rintro rfl
    simp [Term.equal, metaEqual_iff ha]

theorem Term.equal_symm (a b : Term) : a.equal b = b.equal a := by
  unfold Term.equal
  rw [metaEqual_symm]
  by_cases h1 : a.value = b.value <;> by_cases h2 : a.type = b.type <;>
    simp [h1, h2, eq_comm]
  all_goals (intros; simp_all)

theorem termsEqual_eq : ∀ {a b : List Term}, a.length = b.length → termsEqual a b = true → a = b
  | [], [], _, _ => rfl
  | a :: as, b :: bs, hl, h => by
    simp [termsEqual] at h
    have h1 := Term.equal_eq h.1
    have h2 := termsEqual_eq (by simpa using hl) h.2
    simp [h1, h2]

theorem termsEqual_refl : ∀ {a : List Term}, (∀ t ∈ a, t.WF) → termsEqual a a = true
  | [], _ => rfl
  | a :: as, h => by
    simp [termsEqual]
    exact ⟨(Term.equal_iff (h a (by simp))).2 rfl, termsEqual_refl (fun t ht => h t (by simp [ht]))⟩

theorem termsEqual_symm : ∀ (a b : List Term), termsEqual a b = termsEqual b a
  | [], [] => rfl
  | [], _ :: _ => rfl
  | _ :: _, [] => rfl
  | a :: as, b :: bs => by
    simp [termsEqual, Term.equal_symm a b, termsEqual_symm as bs]

mutual
theorem fmrEqual_eq : ∀ {f g : FMR}, f.WF → g.WF → f.equal g = true → f = g
  | .mk fn args, .mk gn brgs, hf, hg, h => by
    simp only [FMR.equal] at h
    split at h
    · simp at h
    · split at h
      · simp at h
      · rename_i h1 h2
        simp only [FMR.WF] at hf hg
        have := argsEqual_eq hf hg (by simpa using h2) h
        simp_all
theorem argsEqual_eq : ∀ {a b : List Arg}, argsWF a → argsWF b → a.length = b.length →
    argsEqual a b = true → a = b
  | [], [], _, _, _, _ => rfl
  | a :: as, b :: bs, ha, hb, hl, h => by
    simp only [argsEqual, Bool.and_eq_true] at h
    simp only [argsWF] at ha hb
    have h1 := argEqual_eq ha.1 hb.1 h.1
    have h2 := argsEqual_eq ha.2 hb.2 (by simpa using hl) h.2
    rw [h1, h2]
theorem argEqual_eq : ∀ {a b : Arg}, a.WF → b.WF → argEqual a b = true → a = b
  | .mk ta va, .mk tb vb, ha, hb, h => by
    simp only [Arg.WF] at ha hb
    simp only [argEqual] at h
    split at h
    · simp at h
    rename_i ht
    have ht : tb = ta := by simpa using ht
    subst ht
    congr 1
    cases va with
    | fmr f =>
      simp only [Val.WFFor] at ha
      have hfunc := ha.1
      subst hfunc
      cases vb with
      | fmr g =>
        simp only [Val.WFFor] at hb
        simp [valFmrEqual] at h
        rw [fmrEqual_eq ha.2 hb.2 h]
      | _ => simp [Val.WFFor] at hb
    | str s =>
      cases vb <;> simp_all [Val.WFFor]
      rcases ha with rfl | ⟨rfl, rfl⟩ <;> simp_all [strValEqual]
    | _ => cases vb <;> simp_all [Val.WFFor, bigIntValEqual, bigFloatValEqual, intValEqual]
end

mutual
theorem fmrEqual_refl : ∀ {f : FMR}, f.WF → f.equal f = true
  | .mk fn args, hf => by
    simp only [FMR.equal]
    simp
    exact argsEqual_refl (by simpa [FMR.WF] using hf)
theorem argsEqual_refl : ∀ {a : List Arg}, argsWF a → argsEqual a a = true
  | [], _ => rfl
  | a :: as, h => by
    simp only [argsWF] at h
    simp only [argsEqual, Bool.and_eq_true]
    exact ⟨argEqual_refl h.1, argsEqual_refl h.2⟩
theorem argEqual_refl : ∀ {a : Arg}, a.WF → argEqual a a = true
  | .mk t v, h => by
    simp only [Arg.WF] at h
    cases v with
    | fmr f =>
      simp only [Val.WFFor] at h
      have := fmrEqual_refl h.2
      simp [argEqual, h.1, valFmrEqual, this]
    | str s =>
      simp only [Val.WFFor] at h
      rcases h with rfl | ⟨rfl, rfl⟩ <;> simp [argEqual, strValEqual]
    | nilFmr => simp [Val.WFFor] at h
    | other _ => simp [Val.WFFor] at h
    | _ => simp only [Val.WFFor] at h; subst h; simp [argEqual, bigIntValEqual, bigFloatValEqual, intValEqual]
end

theorem strValEqual_symm (a b : Val) : strValEqual a b = strValEqual b a := by
  cases a <;> cases b <;> simp [strValEqual, Bool.beq_comm]
theorem bigIntValEqual_symm (a b : Val) : bigIntValEqual a b = bigIntValEqual b a := by
  cases a <;> cases b <;> simp [bigIntValEqual, Bool.beq_comm]
theorem bigFloatValEqual_symm (a b : Val) : bigFloatValEqual a b = bigFloatValEqual b a := by
  cases a <;> cases b <;> simp [bigFloatValEqual, Bool.beq_comm]
theorem intValEqual_symm (a b : Val) : intValEqual a b = intValEqual b a := by
  cases a <;> cases b <;> simp [intValEqual, Bool.beq_comm]

mutual
theorem fmrEqual_symm : ∀ (f g : FMR), f.equal g = g.equal f
  | .mk fn args, .mk gn brgs => by
    simp only [FMR.equal]
    rw [argsEqual_symm args brgs]
    by_cases h1 : fn = gn <;> by_cases h2 : args.length = brgs.length <;>
      simp [h1, h2, eq_comm]
    all_goals (intros; simp_all)
theorem argsEqual_symm : ∀ (a b : List Arg), argsEqual a b = argsEqual b a
  | [], [] => rfl
  | [], _ :: _ => by simp [argsEqual]
  | _ :: _, [] => by simp [argsEqual]
  | a :: as, b :: bs => by
    simp only [argsEqual]
    rw [argEqual_symm a b, argsEqual_symm as bs]
theorem argEqual_symm : ∀ (a b : Arg), argEqual a b = argEqual b a
  | .mk ta va, .mk tb vb => by
    simp only [argEqual]
    by_cases ht : tb = ta
    · subst ht
      rw [valFmrEqual_symm va vb, strValEqual_symm, bigIntValEqual_symm, bigFloatValEqual_symm,
        intValEqual_symm]
    · have ht' : ¬ ta = tb := fun h => ht h.symm
      simp [ht, ht']
theorem valFmrEqual_symm : ∀ (a b : Val), valFmrEqual a b = valFmrEqual b a
  | a, b => by
    cases a <;> cases b <;> simp [valFmrEqual]
    rename_i f g
    exact fmrEqual_symm f g
end

end Fmr
