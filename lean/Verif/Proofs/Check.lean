import Verif.Proofs.Terminate

/-!
# Establishing the hypotheses for concrete grammars by computation
-/

namespace Fmr

instance (b : Meta) : Decidable b.WF := by
  cases b <;> (unfold Meta.WF; infer_instance)

instance (m : Meta) (n : Nat) : Decidable (okCount m n) := by
  cases m <;> (unfold okCount; infer_instance)

/-- bodies without semantic function, or with one without arguments: a decidable sufficient check -/
def RuleBody.okPlain (rb : RuleBody) : Bool :=
  (match rb.f with
    | none => true
    | some (.mk _ args) => args.isEmpty) && rb.terms.all (fun t => decide t.meta.WF)

theorem RuleBody.okPlain_wf {rb : RuleBody} (h : rb.okPlain = true) : rb.WF := by
  unfold RuleBody.okPlain at h
  rw [Bool.and_eq_true] at h
  refine ⟨fun t ht => show t.meta.WF from of_decide_eq_true (List.all_eq_true.1 h.2 t ht), ?_⟩
  intro f hf
  rw [hf] at h
  obtain ⟨name, args⟩ := f
  have : args = [] := by simpa using h.1
  subst this
  rw [FMR.WF, argsWF]
  trivial

def Env.checkWF (env : Env) : Bool :=
  env.grammars.all (fun g => g.rules.all (fun p => p.2.name == p.1)) &&
  env.allBodies.all (fun p => p.2.okPlain && p.1 != gammaRule &&
    p.2.terms.all (fun t => t.type == .terminal || t.value != gammaRule)) &&
  env.starts.all (fun s => s != gammaRule)

theorem Env.checkWF_wf {env : Env} (h : env.checkWF = true) : env.WF := by
  unfold Env.checkWF at h
  simp at h
  obtain ⟨⟨h1, h2⟩, h3⟩ := h
  refine ⟨?_, ?_, ?_, ?_, ?_⟩
  · intro g hg A r hr
    exact h1 g hg A r (lookup_mem hr)
  · intro A rb hd
    exact RuleBody.okPlain_wf (h2 A rb (Env.Defines.mem_allBodies hd)).1.1
  · intro A rb hd
    exact (h2 A rb (Env.Defines.mem_allBodies hd)).1.2
  · intro t ⟨A, rb, hd, ht⟩ htt
    exact ((h2 A rb (Env.Defines.mem_allBodies hd)).2 t ht).resolve_left htt
  · intro hm; exact h3 _ hm rfl

def Env.checkNoEmpty (env : Env) : Bool :=
  env.allBodies.all (fun p => !p.2.terms.isEmpty) &&
  env.allTerms.all (fun t => (t.type != .any && t.type != .list) || decide (¬ okCount t.meta 0))

theorem Env.checkNoEmpty_ok {env : Env} (h : env.checkNoEmpty = true) : NoEmpty env := by
  unfold Env.checkNoEmpty at h
  simp at h
  refine ⟨?_, ?_⟩
  · intro A rb hd; exact h.1 A rb (Env.Defines.mem_allBodies hd)
  · intro t ht hor
    have := h.2 t (Env.Occurs.mem_allTerms ht)
    rcases this with ⟨h1, h2⟩ | h
    · rcases hor with h | h
      · exact absurd h h1
      · exact absurd h h2
    · exact h

def Env.checkUniform (env : Env) : Bool :=
  env.allTerms.all (fun t => env.allTerms.all (fun t' =>
    (!(t.type == .any && t'.type == .any) || t.meta == t'.meta) &&
    (!(t.type == .list && t'.type == .list && t.value == t'.value) || t.meta == t'.meta)))

theorem Env.checkUniform_ok {env : Env} (h : env.checkUniform = true) : UniformBounds env := by
  unfold Env.checkUniform at h
  simp only [List.all_eq_true] at h
  refine ⟨?_, ?_⟩
  · intro t t' ht ht' h1 h2
    have := h t (Env.Occurs.mem_allTerms ht) t' (Env.Occurs.mem_allTerms ht')
    simp [h1, h2] at this
    exact this
  · intro t t' ht ht' h1 h2 h3
    have := h t (Env.Occurs.mem_allTerms ht) t' (Env.Occurs.mem_allTerms ht')
    simp [h1, h2, h3] at this
    exact this

end Fmr
