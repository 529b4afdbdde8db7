import Verif.Spec.Local
import Verif.Spec.WellFormed
import Verif.Proofs.Maps

/-!
# Every alternative of a local grammar consists of plain terminals
-/

namespace Fmr

/-- rules are stored under their names, and `Q` holds of all alternatives -/
def LRules (Q : RuleBody → Prop) (rules : List (String × Rule)) : Prop :=
  ∀ k r, rules.lookup k = some r → r.name = k ∧ ∀ e ∈ r.body, Q e.2

theorem mem_mapSet_val {κ ν : Type} [BEq κ] [LawfulBEq κ] {m : List (κ × ν)} {k : κ} {v : ν} {e : κ × ν}
    (h : e ∈ mapSet m k v) : e.2 = v ∨ e ∈ m := by
  induction m with
  | nil =>
    simp only [mapSet, List.mem_singleton] at h
    subst h
    exact .inl rfl
  | cons a m ih =>
    simp only [mapSet] at h
    split at h
    · rcases List.mem_cons.mp h with rfl | h
      · exact .inl rfl
      · exact .inr (List.mem_cons_of_mem _ h)
    · rcases List.mem_cons.mp h with rfl | h
      · exact .inr List.mem_cons_self
      · exact (ih h).imp_right (List.mem_cons_of_mem _)

theorem LRules.addBody {Q : RuleBody → Prop} {rules : List (String × Rule)} (h : LRules Q rules) {k : String} {n : Nat}
    {rb : RuleBody} (hrb : Q rb) : LRules Q (addBody rules k n rb) := by
  intro k' r hr
  unfold Fmr.addBody at hr
  split at hr
  · rename_i r0 h0
    rw [lookup_mapSet] at hr
    split at hr
    · rename_i hk
      cases hr
      obtain ⟨h1, h2⟩ := h k r0 h0
      refine ⟨h1.trans hk.symm, fun e he => ?_⟩
      rcases mem_mapSet_val he with h | h
      · rw [h]; exact hrb
      · exact h2 e h
    · exact h k' r hr
  · rw [lookup_mapSet] at hr
    split at hr
    · rename_i hk
      cases hr
      refine ⟨hk.symm, fun e he => ?_⟩
      rw [List.mem_singleton] at he
      subst he
      exact hrb
    · exact h k' r hr

theorem lrules_tokens {Q : RuleBody → Prop} {hash : RuleBody → Option Nat}
    (hQ : ∀ t : Token, Q { terms := [{ value := t.text, type := .terminal }], f := none }) (ts : List Token) :
    ∀ {rules rules'}, localTokens hash ts rules = .ok rules' → LRules Q rules → LRules Q rules' := by
  induction ts with
  | nil => intro rules rules' h hr; cases h; exact hr
  | cons t ts ih =>
    intro rules rules' h hr
    unfold localTokens at h
    simp only at h
    split at h
    · split at h
      · cases h
      · exact ih h (hr.addBody (hQ t))
    · exact ih h hr

theorem spanTerms_terminal {d : Doc} (n : Nat) : ∀ {start : Int} {ts : List Term}, spanTerms d start n = .ok ts →
    ∀ t ∈ ts, t.type = .terminal ∧ t.meta = .nil := by
  induction n with
  | zero => intro start ts h; cases h; simp
  | succ n ih =>
    intro start ts h
    unfold spanTerms at h
    split at h
    · cases h
    split at h
    · cases h
    · obtain ⟨rest, h1, h2⟩ := Out.bind_eq_ok.mp h
      cases h2
      intro t ht
      rcases List.mem_cons.mp ht with rfl | ht
      · exact ⟨rfl, rfl⟩
      · exact ih h1 t ht

theorem lrules_spanRules {Q : RuleBody → Prop} {hash : RuleBody → Option Nat} {sp : Span} {terms : List Term}
    (m : List (String × SpanVals)) (hQ : ∀ e ∈ m, Q { terms := terms, f := spanFmr sp e.1 e.2 }) :
    ∀ {rules rules'}, spanRules hash sp terms m rules = .ok rules' → LRules Q rules → LRules Q rules' := by
  induction m with
  | nil => intro rules rules' h hr; cases h; exact hr
  | cons e m ih =>
    intro rules rules' h hr
    obtain ⟨k, vs⟩ := e
    unfold spanRules at h
    simp only at h
    split at h
    · cases h
    · exact ih (fun e he => hQ e (List.mem_cons_of_mem _ he)) h (hr.addBody (hQ _ List.mem_cons_self))

theorem spanFmr_wf {sp : Span} {k : String} {vs : SpanVals} (h : ∀ l, vs = .items l → ∀ v ∈ l, ∃ s, v = .str s) :
    ∀ f, spanFmr sp k vs = some f → f.WF := by
  intro f hf
  cases vs with
  | scalar => cases hf
  | items l =>
    cases hf
    have hl : argsWF (l.map (.mk "string")) := by
      have := h l rfl
      clear h
      induction l with
      | nil => trivial
      | cons v l ih =>
        obtain ⟨s, rfl⟩ := this v List.mem_cons_self
        exact ⟨.inl rfl, ih fun v hv => this v (List.mem_cons_of_mem _ hv)⟩
    simp [FMR.WF, argsWF, Arg.WF, Val.WFFor, hl]

theorem lrules_spans {Q : RuleBody → Prop} {hash : RuleBody → Option Nat} {d : Doc} (sps : List Span)
    (hQ : ∀ sp ∈ sps, ∀ m, sp.ann = .map m → ∀ e ∈ m, ∀ terms : List Term, (∀ t ∈ terms, t.type = .terminal ∧ t.meta = .nil) →
      Q { terms := terms, f := spanFmr sp e.1 e.2 }) :
    ∀ {rules rules'}, localSpans hash d sps rules = .ok rules' → LRules Q rules → LRules Q rules' := by
  induction sps with
  | nil => intro rules rules' h hr; cases h; exact hr
  | cons sp sps ih =>
    intro rules rules' h hr
    have ih := fun {rules rules'} => @ih (fun s hs => hQ s (List.mem_cons_of_mem _ hs)) rules rules'
    unfold localSpans at h
    split at h
    · exact ih h hr
    · exact ih h hr
    · rename_i m hm
      obtain ⟨terms, h1, h⟩ := Out.bind_eq_ok.mp h
      obtain ⟨rules1, h2, h⟩ := Out.bind_eq_ok.mp h
      exact ih h (lrules_spanRules m (fun e he => hQ sp List.mem_cons_self m hm e he terms (spanTerms_terminal _ h1)) h2 hr)

/-- the rules of a local grammar -/
theorem local_rules {hash : RuleBody → Option Nat} {find : String → Bytes → Option (List (Nat × Nat))}
    {regexps : List (String × String)} {d : Doc} {l : Grammar} (h : localGrammar hash find regexps d = .ok (some l)) :
    LRules (fun rb => (∀ t ∈ rb.terms, t.type = .terminal ∧ t.meta = .nil) ∧
      (SpansOK d.spans → ∀ f, rb.f = some f → f.WF)) l.rules := by
  unfold localGrammar at h
  simp only at h
  split at h
  · cases h
  obtain ⟨r1, h1, h⟩ := Out.bind_eq_ok.mp h
  obtain ⟨r2, h2, h⟩ := Out.bind_eq_ok.mp h
  have hl : l.rules = r2 := by
    have h := Out.ok.inj h
    split at h
    · cases h
    · rw [← Option.some.inj h]
  rw [hl]
  refine lrules_spans _ (fun sp hsp m hm e he terms ht => ⟨ht, fun hs => ?_⟩) h2
    (lrules_tokens (fun t => ⟨fun t' ht' => ?_, fun _ f hf => by cases hf⟩) _ h1 (fun k r hk => by cases hk))
  · refine spanFmr_wf fun l hl v hv => ?_
    obtain ⟨k, vs⟩ := e
    have hl : vs = .items l := hl
    subst hl
    have hsp : sp ∈ d.spans ++ regexpSpans find regexps d := hsp
    rcases List.mem_append.mp hsp with hsp | hsp
    · exact hs sp hsp m hm k l he v hv
    · -- spans of regexps carry no lists
      unfold regexpSpans at hsp
      split at hsp
      · cases hsp
      obtain ⟨⟨typ, s⟩, -, hsp⟩ := List.mem_flatMap.mp hsp
      simp only at hsp
      split at hsp
      · cases hsp
      obtain ⟨mm, -, hsp⟩ := List.mem_flatMap.mp hsp
      unfold matchSpan at hsp
      simp only at hsp
      split at hsp
      · cases hsp
      rw [List.mem_singleton] at hsp
      subst hsp
      cases hm
      simp at he
  · simp only [List.mem_singleton] at ht'
    subst ht'
    exact ⟨rfl, rfl⟩

end Fmr
