import Verif.Proofs.Item
import Verif.Spec.WellFormed

/-!
# C22, C23: equality of values, matching of terminals
-/

namespace Fmr

/-! ## C22 -/

/-- Full statement of C22: the four `Equal` functions decide structural identity. -/
def C22_statement : Prop :=
  (∀ a b : Option Term, Term.equalPtr a b = true ↔ a = b) ∧
  (∀ a b : Option FMR, FMR.equalPtr a b = true ↔ a = b) ∧
  (∀ a b : Option RuleBody, RuleBody.equalPtr a b = true ↔ a = b) ∧
  (∀ a b : Option TState, TState.equalPtr a b = true ↔ a = b)

theorem FMR.equalPtr_iff {a b : Option FMR} (ha : ∀ f, a = some f → f.WF) (hb : ∀ f, b = some f → f.WF) :
    FMR.equalPtr a b = true ↔ a = b := by
  cases a <;> cases b <;> simp [FMR.equalPtr]
  rename_i f g
  constructor
  · exact fmrEqual_eq (ha f rfl) (hb g rfl)
  · rintro rfl; exact fmrEqual_refl (ha f rfl)

theorem RuleBody.equal_iff {a b : RuleBody} (ha : a.WF) (hb : b.WF) : a.equal b = true ↔ a = b := by
  unfold RuleBody.equal
  constructor
  · intro h
    split at h
    · simp at h
    split at h
    · simp at h
    rename_i h1 h2
    have e1 := termsEqual_eq (by simpa [eq_comm] using h1) (by simpa using h2)
    have e2 := (FMR.equalPtr_iff ha.2 hb.2).1 h
    cases a; cases b; simp_all
  · rintro rfl
    simp [termsEqual_refl ha.1, (FMR.equalPtr_iff ha.2 ha.2).2]

theorem RuleBody.equalPtr_iff {a b : Option RuleBody} (ha : ∀ f, a = some f → f.WF)
    (hb : ∀ f, b = some f → f.WF) : RuleBody.equalPtr a b = true ↔ a = b := by
  cases a <;> cases b <;> simp [RuleBody.equalPtr]
  rename_i f g
  exact RuleBody.equal_iff (ha f rfl) (hb g rfl)

theorem TState.equal_iff' {a b : TState} (ha : a.WF) (hb : b.WF) : a.equal b = true ↔ a = b := by
  have h2 := RuleBody.equalPtr_iff (a := a.rb) (b := b.rb) ha.2 hb.2
  have h3 : a.term.equal b.term = true ↔ _ := Term.equal_iff ha.1
  unfold TState.equal
  cases a; cases b
  simp only at h2 h3 ⊢
  split
  · rename_i h
    simp only [Bool.or_eq_true, decide_eq_true_eq, Bool.not_eq_true'] at h
    simp only [Bool.false_eq_true, false_iff, TState.mk.injEq, not_and]
    rintro rfl rfl rfl rfl rfl
    simp [h2.2] at h
  · rename_i h
    simp only [Bool.or_eq_true, decide_eq_true_eq, Bool.not_eq_true', not_or, Bool.not_eq_false] at h
    rw [h3]
    simp_all

/-- C22 for values whose dynamic types are the announced ones (all values the grammar loader and the
chart parser build): each `Equal` is structural identity, including nil.
Missing from the full statement: foreign dynamic types (`C22_false`). -/
theorem C22_exact_partial :
    (∀ a b : Option Term, (∀ t, a = some t → t.WF) → (∀ t, b = some t → t.WF) →
      (Term.equalPtr a b = true ↔ a = b)) ∧
    (∀ a b : Option FMR, (∀ t, a = some t → t.WF) → (∀ t, b = some t → t.WF) →
      (FMR.equalPtr a b = true ↔ a = b)) ∧
    (∀ a b : Option RuleBody, (∀ t, a = some t → t.WF) → (∀ t, b = some t → t.WF) →
      (RuleBody.equalPtr a b = true ↔ a = b)) ∧
    (∀ a b : Option TState, (∀ t, a = some t → t.WF) → (∀ t, b = some t → t.WF) →
      (TState.equalPtr a b = true ↔ a = b)) := by
  refine ⟨?_, fun a b => FMR.equalPtr_iff, fun a b => RuleBody.equalPtr_iff, ?_⟩
  · intro a b ha hb
    cases a <;> cases b <;> simp [Term.equalPtr]
    rename_i f g
    exact Term.equal_iff (ha f rfl)
  · intro a b ha hb
    cases a <;> cases b <;> simp [TState.equalPtr]
    rename_i f g
    exact TState.equal_iff' (ha f rfl) (hb g rfl)

/-- a state with range, flags and nested semantics is covered -/
def exState : TState :=
  { term := ⟨"x", .list, .range 1 2⟩,
    rb := some ⟨[⟨"foo", .terminal, .flags "il"⟩],
      some (.mk "f" [.mk "func" (.fmr (.mk "g" [.mk "int" (.bigInt 3), .mk "context" (.str "@")])),
        .mk "index" (.int 1), .mk "string" (.str "s"), .mk "float" (.bigFloat (1/2))])⟩,
    start := 1, stop := 4, dot := 2 }

example : exState.WF := by
  refine ⟨by simp [exState, Term.WF, Meta.WF], ?_⟩
  intro rb h
  simp only [exState, Option.some.injEq] at h
  subst h
  simp [RuleBody.WF, Term.WF, Meta.WF, FMR.WF, argsWF, Arg.WF, Val.WFFor]

example : exState.equal exState = true ∧ exState.equal { exState with dot := 1 } = false := by
  refine ⟨by decide +kernel, by decide +kernel⟩

/-! For arbitrary values `Equal` is still symmetric and transitive. -/

theorem metaEqual_trans {a b c : Meta} (h : metaEqual a b = true) (h' : metaEqual b c = true) :
    metaEqual a c = true := by
  rw [metaEqual_eq h]; exact h'

theorem Term.equal_trans {a b c : Term} (h : a.equal b = true) (h' : b.equal c = true) :
    a.equal c = true := by
  rw [Term.equal_eq h]; exact h'

theorem termsEqual_trans {a b c : List Term} (hl : a.length = b.length)
    (h : termsEqual a b = true) (h' : termsEqual b c = true) : termsEqual a c = true := by
  rw [termsEqual_eq hl h]; exact h'

theorem strValEqual_trans {a b c : Val} (h : strValEqual a b = true) (h' : strValEqual b c = true) :
    strValEqual a c = true := by
  cases a <;> cases b <;> cases c <;> simp_all [strValEqual]
theorem bigIntValEqual_trans {a b c : Val} (h : bigIntValEqual a b = true)
    (h' : bigIntValEqual b c = true) : bigIntValEqual a c = true := by
  cases a <;> cases b <;> cases c <;> simp_all [bigIntValEqual]
theorem bigFloatValEqual_trans {a b c : Val} (h : bigFloatValEqual a b = true)
    (h' : bigFloatValEqual b c = true) : bigFloatValEqual a c = true := by
  cases a <;> cases b <;> cases c <;> simp_all [bigFloatValEqual]
theorem intValEqual_trans {a b c : Val} (h : intValEqual a b = true) (h' : intValEqual b c = true) :
    intValEqual a c = true := by
  cases a <;> cases b <;> cases c <;> simp_all [intValEqual]

mutual
theorem fmrEqual_trans : ∀ {f g k : FMR}, f.equal g = true → g.equal k = true → f.equal k = true
  | .mk a as, .mk b bs, .mk c cs, h1, h2 => by
    simp only [FMR.equal] at *
    split at h1
    · simp at h1
    split at h1
    · simp at h1
    split at h2
    · simp at h2
    split at h2
    · simp at h2
    rename_i e1 l1 e2 l2
    have e1 : a = b := by simpa using e1
    have e2 : b = c := by simpa using e2
    have l1 : as.length = bs.length := by simpa using l1
    have l2 : bs.length = cs.length := by simpa using l2
    rw [if_neg (by simp [e1, e2]), if_neg (by simp [l1, l2])]
    exact argsEqual_trans l1 l2 h1 h2
theorem argsEqual_trans : ∀ {f g k : List Arg}, f.length = g.length → g.length = k.length →
    argsEqual f g = true → argsEqual g k = true → argsEqual f k = true
  | [], _, _, _, _, _, _ => rfl
  | a :: as, b :: bs, c :: cs, h1, h2, h3, h4 => by
    simp only [argsEqual, Bool.and_eq_true] at *
    exact ⟨argEqual_trans h3.1 h4.1, argsEqual_trans (by simpa using h1) (by simpa using h2) h3.2 h4.2⟩
theorem argEqual_trans : ∀ {a b c : Arg}, argEqual a b = true → argEqual b c = true →
    argEqual a c = true
  | .mk ta va, .mk tb vb, .mk tc vc, h1, h2 => by
    have e1 : tb = ta := by
      by_cases e : tb = ta
      · exact e
      · simp [argEqual, e] at h1
    have e2 : tc = tb := by
      by_cases e : tc = tb
      · exact e
      · simp [argEqual, e] at h2
    subst e1 e2
    have hv := @valFmrEqual_trans va vb vc
    simp only [argEqual] at *
    simp only [ne_eq, not_true_eq_false, if_false] at *
    split
    · rename_i e; rw [if_pos e] at h1 h2; exact strValEqual_trans h2 h1
    rename_i e; rw [if_neg e] at h1 h2
    split
    · rename_i e; rw [if_pos e] at h1 h2; exact bigIntValEqual_trans h2 h1
    rename_i e; rw [if_neg e] at h1 h2
    split
    · rename_i e; rw [if_pos e] at h1 h2; exact bigFloatValEqual_trans h2 h1
    rename_i e; rw [if_neg e] at h1 h2
    split
    · rename_i e; rw [if_pos e] at h1 h2; exact intValEqual_trans h2 h1
    rename_i e; rw [if_neg e] at h1 h2
    split
    · rename_i e; rw [if_pos e] at h1 h2; exact hv h1 h2
    · rfl
theorem valFmrEqual_trans : ∀ {a b c : Val}, valFmrEqual a b = true → valFmrEqual b c = true →
    valFmrEqual a c = true
  | a, b, c, h1, h2 => by
    cases a <;> cases b <;> simp [valFmrEqual] at h1 <;> cases c <;> simp [valFmrEqual] at h2 ⊢
    exact fmrEqual_trans h1 h2
end

theorem FMR.equalPtr_symm (a b : Option FMR) : FMR.equalPtr a b = FMR.equalPtr b a := by
  cases a <;> cases b <;> simp [FMR.equalPtr, fmrEqual_symm]

theorem FMR.equalPtr_trans {a b c : Option FMR} (h : FMR.equalPtr a b = true)
    (h' : FMR.equalPtr b c = true) : FMR.equalPtr a c = true := by
  cases a <;> cases b <;> simp [FMR.equalPtr] at h <;> cases c <;> simp [FMR.equalPtr] at h' ⊢
  exact fmrEqual_trans h h'

theorem RuleBody.equal_eq_and (a b : RuleBody) : a.equal b =
    (decide (b.terms.length = a.terms.length) && termsEqual a.terms b.terms && FMR.equalPtr a.f b.f) := by
  unfold RuleBody.equal
  by_cases h : b.terms.length = a.terms.length
  · cases h' : termsEqual a.terms b.terms <;> simp [h]
  · simp [h]

theorem RuleBody.equalPtr_symm (a b : Option RuleBody) :
    RuleBody.equalPtr a b = RuleBody.equalPtr b a := by
  cases a <;> cases b <;> simp only [RuleBody.equalPtr]
  rename_i f g
  rw [RuleBody.equal_eq_and, RuleBody.equal_eq_and, termsEqual_symm, FMR.equalPtr_symm]
  congr 2
  exact decide_eq_decide.2 ⟨Eq.symm, Eq.symm⟩

theorem RuleBody.equalPtr_trans {a b c : Option RuleBody} (h : RuleBody.equalPtr a b = true)
    (h' : RuleBody.equalPtr b c = true) : RuleBody.equalPtr a c = true := by
  cases a <;> cases b <;> simp [RuleBody.equalPtr] at h <;> cases c <;> simp [RuleBody.equalPtr] at h' ⊢
  rw [RuleBody.equal_eq_and] at *
  simp only [Bool.and_eq_true, decide_eq_true_eq] at *
  exact ⟨⟨h'.1.1.trans h.1.1, termsEqual_trans h.1.1.symm h.1.2 h'.1.2⟩, FMR.equalPtr_trans h.2 h'.2⟩

theorem TState.equal_eq_and (a b : TState) : a.equal b =
    (decide (a.start = b.start) && decide (a.stop = b.stop) && decide (a.dot = b.dot) &&
      RuleBody.equalPtr a.rb b.rb && a.term.equal b.term) := by
  unfold TState.equal
  by_cases h : a.start = b.start <;> by_cases h1 : a.stop = b.stop <;> by_cases h2 : a.dot = b.dot <;>
    cases RuleBody.equalPtr a.rb b.rb <;> simp [h, h1, h2]

/-- C22, the part that holds for all values, well-formed or not: each `Equal` is symmetric and
transitive. -/
theorem C22_symm_trans :
    (∀ a b : Option Term, Term.equalPtr a b = Term.equalPtr b a) ∧
    (∀ a b : Option FMR, FMR.equalPtr a b = FMR.equalPtr b a) ∧
    (∀ a b : Option RuleBody, RuleBody.equalPtr a b = RuleBody.equalPtr b a) ∧
    (∀ a b : Option TState, TState.equalPtr a b = TState.equalPtr b a) ∧
    (∀ a b c : Option Term, Term.equalPtr a b = true → Term.equalPtr b c = true →
      Term.equalPtr a c = true) ∧
    (∀ a b c : Option FMR, FMR.equalPtr a b = true → FMR.equalPtr b c = true →
      FMR.equalPtr a c = true) ∧
    (∀ a b c : Option RuleBody, RuleBody.equalPtr a b = true → RuleBody.equalPtr b c = true →
      RuleBody.equalPtr a c = true) ∧
    (∀ a b c : Option TState, TState.equalPtr a b = true → TState.equalPtr b c = true →
      TState.equalPtr a c = true) := by
  refine ⟨?_, FMR.equalPtr_symm, RuleBody.equalPtr_symm, ?_, ?_, fun _ _ _ => FMR.equalPtr_trans,
    fun _ _ _ => RuleBody.equalPtr_trans, ?_⟩
  · intro a b
    cases a <;> cases b <;> simp [Term.equalPtr, Term.equal_symm]
  · intro a b
    cases a <;> cases b <;> simp only [TState.equalPtr]
    rename_i s t
    rw [TState.equal_eq_and, TState.equal_eq_and, RuleBody.equalPtr_symm, Term.equal_symm]
    congr 1; congr 1; congr 1; congr 1
    all_goals exact decide_eq_decide.2 ⟨Eq.symm, Eq.symm⟩
  · intro a b c h h'
    cases a <;> cases b <;> simp [Term.equalPtr] at h <;> cases c <;> simp [Term.equalPtr] at h' ⊢
    exact Term.equal_trans h h'
  · intro a b c h h'
    cases a <;> cases b <;> simp [TState.equalPtr] at h <;> cases c <;> simp [TState.equalPtr] at h' ⊢
    rw [TState.equal_eq_and] at *
    simp only [Bool.and_eq_true, decide_eq_true_eq] at *
    exact ⟨⟨⟨⟨h.1.1.1.1.trans h'.1.1.1.1, h.1.1.1.2.trans h'.1.1.1.2⟩, h.1.1.2.trans h'.1.1.2⟩,
      RuleBody.equalPtr_trans h.1.2 h'.1.2⟩, Term.equal_trans h.2 h'.2⟩

mutual
theorem fmrEqual_same : ∀ (f g : FMR), f.equal g = true ↔ FmrSame f g
  | .mk fn as, .mk gn bs => by
    have h := argsEqual_same as bs
    simp only [FMR.equal]
    constructor
    · intro e
      split at e
      · simp at e
      · split at e
        · simp at e
        · rename_i h1 h2
          obtain rfl : fn = gn := by simpa using h1
          exact .mk (h.1 ⟨by simpa using h2, e⟩)
    · rintro ⟨h1⟩
      obtain ⟨h2, h3⟩ := h.2 h1
      simp [h2, h3]
theorem argsEqual_same : ∀ (as bs : List Arg), (as.length = bs.length ∧ argsEqual as bs = true) ↔ ArgsSame as bs
  | [], [] => by simp [argsEqual, ArgsSame.nil]
  | [], _ :: _ => ⟨fun h => by simp at h, fun h => by cases h⟩
  | _ :: _, [] => ⟨fun h => by simp at h, fun h => by cases h⟩
  | a :: as, b :: bs => by
    have h1 := argEqual_same a b
    have h2 := argsEqual_same as bs
    simp only [argsEqual, Bool.and_eq_true, List.length_cons, Nat.add_right_cancel_iff]
    constructor
    · rintro ⟨e, e1, e2⟩
      exact .cons (h1.1 e1) (h2.1 ⟨e, e2⟩)
    · rintro (_ | ⟨e1, e2⟩)
      exact ⟨(h2.2 e2).1, h1.2 e1, (h2.2 e2).2⟩
theorem argEqual_same : ∀ (a b : Arg), argEqual a b = true ↔ ArgSame a b
  | .mk ta va, .mk tb vb => by
    have hv := valFmrEqual_same va vb
    simp only [argEqual]
    constructor
    · intro h
      split at h
      · simp at h
      rename_i ht
      obtain rfl : tb = ta := by simpa using ht
      split at h
      · rename_i e
        subst e
        cases va <;> cases vb <;> simp [strValEqual] at h
        subst h
        exact .string
      rename_i n1
      split at h
      · rename_i e
        subst e
        cases va <;> cases vb <;> simp [bigIntValEqual] at h
        subst h
        exact .int
      rename_i n2
      split at h
      · rename_i e
        subst e
        cases va <;> cases vb <;> simp [bigFloatValEqual] at h
        subst h
        exact .float
      rename_i n3
      split at h
      · rename_i e
        subst e
        cases va <;> cases vb <;> simp [intValEqual] at h
        subst h
        exact .index
      rename_i n4
      split at h
      · rename_i e
        subst e
        exact hv.1 h
      · rename_i n5
        exact .other (by simp [n1, n2, n3, n4, n5])
    · intro h
      cases h with
      | string => simp [strValEqual]
      | int => simp [bigIntValEqual]
      | float => simp [bigFloatValEqual]
      | index => simp [intValEqual]
      | func h => simpa using hv.2 (.func h)
      | nilFunc => simpa using hv.2 .nilFunc
      | other h =>
        simp only [List.mem_cons, List.not_mem_nil, or_false, not_or] at h
        simp [h]
theorem valFmrEqual_same : ∀ (a b : Val), valFmrEqual a b = true ↔ ArgSame (.mk "func" a) (.mk "func" b)
  | a, b => by
    constructor
    · intro h
      cases a <;> cases b <;> simp [valFmrEqual] at h
      · exact .func ((fmrEqual_same _ _).1 h)
      · exact .nilFunc
    · intro h
      generalize ha : Arg.mk "func" a = x at h
      generalize hb : Arg.mk "func" b = y at h
      cases h with
      | func h => cases ha; cases hb; exact (fmrEqual_same _ _).2 h
      | nilFunc => cases ha; cases hb; rfl
      | other h => cases ha; simp at h
      | _ => simp at ha
end

theorem Term.equal_same (t u : Term) : t.equal u = true ↔ TermSame t u := by
  constructor
  · intro h
    obtain rfl := Term.equal_eq h
    refine ⟨rfl, ?_⟩
    unfold Term.equal at h
    unfold Term.WF
    cases e : t.meta <;> simp [e, metaEqual, Meta.WF] at h ⊢
  · rintro ⟨rfl, h⟩
    exact (Term.equal_iff h).2 rfl

theorem termsEqual_same : ∀ (as bs : List Term), (bs.length = as.length ∧ termsEqual as bs = true) ↔ List.Forall₂ TermSame as bs
  | [], [] => by simp [termsEqual]
  | [], _ :: _ => by simp
  | _ :: _, [] => by simp
  | a :: as, b :: bs => by
    simp only [List.length_cons, Nat.add_right_cancel_iff, termsEqual, Bool.and_eq_true, List.forall₂_cons, ← termsEqual_same as bs,
      Term.equal_symm b a, Term.equal_same]
    tauto

theorem FMR.equalPtr_same (a b : Option FMR) : FMR.equalPtr a b = true ↔ PtrSame FmrSame a b := by
  cases a <;> cases b <;> simp [FMR.equalPtr, PtrSame, fmrEqual_same]

theorem RuleBody.equalPtr_same (a b : Option RuleBody) : RuleBody.equalPtr a b = true ↔ PtrSame BodySame a b := by
  cases a <;> cases b <;> simp only [RuleBody.equalPtr, PtrSame, Bool.false_eq_true]
  rw [RuleBody.equal_eq_and]
  simp only [Bool.and_eq_true, decide_eq_true_eq, termsEqual_same, FMR.equalPtr_same, BodySame]

/-- C22 for all values: what each `Equal` compares. The values behind argument tags that are not known are not
compared, and nothing of a foreign dynamic type is equal to anything behind a known tag or as a meta. -/
theorem C22_decides :
    (∀ a b : Option Term, Term.equalPtr a b = true ↔ PtrSame TermSame a b) ∧
    (∀ a b : Option FMR, FMR.equalPtr a b = true ↔ PtrSame FmrSame a b) ∧
    (∀ a b : Option RuleBody, RuleBody.equalPtr a b = true ↔ PtrSame BodySame a b) ∧
    (∀ a b : Option TState, TState.equalPtr a b = true ↔ PtrSame (fun s t => s.start = t.start ∧ s.stop = t.stop ∧
      s.dot = t.dot ∧ PtrSame BodySame s.rb t.rb ∧ TermSame s.term t.term) a b) := by
  refine ⟨fun a b => ?_, FMR.equalPtr_same, RuleBody.equalPtr_same, fun a b => ?_⟩
  · cases a <;> cases b <;> simp [Term.equalPtr, PtrSame, Term.equal_same]
  · cases a <;> cases b <;> first | exact ⟨fun h => by simp [TState.equalPtr] at h, fun h => h.elim⟩ | skip
    · exact ⟨fun _ => trivial, fun _ => rfl⟩
    rename_i s t
    show s.equal t = true ↔ _ ∧ _
    rw [TState.equal_eq_and]
    simp only [Bool.and_eq_true, decide_eq_true_eq, RuleBody.equalPtr_same, Term.equal_same, and_assoc]

/-- nil functions as arguments are equal, and different from others -/
example : (FMR.mk "f" [.mk "func" .nilFmr]).equal (.mk "f" [.mk "func" .nilFmr]) = true ∧
    ¬ FmrSame (.mk "f" [.mk "func" .nilFmr]) (.mk "f" [.mk "func" (.fmr (.mk "g" []))]) := by
  refine ⟨by decide +kernel, fun h => ?_⟩
  rw [← fmrEqual_same] at h
  exact absurd h (by decide +kernel)

/-- `Equal` is not reflexive on a term with a foreign Meta, nor on a "string" argument holding a
non-string (as localGrammar builds from a tagger's values), and it identifies different values behind
an unknown argument type. -/
theorem C22_foreign :
    (⟨"x", .any, .other 0⟩ : Term).equal ⟨"x", .any, .other 0⟩ = false ∧
    (FMR.mk "f" [.mk "string" (.other 0)]).equal (.mk "f" [.mk "string" (.other 0)]) = false ∧
    (FMR.mk "f" [.mk "blob" (.str "a")]).equal (.mk "f" [.mk "blob" (.str "b")]) = true := by
  refine ⟨by decide, by decide +kernel, by decide +kernel⟩

theorem C22_false : ¬ C22_statement := by
  intro h
  have := (h.1 (some ⟨"x", .any, .other 0⟩) (some ⟨"x", .any, .other 0⟩)).2 rfl
  simp [Term.equalPtr, C22_foreign.1] at this

/-! ## C23 -/

/-- Specification of terminal matching: one clause per documented case.
`reg` is the token the registry holds for the literal. -/
inductive TerminalMatches (lower : String → String) (reg : String → Option Token) :
    Term → Token → Prop
  /-- no flags: same text -/
  | plain {lit : String} {a : Token} : lit = a.text →
      TerminalMatches lower reg ⟨lit, .terminal, .nil⟩ a
  /-- a literal the registry does not know: same text -/
  | unknown {lit : String} {m : Meta} {a : Token} : reg lit = none → lit = a.text →
      TerminalMatches lower reg ⟨lit, .terminal, m⟩ a
  /-- flag l: same lemma -/
  | lemma_ {lit fl : String} {a t : Token} : 'l' ∈ fl.toList → reg lit = some t →
      t.lemma_ = a.lemma_ → TerminalMatches lower reg ⟨lit, .terminal, .flags fl⟩ a
  /-- flag i without l: same norm, ignoring case -/
  | ignoreCase {lit fl : String} {a t : Token} : 'l' ∉ fl.toList → 'i' ∈ fl.toList → reg lit = some t →
      lower t.norm = lower a.norm → TerminalMatches lower reg ⟨lit, .terminal, .flags fl⟩ a

/-- C23: `terminalMatch` decides exactly this relation; nil never matches. -/
theorem C23_terminalMatch (lower : String → String) (reg : String → Option Token) :
    (∀ term token, terminalMatch lower reg term token = true ↔ TerminalMatches lower reg term token) ∧
    (∀ token, terminalMatchPtr lower reg none token = false) ∧
    (∀ term, terminalMatchPtr lower reg term none = false) := by
  refine ⟨?_, fun _ => rfl, fun t => by cases t <;> rfl⟩
  rintro ⟨lit, ty, m⟩ a
  constructor
  · intro h
    unfold terminalMatch at h
    split at h
    · simp at h
    rename_i hty
    have hty : ty = .terminal := by simpa using hty
    subst hty
    split at h
    · rename_i hm
      simp only at hm
      subst hm
      exact .plain (by simpa using h)
    · rename_i hg _
      exact .unknown hg (by simpa using h)
    · rename_i t hg _
      cases m with
      | flags fl =>
        simp only [hasFlag, List.contains_iff_mem] at h
        by_cases h1 : 'l' ∈ fl.toList
        · simp only [h1, if_true, beq_iff_eq] at h
          exact .lemma_ h1 hg h
        · by_cases h2 : 'i' ∈ fl.toList
          · simp only [h1, h2, if_true, if_false, beq_iff_eq] at h
            exact .ignoreCase h1 h2 hg h
          · simp [h1, h2] at h
      | _ => simp [hasFlag] at h
  · intro h
    cases h with
    | plain h => simp [terminalMatch, h]
    | unknown hr h =>
      unfold terminalMatch
      simp only [ne_eq, not_true_eq_false, if_false, hr]
      cases m <;> simp [h]
    | lemma_ hl hr h => simp [terminalMatch, hr, hasFlag, hl, h]
    | ignoreCase hl hi hr h => simp [terminalMatch, hr, hasFlag, hl, hi, h]

/-- The documented reading, for a literal known to the registry (every literal of a loaded grammar,
C51): no flags = same text; l = same lemma; i = same norm; other flags match nothing;
non-terminals match nothing. -/
theorem C23_decision (lower : String → String) (reg : String → Option Token) (lit : String)
    (t a : Token) (hreg : reg lit = some t) :
    (terminalMatch lower reg ⟨lit, .terminal, .nil⟩ a = true ↔ lit = a.text) ∧
    (∀ fl : String, 'l' ∈ fl.toList →
      (terminalMatch lower reg ⟨lit, .terminal, .flags fl⟩ a = true ↔ t.lemma_ = a.lemma_)) ∧
    (∀ fl : String, 'l' ∉ fl.toList → 'i' ∈ fl.toList →
      (terminalMatch lower reg ⟨lit, .terminal, .flags fl⟩ a = true ↔ lower t.norm = lower a.norm)) ∧
    (∀ fl : String, 'l' ∉ fl.toList → 'i' ∉ fl.toList →
      terminalMatch lower reg ⟨lit, .terminal, .flags fl⟩ a = false) ∧
    (∀ ty m, ty ≠ TermType.terminal → terminalMatch lower reg ⟨lit, ty, m⟩ a = false) := by
  refine ⟨?_, ?_, ?_, ?_, ?_⟩
  · simp [terminalMatch]
  · intro fl h; simp [terminalMatch, hreg, hasFlag, h]
  · intro fl h h'; simp [terminalMatch, hreg, hasFlag, h, h']
  · intro fl h h'; simp [terminalMatch, hreg, hasFlag, h, h']
  · intro ty m h; simp [terminalMatch, h]

/-- "going" with flag l matches "went", with flag i it matches "Going" only, with flag f nothing -/
example :
    let going : Token := { text := "going", lemma_ := "go", norm := "going" }
    let went : Token := { text := "went", lemma_ := "go", norm := "went" }
    let reg : String → Option Token := fun s => if s = "going" then some going else none
    reg "going" = some going ∧ 'l' ∈ "il".toList ∧
    terminalMatch id reg ⟨"going", .terminal, .flags "il"⟩ went = true ∧
    terminalMatch id reg ⟨"going", .terminal, .flags "i"⟩ went = false ∧
    terminalMatch id reg ⟨"going", .terminal, .flags "f"⟩ going = false := by
  decide +kernel

end Fmr
