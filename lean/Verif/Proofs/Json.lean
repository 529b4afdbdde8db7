import Verif.Spec.Json
import Verif.Props.TextMeaning

/-!
# Parsing with a grammar read from JSON
-/

namespace Fmr

theorem lookup_mapVal {κ ν μ : Type} [BEq κ] (f : κ → ν → μ) [LawfulBEq κ] (k : κ) : ∀ l : List (κ × ν),
    (l.map (fun e => (e.1, f e.1 e.2))).lookup k = (l.lookup k).map (f k)
  | [] => rfl
  | (k', v) :: l => by
    rw [List.map_cons, List.lookup_cons, List.lookup_cons]
    cases h : k == k' with
    | true => rw [eq_of_beq h]; rfl
    | false => exact lookup_mapVal f k l

/-! ## Names of states -/

/-- what holds of every state when no rule is named like a start rule -/
structure Mute (env : Env) (s : TState) : Prop where
  name : s.term.type = .nonterminal → (s.term.value = gammaRule ∧ s.dot = 0 ∧ ∃ S ∈ env.starts, s.rb = (gammaState S).rb) ∨
    ∃ g ∈ env.grammars, ∃ A r, lookupRule g A = some r ∧ s.term.value = r.name
  special : s.term.type ≠ .nonterminal → s.term.value ≠ gammaRule
  terms : ∀ t ∈ s.bodyTerms, t.type ≠ .nonterminal → t.value ≠ gammaRule

/-- no rule is named like a start rule or like the start itself, and no term but a rule is called like the start -/
structure Unnamed (env : Env) : Prop where
  start : gammaRule ∉ env.starts
  names : ∀ g ∈ env.grammars, ∀ A r, lookupRule g A = some r → r.name ∉ env.starts ∧ r.name ≠ gammaRule
  terms : ∀ g ∈ env.grammars, ∀ A r, lookupRule g A = some r → ∀ b ∈ r.bodies, ∀ t ∈ b.terms, t.type ≠ .nonterminal → t.value ≠ gammaRule

theorem placed_fields (i : Nat) (s : TState) : (s.placed i).term = s.term ∧ (s.placed i).rb = s.rb ∧
    (s.term.type ≠ .any → (s.placed i).dot = s.dot) := by
  unfold TState.placed
  simp only
  split
  · rename_i h; exact ⟨rfl, rfl, fun h' => absurd h h'⟩
  · exact ⟨rfl, rfl, fun _ => rfl⟩

theorem mute_placed {env : Env} {i : Nat} {s : TState} (h : Mute env s) : Mute env (s.placed i) := by
  obtain ⟨h1, h2, h3⟩ := placed_fields i s
  have hb : (s.placed i).bodyTerms = s.bodyTerms := by unfold TState.bodyTerms; rw [h2]
  refine ⟨?_, ?_, ?_⟩
  · rw [h1, h2]
    intro hk
    rw [h3 (by rw [hk]; simp)]
    exact h.name hk
  · rw [h1]; exact h.special
  · rw [hb]; exact h.terms

theorem item_mute {env : Env} (hu : Unnamed env) {i : Nat} {s : TState} (h : Item env i s) : Mute env s := by
  induction h with
  | @init S hS =>
    refine ⟨fun _ => .inl ⟨rfl, rfl, S, hS, rfl⟩, fun h => absurd rfl h, ?_⟩
    intro t ht
    simp only [gammaState, TState.bodyTerms, List.mem_singleton] at ht
    subst ht
    exact fun h => absurd rfl h
  | @predNT i st t g r rb hst hty hn htt hg hr hrb ih =>
    refine mute_placed ⟨fun _ => .inr ⟨g, hg, _, r, hr, rfl⟩, fun h => absurd rfl h, ?_⟩
    exact hu.terms g hg _ r hr rb hrb
  | @predAL i st t hst hty hn htt ih =>
    have htn : t.type ≠ .nonterminal := by rcases htt with h | h <;> rw [h] <;> simp
    refine mute_placed ⟨fun h => absurd h htn, ?_, by simp [predictedSpecial, TState.bodyTerms]⟩
    intro _
    by_cases hl : st.term.type = .list
    · rw [(next_list hl hn).1] at htn
      exact absurd rfl htn
    · exact ih.terms t (List.mem_of_getElem? (next_nt hty hl hn)) htn
  | scanAny hst hty hn hi ih =>
    refine mute_placed ⟨fun h => by simp [scannedAny] at h, fun _ => by simp only [scannedAny]; decide, ih.terms⟩
  | @scanT i st t tok hst hty hn htt htok hm ih =>
    refine mute_placed ⟨fun hk => ?_, ih.special, ih.terms⟩
    rcases ih.name hk with ⟨h1, h2, S, hS, h3⟩ | h
    · have hk' : st.term.type = .nonterminal := hk
      have := next_nt hty (by rw [hk']; simp) hn
      unfold TState.bodyTerms at this
      rw [h3, h2] at this
      simp only [gammaState, List.getElem?_cons_zero, Option.some.injEq] at this
      rw [← this] at htt
      simp at htt
    · exact .inr h
  | @comp k i st s t hst hs hc hss hn hcs ih ih' =>
    refine mute_placed ⟨fun hk => ?_, ih.special, ih.terms⟩
    have hk' : st.term.type = .nonterminal := hk
    rcases ih.name hk with ⟨h1, h2, S, hS, h3⟩ | h
    · exfalso
      have := next_nt (by rw [hk']; simp) (by rw [hk']; simp) hn
      unfold TState.bodyTerms at this
      rw [h3, h2] at this
      simp only [gammaState, List.getElem?_cons_zero, Option.some.injEq] at this
      subst this
      simp only [completes, Bool.or_eq_true, Bool.and_eq_true, beq_iff_eq] at hcs
      rcases hcs with ⟨h, _⟩ | ⟨h4, h5⟩
      · simp at h
      · rcases ih'.name h4.symm with ⟨h6, _⟩ | ⟨g, hg, A, r, hr, h6⟩
        · rw [h6] at h5
          exact hu.start (h5 ▸ hS)
        · rw [h6] at h5
          exact (hu.names g hg A r hr).1 (h5 ▸ hS)
    · exact .inr h

/-- Then nothing matches. -/
theorem no_finals {env : Env} (ho : env.OrdOK) (hu : Unnamed env) {flag : Bool} {fuel : Nat} {res : ParseResult}
    (h : parse env flag fuel = some res) : res.finals = [] := by
  unfold parse at h
  split at h
  · rw [← Option.some.inj h]
  · cases hc : chartOf env fuel with
    | none => rw [hc] at h; simp at h
    | some chart =>
      rw [hc] at h
      simp only [Option.some.injEq] at h
      rw [← h]
      have key : finalsAll chart = [] := by
        rw [List.eq_nil_iff_forall_not_mem]
        intro s hs
        obtain ⟨⟨c, hc1, hc2⟩, hf⟩ := mem_finalsAll.1 hs
        obtain ⟨k, hk⟩ := List.getElem?_of_mem hc1
        have hm := item_mute hu ((chartOf_inv ho hc).1 k c hk s hc2)
        simp only [TState.isFinal, Bool.and_eq_true, beq_iff_eq] at hf
        by_cases hn : s.term.type = .nonterminal
        · rcases hm.name hn with ⟨-, h2, S, -, h3⟩ | ⟨g, hg, A, r, hr, h3⟩
          · have := (completed_nt (by rw [hn]; simp) (by rw [hn]; simp)).1 hf.2
            unfold TState.bodyTerms at this
            rw [h3, h2] at this
            simp [gammaState] at this
          · exact (hu.names g hg A r hr).2 (h3 ▸ hf.1)
        · exact hm.special hn hf.1
      unfold finalsOf
      split <;> simp [key]

/-! ## A body that equals none -/

theorem any_false {l : List TState} {p : TState → Bool} (h : ∀ x, p x = false) : l.any p = false := by
  simp [h]

theorem insert_fresh {i : Nat} {l : List TState} {s : TState} {b : RuleBody} (hb : ∀ x : RuleBody, x.equal b = false)
    (hs : s.rb = some b) : insert i l s = l ++ [s.placed i] := by
  rw [insert_eq, any_false, if_neg (by simp)]
  intro x
  have : (s.placed i).rb = some b := by
    unfold TState.placed
    simp only
    split <;> exact hs
  unfold TState.equal
  rw [this]
  cases hx : x.rb with
  | none => simp [RuleBody.equalPtr]
  | some y => simp [RuleBody.equalPtr, hb]

/-- a state that waits for `A` -/
def Awaits (A : String) (s : TState) : Prop :=
  s.term.type ≠ .any ∧ ∃ t, s.getNextTerm = some t ∧ t.type = .nonterminal ∧ t.value = A

section
variable {env : Env} {A : String} {g : Grammar} {r : Rule} {b : RuleBody}

theorem awaits_predicted (ht : ∃ t ts, b.terms = t :: ts ∧ t.type = .nonterminal ∧ t.value = A) (name : String) (i : Nat) :
    Awaits A ((predicted name b i).placed i) := by
  obtain ⟨t, ts, h1, h2, h3⟩ := ht
  have hp : (predicted name b i).placed i = { predicted name b i with stop := i } := by
    unfold TState.placed
    simp [predicted]
  rw [hp]
  refine ⟨by simp [predicted], t, ?_, h2, h3⟩
  simp [TState.getNextTerm, TState.isCompleted, TState.bodyTerms, predicted, h1]

theorem foldl_fresh {i : Nat} {name : String} (hb : ∀ x : RuleBody, x.equal b = false) : ∀ (bs : List RuleBody) (l : List TState), b ∈ bs →
    ∃ k, l.length ≤ k ∧ (bs.foldl (fun acc prod => insert i acc (predicted name prod i)) l)[k]? = some ((predicted name b i).placed i)
  | [], _, h => by simp at h
  | x :: bs, l, h => by
    rw [List.foldl_cons]
    have hpre : ∀ (bs : List RuleBody) (l : List TState),
        l <+: bs.foldl (fun acc prod => insert i acc (predicted name prod i)) l := by
      intro bs
      induction bs with
      | nil => intro l; exact List.prefix_rfl
      | cons y bs ih => intro l; exact (insert_prefix _ _ _).trans (ih _)
    by_cases hx : b ∈ bs
    · obtain ⟨k, h1, h2⟩ := foldl_fresh (i := i) (name := name) hb bs (insert i l (predicted name x i)) hx
      exact ⟨k, (insert_prefix _ _ _).length_le.trans h1, h2⟩
    · have hxb : x = b := by
        rcases List.mem_cons.1 h with h | h
        · exact h.symm
        · exact absurd h hx
      subst hxb
      refine ⟨l.length, le_refl _, ?_⟩
      have h1 := hpre bs (insert i l (predicted name x i))
      rw [insert_fresh hb rfl] at h1 ⊢
      obtain ⟨m, hm⟩ := h1
      rw [← hm]
      simp

theorem predictAll_fresh {order : Nat → List RuleBody → List RuleBody} (ho : ∀ k l, (order k l).Perm l)
    (hr : lookupRule g A = some r) (hbr : b ∈ r.bodies) (hb : ∀ x : RuleBody, x.equal b = false) {i : Nat} {t : Term} (ht : t.value = A) :
    ∀ (k : Nat) (gs : List Grammar) (l : List TState), g ∈ gs →
    ∃ m, l.length ≤ m ∧ (predictAll order i t k gs l)[m]? = some ((predicted r.name b i).placed i)
  | _, [], _, h => by simp at h
  | k, g' :: gs, l, h => by
    rw [predictAll]
    rcases List.mem_cons.1 h with rfl | h
    · have hp : predictG g (order k) i l t = (order k r.bodies).foldl (fun acc prod => insert i acc (predicted r.name prod i)) l := by
        unfold predictG
        rw [ht, hr]
      obtain ⟨m, h1, h2⟩ := foldl_fresh (i := i) (name := r.name) hb (order k r.bodies) l ((ho k _).mem_iff.2 hbr)
      rw [← hp] at h2
      obtain ⟨z, hz⟩ := predictAll_prefix order i t (k+1) gs (predictG g (order k) i l t)
      refine ⟨m, h1, ?_⟩
      rw [← hz, List.getElem?_append_left (List.getElem?_eq_some_iff.1 h2).1, h2]
    · obtain ⟨m, h1, h2⟩ := predictAll_fresh ho hr hbr hb ht (k+1) gs (predictG g' (order k) i l t) h
      exact ⟨m, (predictG_prefix _ _ _ _ _).length_le.trans h1, h2⟩

theorem runCol_forever (ho : env.OrdOK) (hg : g ∈ env.grammars) (hr : lookupRule g A = some r) (hbr : b ∈ r.bodies)
    (hb : ∀ x : RuleBody, x.equal b = false) (ht : ∃ t ts, b.terms = t :: ts ∧ t.type = .nonterminal ∧ t.value = A)
    (done : List (List TState)) (tok : Option Token) : ∀ (fuel row : Nat) (cur next : List TState),
    (∃ k, row ≤ k ∧ ∃ s, cur[k]? = some s ∧ Awaits A s) → runCol env done tok fuel row cur next = none
  | 0, _, _, _, _ => rfl
  | fuel+1, row, cur, next, ⟨k, hk, s, hs, ha⟩ => by
    unfold runCol
    cases hc : cur[row]? with
    | none =>
      have := (List.getElem?_eq_some_iff.1 hs).1
      rw [List.getElem?_eq_none_iff] at hc
      omega
    | some st =>
      simp only
      refine runCol_forever ho hg hr hbr hb ht done tok fuel (row+1) _ _ ?_
      rcases Nat.eq_or_lt_of_le hk with rfl | hlt
      · rw [hs] at hc
        cases hc
        obtain ⟨h1, t, h2, h3, h4⟩ := ha
        rw [processRow_pred h2 h1 (by rw [h3]; simp)]
        have hp : predict env done.length row (afterComplete done s cur) t =
            predictAll (env.ord done.length row) done.length t 0 env.grammars (afterComplete done s cur) := by
          unfold predict
          rw [h3]
        obtain ⟨m, h5, h6⟩ := predictAll_fresh (order := env.ord done.length row) (fun k l => ho _ _ k l) hr hbr hb h4
          (i := done.length) 0 env.grammars (afterComplete done s cur) hg
        refine ⟨m, ?_, _, by rw [hp]; exact h6, awaits_predicted ht _ _⟩
        have : cur.length ≤ (afterComplete done s cur).length := by
          unfold afterComplete
          split
          · exact (complete_prefix _ _ _ _).length_le
          · exact le_refl _
        have := (List.getElem?_eq_some_iff.1 hs).1
        omega
      · obtain ⟨z, hz⟩ := (processRow_prefix env done tok row st cur next).1
        refine ⟨k, hlt, s, ?_, ha⟩
        rw [← hz, List.getElem?_append_left (List.getElem?_eq_some_iff.1 hs).1, hs]

/-- With a left-recursive alternative that equals none, parsing never ends. -/
theorem parse_forever (ho : env.OrdOK) (hA : A ∈ env.starts) (hg : g ∈ env.grammars) (hr : lookupRule g A = some r) (hbr : b ∈ r.bodies)
    (hb : ∀ x : RuleBody, x.equal b = false) (ht : ∃ t ts, b.terms = t :: ts ∧ t.type = .nonterminal ∧ t.value = A)
    (flag : Bool) (fuel : Nat) : parse env flag fuel = none := by
  have hne : env.starts ≠ [] := List.ne_nil_of_mem hA
  have key : ∀ tok, runCol env [] tok fuel 0 (env.starts.map gammaState) [] = none := by
    intro tok
    refine runCol_forever ho hg hr hbr hb ht [] tok fuel 0 _ _ ?_
    obtain ⟨k, hk⟩ := List.getElem?_of_mem hA
    refine ⟨k, Nat.zero_le _, gammaState A, by rw [List.getElem?_map, hk]; rfl, by simp [gammaState], _, rfl, rfl, rfl⟩
  unfold parse
  rw [if_neg hne]
  have : chartOf env fuel = none := by
    unfold chartOf
    cases env.tokens with
    | nil => unfold runCols; rw [key]
    | cons t ts => unfold runCols; rw [key]
  rw [this]

end

/-! ## What the decoder leaves -/

theorem argsEqual_each : ∀ {as bs : List Arg}, as.length = bs.length → argsEqual as bs = true → ∀ b ∈ bs, ∃ a, argEqual a b = true
  | [], [], _, _, b, hb => by simp at hb
  | [], _ :: _, h, _, _, _ => by simp at h
  | _ :: _, [], h, _, _, _ => by simp at h
  | a :: as, b :: bs, h, he, c, hc => by
    rw [argsEqual, Bool.and_eq_true] at he
    rcases List.mem_cons.1 hc with rfl | hc
    · exact ⟨a, he.1⟩
    · exact argsEqual_each (by simpa using h) he.2 c hc

theorem termsEqual_each : ∀ {as bs : List Term}, as.length = bs.length → termsEqual as bs = true → ∀ b ∈ bs, ∃ a, b.equal a = true
  | [], [], _, _, b, hb => by simp at hb
  | [], _ :: _, h, _, _, _ => by simp at h
  | _ :: _, [], h, _, _, _ => by simp at h
  | a :: as, b :: bs, h, he, c, hc => by
    rw [termsEqual, Bool.and_eq_true] at he
    rcases List.mem_cons.1 hc with rfl | hc
    · exact ⟨a, he.1⟩
    · exact termsEqual_each (by simpa using h) he.2 c hc

/-- no argument equals the decoded form of a number, an index or a call -/
theorem arg_fresh {ft : Rat → String} {a : Arg} (h : a.type = "int" ∨ a.type = "float" ∨ a.type = "index" ∨ a.type = "func")
    (x : Arg) : argEqual x (a.json ft) = false := by
  obtain ⟨t, v⟩ := a
  obtain ⟨t', v'⟩ := x
  simp only [Arg.type] at h
  unfold Arg.json
  rw [argEqual]
  split
  · rfl
  · simp only [Arg.type, Arg.value]
    rcases h with rfl | rfl | rfl | rfl <;> cases v <;> cases v' <;>
      simp [Val.json, bigIntValEqual, bigFloatValEqual, intValEqual, valFmrEqual]

theorem body_fresh {ft : Rat → String} {b : RuleBody} (h : b.Delicate) (x : RuleBody) : x.equal (b.json ft) = false := by
  rw [← Bool.not_eq_true]
  intro he
  unfold RuleBody.equal at he
  split at he
  · simp at he
  · rename_i hl
    split at he
    · simp at he
    · rename_i hte
      rcases h with ⟨t, ht, m, n, hm⟩ | ⟨f, hf, a, ha, hty⟩
      · obtain ⟨u, hu⟩ := termsEqual_each (as := x.terms) (bs := (b.json ft).terms) (not_not.1 hl).symm (by simpa using hte) t.json (List.mem_map_of_mem ht)
        unfold Term.equal at hu
        split at hu
        · simp at hu
        · simp only [Term.json, hm, Meta.json] at hu
          cases hum : u.meta <;> rw [hum] at hu <;> simp [metaEqual] at hu
      · simp only [RuleBody.json, hf, Option.map_some] at he
        cases hx : x.f with
        | none => rw [hx] at he; simp [FMR.equalPtr] at he
        | some y =>
          rw [hx] at he
          obtain ⟨yn, ys⟩ := y
          simp only [FMR.equalPtr, FMR.json, FMR.equal] at he
          split at he
          · simp at he
          · split at he
            · simp at he
            · rename_i hlen
              obtain ⟨c, hc⟩ := argsEqual_each (by simpa using hlen) he _ (List.mem_map_of_mem ha)
              rw [arg_fresh hty] at hc
              simp at hc

/-- Alternatives of a loaded grammar are of one kind or the other. -/
theorem wordy_iff {b : RuleBody} (hwf : b.WF) : b.Wordy ↔ ¬ b.Delicate := by
  have harg : ∀ f, b.f = some f → ∀ a ∈ f.args, a.WF := by
    intro f hf
    obtain ⟨fn, as⟩ := f
    have h : argsWF as := hwf.2 _ hf
    clear hf
    simp only [FMR.args]
    induction as with
    | nil => simp
    | cons a as ih =>
      intro c hc
      rcases List.mem_cons.1 hc with rfl | hc
      · exact h.1
      · exact ih h.2 c hc
  constructor
  · rintro ⟨h1, h2⟩ (⟨t, ht, m, n, hm⟩ | ⟨f, hf, a, ha, hty⟩)
    · rcases h1 t ht with h | ⟨s, h⟩ <;> rw [h] at hm <;> cases hm
    · obtain ⟨s, hs⟩ := h2 f hf a ha
      have := harg f hf a ha
      obtain ⟨ty, v⟩ := a
      simp only [Arg.value] at hs
      subst hs
      simp only [Arg.WF, Val.WFFor] at this
      simp only [Arg.type] at hty
      rcases this with rfl | ⟨rfl, -⟩ <;> simp at hty
  · intro h
    constructor
    · intro t ht
      have hw : t.meta.WF := hwf.1 t ht
      cases hm : t.meta with
      | nil => exact .inl rfl
      | range m n => exact absurd (.inl ⟨t, ht, m, n, hm⟩) h
      | flags s => exact .inr ⟨s, rfl⟩
      | other k => rw [hm] at hw; exact hw.elim
    · intro f hf a ha
      have hw := harg f hf a ha
      have hn : ¬ (a.type = "int" ∨ a.type = "float" ∨ a.type = "index" ∨ a.type = "func") :=
        fun hty => h (.inr ⟨f, hf, a, ha, hty⟩)
      obtain ⟨ty, v⟩ := a
      simp only [Arg.type] at hn
      simp only [Arg.WF] at hw
      simp only [Arg.value]
      cases v <;> simp only [Val.WFFor] at hw <;> first | exact ⟨_, rfl⟩ | exact hw.elim | simp [hw] at hn

end Fmr
