import Verif.Spec.Frames
import Verif.Proofs.Maps

/-!
# Lemmas on the index and the candidate rules
-/

namespace Fmr

theorem Out.bind_eq_div {α β : Type} {x : Out α} {f : α → Out β} :
    (x >>= f) = .div ↔ x = .div ∨ ∃ a, x = .ok a ∧ f a = .div := by
  cases x <;> simp

/-- an outcome other than `ok` that no iteration has -/
theorem foldOut_ne {σ α : Type} {f : σ → α → Out σ} {x : Out σ} (hx : ∀ s, x ≠ .ok s) : ∀ {l : List α},
    (∀ a ∈ l, ∀ s, f s a ≠ x) → ∀ s, foldOut f s l ≠ x
  | [], _, s => fun h => hx s h.symm
  | a :: l, h, s => by
    rw [foldOut]
    have h1 := h a (by simp) s
    cases e : f s a with
    | ok s' =>
      rw [Out.bind_ok]
      exact foldOut_ne hx (l := l) (fun b hb => h b (by simp [hb])) s'
    | err => rw [e] at h1; exact h1
    | panic => rw [e] at h1; exact h1
    | div => rw [e] at h1; exact h1

theorem mem_setAdd {α : Type} [DecidableEq α] {l : List α} {a b : α} : b ∈ setAdd l a ↔ b ∈ l ∨ b = a := by
  unfold setAdd
  split
  · next h => exact ⟨.inl, fun o => o.elim id (fun e => e ▸ h)⟩
  · simp

theorem setAdd_nodup {α : Type} [DecidableEq α] {l : List α} (h : l.Nodup) (a : α) : (setAdd l a).Nodup := by
  unfold setAdd
  split
  · exact h
  · next hn => exact List.nodup_append.2 ⟨h, by simp, by rintro x hx y hy rfl; simp at hy; exact hn (hy ▸ hx)⟩

def Index.get (i : Index) : Cate → List RbKey
  | .frame => i.frames
  | .rule => i.rules

/-- `k` is in the entry of `s` -/
def InIndex (m : List (String × Index)) (c : Cate) (k : RbKey) (s : String) : Prop :=
  ∃ i, m.lookup s = some i ∧ k ∈ i.get c

theorem inIndex_update (m : List (String × Index)) (s : String) (c : Cate) (v : RbKey) (c' : Cate) (k : RbKey)
    (s' : String) : InIndex (updateIndex m s c v) c' k s' ↔ InIndex m c' k s' ∨ (c' = c ∧ k = v ∧ s' = s) := by
  unfold InIndex updateIndex
  simp only [lookup_mapSet]
  by_cases h : s' = s
  · subst h
    simp only [if_true, Option.some.injEq, exists_eq_left', and_true]
    cases c <;> cases c' <;> cases hm : m.lookup s' <;>
      simp [Index.get, mem_setAdd]
  · simp [h]

theorem dom_update (m : List (String × Index)) (s : String) (c : Cate) (v : RbKey) (s' : String) :
    ((updateIndex m s c v).lookup s').isSome ↔ (m.lookup s').isSome ∨ s' = s := by
  unfold updateIndex
  rw [lookup_mapSet]
  by_cases h : s' = s <;> simp [h]

/-- what a step adds to the index -/
structure Adds (a b : GIndex) (N : Cate → TermType → RbKey → String → Prop) : Prop where
  index : ∀ c k s, InIndex b.index c k s ↔ InIndex a.index c k s ∨ N c .terminal k s
  ruleIndex : ∀ c k s, InIndex b.ruleIndex c k s ↔ InIndex a.ruleIndex c k s ∨ N c .nonterminal k s
  trie : ∀ s, s ∈ b.trie ↔ s ∈ a.trie ∨ ∃ c k, N c .terminal k s
  dom : ∀ s, (b.index.lookup s).isSome ↔ (a.index.lookup s).isSome ∨ ∃ c k, N c .terminal k s
  ruleDom : ∀ s, (b.ruleIndex.lookup s).isSome ↔ (a.ruleIndex.lookup s).isSome ∨ ∃ c k, N c .nonterminal k s

theorem Adds.refl (a : GIndex) {N : Cate → TermType → RbKey → String → Prop}
    (h : ∀ c ty k s, ty = .terminal ∨ ty = .nonterminal → ¬ N c ty k s) : Adds a a N := by
  have h1 : ∀ c k s, ¬ N c .terminal k s := fun c k s => h c _ k s (.inl rfl)
  have h2 : ∀ c k s, ¬ N c .nonterminal k s := fun c k s => h c _ k s (.inr rfl)
  constructor <;> simp [h1, h2]

theorem Adds.trans {a b c : GIndex} {N M : Cate → TermType → RbKey → String → Prop} (h : Adds a b N)
    (h' : Adds b c M) : Adds a c (fun x ty k s => N x ty k s ∨ M x ty k s) := by
  constructor
  · intro x k s; rw [h'.index, h.index, or_assoc]
  · intro x k s; rw [h'.ruleIndex, h.ruleIndex, or_assoc]
  · intro s; rw [h'.trie, h.trie, or_assoc]; simp only [exists_or]
  · intro s; rw [h'.dom, h.dom, or_assoc]; simp only [exists_or]
  · intro s; rw [h'.ruleDom, h.ruleDom, or_assoc]; simp only [exists_or]

theorem Adds.congr {a b : GIndex} {N M : Cate → TermType → RbKey → String → Prop} (h : Adds a b N)
    (e : ∀ c ty k s, ty = .terminal ∨ ty = .nonterminal → (N c ty k s ↔ M c ty k s)) : Adds a b M := by
  constructor
  · intro x k s; rw [h.index, e _ _ _ _ (.inl rfl)]
  · intro x k s; rw [h.ruleIndex, e _ _ _ _ (.inr rfl)]
  · intro s; rw [h.trie]; simp only [e _ _ _ _ (.inl rfl)]
  · intro s; rw [h.dom]; simp only [e _ _ _ _ (.inl rfl)]
  · intro s; rw [h.ruleDom]; simp only [e _ _ _ _ (.inr rfl)]

theorem foldOut_adds {α : Type} {f : GIndex → α → Out GIndex} {N : α → Cate → TermType → RbKey → String → Prop}
    (hf : ∀ a s s', f s a = .ok s' → Adds s s' (N a)) : ∀ {l : List α} {s s' : GIndex},
    foldOut f s l = .ok s' → Adds s s' (fun c ty k x => ∃ a ∈ l, N a c ty k x)
  | [], s, s', h => by
    simp only [foldOut, Out.ok.injEq] at h
    subst h
    exact .refl _ (by simp)
  | a :: l, s, s', h => by
    simp only [foldOut, Out.bind_eq_ok] at h
    obtain ⟨s1, h1, h2⟩ := h
    exact ((hf a _ _ h1).trans (foldOut_adds hf h2)).congr (by simp)

theorem indexTerm_adds {w : IndexWorld} {c : Cate} {v : RbKey} {t : Term} {gi gi' : GIndex}
    (h : indexTerm w c v gi t = .ok gi') :
    Adds gi gi' (fun c' ty k s => s ≠ "" ∧ c' = c ∧ k = v ∧ t.type = ty ∧ w.trim t.value = s) := by
  unfold indexTerm at h
  simp only at h
  split at h
  · next h0 =>
    cases h
    exact .refl _ (by rintro c ty k s _ ⟨h1, _, _, _, h2⟩; exact h1 (h2 ▸ h0))
  · next h0 =>
    split at h
    · next ht =>
      split at h
      · cases h
        constructor
        · intro c' k s
          simp only [inIndex_update, ht, true_and]
          constructor
          · rintro (h | ⟨h1, h2, h3⟩)
            · exact .inl h
            · exact .inr ⟨h3 ▸ h0, h1, h2, h3.symm⟩
          · rintro (h | ⟨_, h1, h2, h3⟩)
            · exact .inl h
            · exact .inr ⟨h1, h2, h3.symm⟩
        · intro c' k s; simp [ht]
        · intro s
          simp only [mem_setAdd, ht, true_and]
          constructor
          · rintro (h | rfl)
            · exact .inl h
            · exact .inr ⟨c, v, h0, rfl, rfl, rfl⟩
          · rintro (h | ⟨_, _, _, _, _, h⟩)
            · exact .inl h
            · exact .inr h.symm
        · intro s
          simp only [dom_update, ht, true_and]
          constructor
          · rintro (h | rfl)
            · exact .inl h
            · exact .inr ⟨c, v, h0, rfl, rfl, rfl⟩
          · rintro (h | ⟨_, _, _, _, _, h⟩)
            · exact .inl h
            · exact .inr h.symm
        · intro s; simp [ht]
      · simp at h
    · next ht =>
      cases h
      constructor
      · intro c' k s; simp [ht]
      · intro c' k s
        simp only [inIndex_update, ht, true_and]
        constructor
        · rintro (h | ⟨h1, h2, h3⟩)
          · exact .inl h
          · exact .inr ⟨h3 ▸ h0, h1, h2, h3.symm⟩
        · rintro (h | ⟨_, h1, h2, h3⟩)
          · exact .inl h
          · exact .inr ⟨h1, h2, h3.symm⟩
      · intro s; simp [ht]
      · intro s; simp [ht]
      · intro s
        simp only [dom_update, ht, true_and]
        constructor
        · rintro (h | rfl)
          · exact .inl h
          · exact .inr ⟨c, v, h0, rfl, rfl, rfl⟩
        · rintro (h | ⟨_, _, _, _, _, h⟩)
          · exact .inl h
          · exact .inr h.symm
    · next h1 h2 =>
      cases h
      refine .refl _ ?_
      rintro c ty k s (rfl | rfl) ⟨_, _, _, h3, _⟩
      · exact h1 h3
      · exact h2 h3

theorem indexRules_adds {w : IndexWorld} {c : Cate} {rules : List (String × Rule)} {gi gi' : GIndex}
    (h : indexRules w c rules gi = .ok gi') :
    Adds gi gi' (fun c' ty k s => ∃ e ∈ rules, ∃ b ∈ e.2.body, ∃ t ∈ b.2.terms,
      s ≠ "" ∧ c' = c ∧ k = ⟨e.2.name, b.1⟩ ∧ t.type = ty ∧ w.trim t.value = s) :=
  foldOut_adds (fun _ _ _ h => foldOut_adds (fun _ _ _ h => foldOut_adds (fun _ _ _ h => indexTerm_adds h) h) h) h

/-- C37 for the index as built. -/
theorem buildIndex_spec {w : IndexWorld} {g : Gram} {gi : GIndex} (h : buildIndex w g = .ok gi) :
    Adds {} gi (fun c ty k s => g.Has w.trim c ty k s) := by
  unfold buildIndex at h
  split at h
  · simp at h
  · refine (foldOut_adds (N := fun (ig : Grammar) c ty k s => ∃ e ∈ ig.defs c, ∃ b ∈ e.2.body, ∃ t ∈ b.2.terms,
      s ≠ "" ∧ k = ⟨e.2.name, b.1⟩ ∧ t.type = ty ∧ w.trim t.value = s) (fun ig s s' h => ?_) h).congr ?_
    · simp only [Out.bind_eq_ok] at h
      obtain ⟨s1, h1, h2⟩ := h
      refine ((indexRules_adds h1).trans (indexRules_adds h2)).congr ?_
      intro c ty k s _
      cases c <;> simp [Grammar.defs]
    · intro c ty k s _
      unfold Gram.Has Gram.Body
      constructor
      · rintro ⟨ig, hig, e, he, b, hb, t, ht, h1, rfl, h3, h4⟩
        exact ⟨h1, b.2, ⟨ig, hig, e, he, rfl, hb⟩, t, ht, h3, h4⟩
      · rintro ⟨h1, rb, ⟨ig, hig, e, he, h5, hb⟩, t, ht, h3, h4⟩
        refine ⟨ig, hig, e, he, _, hb, t, ht, h1, ?_, h3, h4⟩
        rw [← h5]

/-! ## candidate rules -/

/-- what a fold of `enqueue` does -/
theorem enqueue_spec : ∀ (ks : List RbKey) (st : List String × List String),
    ∃ new : List String, ks.foldl enqueue st = (st.1 ++ new, st.2 ++ new) ∧ new.Nodup ∧
      ∀ A, A ∈ new ↔ A ∉ st.2 ∧ ∃ k ∈ ks, k.ruleName = A
  | [], st => ⟨[], by simp⟩
  | k :: ks, st => by
    by_cases hk : k.ruleName ∈ st.2
    · obtain ⟨new, h1, h2, h3⟩ := enqueue_spec ks st
      refine ⟨new, ?_, h2, fun A => ?_⟩
      · rw [List.foldl_cons, enqueue, if_pos hk, h1]
      · rw [h3]
        constructor
        · rintro ⟨h4, k', h5, h6⟩; exact ⟨h4, k', by simp [h5], h6⟩
        · rintro ⟨h4, k', h5, rfl⟩
          rcases List.mem_cons.1 h5 with rfl | h5
          · exact absurd hk h4
          · exact ⟨h4, k', h5, rfl⟩
    · obtain ⟨new, h1, h2, h3⟩ := enqueue_spec ks (st.1 ++ [k.ruleName], st.2 ++ [k.ruleName])
      refine ⟨k.ruleName :: new, ?_, ?_, fun A => ?_⟩
      · rw [List.foldl_cons, enqueue, if_neg hk, h1]; simp
      · exact List.nodup_cons.2 ⟨fun hn => ((h3 _).1 hn).1 (by simp), h2⟩
      · rw [List.mem_cons, h3]
        constructor
        · rintro (rfl | ⟨h4, k', h5, h6⟩)
          · exact ⟨hk, k, by simp, rfl⟩
          · exact ⟨fun h => h4 (by simp [h]), k', by simp [h5], h6⟩
        · rintro ⟨h4, k', h5, rfl⟩
          rcases List.mem_cons.1 h5 with rfl | h5
          · exact .inl rfl
          · by_cases h6 : k'.ruleName = k.ruleName
            · exact .inl h6
            · exact .inr ⟨by simp [h4, h6], k', h5, rfl⟩

theorem Above.trans {R : String → String → Prop} {A B C : String} (h : Above R A B) (h' : Above R B C) :
    Above R A C := by
  induction h with
  | refl => exact h'
  | step h1 _ ih => exact .step h1 (ih h')

/-- the entry of the index says who refers to `B` -/
def IndexRefers (gi : GIndex) (A B : String) : Prop :=
  ∃ v, gi.ruleIndex.lookup B = some v ∧ ∃ k ∈ v.rules, k.ruleName = A

theorem closeRules_spec {w : FrameWorld} {gi : GIndex} (ho : ∀ s l, (w.ordKeys s l).Perm l) (S : List String) :
    ∀ (fuel n : Nat) (work rules res : List String), closeRules w gi fuel n work rules = .ok res →
    rules.Nodup → (∀ A ∈ S, A ∈ rules) → (∀ A ∈ work, A ∈ rules) →
    (∀ A ∈ rules, ∃ B ∈ S, Above (IndexRefers gi) A B) →
    (∀ A B, B ∈ rules → IndexRefers gi A B → A ∈ rules ∨ B ∈ work) →
    res.Nodup ∧ (∀ A, A ∈ res ↔ ∃ B ∈ S, Above (IndexRefers gi) A B)
  | 0, _, _, _, _, h => by simp [closeRules] at h
  | fuel + 1, n, [], rules, res, h => by
    simp only [closeRules, Out.ok.injEq] at h
    subst h
    intro hnd hS _ hsub hcl
    refine ⟨hnd, fun A => ⟨hsub A, ?_⟩⟩
    rintro ⟨B, hB, hA⟩
    induction hA with
    | refl => exact hS _ hB
    | step h1 _ ih =>
      rcases hcl _ _ (ih hB) h1 with h | h
      · exact h
      · simp at h
  | fuel + 1, n, r :: work, rules, res, h => by
    intro hnd hS hw hsub hcl
    simp only [closeRules] at h
    split at h
    · next hr =>
      refine closeRules_spec ho S fuel _ _ _ _ h hnd hS (fun A hA => hw A (by simp [hA])) hsub ?_
      intro A B hB hAB
      rcases hcl A B hB hAB with h1 | h1
      · exact .inl h1
      · rcases List.mem_cons.1 h1 with rfl | h1
        · obtain ⟨v, hv, _⟩ := hAB
          rw [hr] at hv; simp at hv
        · exact .inr h1
    · next v hr =>
      obtain ⟨new, h1, h2, h3⟩ := enqueue_spec (w.ordKeys (.work n) v.rules) (work, rules)
      rw [h1] at h
      have hmem : ∀ k, k ∈ w.ordKeys (.work n) v.rules ↔ k ∈ v.rules := fun k => (ho _ _).mem_iff
      refine closeRules_spec ho S fuel _ _ _ _ h ?_ (fun A hA => by simp [hS A hA]) ?_ ?_ ?_
      · refine List.nodup_append.2 ⟨hnd, h2, ?_⟩
        rintro a ha b hb rfl
        exact ((h3 a).1 hb).1 ha
      · intro A hA
        rcases List.mem_append.1 hA with hA | hA
        · exact List.mem_append_left _ (hw A (by simp [hA]))
        · exact List.mem_append_right _ hA
      · intro A hA
        rcases List.mem_append.1 hA with hA | hA
        · exact hsub A hA
        · obtain ⟨_, k, hk, rfl⟩ := (h3 A).1 hA
          obtain ⟨B, hB, hrB⟩ := hsub r (hw r (by simp))
          exact ⟨B, hB, .step ⟨v, hr, k, (hmem k).1 hk, rfl⟩ hrB⟩
      · intro A B hB hAB
        rcases List.mem_append.1 hB with hB | hB
        · rcases hcl A B hB hAB with h4 | h4
          · exact .inl (by simp [h4])
          · rcases List.mem_cons.1 h4 with rfl | h4
            · obtain ⟨v', hv', k, hk, rfl⟩ := hAB
              rw [hr, Option.some.injEq] at hv'
              subst hv'
              by_cases h5 : k.ruleName ∈ rules
              · exact .inl (by simp [h5])
              · exact .inl (List.mem_append_right _ ((h3 _).2 ⟨h5, k, (hmem k).2 hk, rfl⟩))
            · exact .inr (by simp [h4])
        · exact .inr (by simp [hB])

/-- the names of all rules in the rule index -/
def GIndex.names (gi : GIndex) : List String := gi.ruleIndex.flatMap (fun e => e.2.rules.map (·.ruleName))

/-- how many names are not yet in the list -/
def notYet (names rules : List String) : Nat := (names.filter (· ∉ rules)).length

theorem notYet_append {names rules new : List String} (hn : new.Nodup) (h1 : ∀ a ∈ new, a ∈ names)
    (h2 : ∀ a ∈ new, a ∉ rules) : notYet names (rules ++ new) + new.length ≤ notYet names rules := by
  induction new generalizing rules with
  | nil => simp [notYet]
  | cons a new ih =>
    obtain ⟨ha, hn⟩ := List.nodup_cons.1 hn
    have h3 := ih (rules := rules ++ [a]) hn (fun b hb => h1 b (by simp [hb]))
      (fun b hb => by
        have := h2 b (by simp [hb])
        rw [List.mem_append, List.mem_singleton]
        rintro (h | rfl)
        · exact this h
        · exact ha hb)
    have h4 : notYet names (rules ++ [a]) + 1 ≤ notYet names rules := by
      unfold notYet
      have hsub : (names.filter (· ∉ rules ++ [a])) = (names.filter (· ∉ rules)).filter (· ≠ a) := by
        rw [List.filter_filter]
        congr 1
        funext x
        simp only [List.mem_append, List.mem_singleton, not_or, Bool.decide_and, decide_not, ne_eq]
        rw [Bool.and_comm]
      rw [hsub]
      have hmem : a ∈ names.filter (· ∉ rules) := by
        simp [h1 a (by simp), h2 a (by simp)]
      have := List.length_filter_lt_length_iff_exists (p := fun x => decide (x ≠ a)).2 ⟨a, hmem, by simp⟩
      omega
    rw [show rules ++ a :: new = (rules ++ [a]) ++ new by simp]
    simp only [List.length_cons]
    omega

theorem lookup_mem_names {gi : GIndex} {r : String} {v : Index} (h : gi.ruleIndex.lookup r = some v) {k : RbKey}
    (hk : k ∈ v.rules) : k.ruleName ∈ gi.names :=
  List.mem_flatMap.2 ⟨_, mem_of_lookup h, List.mem_map_of_mem hk⟩

/-- the work list runs empty: every name is added at most once -/
theorem closeRules_total {w : FrameWorld} {gi : GIndex} (ho : ∀ s l, (w.ordKeys s l).Perm l) :
    ∀ (fuel n : Nat) (work rules : List String), work.length + notYet gi.names rules < fuel →
    ∃ res, closeRules w gi fuel n work rules = .ok res
  | 0, _, _, _, h => by omega
  | fuel + 1, n, [], rules, _ => ⟨rules, rfl⟩
  | fuel + 1, n, r :: work, rules, h => by
    rw [List.length_cons] at h
    simp only [closeRules]
    split
    · exact closeRules_total ho fuel _ _ _ (by omega)
    · next v hr =>
      obtain ⟨new, h1, h2, h3⟩ := enqueue_spec (w.ordKeys (.work n) v.rules) (work, rules)
      rw [h1]
      refine closeRules_total ho fuel _ _ _ ?_
      have := notYet_append (names := gi.names) (rules := rules) h2 (fun a ha => by
        obtain ⟨_, k, hk, rfl⟩ := (h3 a).1 ha
        exact lookup_mem_names hr ((ho _ _).mem_iff.1 hk)) (fun a ha => ((h3 a).1 ha).1)
      simp only [List.length_append]
      omega

end Fmr
