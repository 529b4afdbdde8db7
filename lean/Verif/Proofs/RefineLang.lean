import Verif.Proofs.Refine
import Verif.Props.Local

/-!
# Proofs about refine: language preservation
-/

namespace Fmr

/-- `a` in the refined language corresponds to `b` in the language with literals read inline. -/
inductive Tr (N : String → Prop) (E : String → List Term → Prop) : List Term → List Term → Prop
  | nil : Tr N E [] []
  | same {t a b} : (t.type = .nonterminal ∨ t.type = .list → ¬ N t.value) → Tr N E a b →
      Tr N E (t :: a) (t :: b)
  | lit {t n ls a b} : E n ls → t.type = .nonterminal → t.value = n → Tr N E a b →
      Tr N E (t :: a) (ls ++ b)

/-- what is needed of the two languages -/
structure TrOK (N : String → Prop) (E : String → List Term → Prop) (L1 L0 : Lang) : Prop where
  tmatch : L1.tmatch = L0.tmatch
  okAny : L1.okAny = L0.okAny
  okList : L1.okList = L0.okList
  only : ∀ {n ls ts}, E n ls → L1.prods n ts → ts = ls
  has : ∀ {n ls}, E n ls → L1.prods n ls
  terminal : ∀ {n ls}, E n ls → ∀ t ∈ ls, t.type = .terminal
  intro : ∀ {n ls}, E n ls → N n
  down : ∀ {A ts}, ¬ N A → L1.prods A ts → ∃ ts0, L0.prods A ts0 ∧ Tr N E ts ts0
  up : ∀ {A ts0}, ¬ N A → L0.prods A ts0 → ∃ ts, L1.prods A ts ∧ Tr N E ts ts0

theorem Tr.replicate {N E} {t : Term} (h : ¬ N t.value) : ∀ n, Tr N E (List.replicate n t) (List.replicate n t)
  | 0 => .nil
  | n + 1 => .same (fun _ => h) (Tr.replicate h n)

theorem yields_terminals_congr {L1 L0 : Lang} (h : L1.tmatch = L0.tmatch) {ts : List Term} {w : List Token}
    (ht : ∀ t ∈ ts, t.type = .terminal) (hy : Yields L1 ts w) : Yields L0 ts w := by
  induction hy with
  | nil => exact .nil
  | terminal h1 h2 _ ih => exact .terminal h1 (h ▸ h2) (ih (fun t h => ht t (by simp [h])))
  | nonterminal h1 => have := ht _ List.mem_cons_self; rw [h1] at this; simp at this
  | any h1 => have := ht _ List.mem_cons_self; rw [h1] at this; simp at this
  | list h1 => have := ht _ List.mem_cons_self; rw [h1] at this; simp at this

theorem Tr.down {N E} {L1 L0 : Lang} (ok : TrOK N E L1 L0) {a : List Term} {w : List Token}
    (hy : Yields L1 a w) : ∀ {b}, Tr N E a b → Yields L0 b w := by
  induction hy with
  | nil => intro b h; cases h; exact .nil
  | terminal h1 h2 _ ih =>
    intro b h
    cases h with
    | same _ h => exact .terminal h1 (ok.tmatch ▸ h2) (ih h)
    | lit _ h3 => rw [h1] at h3; simp at h3
  | nonterminal h1 h2 h3 _ ih1 ih2 =>
    intro b h
    cases h with
    | same hn h =>
      obtain ⟨ts0, h4, h5⟩ := ok.down (hn (.inl h1)) h2
      exact .nonterminal h1 h4 (ih1 h5) (ih2 h)
    | lit hE h4 h5 h =>
      subst h5
      have := ok.only hE h2
      subst this
      exact (yields_terminals_congr ok.tmatch (ok.terminal hE) h3).append (ih2 h)
  | any h1 h2 _ ih =>
    intro b h
    cases h with
    | same _ h => exact .any h1 (ok.okAny ▸ h2) (ih h)
    | lit _ h3 => rw [h1] at h3; simp at h3
  | list h1 h2 h3 _ ih1 ih2 =>
    intro b h
    cases h with
    | same hn h =>
      exact .list h1 (ok.okList ▸ h2) (ih1 (Tr.replicate (by exact hn (.inr h1)) _)) (ih2 h)
    | lit _ h3 => rw [h1] at h3; simp at h3

/-- literals with the empty reading derive nothing -/
theorem Tr.lit_empty {N E} {L1 L0 : Lang} (ok : TrOK N E L1 L0) {t : Term} {n : String} (hE : E n [])
    (h1 : t.type = .nonterminal) (h2 : t.value = n) {a w} (h : Yields L1 a w) : Yields L1 (t :: a) w := by
  have := Yields.nonterminal h1 (h2 ▸ ok.has hE) .nil h
  simpa using this

theorem Tr.up {N E} {L1 L0 : Lang} (ok : TrOK N E L1 L0) {b : List Term} {w : List Token}
    (hy : Yields L0 b w) : ∀ {suf b' a}, b = suf ++ b' → (∀ t ∈ suf, t.type = .terminal) → Tr N E a b' →
      ∃ u v, w = u ++ v ∧ Yields L1 suf u ∧ Yields L1 a v := by
  induction hy with
  | nil =>
    intro suf b' a hb hs h
    have hb := hb.symm
    rw [List.append_eq_nil_iff] at hb
    obtain ⟨rfl, rfl⟩ := hb
    refine ⟨[], [], rfl, .nil, ?_⟩
    generalize hb : ([] : List Term) = b at h
    induction h with
    | nil => exact .nil
    | same => simp at hb
    | @lit t n ls a b hE h1 h2 h ih =>
      have hb := hb.symm
      rw [List.append_eq_nil_iff] at hb
      obtain ⟨rfl, rfl⟩ := hb
      exact Tr.lit_empty ok hE h1 h2 (ih rfl)
  | @terminal t ts x w h1 h2 _ ih =>
    intro suf b' a hb hs h
    rcases suf with _ | ⟨s, suf⟩
    · simp only [List.nil_append] at hb
      refine ⟨[], x :: w, rfl, .nil, ?_⟩
      induction h with
      | nil => simp at hb
      | @same t' a b hn h _ =>
        simp only [List.cons.injEq] at hb
        obtain ⟨rfl, rfl⟩ := hb
        obtain ⟨u, v, rfl, hu, hv⟩ := ih (suf := []) rfl (by simp) h
        cases hu
        exact .terminal h1 (ok.tmatch ▸ h2) hv
      | @lit t' n ls a b hE h3 h4 h ih' =>
        rcases ls with _ | ⟨l, ls⟩
        · exact Tr.lit_empty ok hE h3 h4 (ih' hb)
        · simp only [List.cons_append, List.cons.injEq] at hb
          obtain ⟨rfl, rfl⟩ := hb
          have ht := ok.terminal hE
          obtain ⟨u, v, rfl, hu, hv⟩ := ih (suf := ls) rfl (fun t h => ht t (by simp [h])) h
          have : Yields L1 (t :: ls) (x :: u) := .terminal h1 (ok.tmatch ▸ h2) hu
          exact Yields.nonterminal (u := x :: u) h3 (h4 ▸ ok.has hE) this hv
    · simp only [List.cons_append, List.cons.injEq] at hb
      obtain ⟨rfl, rfl⟩ := hb
      obtain ⟨u, v, rfl, hu, hv⟩ := ih (suf := suf) rfl (fun t h => hs t (by simp [h])) h
      exact ⟨x :: u, v, rfl, .terminal h1 (ok.tmatch ▸ h2) hu, hv⟩
  | @nonterminal t ts body u w h1 h2 _ _ ih1 ih2 =>
    intro suf b' a hb hs h
    rcases suf with _ | ⟨s, suf⟩
    · simp only [List.nil_append] at hb
      refine ⟨[], u ++ w, rfl, .nil, ?_⟩
      induction h with
      | nil => simp at hb
      | @same t' a b hn h _ =>
        simp only [List.cons.injEq] at hb
        obtain ⟨rfl, rfl⟩ := hb
        obtain ⟨ts1, h4, h5⟩ := ok.up (hn (.inl h1)) h2
        obtain ⟨u1, v1, rfl, hu1, hv1⟩ := ih1 (suf := []) rfl (by simp) h5
        cases hu1
        obtain ⟨u2, v2, rfl, hu2, hv2⟩ := ih2 (suf := []) rfl (by simp) h
        cases hu2
        exact .nonterminal h1 h4 hv1 hv2
      | @lit t' n ls a b hE h3 h4 h ih' =>
        rcases ls with _ | ⟨l, ls⟩
        · exact Tr.lit_empty ok hE h3 h4 (ih' hb)
        · simp only [List.cons_append, List.cons.injEq] at hb
          obtain ⟨rfl, rfl⟩ := hb
          have := ok.terminal hE t (by simp)
          rw [h1] at this; simp at this
    · simp only [List.cons_append, List.cons.injEq] at hb
      obtain ⟨rfl, rfl⟩ := hb
      have := hs t (by simp)
      rw [h1] at this; simp at this
  | @any t ts u w h1 h2 _ ih2 =>
    intro suf b' a hb hs h
    rcases suf with _ | ⟨s, suf⟩
    · simp only [List.nil_append] at hb
      refine ⟨[], u ++ w, rfl, .nil, ?_⟩
      induction h with
      | nil => simp at hb
      | @same t' a b hn h _ =>
        simp only [List.cons.injEq] at hb
        obtain ⟨rfl, rfl⟩ := hb
        obtain ⟨u2, v2, rfl, hu2, hv2⟩ := ih2 (suf := []) rfl (by simp) h
        cases hu2
        exact .any h1 (ok.okAny ▸ h2) hv2
      | @lit t' n ls a b hE h3 h4 h ih' =>
        rcases ls with _ | ⟨l, ls⟩
        · exact Tr.lit_empty ok hE h3 h4 (ih' hb)
        · simp only [List.cons_append, List.cons.injEq] at hb
          obtain ⟨rfl, rfl⟩ := hb
          have := ok.terminal hE t (by simp)
          rw [h1] at this; simp at this
    · simp only [List.cons_append, List.cons.injEq] at hb
      obtain ⟨rfl, rfl⟩ := hb
      have := hs t (by simp)
      rw [h1] at this; simp at this
  | @list t ts n u w h1 h2 _ _ ih1 ih2 =>
    intro suf b' a hb hs h
    rcases suf with _ | ⟨s, suf⟩
    · simp only [List.nil_append] at hb
      refine ⟨[], u ++ w, rfl, .nil, ?_⟩
      induction h with
      | nil => simp at hb
      | @same t' a b hn h _ =>
        simp only [List.cons.injEq] at hb
        obtain ⟨rfl, rfl⟩ := hb
        obtain ⟨u1, v1, rfl, hu1, hv1⟩ := ih1 (suf := []) rfl (by simp)
          (Tr.replicate (by exact hn (.inr h1)) _)
        cases hu1
        obtain ⟨u2, v2, rfl, hu2, hv2⟩ := ih2 (suf := []) rfl (by simp) h
        cases hu2
        exact .list h1 (ok.okList ▸ h2) hv1 hv2
      | @lit t' n ls a b hE h3 h4 h ih' =>
        rcases ls with _ | ⟨l, ls⟩
        · exact Tr.lit_empty ok hE h3 h4 (ih' hb)
        · simp only [List.cons_append, List.cons.injEq] at hb
          obtain ⟨rfl, rfl⟩ := hb
          have := ok.terminal hE t (by simp)
          rw [h1] at this; simp at this
    · simp only [List.cons_append, List.cons.injEq] at hb
      obtain ⟨rfl, rfl⟩ := hb
      have := hs t (by simp)
      rw [h1] at this; simp at this

theorem Tr.iff {N E} {L1 L0 : Lang} (ok : TrOK N E L1 L0) {a b : List Term} (h : Tr N E a b) (w : List Token) :
    Yields L1 a w ↔ Yields L0 b w := by
  refine ⟨fun hy => Tr.down ok hy h, fun hy => ?_⟩
  obtain ⟨u, v, rfl, hu, hv⟩ := Tr.up ok hy (suf := []) rfl (by simp) h
  cases hu
  exact hv

/-! ## the rules of the result -/

theorem foldl_mapSet_lookup_ne {A : String} : ∀ {rs : List Rule} {m : List (String × Rule)},
    A ∉ rs.map Rule.name → (rs.foldl (fun m r => mapSet m r.name r) m).lookup A = m.lookup A
  | [], _, _ => rfl
  | r :: rs, m, h => by
    simp only [List.map_cons, List.mem_cons, not_or] at h
    rw [List.foldl_cons, foldl_mapSet_lookup_ne h.2, mapSet_lookup, if_neg h.1]

theorem foldl_mapSet_lookup_mem : ∀ {rs : List Rule} {m : List (String × Rule)} {r : Rule},
    (rs.map Rule.name).Nodup → r ∈ rs → (rs.foldl (fun m r => mapSet m r.name r) m).lookup r.name = some r
  | r0 :: rs, m, r, hn, hr => by
    simp only [List.map_cons, List.nodup_cons] at hn
    rw [List.foldl_cons]
    rcases List.mem_cons.1 hr with rfl | hr
    · rw [foldl_mapSet_lookup_ne hn.1, mapSet_lookup, if_pos rfl]
    · exact foldl_mapSet_lookup_mem hn.2 hr

theorem ruleRel_lookup {es : List Entry} {A : String} : ∀ {l l' : List (String × Rule)},
    List.Forall₂ (RuleRel es) l l' →
    (l.lookup A = none ∧ l'.lookup A = none) ∨
    ∃ r r', l.lookup A = some r ∧ l'.lookup A = some r' ∧ RuleRel es (A, r) (A, r')
  | _, _, .nil => .inl ⟨rfl, rfl⟩
  | (k, r) :: l, (k', r') :: l', .cons h1 h2 => by
    have hk : k' = k := h1.1
    subst hk
    rw [List.lookup_cons, List.lookup_cons]
    by_cases hA : A = k'
    · subst hA
      simp only [beq_self_eq_true]
      exact .inr ⟨r, r', rfl, rfl, h1⟩
    · have : (A == k') = false := by simpa using hA
      simp only [this]
      exact ruleRel_lookup h2

section
variable {w : RefineWorld} {g g' : Grammar} {es : List Entry} {rules : List (String × Rule)}

theorem Refined.lookup_new (h : Refined w g g' es rules) {e : Entry} (he : e ∈ es) :
    g'.rules.lookup e.name = some { name := e.name, body := [(e.hash, e.body)] } := by
  rw [h.result]
  have hn : ((es.map (fun e => Rule.mk e.name [(e.hash, e.body)])).map Rule.name).Nodup := by
    rw [List.map_map]; exact h.namesNodup
  exact foldl_mapSet_lookup_mem (r := Rule.mk e.name [(e.hash, e.body)]) hn (List.mem_map.2 ⟨e, he, rfl⟩)

theorem Refined.lookup_old (h : Refined w g g' es rules) {A : String} (hA : A ∉ es.map Entry.name) :
    g'.rules.lookup A = rules.lookup A := by
  rw [h.result]
  apply foldl_mapSet_lookup_ne
  simpa [List.map_map] using hA

theorem Refined.introduced (h : Refined w g g' es rules) (A : String) :
    Introduced g g' A ↔ A ∈ es.map Entry.name := by
  constructor
  · rintro ⟨h1, h2⟩
    by_contra hA
    rw [h.lookup_old hA] at h2
    rcases ruleRel_lookup (A := A) h.rel with ⟨_, h3⟩ | ⟨r, r', h3, _⟩
    · exact h2 h3
    · rw [h1] at h3; simp at h3
  · intro hA
    obtain ⟨e, he, rfl⟩ := List.mem_map.1 hA
    exact ⟨h.fresh e he, by rw [h.lookup_new he]; simp⟩

theorem forall₂_mem_left {α β : Type} {R : α → β → Prop} : ∀ {l : List α} {l' : List β},
    List.Forall₂ R l l' → ∀ {a}, a ∈ l → ∃ b ∈ l', R a b
  | _, _, .cons h1 h2, a, ha => by
    rcases List.mem_cons.1 ha with rfl | ha
    · exact ⟨_, by simp, h1⟩
    · obtain ⟨b, hb, h⟩ := forall₂_mem_left h2 ha
      exact ⟨b, by simp [hb], h⟩

theorem forall₂_mem_right {α β : Type} {R : α → β → Prop} : ∀ {l : List α} {l' : List β},
    List.Forall₂ R l l' → ∀ {b}, b ∈ l' → ∃ a ∈ l, R a b
  | _, _, .cons h1 h2, a, ha => by
    rcases List.mem_cons.1 ha with rfl | ha
    · exact ⟨_, by simp, h1⟩
    · obtain ⟨b, hb, h⟩ := forall₂_mem_right h2 ha
      exact ⟨b, by simp [hb], h⟩

theorem Refined.source_new (h : Refined w g g' es rules) {e : Entry} (he : e ∈ es) (ts : List Term) :
    g'.source e.name ts ↔ ts = e.body.terms := by
  unfold Grammar.source
  rw [h.lookup_new he]
  simp [Rule.bodies]

theorem Refined.source_down (h : Refined w g g' es rules) {A : String} (hA : A ∉ es.map Entry.name)
    {ts : List Term} (hs : g'.source A ts) :
    ∃ ts0, g.source A ts0 ∧ List.Forall₂ (TermRel es) ts0 ts := by
  obtain ⟨r', hr', rb', hrb', rfl⟩ := hs
  rw [h.lookup_old hA] at hr'
  rcases ruleRel_lookup (A := A) h.rel with ⟨_, h3⟩ | ⟨r, r'', h3, h4, _, _, hrel⟩
  · rw [hr'] at h3; simp at h3
  · rw [hr'] at h4; simp at h4; subst h4
    obtain ⟨⟨k, b'⟩, he', rfl⟩ := List.mem_map.1 hrb'
    obtain ⟨⟨k0, b0⟩, he0, hb⟩ := forall₂_mem_right hrel he'
    exact ⟨b0.terms, ⟨r, h3, b0, List.mem_map.2 ⟨_, he0, rfl⟩, rfl⟩, hb.2.2⟩

theorem Refined.source_up (h : Refined w g g' es rules) {A : String} (hA : A ∉ es.map Entry.name)
    {ts0 : List Term} (hs : g.source A ts0) :
    ∃ ts, g'.source A ts ∧ List.Forall₂ (TermRel es) ts0 ts := by
  obtain ⟨r, hr, rb, hrb, rfl⟩ := hs
  unfold Grammar.source
  rw [h.lookup_old hA]
  rcases ruleRel_lookup (A := A) h.rel with ⟨h3, _⟩ | ⟨r0, r', h3, h4, _, _, hrel⟩
  · rw [hr] at h3; simp at h3
  · rw [hr] at h3; simp at h3; subst h3
    obtain ⟨⟨k, b⟩, he, rfl⟩ := List.mem_map.1 hrb
    obtain ⟨⟨k', b'⟩, he', hb⟩ := forall₂_mem_left hrel he
    exact ⟨b'.terms, ⟨r', h4, b', List.mem_map.2 ⟨_, he', rfl⟩, rfl⟩, hb.2.2⟩

/-- the entries as a relation between introduced names and readings -/
def entryRel (es : List Entry) (n : String) (ls : List Term) : Prop :=
  ∃ e ∈ es, e.name = n ∧ ls = e.body.terms

theorem readTerm_terminal {annot : String → Option (List Token)} {t : Term} (ht : t.type = .terminal) :
    ∀ x ∈ readTerm annot t, x.type = .terminal := by
  intro x hx
  simp only [readTerm, ht, if_true, List.mem_map] at hx
  obtain ⟨a, _, rfl⟩ := hx
  rfl

theorem source_mem_rules {g : Grammar} {A : String} {ts : List Term} (hs : g.source A ts) :
    ∃ e ∈ g.rules, ∃ rb ∈ e.2.bodies, ts = rb.terms := by
  obtain ⟨r, hr, rb, hrb, rfl⟩ := hs
  exact ⟨(A, r), lookup_mem hr, rb, hrb, rfl⟩

theorem Refined.tr (h : Refined w g g' es rules) {fl : String → Meta} (hfl : ∀ e ∈ es, fl e.lit = e.meta)
    {N : String → Prop} {ts0 ts : List Term}
    (hN : ∀ t ∈ ts0, t.type = .nonterminal ∨ t.type = .list → ¬ N t.value)
    (hr : List.Forall₂ (TermRel es) ts0 ts) :
    Tr N (entryRel es) ts (ts0.flatMap (fun t => readTerm w.annot (setFlags fl t))) := by
  induction hr with
  | nil => exact .nil
  | @cons t t' ts0 ts h1 _ ih =>
    have ih := ih (fun t ht => hN t (by simp [ht]))
    rw [List.flatMap_cons]
    rcases h1 with ⟨h1, rfl⟩ | ⟨h1, e, he, h2, rfl⟩
    · have : readTerm w.annot (setFlags fl t') = [t'] := by simp [readTerm, setFlags, h1]
      rw [this]
      exact .same (hN t' (by simp)) ih
    · have hread : readTerm w.annot (setFlags fl t) = e.body.terms := by
        rw [h.body e he]
        have : setFlags fl t = ⟨e.lit, .terminal, e.meta⟩ := by
          simp only [setFlags, h1, if_true, ← h2, hfl e he]
        rw [this]
      rw [hread]
      exact .lit ⟨e, he, rfl, rfl⟩ rfl rfl ih

theorem tr_same {N E} : ∀ {ts : List Term}, (∀ t ∈ ts, t.type = .nonterminal ∨ t.type = .list → ¬ N t.value) →
    Tr N E ts ts
  | [], _ => .nil
  | t :: ts, h => .same (h t (by simp)) (tr_same (fun t ht => h t (by simp [ht])))

/-- The two languages are related as required by the simulation. -/
theorem Refined.trOK (h : Refined w g g' es rules) {fl : String → Meta}
    (hfl : ∀ e ∈ es, fl e.lit = e.meta) {tmatch : Term → Token → Bool} {pre post : List Source}
    (hclash : NoClash g g' (pre ++ post)) :
    TrOK (· ∈ es.map Entry.name) (entryRel es) (sourcesLang tmatch (pre ++ g'.source :: post))
      (sourcesLang tmatch (pre ++ g.readSourceWith w.annot fl :: post)) where
  tmatch := rfl
  okAny := rfl
  okList := rfl
  only := by
    rintro n ls ts ⟨e, he, rfl, rfl⟩ ⟨s, hs, hp⟩
    have hi := (h.introduced e.name).2 (List.mem_map_of_mem he)
    have : s ∈ pre ++ post ∨ s = g'.source := by
      simp only [List.mem_append, List.mem_cons] at hs ⊢; tauto
    rcases this with hs | rfl
    · exact absurd ⟨ts, hp⟩ ((hclash _ hi).2 s hs).1
    · exact (h.source_new he ts).1 hp
  has := by
    rintro n ls ⟨e, he, rfl, rfl⟩
    exact ⟨g'.source, by simp, (h.source_new he _).2 rfl⟩
  terminal := by
    rintro n ls ⟨e, he, rfl, rfl⟩ t ht
    rw [h.body e he] at ht
    exact readTerm_terminal (t := ⟨e.lit, .terminal, e.meta⟩) rfl t ht
  intro := by
    rintro n ls ⟨e, he, rfl, rfl⟩
    exact List.mem_map_of_mem he
  down := by
    rintro A ts hA ⟨s, hs, hp⟩
    have : s ∈ pre ++ post ∨ s = g'.source := by
      simp only [List.mem_append, List.mem_cons] at hs ⊢; tauto
    rcases this with hs | rfl
    · refine ⟨ts, ⟨s, by simp only [List.mem_append, List.mem_cons] at hs ⊢; tauto, hp⟩, tr_same ?_⟩
      intro t ht htt hn
      exact ((hclash _ ((h.introduced _).2 hn)).2 s hs).2 ⟨A, ts, hp, t, ht, htt, rfl⟩
    · obtain ⟨ts0, h0, hr⟩ := h.source_down hA hp
      refine ⟨_, ⟨g.readSourceWith w.annot fl, by simp, ?_⟩, h.tr hfl ?_ hr⟩
      · obtain ⟨r, h1, rb, hrb, rfl⟩ := h0
        exact ⟨r, h1, rb, hrb, rfl⟩
      · intro t ht htt hn
        exact (hclash _ ((h.introduced _).2 hn)).1 ⟨A, ts0, h0, t, ht, htt, rfl⟩
  up := by
    rintro A ts0 hA ⟨s, hs, hp⟩
    have : s ∈ pre ++ post ∨ s = g.readSourceWith w.annot fl := by
      simp only [List.mem_append, List.mem_cons] at hs ⊢; tauto
    rcases this with hs | rfl
    · refine ⟨ts0, ⟨s, by simp only [List.mem_append, List.mem_cons] at hs ⊢; tauto, hp⟩, tr_same ?_⟩
      intro t ht htt hn
      exact ((hclash _ ((h.introduced _).2 hn)).2 s hs).2 ⟨A, ts0, hp, t, ht, htt, rfl⟩
    · obtain ⟨r, hr, rb, hrb, rfl⟩ := hp
      have h0 : g.source A rb.terms := ⟨r, hr, rb, hrb, rfl⟩
      obtain ⟨ts, h1, hr⟩ := h.source_up hA h0
      refine ⟨ts, ⟨g'.source, by simp, h1⟩, h.tr hfl ?_ hr⟩
      intro t ht htt hn
      exact (hclash _ ((h.introduced _).2 hn)).1 ⟨A, _, h0, t, ht, htt, rfl⟩

theorem Refined.derive_iff_with (h : Refined w g g' es rules) {fl : String → Meta}
    (hfl : ∀ e ∈ es, fl e.lit = e.meta)
    {tmatch : Term → Token → Bool} {pre post : List Source} (hclash : NoClash g g' (pre ++ post))
    {S : String} (hS : ¬ Introduced g g' S) (toks : List Token) :
    SourcesDerive tmatch (pre ++ g'.source :: post) S toks ↔
      SourcesDerive tmatch (pre ++ g.readSourceWith w.annot fl :: post) S toks := by
  refine Tr.iff (h.trOK hfl hclash) (.same (fun _ => ?_) .nil) toks
  rw [h.introduced] at hS
  exact hS

/-- every literal of a visible rule has an entry -/
theorem Refined.entry_of (h : Refined w g g' es rules) {A : String} {ts0 : List Term}
    (hs : g.source A ts0) {t : Term} (ht : t ∈ ts0) (htt : t.type = .terminal) :
    ∃ e ∈ es, e.lit = t.value := by
  have hA : A ∉ es.map Entry.name := by
    intro hA
    obtain ⟨e, he, rfl⟩ := List.mem_map.1 hA
    obtain ⟨r, hr, _⟩ := hs
    rw [h.fresh e he] at hr; simp at hr
  obtain ⟨ts, _, hr⟩ := h.source_up hA hs
  obtain ⟨t', _, hrel⟩ := forall₂_mem_left hr ht
  rcases hrel with ⟨h1, _⟩ | ⟨_, e, he, h2, _⟩
  · exact absurd htt h1
  · exact ⟨e, he, h2⟩

/-- the flags of the entries, by literal -/
def entryFlags (es : List Entry) (v : String) : Meta :=
  match es.find? (fun e => e.lit == v) with
  | some e => e.meta
  | none => .nil

theorem entryFlags_eq : ∀ {es : List Entry}, (es.map Entry.lit).Nodup → ∀ e ∈ es, entryFlags es e.lit = e.meta
  | e0 :: es, hn, e, he => by
    simp only [List.map_cons, List.nodup_cons] at hn
    rcases List.mem_cons.1 he with rfl | he
    · simp [entryFlags]
    · have hne : (e0.lit == e.lit) = false := by
        simp only [beq_eq_false_iff_ne]
        intro h; exact hn.1 (h ▸ List.mem_map_of_mem he)
      have := entryFlags_eq hn.2 e he
      simpa [entryFlags, List.find?_cons, hne] using this

theorem Refined.read_eq (h : Refined w g g' es rules) (hflags : SameFlags g) :
    g.readSourceWith w.annot (entryFlags es) = g.readSource w.annot := by
  funext A ts
  have key : ∀ r, g.rules.lookup A = some r → ∀ rb ∈ r.bodies,
      rb.terms.flatMap (fun t => readTerm w.annot (setFlags (entryFlags es) t)) =
      rb.terms.flatMap (readTerm w.annot) := by
    intro r hr rb hrb
    rw [List.flatMap_def, List.flatMap_def]
    congr 1
    apply List.map_congr_left
    intro t ht
    by_cases htt : t.type = .terminal
    · have hs : g.source A rb.terms := ⟨r, hr, rb, hrb, rfl⟩
      obtain ⟨e, he, hlit⟩ := h.entry_of hs ht htt
      have h1 := entryFlags_eq h.litsNodup e he
      have hm : e.meta = t.meta :=
        hflags _ _ (h.occurs e he) ⟨(A, r), lookup_mem hr, rb, hrb, ht, htt⟩ hlit
      simp only [setFlags, htt, if_true]
      rw [← hlit, h1, hm, hlit, ← htt]
    · simp [setFlags, htt]
  apply propext
  constructor
  · rintro ⟨r, hr, rb, hrb, rfl⟩; exact ⟨r, hr, rb, hrb, key r hr rb hrb⟩
  · rintro ⟨r, hr, rb, hrb, rfl⟩; exact ⟨r, hr, rb, hrb, (key r hr rb hrb).symm⟩

theorem Refined.derive_iff (h : Refined w g g' es rules) (hflags : SameFlags g)
    {tmatch : Term → Token → Bool} {pre post : List Source} (hclash : NoClash g g' (pre ++ post))
    {S : String} (hS : ¬ Introduced g g' S) (toks : List Token) :
    SourcesDerive tmatch (pre ++ g'.source :: post) S toks ↔
      SourcesDerive tmatch (pre ++ g.readSource w.annot :: post) S toks := by
  rw [h.derive_iff_with (entryFlags_eq h.litsNodup) hclash hS, h.read_eq hflags]

end

end Fmr
