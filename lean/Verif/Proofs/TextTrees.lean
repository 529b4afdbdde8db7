import Verif.Proofs.WholeSafe
import Verif.Spec.TextTrees

/-!
# Trees of the parser and trees of what is written (for C76)
-/

namespace Fmr

/-- a grammar in the parser against what is written -/
structure Mirrors (env : Env) (G : TextGrammar) (N : String → String → Prop) : Prop where
  names : LiteralNames N
  down : ∀ A rb, env.Defines A rb → (¬ Reserved A ∧ ∃ syms, G.alts A syms rb.f ∧ List.Forall₂ (ShownAs N) syms rb.terms) ∨
    ∃ t, N t.value A ∧ rb = ⟨G.read t, none⟩ ∧ (∀ u ∈ G.read t, u.type = .terminal) ∧ ∀ A' syms f, G.alts A' syms f → ∀ t', Sym.literal t' ∈ syms →
      t'.value = t.value → G.read t' = G.read t
  literal : ∀ A syms f, G.alts A syms f → ∀ t, Sym.literal t ∈ syms → ∀ A', N t.value A' → env.Defines A' ⟨G.read t, none⟩
  token : ∀ A syms f, G.alts A syms f → ∀ t, Sym.token t ∈ syms → t.type = .terminal
  read : ∀ A syms f, G.alts A syms f → ∀ t, Sym.literal t ∈ syms → ∀ u ∈ G.read t, u.type = .terminal
  other : ∀ A syms f, G.alts A syms f → ∀ t, Sym.other t ∈ syms → t.type ≠ .terminal ∧ ¬ Reserved t.value
  up : ∀ A syms rb, G.alts A syms rb.f → List.Forall₂ (ShownAs N) syms rb.terms → env.Defines A rb

/-- the same reading of terminals and of ranges -/
structure Agrees (L : Lang) (G : TextGrammar) : Prop where
  tmatch : L.tmatch = G.tmatch
  okAny : L.okAny = G.okAny
  okList : L.okList = G.okList

/-- symbols that occur -/
def Occurring (G : TextGrammar) : Sym → Prop
  | .literal t => ∃ A syms f, G.alts A syms f ∧ Sym.literal t ∈ syms
  | .token t => t.type = .terminal
  | .other t => t.type ≠ .terminal ∧ ¬ Reserved t.value

section
variable {env : Env} {L : Lang} {G : TextGrammar} {N : String → String → Prop}

theorem Mirrors.occurring (h : Mirrors env G N) {A : String} {syms : List Sym} {f : Option FMR} (ha : G.alts A syms f) :
    ∀ s ∈ syms, Occurring G s := by
  intro s hs
  cases s with
  | literal t => exact ⟨A, syms, f, ha, hs⟩
  | token t => exact h.token A syms f ha t hs
  | other t => exact h.other A syms f ha t hs

theorem Mirrors.occurring_read (h : Mirrors env G N) {t : Term} (ht : Occurring G (.literal t)) :
    ∀ s ∈ (G.read t).map Sym.token, Occurring G s := by
  intro s hs
  obtain ⟨u, hu, rfl⟩ := List.mem_map.1 hs
  obtain ⟨A, syms, f, ha, hm⟩ := ht
  exact h.read A syms f ha t hm u hu

theorem shown_tokens : ∀ ts : List Term, List.Forall₂ (ShownAs N) (ts.map Sym.token) ts
  | [] => .nil
  | t :: ts => .cons rfl (shown_tokens ts)

theorem shown_replicate (m : Nat) (t : Term) : List.Forall₂ (ShownAs N) (List.replicate m (Sym.other t)) (List.replicate m t) := by
  induction m with
  | zero => exact .nil
  | succ m ih => rw [List.replicate_succ, List.replicate_succ]; exact .cons rfl ih

mutual
theorem Mirrors.tree (h : Mirrors env G N) (hL : Agrees L G) {s : Sym} {t : Term} (hs : Occurring G s) (hst : ShownAs N s t) {a b : Nat} {n : Node} :
    TreeOK env L t a b n ↔ TextTree G N env.tokens s a b n := by
  obtain ⟨v, cs⟩ := n
  cases s with
  | token t' =>
    obtain rfl : t = t' := hst
    have ht : t.type = .terminal := hs
    constructor
    · intro ht
      cases ht with
      | terminal h1 h2 h3 h4 h5 h6 h7 h8 => exact .token h2 (hL.tmatch ▸ h3) h4 h5 h6 h7 h8
      | any h1 => rw [‹t.type = .terminal›] at h1; cases h1
      | nonterminal h1 => rw [‹t.type = .terminal›] at h1; cases h1
      | list h1 => rw [‹t.type = .terminal›] at h1; cases h1
    · intro hn
      cases hn with
      | token h2 h3 h4 h5 h6 h7 h8 => exact .terminal ht h2 (hL.tmatch ▸ h3) h4 h5 h6 h7 h8
  | literal t' =>
    obtain ⟨h1, h2, h3⟩ := hst
    constructor
    · intro hn
      cases hn with
      | terminal g1 => rw [h1] at g1; cases g1
      | any g1 => rw [h1] at g1; cases g1
      | list g1 => rw [h1] at g1; cases g1
      | @nonterminal _ _ _ _ rb g1 g2 g3 g4 g5 g6 g7 g8 =>
        obtain ⟨A, syms, f, ha, hm⟩ := hs
        rcases h.down _ _ g2 with ⟨g, -⟩ | ⟨t'', k1, rfl, -, k2⟩
        · exact absurd (h.names.reserved _ _ h3) g
        · have e := k2 A syms f ha t' hm (h.names.apart _ _ _ h3 k1)
          rw [← e] at g5 g8
          exact .literal (g3 ▸ h3) g4 g5 g6 g7 ((Mirrors.forest h hL (h.occurring_read ⟨A, syms, f, ha, hm⟩) (shown_tokens _)).1 g8)
    · intro hn
      cases hn with
      | literal g1 g2 g3 g4 g5 g6 =>
        have hs' := hs
        obtain ⟨A, syms, f, ha, hm⟩ := hs'
        exact .nonterminal h1 (h.literal A syms f ha t' hm _ h3) (h.names.unique _ _ _ g1 h3) g2 g3 g4 g5
          ((Mirrors.forest h hL (h.occurring_read hs) (shown_tokens _)).2 g6)
  | other t' =>
    obtain rfl : t = t' := hst
    obtain ⟨h1, h2⟩ : t.type ≠ .terminal ∧ ¬ Reserved t.value := hs
    constructor
    · intro hn
      cases hn with
      | terminal g1 => exact absurd g1 h1
      | any g1 g2 g3 g4 g5 g6 g7 g8 g9 g10 => exact .any g1 g2 g3 (by rw [hL.okAny] at g4; exact g4) g5 g10 g6 g7 g8 g9
      | nonterminal g1 g2 g3 g4 g5 g6 g7 g8 =>
        rcases h.down _ _ g2 with ⟨-, syms, k1, k2⟩ | ⟨t'', k1, -⟩
        · exact .rule g1 k1 k2 g3 g4 g5 g6 g7 ((Mirrors.forest h hL (h.occurring k1) k2).1 g8)
        · exact absurd (h.names.reserved _ _ k1) h2
      | list g1 g2 g3 g4 g5 g6 g7 g8 =>
        exact .list g1 (by rw [hL.okList] at g2; exact g2) g3 g4 g5 g6 g7 ((Mirrors.forest h hL (fun s hs => by
          rw [List.eq_of_mem_replicate hs]
          exact ⟨by simp, h2⟩) (shown_replicate _ _)).1 g8)
    · intro hn
      cases hn with
      | any g1 g2 g3 g4 g5 g6 g7 g8 g9 g10 => exact .any g1 g2 g3 (by rw [hL.okAny]; exact g4) g5 g7 g8 g9 g10 g6
      | rule g1 g2 g3 g4 g5 g6 g7 g8 g9 =>
        exact .nonterminal g1 (h.up _ _ _ g2 g3) g4 g5 g6 g7 g8 ((Mirrors.forest h hL (h.occurring g2) g3).2 g9)
      | list g1 g2 g3 g4 g5 g6 g7 g8 =>
        exact .list g1 (by rw [hL.okList]; exact g2) g3 g4 g5 g6 g7 ((Mirrors.forest h hL (fun s hs => by
          rw [List.eq_of_mem_replicate hs]
          exact ⟨by simp, h2⟩) (shown_replicate _ _)).2 g8)
theorem Mirrors.forest (h : Mirrors env G N) (hL : Agrees L G) {ss : List Sym} {ts : List Term} (hs : ∀ s ∈ ss, Occurring G s)
    (hst : List.Forall₂ (ShownAs N) ss ts) {a b : Nat} {ns : List Node} :
    ForestOK env L ts a b ns ↔ TextForest G N env.tokens ss a b ns := by
  cases ns with
  | nil =>
    cases hst with
    | nil => exact ⟨fun hn => by cases hn; exact .nil, fun hn => by cases hn; exact .nil⟩
    | cons => exact ⟨fun hn => (by cases hn), fun hn => (by cases hn)⟩
  | cons n ns =>
    cases hst with
    | nil => exact ⟨fun hn => (by cases hn), fun hn => (by cases hn)⟩
    | cons h1 h2 =>
      constructor
      · intro hn
        cases hn with
        | cons g1 g2 =>
          exact .cons ((Mirrors.tree h hL (hs _ List.mem_cons_self) h1).1 g1)
            ((Mirrors.forest h hL (fun s hm => hs s (List.mem_cons_of_mem _ hm)) h2).1 g2)
      · intro hn
        cases hn with
        | cons g1 g2 =>
          exact .cons ((Mirrors.tree h hL (hs _ List.mem_cons_self) h1).2 g1)
            ((Mirrors.forest h hL (fun s hm => hs s (List.mem_cons_of_mem _ hm)) h2).2 g2)
end

theorem Mirrors.root (h : Mirrors env G N) (hL : Agrees L G) {S : String} (hS : ¬ Reserved S) {k : Nat} {n : Node} :
    RootOK env L S k n ↔ TextRoot G N env.tokens S k n := by
  unfold RootOK TextRoot
  have : ∀ c, TreeOK env L { value := S, type := .nonterminal, «meta» := .nil } 0 k c ↔
      TextTree G N env.tokens (.other ⟨S, .nonterminal, .nil⟩) 0 k c :=
    fun c => Mirrors.tree h hL (s := .other ⟨S, .nonterminal, .nil⟩) ⟨by simp, hS⟩ rfl
  simp only [this]

theorem Mirrors.relaxed (h : Mirrors env G N) : Mirrors env G.relaxed N :=
  ⟨h.names, h.down, h.literal, h.token, h.read, h.other, h.up⟩

/-- the ranges in the parser are those that are written -/
theorem Mirrors.occurs (h : Mirrors env G N) (hex : ∀ A syms f, G.alts A syms f →
    ∃ rb : RuleBody, env.Defines A rb ∧ List.Forall₂ (ShownAs N) syms rb.terms) {t : Term} (ht : t.type = .any ∨ t.type = .list) :
    env.Occurs t ↔ ∃ A syms f, G.alts A syms f ∧ Sym.other t ∈ syms := by
  constructor
  · rintro ⟨A, rb, h1, h2⟩
    rcases h.down A rb h1 with ⟨-, syms, k1, k2⟩ | ⟨t', -, rfl, k, -⟩
    · obtain ⟨s, hs, hst⟩ := forall₂_mem_right k2 h2
      cases s with
      | literal t' =>
        obtain ⟨e, -⟩ : t.type = .nonterminal ∧ _ := hst
        rw [e] at ht
        simp at ht
      | token t' =>
        obtain rfl : t = t' := hst
        rw [h.token _ _ _ k1 t hs] at ht
        simp at ht
      | other t' =>
        obtain rfl : t = t' := hst
        exact ⟨A, syms, _, k1, hs⟩
    · rw [k t h2] at ht
      simp at ht
  · rintro ⟨A, syms, f, h1, h2⟩
    obtain ⟨rb, h3, h4⟩ := hex A syms f h1
    obtain ⟨u, hu, hst⟩ := forall₂_mem_left h4 h2
    obtain rfl : u = t := hst
    exact ⟨A, rb, h3, hu⟩

end

section
variable {lw : LoadWorld} {ds : List Def} {ρ : List (String × String)} {F : Files} {I : String → Prop} {ld : Loaded}
  {w : World} {context : String} {text : Bytes} {l : Option Grammar} {d : Doc} {starts : List String} {tokens : List Token}

/-- equal terms with literals shown by the same names -/
theorem appears_unique {N : String → String → Prop} (hN : LiteralNames N) : ∀ {ts us us' : List Term},
    List.Forall₂ (Appears N) ts us → List.Forall₂ (ShownAs N) (ts.map writtenSym) us' → us = us'
  | [], _, _, .nil, .nil => rfl
  | t :: ts, _, _, .cons (b := u) h1 h2, .cons (b := u') h3 h4 => by
    rw [appears_unique hN h2 h4]
    congr 1
    rcases h1 with ⟨g1, g2, -⟩ | ⟨g1, g2, g3, g4⟩
    · rw [writtenSym, if_neg g1] at h3
      rw [g2]
      exact h3.symm
    · rw [writtenSym, if_pos g1] at h3
      obtain ⟨k1, k2, k3⟩ := h3
      have := hN.unique _ _ _ g3 k3
      cases u; cases u'
      simp_all

theorem appears_shown {N : String → String → Prop} : ∀ {ts us : List Term},
    List.Forall₂ (Appears N) ts us → List.Forall₂ (ShownAs N) (ts.map writtenSym) us
  | [], _, .nil => .nil
  | t :: ts, _, .cons h1 h2 => by
    refine .cons ?_ (appears_shown h2)
    rcases h1 with ⟨g1, g2, -⟩ | ⟨g1, g2, g3, g4⟩
    · rw [writtenSym, if_neg g1]
      exact g2
    · rw [writtenSym, if_pos g1]
      exact ⟨g2, g4, g3⟩

theorem shown_tokens_eq {N : String → String → Prop} : ∀ {ts us : List Term},
    List.Forall₂ (ShownAs N) (ts.map Sym.token) us → us = ts
  | [], _, .nil => rfl
  | t :: ts, _, .cons h1 h2 => by rw [shown_tokens_eq h2]; rw [show _ = t from h1]

theorem mem_writtenSym {ts : List Term} {s : Sym} (h : s ∈ ts.map writtenSym) :
    (∃ t ∈ ts, t.type = .terminal ∧ s = .literal t) ∨ ∃ t ∈ ts, t.type ≠ .terminal ∧ s = .other t := by
  obtain ⟨t, ht, rfl⟩ := List.mem_map.1 h
  by_cases e : t.type = .terminal
  · exact .inl ⟨t, ht, e, by rw [writtenSym, if_pos e]⟩
  · exact .inr ⟨t, ht, e, by rw [writtenSym, if_neg e]⟩

theorem DocAlt.terminal {find : String → Bytes → Option (List (Nat × Nat))} {R : String → String → Prop} {A : String}
    {rb : RuleBody} (h : DocAlt find R d A rb) : ∀ t ∈ rb.terms, t.type = .terminal := by
  intro t ht
  cases h <;> simp only [List.mem_singleton, List.mem_map] at ht
  all_goals first
    | (subst ht; rfl)
    | (obtain ⟨x, -, rfl⟩ := ht; rfl)

/-- the literals of what is written -/
theorem wholeAlts.literal {doc : String → RuleBody → Prop} {A : String} {syms : List Sym} {f : Option FMR}
    (h : wholeAlts ds F I doc A syms f) {t : Term} (ht : Sym.literal t ∈ syms) : wholeLiteral ds F I t := by
  cases h with
  | written hb =>
    rcases mem_writtenSym ht with ⟨t', h1, h2, e⟩ | ⟨t', h1, h2, e⟩
    · cases e
      exact ⟨h2, _, _, hb, h1⟩
    · cases e
  | document hb =>
    obtain ⟨t', -, e⟩ := List.mem_map.1 ht
    cases e

/-- the grammars of a load mirror what is written -/
theorem HeldBy.mirrors (h : HeldBy lw ds ρ F I ld) (hp : process w ld.gram context text = .ok (tokens, l))
    (ha : annotateText w context (w.trim text) = some d) (hd : DocFit w (wholeRegexps F I ρ) d)
    (hfit : WholeFit ds F I lw.ref (wholeSource ds F I lw.ref.annot (docOf w F I ρ d)) starts) :
    ∃ N, LiteralNames N ∧ ∀ toks c, Mirrors (envFor w ld.gram l toks starts c) (wholeGrammar ds ρ F I lw.ref w d) N ∧
      Agrees (envFor w ld.gram l toks starts c).lang (wholeGrammar ds ρ F I lw.ref w d) ∧
      Agrees (envFor w ld.gram l toks starts c).relaxedLang (wholeGrammar ds ρ F I lw.ref w d).relaxed := by
  obtain ⟨N, hN1, hN2, hN3, hdef, hlit, hwr, hdoc⟩ := h.named hp ha hd hfit 0
  have hN : LiteralNames N := ⟨hN2, hN3, hN1⟩
  have hfl : ∀ t t', wholeLiteral ds F I t → wholeLiteral ds F I t' → t.value = t'.value → t = t' := by
    intro t t' h1 h2 e
    have hm := hfit.flags t t' h1 h2 e
    have e1 := h1.1
    have e2 := h2.1
    cases t; cases t'
    simp_all
  suffices hm : ∀ toks c, Mirrors (envFor w ld.gram l toks starts c) (wholeGrammar ds ρ F I lw.ref w d) N by
    refine ⟨N, hN, fun toks c => ⟨hm toks c, ⟨rfl, rfl, rfl⟩, ?_⟩⟩
    have key := fun t => (hm toks c).occurs (t := t) (fun A syms f ha' => by
      cases ha' with
      | @written b hb =>
        obtain ⟨rb, hrb, -, h2⟩ := hwr A b hb
        exact ⟨rb, hrb, appears_shown h2⟩
      | @document b hb => exact ⟨b, hdoc A b hb, shown_tokens _⟩)
    refine ⟨rfl, ?_, ?_⟩
    · funext m n
      apply propext
      constructor
      · rintro ⟨t, h1, h2, h3⟩
        obtain ⟨A, syms, f, h4, h5⟩ := (key t (.inl h2)).1 h1
        exact ⟨A, syms, f, t, h4, h5, h2, h3⟩
      · rintro ⟨A, syms, f, t, h4, h5, h2, h3⟩
        exact ⟨t, (key t (.inl h2)).2 ⟨A, syms, f, h4, h5⟩, h2, h3⟩
    · funext x m n
      apply propext
      constructor
      · rintro ⟨t, h1, h2, h3⟩
        obtain ⟨A, syms, f, h4, h5⟩ := (key t (.inr h2)).1 h1
        exact ⟨A, syms, f, t, h4, h5, h2, h3⟩
      · rintro ⟨A, syms, f, t, h4, h5, h2, h3⟩
        exact ⟨t, (key t (.inr h2)).2 ⟨A, syms, f, h4, h5⟩, h2, h3⟩
  refine fun toks c => ⟨hN, ?_, ?_, ?_, ?_, ?_, ?_⟩
  · intro A rb hA
    rcases hdef A rb hA with ⟨v, m, h1, h2, rfl⟩ | ⟨h0, b, hb, h1, h2⟩ | ⟨h0, h1, -, -⟩
    · refine .inr ⟨⟨v, .terminal, m⟩, h1, rfl, readTerm_terminal (annot := lw.ref.annot) (t := ⟨v, .terminal, m⟩) rfl, fun A' syms f ha' t' ht' e => ?_⟩
      rw [hfl t' ⟨v, .terminal, m⟩ (ha'.literal ht') h2 e]
    · exact .inl ⟨h0, _, h1 ▸ .written hb, appears_shown h2⟩
    · exact .inl ⟨h0, _, .document h1, shown_tokens _⟩
  · intro A syms f ha' t ht A' hA'
    obtain ⟨m, h1, h2⟩ := hlit _ _ hA'
    rw [hfl t ⟨t.value, .terminal, m⟩ (ha'.literal ht) h1 rfl]
    exact h2
  · intro A syms f ha' t ht
    cases ha' with
    | written hb => rcases mem_writtenSym ht with ⟨t', h1, h2, e⟩ | ⟨t', h1, h2, e⟩ <;> cases e
    | document hb =>
      obtain ⟨t', ht', e⟩ := List.mem_map.1 ht
      cases e
      exact hb.terminal t ht'
  · intro A syms f ha' t ht u hu
    exact readTerm_terminal (ha'.literal ht).1 u hu
  · intro A syms f ha' t ht
    cases ha' with
    | @written b hb =>
      rcases mem_writtenSym ht with ⟨t', h1, h2, e⟩ | ⟨t', h1, h2, e⟩
      · cases e
      · cases e
        refine ⟨h2, ?_⟩
        obtain ⟨rb, -, -, hrel⟩ := hwr A b hb
        obtain ⟨u, -, hu⟩ := forall₂_mem_left hrel h1
        rcases hu with ⟨-, -, h3⟩ | ⟨h3, -⟩
        · exact h3
        · exact absurd h3 h2
    | document hb =>
      obtain ⟨t', ht', e⟩ := List.mem_map.1 ht
      cases e
  · rintro A syms ⟨ts, f⟩ ha' hsh
    generalize hf : RuleBody.f ⟨ts, f⟩ = f' at ha'
    obtain rfl : f = f' := hf
    cases ha' with
    | @written b hb =>
      obtain ⟨rb, hrb, h1, h2⟩ := hwr A b hb
      have := appears_unique hN h2 hsh
      cases rb
      simp only at this h1
      rw [← this, ← h1]
      exact hrb
    | @document b hb =>
      have := shown_tokens_eq hsh
      simp only at this
      rw [this]
      exact hdoc A b hb

end

end Fmr
