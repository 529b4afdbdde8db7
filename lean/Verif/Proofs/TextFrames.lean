import Verif.Spec.TextFrames
import Verif.Proofs.TextTrees
import Verif.Props.FrameSlots

/-!
# The index and the frames, against what is written (for C77)
-/

namespace Fmr

theorem HoldsDefs.entry {hash : RuleBody → Option Nat} {ds : List Def} {fr : Bool} {m : List (String × Rule)}
    (h : HoldsDefs hash ds fr m) (hn : (m.map Prod.fst).Nodup) {e : String × Rule} (he : e ∈ m) :
    e.2.name = e.1 ∧ ∀ k b, (k, b) ∈ e.2.body ↔ hash b = some k ∧ Written ds fr e.1 b := by
  have hl : m.lookup e.1 = some e.2 := (show KeysNodup m from hn).lookup.mpr he
  exact ⟨h.name _ _ hl, fun k b => h.bodies _ _ k b hl⟩

theorem HoldsDefs.held {hash : RuleBody → Option Nat} {ds : List Def} {fr : Bool} {m : List (String × Rule)}
    (h : HoldsDefs hash ds fr m) (hc : NoCollision hash ds) {A : String} {b : RuleBody} (hb : Written ds fr A b) :
    ∃ e ∈ m, e.2.name = A ∧ ∃ k, hash b = some k ∧ (k, b) ∈ e.2.body := by
  have hb' := hb
  obtain ⟨d, hd, hf, hn, hbd⟩ := hb'
  obtain ⟨r, hr⟩ := (h.names A).2 ⟨d, hd, hf, hn⟩
  obtain ⟨k, hk⟩ := Option.ne_none_iff_exists'.1 (hc.1 d hd b hbd)
  exact ⟨(A, r), mem_of_lookup hr, h.name A r hr, k, hk, (h.bodies A r k b hr).2 ⟨hk, hb⟩⟩

/-- a literal becomes a reference to the rule with its name, other terms stay -/
def LitRel (w : RefineWorld) (t0 t : Term) : Prop :=
  (t0.type ≠ .terminal ∧ t = t0) ∨
    (t0.type = .terminal ∧ t.type = .nonterminal ∧ t.value = literalName w "g" t0.value)

theorem foldl_mapSet_mem {e : String × Rule} : ∀ (rs : List Rule) (m : List (String × Rule)),
    e ∈ rs.foldl (fun m r => mapSet m r.name r) m → e ∈ m ∨ e.2 ∈ rs
  | [], m, h => .inl h
  | a :: rs, m, h => by
    rcases foldl_mapSet_mem rs _ h with h | h
    · rcases mem_mapSet_str h with rfl | h
      · exact .inr (by simp)
      · exact .inl h
    · exact .inr (by simp [h])

section
variable {lw : LoadWorld} {ds : List Def} {f : Grammar × Grammar}

/-- the alternatives of an included file -/
theorem Piece.entry_down (h : Piece lw ds f) (hap : NamesApart lw.ref "g" f.1) {e : String × Rule} (he : e ∈ f.2.rules)
    {k : Nat} {rb : RuleBody} (hb : (k, rb) ∈ e.2.body) :
    (∃ A b t, Written ds false A b ∧ t ∈ b.terms ∧ t.type = .terminal ∧ e.2.name = literalName lw.ref "g" t.value ∧
      rb.terms = readTerm lw.ref.annot t) ∨
    ∃ b, Written ds false e.2.name b ∧ List.Forall₂ (LitRel lw.ref) b.terms rb.terms := by
  obtain ⟨es, ⟨rules, hR⟩, hn, -⟩ := h.entries
  have hn := hn hap
  rw [hR.result] at he
  rcases foldl_mapSet_mem _ _ he with he | he
  · obtain ⟨e0, he0, -, hname, hrel⟩ := forall₂_mem_right hR.rel he
    obtain ⟨⟨k0, b0⟩, hb0, -, -, ht⟩ := forall₂_mem_right hrel hb
    obtain ⟨h1, h2⟩ := h.holds.entry h.wf.ruleKeys he0
    refine .inr ⟨b0, ?_, forall₂_imp (fun t0 t ht => ?_) ht⟩
    · rw [hname, h1]
      exact ((h2 k0 b0).1 hb0).2
    · rcases ht with ht | ⟨h3, en, hen, h4, rfl⟩
      · exact .inl ht
      · exact .inr ⟨h3, rfl, by rw [hn en hen, h4]⟩
  · obtain ⟨en, hen, he⟩ := List.mem_map.1 he
    rw [← he] at hb ⊢
    simp only [List.mem_singleton, Prod.mk.injEq] at hb
    obtain ⟨-, rfl⟩ := hb
    obtain ⟨h1, A, b, hb, ht⟩ := h.literal (hR.occurs en hen)
    exact .inl ⟨A, b, _, hb, ht, rfl, hn en hen, by rw [hR.body en hen]⟩

theorem Piece.entry_up (h : Piece lw ds f) (hap : NamesApart lw.ref "g" f.1) (hwf : LoadedWF lw.lex f.2) {A : String} {b : RuleBody}
    (hb : Written ds false A b) :
    (∃ e ∈ f.2.rules, e.2.name = A ∧ ∃ k rb, (k, rb) ∈ e.2.body ∧ List.Forall₂ (LitRel lw.ref) b.terms rb.terms) ∧
    ∀ t ∈ b.terms, t.type = .terminal → ∃ e ∈ f.2.rules, e.2.name = literalName lw.ref "g" t.value ∧
      ∃ A' b' t', Written ds false A' b' ∧ t' ∈ b'.terms ∧ t'.type = .terminal ∧ t'.value = t.value ∧
        ∃ k rb, (k, rb) ∈ e.2.body ∧ rb.terms = readTerm lw.ref.annot t' := by
  obtain ⟨es, ⟨rules, hR⟩, hn, -⟩ := h.entries
  have hn := hn hap
  obtain ⟨r, hr, hb'⟩ := h.body_of hb
  have hA : A ∉ es.map Entry.name := by
    intro hA
    obtain ⟨e, he, rfl⟩ := List.mem_map.1 hA
    rw [hR.fresh e he] at hr
    simp at hr
  obtain ⟨r', hr', rb, hrb, -, hrel⟩ := hR.body_up hA ⟨r, hr, hb'⟩
  refine ⟨⟨(A, r'), mem_of_lookup hr', by cases hwf.rules A r' hr' <;> rfl, ?_⟩, fun t ht htt => ?_⟩
  · obtain ⟨⟨k, rb⟩, he, rfl⟩ := List.mem_map.1 hrb
    refine ⟨k, rb, he, forall₂_imp (fun t0 t ht => ?_) hrel⟩
    rcases ht with ht | ⟨h3, en, hen, h4, rfl⟩
    · exact .inl ht
    · exact .inr ⟨h3, rfl, by rw [hn en hen, h4]⟩
  · obtain ⟨u, -, hu⟩ := forall₂_mem_left hrel ht
    rcases hu with ⟨h1, -⟩ | ⟨-, en, hen, h4, -⟩
    · exact absurd htt h1
    · obtain ⟨-, A', b', hb', ht'⟩ := h.literal (hR.occurs en hen)
      exact ⟨_, mem_of_lookup (hR.lookup_new hen), (hn en hen).trans (by rw [h4]), A', b', _, hb', ht', rfl, h4,
        en.hash, en.body, by simp, by rw [hR.body en hen]⟩

end

section
variable {lw : LoadWorld} {ds : List Def} {ρ : List (String × String)} {F : Files} {I : String → Prop} {ld : Loaded}

theorem HeldBy.included (h : HeldBy lw ds ρ F I ld) {g : Grammar} (hg : g ∈ ld.gram.includes) :
    ∃ f : Grammar × Grammar, f.2 = g ∧ I g.name ∧ Piece lw (F.defs g.name) f ∧ HoldsDefs lw.lex.hash (F.defs g.name) true f.1.frames := by
  have hI := (h.names _).1 (List.mem_map_of_mem hg)
  obtain ⟨g0, fuel, reg, reg', h1, h2, h3, -, h4⟩ := h.ok.includes g hg
  exact ⟨(g0, g), rfl, hI, ⟨h1, h2, h.noCollision.2 _ hI, _, _, _, h3⟩, h4⟩

/-- names of literals of an included file -/
theorem Piece.apart {f : Grammar × Grammar} {p : String} (hI : I p) (hpc : Piece lw (F.defs p) f) {doc : Source} {starts : List String}
    (hfit : WholeFit ds F I lw.ref (wholeSource ds F I lw.ref.annot doc) starts) : NamesApart lw.ref "g" f.1 := by
  have hlit : ∀ t, f.1.Literal t → wholeLiteral ds F I t := by
    intro t ht
    obtain ⟨h1, A, b, hb, h2⟩ := hpc.literal ht
    exact ⟨h1, A, b, .inr ⟨p, hI, hb⟩, h2⟩
  refine ⟨fun t t' ht ht' => hfit.apart ⟨p, hI⟩ t t' (hlit t ht) (hlit t' ht'), fun t ht => ?_⟩
  cases hl : f.1.rules.lookup (literalName lw.ref "g" t.value) with
  | none => rfl
  | some r =>
    obtain ⟨b, hb⟩ := hpc.names hl
    exact absurd (.inr (literalName_prefix lw.ref "g" t.value))
      (hfit.free _ (.inl (wholeWritten.uses (F := F) (I := I) (.inr ⟨p, hI, hb⟩)).1))

/-- the definitions behind the index -/
structure IndexedBy (lw : LoadWorld) (ds : List Def) (ld : Loaded) (g0 : Grammar) : Prop where
  wf : GrammarWF lw.lex g0
  rules : HoldsDefs lw.lex.hash ds false g0.rules
  frames : HoldsDefs lw.lex.hash ds true g0.frames
  refines : ∃ fuel reg reg', refine lw.ref "g" fuel reg g0 = .ok (reg', ld.gram.main)
  index : buildIndex lw.idx ⟨g0, ld.gram.includes⟩ = .ok ld.index

theorem HeldBy.indexed (h : HeldBy lw ds ρ F I ld) : ∃ g0, IndexedBy lw ds ld g0 := by
  obtain ⟨g0, h1, h2, h3, h4, h5⟩ := h.ok.index
  exact ⟨g0, h1, h2, h3, h4, h5⟩

theorem literalName_ne (w : RefineWorld) (v : String) : literalName w "g" v ≠ "" := by
  intro e
  have := literalName_prefix w "g" v
  rw [e] at this
  exact absurd this (by decide)

variable (h : HeldBy lw ds ρ F I ld) {g0 : Grammar} (hi : IndexedBy lw ds ld g0) {doc : Source} {starts : List String}
  (hfit : WholeFit ds F I lw.ref (wholeSource ds F I lw.ref.annot doc) starts)
include h hi hfit

/-- the words of rules in the index -/
theorem HeldBy.ruleHas {trim : String → String} (A s : String) : Gram.RuleHas ⟨g0, ld.gram.includes⟩ trim A s ↔
    (∃ b, Written ds false A b ∧ BodyWord trim b s) ∨
    ∃ p A' b t, I p ∧ Written (F.defs p) false A' b ∧ t ∈ b.terms ∧ t.type = .terminal ∧
      A = literalName lw.ref "g" t.value ∧ s ≠ "" ∧ ∃ u ∈ readTerm lw.ref.annot t, trim u.value = s := by
  constructor
  · rintro ⟨k, rfl, hs, rb, ⟨ig, hig, e, he, hk, hb⟩, t, ht, htt, hts⟩
    rcases List.mem_cons.1 hig with rfl | hig
    · obtain ⟨h1, h2⟩ := hi.rules.entry hi.wf.ruleKeys he
      refine .inl ⟨rb, ?_, hs, t, ht, htt, hts⟩
      rw [hk, h1]
      exact ((h2 _ _).1 hb).2
    · obtain ⟨f, rfl, hI, hpc, -⟩ := h.included hig
      rcases hpc.entry_down (hpc.apart hI hfit) he hb with ⟨A', b, t0, h1, h2, h3, h4, h5⟩ | ⟨b, h1, h2⟩
      · exact .inr ⟨_, A', b, t0, hI, h1, h2, h3, hk.trans h4, hs, t, h5 ▸ ht, hts⟩
      · obtain ⟨t0, ht0, h3⟩ := forall₂_mem_right h2 ht
        rcases h3 with ⟨h3, rfl⟩ | ⟨-, h3, -⟩
        · exact absurd htt h3
        · rw [htt] at h3; simp at h3
  · rintro (⟨b, hb, hs, t, ht, htt, hts⟩ | ⟨p, A', b, t, hI, hb, ht, htt, rfl, hs, u, hu, hus⟩)
    · obtain ⟨e, he, hn, k, -, hk⟩ := hi.rules.held h.noCollision.1 hb
      exact ⟨⟨A, k⟩, rfl, hs, b, ⟨g0, by simp, e, he, hn.symm, hk⟩, t, ht, htt, hts⟩
    · obtain ⟨g, hg, rfl⟩ := List.mem_map.1 ((h.names p).2 hI)
      obtain ⟨f, rfl, -, hpc, -⟩ := h.included hg
      obtain ⟨e, he, hn, A'', b', t', hb', ht', htt', hv, k, rb, hk, hrb⟩ :=
        (hpc.entry_up (hpc.apart hI hfit) (h.wf _ (List.mem_cons_of_mem _ hg)) hb).2 t ht htt
      have hm := hfit.flags t' t ⟨htt', A'', b', .inr ⟨_, hI, hb'⟩, ht'⟩ ⟨htt, A', b, .inr ⟨_, hI, hb⟩, ht⟩ hv
      have e1 : t' = t := by
        cases t; cases t'
        simp_all
      subst e1
      rw [← hrb] at hu
      refine ⟨⟨_, k⟩, rfl, hs, rb, ⟨f.2, List.mem_cons_of_mem _ hg, e, he, hn.symm, hk⟩, u, hu, ?_, hus⟩
      rw [hrb, readTerm, if_pos htt] at hu
      obtain ⟨a, -, rfl⟩ := List.mem_map.1 hu
      rfl

/-- the references between rules in the index -/
theorem HeldBy.refers {trim : String → String} {src : Source} (hff : FrameFit ds F I trim lw.ref src) (A B : String) :
    Gram.Refers ⟨g0, ld.gram.includes⟩ trim A B ↔ RuleRefers ds F I A B ∨
    ∃ p b t, I p ∧ Written (F.defs p) false A b ∧ t ∈ b.terms ∧ t.type = .terminal ∧ B = literalName lw.ref "g" t.value := by
  constructor
  · rintro ⟨k, rfl, hs, rb, ⟨ig, hig, e, he, hk, hb⟩, t, ht, htt, hts⟩
    rcases List.mem_cons.1 hig with rfl | hig
    · obtain ⟨h1, h2⟩ := hi.rules.entry hi.wf.ruleKeys he
      have hw : Written ds false k.ruleName rb := by
        rw [hk, h1]
        exact ((h2 _ _).1 hb).2
      exact .inl ⟨rb, .inl hw, hs, t, ht, htt, (hff.refs _ _ (.inr (.inl hw)) t ht htt).symm.trans hts⟩
    · obtain ⟨f, rfl, hI, hpc, -⟩ := h.included hig
      rcases hpc.entry_down (hpc.apart hI hfit) he hb with ⟨A', b, t0, h1, h2, h3, h4, h5⟩ | ⟨b, h1, h2⟩
      · rw [h5, readTerm, if_pos h3] at ht
        obtain ⟨a, -, rfl⟩ := List.mem_map.1 ht
        simp at htt
      · rw [← hk] at h1
        obtain ⟨t0, ht0, h3⟩ := forall₂_mem_right h2 ht
        rcases h3 with ⟨h3, rfl⟩ | ⟨h3, -, h4⟩
        · have hw : wholeWritten ds F I k.ruleName b := .inr ⟨_, hI, h1⟩
          exact .inl ⟨b, hw, hs, t, ht0, htt, (hff.refs _ _ (.inr hw) t ht0 htt).symm.trans hts⟩
        · refine .inr ⟨_, b, t0, hI, h1, ht0, h3, ?_⟩
          rw [← hts, h4, hff.names _ _ b hI h1 t0 ht0 h3]
  · rintro (⟨b, hb, hs, t, ht, htt, rfl⟩ | ⟨p, b, t, hI, hb, ht, htt, rfl⟩)
    · have hfix := hff.refs _ _ (.inr hb) t ht htt
      rcases hb with hb | ⟨p, hI, hb⟩
      · obtain ⟨e, he, hn, k, -, hk⟩ := hi.rules.held h.noCollision.1 hb
        exact ⟨⟨A, k⟩, rfl, hs, b, ⟨g0, by simp, e, he, hn.symm, hk⟩, t, ht, htt, hfix⟩
      · obtain ⟨g, hg, rfl⟩ := List.mem_map.1 ((h.names p).2 hI)
        obtain ⟨f, rfl, -, hpc, -⟩ := h.included hg
        obtain ⟨e, he, hn, k, rb, hk, hrel⟩ :=
          (hpc.entry_up (hpc.apart hI hfit) (h.wf _ (List.mem_cons_of_mem _ hg)) hb).1
        obtain ⟨u, hu, h3⟩ := forall₂_mem_left hrel ht
        rcases h3 with ⟨-, rfl⟩ | ⟨h3, -⟩
        · exact ⟨⟨A, k⟩, rfl, hs, rb, ⟨f.2, List.mem_cons_of_mem _ hg, e, he, hn.symm, hk⟩, u, hu, htt, hfix⟩
        · rw [htt] at h3; simp at h3
    · obtain ⟨g, hg, rfl⟩ := List.mem_map.1 ((h.names p).2 hI)
      obtain ⟨f, rfl, -, hpc, -⟩ := h.included hg
      obtain ⟨e, he, hn, k, rb, hk, hrel⟩ :=
        (hpc.entry_up (hpc.apart hI hfit) (h.wf _ (List.mem_cons_of_mem _ hg)) hb).1
      obtain ⟨u, hu, h3⟩ := forall₂_mem_left hrel ht
      rcases h3 with ⟨h3, -⟩ | ⟨-, h3, h4⟩
      · exact absurd htt h3
      · refine ⟨⟨A, k⟩, rfl, literalName_ne _ _, rb, ⟨f.2, List.mem_cons_of_mem _ hg, e, he, hn.symm, hk⟩, u, hu, h3, ?_⟩
        rw [h4, hff.names _ _ b hI hb t ht htt]

theorem HeldBy.refers_free {trim : String → String} {src : Source} (hff : FrameFit ds F I trim lw.ref src) {A B : String}
    (hA : Gram.Refers ⟨g0, ld.gram.includes⟩ trim A B) : ¬ Reserved A := by
  rcases (h.refers hi hfit hff A B).1 hA with ⟨b, hb, -⟩ | ⟨p, b, t, hI, hb, -⟩
  · exact hfit.free _ (.inl hb.uses.1)
  · exact hfit.free _ (.inl (wholeWritten.uses (F := F) (I := I) (.inr ⟨p, hI, hb⟩)).1)

theorem HeldBy.candidate_down {trim : String → String} {src : Source} (hff : FrameFit ds F I trim lw.ref src) {S B s : String}
    (hab : Above (Gram.Refers ⟨g0, ld.gram.includes⟩ trim) S B) (hS : ¬ Reserved S)
    (hB : Gram.RuleHas ⟨g0, ld.gram.includes⟩ trim B s) :
    ∃ B', RuleWord ds F I lw.ref.annot trim B' s ∧ Above (RuleRefers ds F I) S B' := by
  induction hab with
  | refl =>
    rcases (h.ruleHas hi hfit _ s).1 hB with ⟨b, hb, hs⟩ | ⟨p, A', b, t, hI, hb, ht, htt, rfl, -⟩
    · exact ⟨_, .main hb hs, .refl⟩
    · exact absurd (.inr (literalName_prefix lw.ref "g" t.value)) hS
  | @step A C B hR hab ih =>
    rcases (h.refers hi hfit hff _ _).1 hR with hR | ⟨p, b, t, hI, hb, ht, htt, rfl⟩
    · have hC : ¬ Reserved C := by
        obtain ⟨b, hb, -, t, ht, htt, rfl⟩ := hR
        exact hfit.free _ (.inl (hb.uses.2 t ht (.inl htt)))
      obtain ⟨B', h1, h2⟩ := ih hC hB
      exact ⟨B', h1, .step hR h2⟩
    · cases hab with
      | step hR' _ => exact absurd (.inr (literalName_prefix lw.ref "g" t.value)) (h.refers_free hi hfit hff hR')
      | refl =>
        refine ⟨_, ?_, .refl⟩
        rcases (h.ruleHas hi hfit _ s).1 hB with ⟨b', hb', -⟩ | ⟨p', A', b', t', hI', hb', ht', htt', hv, hs, u, hu, hus⟩
        · exact absurd (.inr (literalName_prefix lw.ref "g" t.value)) (hfit.free _ (.inl (wholeWritten.uses (F := F) (I := I) (.inl hb')).1))
        · have hl : wholeLiteral ds F I t := ⟨htt, _, b, .inr ⟨_, hI, hb⟩, ht⟩
          have hl' : wholeLiteral ds F I t' := ⟨htt', A', b', .inr ⟨_, hI', hb'⟩, ht'⟩
          have hv := hfit.apart ⟨p, hI⟩ t t' hl hl' hv
          have hm := hfit.flags t t' hl hl' hv
          have e1 : t = t' := by
            cases t; cases t'
            simp_all
          subst e1
          exact .included hI hb ht htt hu hus hs

/-- the rules that are tried -/
theorem HeldBy.candidate {src : Source} (hff : FrameFit ds F I lw.idx.trim lw.ref src) {ms : List (String × List Pos)}
    (hne : ∀ m ∈ ms, m.2 ≠ []) {S : String} (hS : ¬ Reserved S) :
    Candidate lw.idx ⟨g0, ld.gram.includes⟩ ms S ↔
      Tried ds F I lw.ref.annot lw.idx.trim (fun s => ∃ pos, FoundAt ms s pos) S := by
  constructor
  · rintro ⟨B, ⟨m, hm, hB⟩, hab⟩
    obtain ⟨B', h1, h2⟩ := h.candidate_down hi hfit hff hab hS hB
    obtain ⟨pos, hpos⟩ := List.exists_mem_of_ne_nil _ (hne m hm)
    exact ⟨B', m.1, ⟨pos, m, hm, rfl, hpos⟩, h1, h2⟩
  · rintro ⟨B, s, ⟨pos, m, hm, rfl, -⟩, hw, hab⟩
    have hab' : ∀ {C D : String}, Above (RuleRefers ds F I) C D → ∀ E, Above (Gram.Refers ⟨g0, ld.gram.includes⟩ lw.idx.trim) D E →
        Above (Gram.Refers ⟨g0, ld.gram.includes⟩ lw.idx.trim) C E := by
      intro C D hCD
      induction hCD with
      | refl => exact fun E hE => hE
      | step hR _ ih => exact fun E hE => .step ((h.refers hi hfit hff _ _).2 (.inl hR)) (ih E hE)
    cases hw with
    | main hb hs => exact ⟨B, ⟨m, hm, (h.ruleHas hi hfit _ _).2 (.inl ⟨_, hb, hs⟩)⟩, hab' hab _ .refl⟩
    | included hI hb ht htt hu hus hs =>
      refine ⟨_, ⟨m, hm, (h.ruleHas hi hfit _ _).2 (.inr ⟨_, _, _, _, hI, hb, ht, htt, rfl, hs, _, hu, hus⟩)⟩, ?_⟩
      exact hab' hab _ (.step ((h.refers hi hfit hff _ _).2 (.inr ⟨_, _, _, hI, hb, ht, htt, rfl⟩)) .refl)

/-- some rule has a word that is found -/
theorem HeldBy.noRuleLiteral {ms : List (String × List Pos)} (hne : ∀ m ∈ ms, m.2 ≠ []) :
    NoRuleLiteral lw.idx ⟨g0, ld.gram.includes⟩ ms ↔
      ¬ ∃ A s pos, FoundAt ms s pos ∧ RuleWord ds F I lw.ref.annot lw.idx.trim A s := by
  constructor
  · rintro hn ⟨A, s, pos, ⟨m, hm, rfl, -⟩, hw⟩
    cases hw with
    | main hb hs => exact hn m hm A ((h.ruleHas hi hfit _ _).2 (.inl ⟨_, hb, hs⟩))
    | included hI hb ht htt hu hus hs =>
      exact hn m hm _ ((h.ruleHas hi hfit _ _).2 (.inr ⟨_, _, _, _, hI, hb, ht, htt, rfl, hs, _, hu, hus⟩))
  · intro hn m hm A hA
    obtain ⟨pos, hpos⟩ := List.exists_mem_of_ne_nil _ (hne m hm)
    rcases (h.ruleHas hi hfit _ _).1 hA with ⟨b, hb, hs⟩ | ⟨p, A', b, t, hI, hb, ht, htt, -, hs, u, hu, hus⟩
    · exact hn ⟨A, m.1, pos, ⟨m, hm, rfl, hpos⟩, .main hb hs⟩
    · exact hn ⟨A', m.1, pos, ⟨m, hm, rfl, hpos⟩, .included hI hb ht htt hu hus hs⟩

/-- the names of rules in the index -/
theorem HeldBy.ruleNames {k : RbKey} {rb : RuleBody} (hb : Gram.Body ⟨g0, ld.gram.includes⟩ .rule k rb) :
    k.ruleName ≠ "" ∧ k.ruleName ≠ gammaRule := by
  have hγ : ∀ A b, wholeWritten ds F I A b → A ≠ gammaRule := by
    rintro A b hw rfl
    exact hfit.free _ (.inl hw.uses.1) (.inl rfl)
  obtain ⟨ig, hig, e, he, hk, hb⟩ := hb
  rw [hk]
  rcases List.mem_cons.1 hig with rfl | hig
  · obtain ⟨h1, h2⟩ := hi.rules.entry hi.wf.ruleKeys he
    refine ⟨(hi.wf.rules e he).named, ?_⟩
    rw [h1]
    exact hγ _ _ (.inl ((h2 _ _).1 hb).2)
  · obtain ⟨f, rfl, hI, hpc, -⟩ := h.included hig
    rcases hpc.entry_down (hpc.apart hI hfit) he hb with ⟨A', b, t0, -, -, -, h4, -⟩ | ⟨b, h1, -⟩
    · refine ⟨h4 ▸ literalName_ne _ _, fun e => ?_⟩
      have := literalName_prefix lw.ref "g" t0.value
      rw [← h4, e] at this
      exact absurd this (by decide)
    · obtain ⟨r, hr, -⟩ := hpc.body_of h1
      have hn := hpc.wf.rules _ (mem_of_lookup hr)
      exact ⟨(show r.name = e.2.name from hn.name) ▸ hn.named, hγ _ _ (.inr ⟨_, hI, h1⟩)⟩

omit hfit in
/-- included files have no frames -/
theorem HeldBy.noFrames {trim : String → String} {src : Source} (hff : FrameFit ds F I trim lw.ref src) :
    ∀ ig ∈ ld.gram.includes, ig.frames = [] := by
  intro ig hig
  obtain ⟨f, rfl, hI, hpc, hfr⟩ := h.included hig
  obtain ⟨fuel, reg, reg', hr⟩ := hpc.refines
  rw [(C25_structure hpc.wf.unrefined hr).2.2.1]
  cases hf : f.1.frames with
  | nil => rfl
  | cons e l =>
    obtain ⟨d, hd, h1, -⟩ := (hfr.names e.1).1 ⟨e.2, by rw [hf, List.lookup_cons_self]⟩
    rw [hff.own _ hI d hd] at h1
    simp at h1

omit hfit in
/-- the alternatives of frames in the index -/
theorem HeldBy.frameBodies {trim : String → String} {src : Source} (hff : FrameFit ds F I trim lw.ref src) (k : RbKey) (rb : RuleBody) :
    Gram.Body ⟨g0, ld.gram.includes⟩ .frame k rb ↔ Written ds true k.ruleName rb ∧ lw.lex.hash rb = some k.bodyID := by
  constructor
  · rintro ⟨ig, hig, e, he, hk, hb⟩
    rcases List.mem_cons.1 hig with rfl | hig
    · obtain ⟨h1, h2⟩ := hi.frames.entry hi.wf.frameKeys he
      rw [hk, h1]
      exact ((h2 _ _).1 hb).symm
    · rw [show ig.defs .frame = ig.frames from rfl, h.noFrames hi hff ig hig] at he
      simp at he
  · rintro ⟨hw, hh⟩
    obtain ⟨e, he, hn, k', hk', hk⟩ := hi.frames.held h.noCollision.1 hw
    rw [hh, Option.some.injEq] at hk'
    subst hk'
    exact ⟨g0, by simp, e, he, hn.symm, hk⟩

omit hfit in
theorem HeldBy.frameWord {trim : String → String} {src : Source} (hff : FrameFit ds F I trim lw.ref src) (k : RbKey) (s : String) :
    Gram.Has ⟨g0, ld.gram.includes⟩ trim .frame .terminal k s ↔
      ∃ b, Written ds true k.ruleName b ∧ lw.lex.hash b = some k.bodyID ∧ BodyWord trim b s := by
  constructor
  · rintro ⟨hs, rb, hb, ht⟩
    obtain ⟨h1, h2⟩ := (h.frameBodies hi hff k rb).1 hb
    exact ⟨rb, h1, h2, hs, ht⟩
  · rintro ⟨rb, h1, h2, hs, ht⟩
    exact ⟨hs, rb, (h.frameBodies hi hff k rb).2 ⟨h1, h2⟩, ht⟩

omit hfit in
theorem HeldBy.frameRef {trim : String → String} {src : Source} (hff : FrameFit ds F I trim lw.ref src) (k : RbKey) (S : String) :
    Gram.Has ⟨g0, ld.gram.includes⟩ trim .frame .nonterminal k S ↔
      ∃ b, Written ds true k.ruleName b ∧ lw.lex.hash b = some k.bodyID ∧ BodyRef b S := by
  constructor
  · rintro ⟨hs, rb, hb, t, ht, htt, hts⟩
    obtain ⟨h1, h2⟩ := (h.frameBodies hi hff k rb).1 hb
    exact ⟨rb, h1, h2, hs, t, ht, htt, (hff.refs _ _ (.inl h1) t ht htt).symm.trans hts⟩
  · rintro ⟨rb, h1, h2, hs, t, ht, htt, rfl⟩
    exact ⟨hs, rb, (h.frameBodies hi hff k rb).2 ⟨h1, h2⟩, t, ht, htt, hff.refs _ _ (.inl h1) t ht htt⟩

/-- the words that are looked for -/
theorem HeldBy.textWord {src : Source} (hff : FrameFit ds F I lw.idx.trim lw.ref src) (s : String) :
    s ∈ ld.index.trie ↔ TextWord ds F I lw.ref.annot lw.idx.trim s := by
  rw [(C37_index hi.index s).1]
  constructor
  · rintro ⟨c, k, hk⟩
    cases c with
    | frame =>
      obtain ⟨b, h1, -, h2⟩ := (h.frameWord hi hff k s).1 hk
      exact .inr ⟨_, b, h1, h2⟩
    | rule =>
      rcases (h.ruleHas hi hfit k.ruleName s).1 ⟨k, rfl, hk⟩ with ⟨b, hb, hs⟩ | ⟨p, A', b, t, hI, hb, ht, htt, -, hs, u, hu, hus⟩
      · exact .inl ⟨_, .main hb hs⟩
      · exact .inl ⟨A', .included hI hb ht htt hu hus hs⟩
  · rintro (⟨A, hw⟩ | ⟨A, b, h1, h2⟩)
    · have : ∃ A, Gram.RuleHas ⟨g0, ld.gram.includes⟩ lw.idx.trim A s := by
        cases hw with
        | main hb hs => exact ⟨_, (h.ruleHas hi hfit _ _).2 (.inl ⟨_, hb, hs⟩)⟩
        | included hI hb ht htt hu hus hs =>
          exact ⟨_, (h.ruleHas hi hfit _ _).2 (.inr ⟨_, _, _, _, hI, hb, ht, htt, rfl, hs, _, hu, hus⟩)⟩
      obtain ⟨A, k, -, hk⟩ := this
      exact ⟨.rule, k, hk⟩
    · have h1' := h1
      obtain ⟨d, hd, -, -, hbd⟩ := h1'
      obtain ⟨k, hk⟩ := Option.ne_none_iff_exists'.1 (h.noCollision.1.1 d hd b hbd)
      exact ⟨.frame, ⟨A, k⟩, (h.frameWord hi hff _ s).2 ⟨b, h1, hk, h2⟩⟩

end

/-! ### the call -/

theorem RootOK.strict {env : Env} (hu : UniformBounds env) {S : String} {j : Nat} {n : Node}
    (h : RootOK env env.relaxedLang S j n) : RootOK env env.lang S j n := by
  obtain ⟨h1, h2, h3, h4, h5, c, h6, h7⟩ := h
  exact ⟨h1, h2, h3, h4, h5, c, h6, h7.strict hu (by simp)⟩

mutual
theorem TreeOK.relax {env : Env} {t a b n} (h : TreeOK env env.lang t a b n)
    (hocc : t.type = .any ∨ t.type = .list → env.Occurs t) : TreeOK env env.relaxedLang t a b n := by
  obtain ⟨v, cs⟩ := n
  cases h with
  | terminal h1 h2 h3 h4 h5 h6 h7 h8 => exact TreeOK.terminal h1 h2 h3 h4 h5 h6 h7 h8
  | any h1 h2 h3 h4 h5 h6 h7 h8 h9 h10 =>
    exact TreeOK.any h1 h2 h3 ⟨_, hocc (.inl h1), h1, h4⟩ h5 h6 h7 h8 h9 h10
  | nonterminal h1 h2 h3 h4 h5 h6 h7 h8 =>
    exact TreeOK.nonterminal h1 h2 h3 h4 h5 h6 h7 (ForestOK.relax h8 (fun t' ht' _ => ⟨_, _, h2, ht'⟩))
  | list h1 h2 h3 h4 h5 h6 h7 h8 =>
    refine TreeOK.list h1 ⟨_, hocc (.inr h1), h1, rfl, h2⟩ h3 h4 h5 h6 h7 (ForestOK.relax h8 ?_)
    intro t ht htt
    rw [List.eq_of_mem_replicate ht] at htt
    simp at htt
theorem ForestOK.relax {env : Env} {ts a b ns} (h : ForestOK env env.lang ts a b ns)
    (hocc : ∀ t ∈ ts, t.type = .any ∨ t.type = .list → env.Occurs t) : ForestOK env env.relaxedLang ts a b ns := by
  cases h with
  | nil => exact ForestOK.nil
  | cons h1 h2 =>
    exact ForestOK.cons (TreeOK.relax h1 (hocc _ (by simp))) (ForestOK.relax h2 (fun t ht => hocc t (by simp [ht])))
end

theorem RootOK.relax {env : Env} {S : String} {j : Nat} {n : Node} (h : RootOK env env.lang S j n) :
    RootOK env env.relaxedLang S j n := by
  obtain ⟨h1, h2, h3, h4, h5, c, h6, h7⟩ := h
  exact ⟨h1, h2, h3, h4, h5, c, h6, h7.relax (by simp)⟩

section
variable {lw : LoadWorld} {ds : List Def} {ρ : List (String × String)} {F : Files} {I : String → Prop} {ld : Loaded}
  {w : FrameWorld} {ew : World} {context : String} {text : Bytes} {l : Option Grammar} {d : Doc}

/-- the conditions of the frame theorems from conditions on the texts -/
theorem HeldBy.frameCase (h : HeldBy lw ds ρ F I ld) {g0 : Grammar} (hi : IndexedBy lw ds ld g0)
    (hw : w.OK) (ho : ew.OrdOK) (ht : TextRead ew context text d) (hd : DocFit ew (wholeRegexps F I ρ) d)
    (hp : process ew ld.gram context text = .ok (d.words, l)) (hord : TokensOrdered text d.words)
    (hfit : WholeFit ds F I lw.ref (wholeSource ds F I lw.ref.annot (docSource ew.find (wholeRegexps F I ρ) d)) [])
    (hs : WholeSolid ds F I lw.ref.annot (docSource ew.find (wholeRegexps F I ρ) d))
    (hff : FrameFit ds F I lw.idx.trim lw.ref (wholeSource ds F I lw.ref.annot (docSource ew.find (wholeRegexps F I ρ) d))) :
    FrameCase lw.idx ⟨g0, ld.gram.includes⟩ ld w ew context text := by
  have ha := annotates_iff.1 ht.annotated
  refine ⟨hi.index, ?_, ownFrames hi.wf (h.noFrames hi hff), fun k rb hb => (h.ruleNames hi hfit hb).1, hw, ?_⟩
  · obtain ⟨fuel, reg, reg', hr⟩ := hi.refines
    exact (C25_structure hi.wf.unrefined hr).2.2.1
  intro fuel fr starts hc
  have hγ : gammaRule ∉ starts := starts_avoid hi.index hw (fun k rb hb => (h.ruleNames hi hfit hb).2) hc
  obtain ⟨g1, g2, -⟩ := h.noGamma hp ha hd hfit (c := 0)
  refine ⟨ho, ?_, ?_, ?_⟩
  · intro d' hd'
    have := annotates_iff.1 hd'
    rw [ha, Option.some.injEq] at this
    subst this
    exact ⟨hd.inside, fun _ => hd.doc⟩
  · intro tokens l' hp'
    rw [hp, Out.ok.injEq, Prod.mk.injEq] at hp'
    obtain ⟨rfl, rfl⟩ := hp'
    obtain ⟨e1, e2, e3⟩ := loaded_env h.wf hp (fun d' h' => by rw [ha, Option.some.injEq] at h'; exact h' ▸ hd.spans) starts 0
      ⟨g1, g2, hγ⟩
    exact ⟨e1, h.noEmpty hp ha hd hs, e2, e3, hord⟩
  · intro tokens l' hp' t ⟨A, rb, hA, ht⟩ htt
    rw [hp, Out.ok.injEq, Prod.mk.injEq] at hp'
    obtain ⟨rfl, rfl⟩ := hp'
    rcases h.defines hp ha hd hA with ⟨-, -, t', ⟨h1, B, b, hb, hm⟩, e⟩ | ⟨b, hb, hrel⟩ | ⟨h1, -⟩
    · exact hff.tokens _ _ hb.source t (List.mem_flatMap.2 ⟨t', hm, e ▸ ht⟩) htt
    · obtain ⟨t0, ht0, h1⟩ := forall₂_mem_right hrel ht
      rcases h1 with ⟨h1, rfl⟩ | ⟨h1, -⟩
      · exact absurd htt h1
      · rw [htt] at h1; simp at h1
    · exact hff.tokens _ _ (.document h1) t ht htt

end

/-- the trees of all final states were computed -/
theorem trees_computed {w : FrameWorld} {ew : World} {ld : Loaded} {fuel : Nat} {context : String} {text : Bytes}
    {frames : List (RbKey × Frame)} (h : matchFrames w ew ld fuel context text = .ok frames) {fr : List (RbKey × Frame)}
    {starts : List String} {ps : List Parsed} (h2 : getCandidates w ld.gram.main ld.index fuel text = .ok (fr, starts))
    (h3 : earleyParseAll ew ld.gram fuel context text starts = .ok ps) {p : Parsed} (hp : p ∈ ps) {a : Nat × Nat}
    (ha : a ∈ finalPtrs false p.res.chart) : ∃ trees, getTrees p.res.chart fuel a.1 a.2 = some trees := by
  unfold matchFrames at h
  obtain ⟨c, g1, h⟩ := Out.bind_eq_ok.1 h
  rw [h2, Out.ok.injEq] at g1
  subst g1
  obtain ⟨ps', g1, h⟩ := Out.bind_eq_ok.1 h
  rw [h3, Out.ok.injEq] at g1
  subst g1
  obtain ⟨pi, hpi⟩ := List.mem_iff_getElem?.1 hp
  obtain ⟨s1, s2, hs12⟩ := foldOut_step h (p, pi) (List.mem_zipIdx_iff_getElem?.2 hpi)
  obtain ⟨ai, hai⟩ := List.mem_iff_getElem?.1 ha
  obtain ⟨s3, s4, hs34⟩ := foldOut_step (show foldOut _ _ (finalPtrs false p.res.chart).zipIdx = _ from hs12) (a, ai)
    (List.mem_zipIdx_iff_getElem?.2 hai)
  unfold matchFinal at hs34
  simp only [Out.bind_eq_ok, Out.ofFuel_eq_ok] at hs34
  obtain ⟨_, -, _, -, _, -, trees, ht, -⟩ := hs34
  exact ⟨trees, ht⟩

end Fmr
