import Verif.Proofs.Whole
import Verif.Proofs.WholeDoc
import Verif.Props.Loaded

/-!
# A load and its document, against what is written (for C73)
-/

namespace Fmr

/-! ### the grammar before refinement -/

theorem HoldsDefs.source {hash : RuleBody → Option Nat} {ds : List Def} {g : Grammar} (h : HoldsDefs hash ds false g.rules)
    (hc : NoCollision hash ds) (A : String) (ts : List Term) :
    g.source A ts ↔ ∃ b, Written ds false A b ∧ ts = b.terms := by
  constructor
  · rintro ⟨r, hr, rb, hrb, rfl⟩
    obtain ⟨e, he, rfl⟩ := List.mem_map.1 hrb
    exact ⟨e.2, ((h.bodies A r e.1 e.2 hr).1 he).2, rfl⟩
  · rintro ⟨b, hb, rfl⟩
    have hb' := hb
    obtain ⟨d, hd, hf, hn, hbd⟩ := hb'
    obtain ⟨r, hr⟩ := (h.names A).2 ⟨d, hd, hf, hn⟩
    obtain ⟨k, hk⟩ := Option.ne_none_iff_exists'.1 (hc.1 d hd b hbd)
    exact ⟨r, hr, b, List.mem_map_of_mem ((h.bodies A r k b hr).2 ⟨hk, hb⟩), rfl⟩

theorem readSource_iff {annot} {g : Grammar} {A : String} {ts : List Term} :
    g.readSource annot A ts ↔ ∃ ts0, g.source A ts0 ∧ ts = ts0.flatMap (readTerm annot) := by
  constructor
  · rintro ⟨r, hr, rb, hrb, rfl⟩
    exact ⟨_, ⟨r, hr, rb, hrb, rfl⟩, rfl⟩
  · rintro ⟨ts0, ⟨r, hr, rb, hrb, rfl⟩, rfl⟩
    exact ⟨r, hr, rb, hrb, rfl⟩

theorem HoldsDefs.readSource {hash : RuleBody → Option Nat} {ds : List Def} {g : Grammar}
    (h : HoldsDefs hash ds false g.rules) (hc : NoCollision hash ds) {annot} (A : String) (ts : List Term) :
    g.readSource annot A ts ↔ writtenSource annot ds A ts := by
  rw [readSource_iff]
  constructor
  · rintro ⟨ts0, h0, rfl⟩
    obtain ⟨b, hb, rfl⟩ := (h.source hc _ _).1 h0
    exact ⟨b, hb, rfl⟩
  · rintro ⟨b, hb, rfl⟩
    exact ⟨_, (h.source hc _ _).2 ⟨b, hb, rfl⟩, rfl⟩

theorem GrammarWF.literal {lw : LexWorld} {g : Grammar} (h : GrammarWF lw g) {t : Term} (ht : g.Literal t) :
    t.type = .terminal ∧ ∃ A ts, g.source A ts ∧ t ∈ ts := by
  obtain ⟨e, he, rb, hrb, ht, htt⟩ := ht
  have hl : g.rules.lookup e.1 = some e.2 := (show KeysNodup g.rules from h.ruleKeys).lookup.mpr he
  exact ⟨htt, e.1, rb.terms, ⟨e.2, hl, rb, hrb, rfl⟩, ht⟩

/-! ### one file -/

/-- a grammar before and after refinement, the former with the definitions `ds` -/
structure Piece (lw : LoadWorld) (ds : List Def) (f : Grammar × Grammar) : Prop where
  wf : GrammarWF lw.lex f.1
  holds : HoldsDefs lw.lex.hash ds false f.1.rules
  noCollision : NoCollision lw.lex.hash ds
  refines : ∃ fuel reg reg', refine lw.ref "g" fuel reg f.1 = .ok (reg', f.2)

section
variable {lw : LoadWorld} {ds : List Def} {f : Grammar × Grammar}

theorem Piece.source (h : Piece lw ds f) (A : String) (ts : List Term) :
    f.1.source A ts ↔ ∃ b, Written ds false A b ∧ ts = b.terms := h.holds.source h.noCollision A ts

theorem Piece.literal (h : Piece lw ds f) {t : Term} (ht : f.1.Literal t) :
    t.type = .terminal ∧ ∃ A b, Written ds false A b ∧ t ∈ b.terms := by
  obtain ⟨h1, A, ts, hs, h2⟩ := h.wf.literal ht
  obtain ⟨b, hb, rfl⟩ := (h.source A ts).1 hs
  exact ⟨h1, A, b, hb, h2⟩

theorem Piece.reserved (h : Piece lw ds f) {A : String} (hA : Introduced f.1 f.2 A) : Reserved A := by
  obtain ⟨fuel, reg, reg', hr⟩ := h.refines
  exact .inr (C25_prefix h.wf.unrefined hr hA)

/-- names of rules have an alternative -/
theorem Piece.names (h : Piece lw ds f) {A : String} {r : Rule} (hr : f.1.rules.lookup A = some r) :
    ∃ b, Written ds false A b := by
  have hw := h.wf.rules _ (mem_of_lookup hr)
  obtain ⟨e, he⟩ := List.exists_mem_of_ne_nil _ hw.ne
  obtain ⟨b, hb, -⟩ := (h.source A e.2.terms).1 ⟨r, hr, e.2, List.mem_map_of_mem he, rfl⟩
  exact ⟨b, hb⟩

/-- what refinement has made of the alternatives: a name made up for a literal with its reading, or a written
alternative with literals replaced -/
theorem Piece.refined (h : Piece lw ds f) {A : String} {ts : List Term} (hs : f.2.source A ts) :
    (Introduced f.1 f.2 A ∧ ∃ t, f.1.Literal t ∧ ts = readTerm lw.ref.annot t) ∨
    ∃ b, Written ds false A b ∧ List.Forall₂ (fun t0 t => (t0.type ≠ .terminal ∧ t = t0) ∨
      (t.type = .nonterminal ∧ Introduced f.1 f.2 t.value)) b.terms ts := by
  obtain ⟨fuel, reg, reg', hr⟩ := h.refines
  obtain ⟨es, rules, hR, -⟩ := refine_spec h.wf.unrefined hr
  by_cases hA : A ∈ es.map Entry.name
  · obtain ⟨e, he, rfl⟩ := List.mem_map.1 hA
    have := (hR.source_new he ts).1 hs
    subst this
    exact .inl ⟨(hR.introduced _).2 hA, _, hR.occurs e he, by rw [hR.body e he]⟩
  · obtain ⟨ts0, h0, hrel⟩ := hR.source_down hA hs
    obtain ⟨b, hb, rfl⟩ := (h.source A ts0).1 h0
    refine .inr ⟨b, hb, ?_⟩
    refine hrel.imp fun t0 t ht => ?_
    rcases ht with ⟨h1, rfl⟩ | ⟨-, e, he, -, rfl⟩
    · exact .inl ⟨h1, rfl⟩
    · exact .inr ⟨rfl, (hR.introduced _).2 (List.mem_map_of_mem he)⟩

end

/-! ### a load -/

/-- a loaded grammar with its files -/
structure HeldBy (lw : LoadWorld) (ds : List Def) (ρ : List (String × String)) (F : Files) (I : String → Prop)
    (ld : Loaded) : Prop where
  ok : WholeOK lw F (wholeRegexps F I ρ) ds ρ ld
  noCollision : NoCollision lw.lex.hash ds ∧ ∀ q, I q → NoCollision lw.lex.hash (F.defs q)
  names : ∀ p, p ∈ ld.gram.includes.map (·.name) ↔ I p
  shared : RegexpsShared lw.lex.md5 ld.gram
  wf : ∀ g ∈ ld.gram.main :: ld.gram.includes, LoadedWF lw.lex g

theorem exists_pairs {α β : Type} {P : α → β → Prop} : ∀ {l : List β}, (∀ b ∈ l, ∃ a, P a b) →
    ∃ fs : List (α × β), fs.map Prod.snd = l ∧ ∀ f ∈ fs, P f.1 f.2
  | [], _ => ⟨[], rfl, by simp⟩
  | b :: l, h => by
    obtain ⟨a, ha⟩ := h b List.mem_cons_self
    obtain ⟨fs, h1, h2⟩ := exists_pairs (l := l) fun b hb => h b (List.mem_cons_of_mem _ hb)
    refine ⟨(a, b) :: fs, by simp [h1], fun f hf => ?_⟩
    rcases List.mem_cons.1 hf with rfl | hf
    · exact ha
    · exact h2 f hf

section
variable {lw : LoadWorld} {ds : List Def} {ρ : List (String × String)} {F : Files} {I : String → Prop} {ld : Loaded}

theorem HeldBy.regexps (h : HeldBy lw ds ρ F I ld)
    (hR : ∀ k s s', wholeRegexps F I ρ k s → wholeRegexps F I ρ k s' → s = s') (k s : String) :
    (k, s) ∈ ld.gram.main.regexps ↔ wholeRegexps F I ρ k s := by
  have key : ∀ v, (k, v) ∈ ld.gram.main.regexps → wholeRegexps F I ρ k s → (k, s) ∈ ld.gram.main.regexps := by
    intro v hv hs
    rw [hR k s v hs (h.ok.regexps _ hv)]
    exact hv
  refine ⟨h.ok.regexps (k, s), fun hs => ?_⟩
  have hs' := hs
  rcases hs' with hm | ⟨p, hp, hm⟩
  · obtain ⟨g0, fuel, reg, reg', -, -, -, hk, -⟩ := h.ok.main
    obtain ⟨v, hv⟩ := Option.isSome_iff_exists.mp (hk _ hm)
    exact key v (mem_of_lookup hv) hs
  · obtain ⟨g, hg, rfl⟩ := List.mem_map.1 ((h.names p).2 hp)
    obtain ⟨g0, fuel, reg, reg', -, -, -, hk, -⟩ := h.ok.includes g hg
    obtain ⟨v, hv⟩ := Option.isSome_iff_exists.mp (hk _ hm)
    obtain ⟨-, v', hv', -⟩ := h.shared g hg _ (mem_of_lookup hv)
    exact key v' hv' hs

/-- the files of a load, before and after refinement -/
theorem HeldBy.pieces (h : HeldBy lw ds ρ F I ld) :
    ∃ fs : List (Grammar × Grammar), fs.map Prod.snd = ld.gram.main :: ld.gram.includes ∧
      (∀ f ∈ fs, Piece lw ds f ∨ ∃ p, I p ∧ Piece lw (F.defs p) f) ∧
      (∃ f ∈ fs, Piece lw ds f) ∧ (∀ p, I p → ∃ f ∈ fs, Piece lw (F.defs p) f) ∧
      ∀ f ∈ fs, ∀ f' ∈ fs, f = f' ∨ ∃ p, I p := by
  obtain ⟨m0, fuel, reg, reg', h1, h2, h3, -⟩ := h.ok.main
  have hm : Piece lw ds (m0, ld.gram.main) := ⟨h1, h2, h.noCollision.1, _, _, _, h3⟩
  have hname : ∀ g ∈ ld.gram.includes, I g.name := fun g hg => (h.names _).1 (List.mem_map_of_mem hg)
  obtain ⟨fs, he, hfs⟩ := exists_pairs (P := fun g0 g => g ∈ ld.gram.includes ∧ Piece lw (F.defs g.name) (g0, g))
    (l := ld.gram.includes) (fun g hg => by
      obtain ⟨g0, fuel, reg, reg', h1, h2, h3, -⟩ := h.ok.includes g hg
      exact ⟨g0, hg, h1, h2, h.noCollision.2 _ (hname g hg), _, _, _, h3⟩)
  refine ⟨(m0, ld.gram.main) :: fs, by simp [he], ?_, ⟨_, List.mem_cons_self, hm⟩, ?_, ?_⟩
  · intro f hf
    rcases List.mem_cons.1 hf with rfl | hf
    · exact .inl hm
    · exact .inr ⟨_, hname _ (hfs f hf).1, (hfs f hf).2⟩
  · intro p hp
    obtain ⟨g, hg, rfl⟩ := List.mem_map.1 ((h.names p).2 hp)
    rw [← he] at hg
    obtain ⟨f, hf, rfl⟩ := List.mem_map.1 hg
    exact ⟨f, List.mem_cons_of_mem _ hf, (hfs f hf).2⟩
  · intro f hf f' hf'
    rcases List.mem_cons.1 hf with rfl | hf
    · rcases List.mem_cons.1 hf' with rfl | hf'
      · exact .inl rfl
      · exact .inr ⟨_, hname _ (hfs f' hf').1⟩
    · exact .inr ⟨_, hname _ (hfs f hf).1⟩

theorem Piece.whole {f : Grammar × Grammar} (h : Piece lw ds f ∨ ∃ p, I p ∧ Piece lw (F.defs p) f) :
    ∃ ds', Piece lw ds' f ∧ ∀ A b, Written ds' false A b → wholeWritten ds F I A b := by
  rcases h with h | ⟨p, hp, h⟩
  · exact ⟨ds, h, fun A b hb => .inl hb⟩
  · exact ⟨_, h, fun A b hb => .inr ⟨p, hp, hb⟩⟩

theorem wholeWritten.source {A : String} {b : RuleBody} {annot} {doc : Source} (h : wholeWritten ds F I A b) :
    wholeSource ds F I annot doc A (b.terms.flatMap (readTerm annot)) := by
  rcases h with h | ⟨p, hp, h⟩
  · exact .main ⟨b, h, rfl⟩
  · exact .included hp ⟨b, h, rfl⟩

/-- terms other than literals stand for themselves -/
theorem mem_read {annot} {t : Term} {ts : List Term} (ht : t ∈ ts) (htt : t.type ≠ .terminal) :
    t ∈ ts.flatMap (readTerm annot) :=
  List.mem_flatMap.2 ⟨t, ht, by simp [readTerm, htt]⟩

theorem wholeWritten.uses {A : String} {b : RuleBody} {annot} {doc : Source} (h : wholeWritten ds F I A b) :
    (wholeSource ds F I annot doc).Uses A ∧ ∀ t ∈ b.terms, t.type = .nonterminal ∨ t.type = .list →
      (wholeSource ds F I annot doc).Uses t.value := by
  refine ⟨.inl ⟨_, h.source⟩, fun t ht htt => .inr ⟨A, _, h.source, t, mem_read ht ?_, htt, rfl⟩⟩
  intro e
  rw [e] at htt
  simp at htt

/-- written alternatives are not empty and their terms are well-formed -/
theorem HeldBy.body (h : HeldBy lw ds ρ F I ld) {A : String} {b : RuleBody} (hb : wholeWritten ds F I A b) :
    b.terms ≠ [] ∧ ∀ t ∈ b.terms, TermWF lw.lex t := by
  obtain ⟨fs, he, hfs, ⟨fm, hfm, hm⟩, hinc, hone⟩ := h.pieces
  have : ∀ f ds', Piece lw ds' f → Written ds' false A b → b.terms ≠ [] ∧ ∀ t ∈ b.terms, TermWF lw.lex t := by
    intro f ds' hpc hb
    obtain ⟨r, hr, rb, hrb, e⟩ := (hpc.source A b.terms).2 ⟨b, hb, rfl⟩
    rw [e]
    obtain ⟨e', he', rfl⟩ := List.mem_map.1 hrb
    have := (hpc.wf.rules _ (mem_of_lookup hr)).bodies e' he'
    exact ⟨this.ne, this.terms⟩
  rcases hb with hb | ⟨p, hI, hb⟩
  · exact this _ _ hm hb
  · obtain ⟨f, hf, hpc⟩ := hinc p hI
    exact this _ _ hpc hb

/-- The language of the loaded files and the local grammar of the document is the language of what is written. -/
theorem HeldBy.language (h : HeldBy lw ds ρ F I ld)
    {doc : Source} {others : List Source} (hdoc : ∀ A ts, (∃ s ∈ others, s A ts) ↔ doc A ts) {starts : List String}
    (hfit : WholeFit ds F I lw.ref (wholeSource ds F I lw.ref.annot doc) starts) {tmatch : Term → Token → Bool}
    {S : String} (hS : ¬ Reserved S) (toks : List Token) :
    SourcesDerive tmatch ((ld.gram.main :: ld.gram.includes).map Grammar.source ++ others) S toks ↔
      SourcesDerive tmatch [wholeSource ds F I lw.ref.annot doc] S toks := by
  obtain ⟨fs, he, hfs, ⟨fm, hfm, hm⟩, hinc, hone⟩ := h.pieces
  have hwhole := fun f hf => Piece.whole (hfs f hf)
  have hlit : ∀ f ∈ fs, ∀ t, f.1.Literal t → wholeLiteral ds F I t := by
    intro f hf t ht
    obtain ⟨ds', hp, hw⟩ := hwhole f hf
    obtain ⟨h1, A, b, hb, h2⟩ := hp.literal ht
    exact ⟨h1, A, b, hw A b hb, h2⟩
  have hres : ∀ f ∈ fs, ∀ A, Introduced f.1 f.2 A → Reserved A := by
    intro f hf A hA
    obtain ⟨ds', hp, -⟩ := hwhole f hf
    exact hp.reserved hA
  have hfree : ∀ A, Reserved A → ¬ (wholeSource ds F I lw.ref.annot doc).Uses A := fun A hA hu => hfit.free A (.inl hu) hA
  have hok : FilesOK fs others := by
    refine ⟨?_, ?_, ?_⟩
    · intro f hf f' hf' A hA hA' ts hts
      rcases hone f hf f' hf' with rfl | hI
      · exact hts
      have hnames : ∀ f ∈ fs, Introduced f.1 f.2 A → ∃ t, f.1.Literal t ∧ A = literalName lw.ref "g" t.value ∧
          ∀ ts, f.2.source A ts ↔ ts = readTerm lw.ref.annot t := by
        intro f hf hA
        obtain ⟨ds', hp, hw⟩ := hwhole f hf
        obtain ⟨fuel, reg, reg', hr⟩ := hp.refines
        refine (C25_names hp.wf.unrefined hr ⟨?_, ?_⟩ A).1 hA
        · exact fun t t' ht ht' => hfit.apart hI t t' (hlit f hf t ht) (hlit f hf t' ht')
        · intro t ht
          cases hl : f.1.rules.lookup (literalName lw.ref "g" t.value) with
          | none => rfl
          | some r =>
            obtain ⟨b, hb⟩ := hp.names hl
            exact absurd (hw _ _ hb).uses.1 (hfree _ (.inr (literalName_prefix lw.ref "g" t.value)))
      obtain ⟨t, ht, e, hs⟩ := hnames f hf hA
      obtain ⟨t', ht', e', hs'⟩ := hnames f' hf' hA'
      have hv := hfit.apart hI t t' (hlit f hf t ht) (hlit f' hf' t' ht') (e.symm.trans e')
      have hm := hfit.flags t t' (hlit f hf t ht) (hlit f' hf' t' ht') hv
      have htt : t = t' := by
        have h1 := (hlit f hf t ht).1
        have h2 := (hlit f' hf' t' ht').1
        cases t; cases t'
        simp_all
      subst htt
      exact (hs' ts).2 ((hs ts).1 hts)
    · intro f hf f' hf' A hA
      obtain ⟨ds', hp, hw⟩ := hwhole f' hf'
      have hA' := hfree A (hres f hf A hA)
      constructor
      · cases hl : f'.1.rules.lookup A with
        | none => rfl
        | some r =>
          obtain ⟨b, hb⟩ := hp.names hl
          exact absurd (hw _ _ hb).uses.1 hA'
      · rintro ⟨B, ts, hs, t, ht, htt, rfl⟩
        obtain ⟨b, hb, rfl⟩ := (hp.source B ts).1 hs
        exact hA' ((hw _ _ hb).uses.2 t ht htt)
    · intro f hf A hA s hs
      have hA' := hfree A (hres f hf A hA)
      constructor
      · rintro ⟨ts, hts⟩
        exact hA' (.inl ⟨ts, .document ((hdoc A ts).1 ⟨s, hs, hts⟩)⟩)
      · rintro ⟨B, ts, hts, t, ht, htt, rfl⟩
        exact hA' (.inr ⟨B, ts, .document ((hdoc B ts).1 ⟨s, hs, hts⟩), t, ht, htt, rfl⟩)
  have hsrc : (ld.gram.main :: ld.gram.includes).map Grammar.source = fs.map (fun f => f.2.source) := by
    rw [← he, List.map_map]
    rfl
  rw [hsrc, C26_partial (w := lw.ref) (pre := "g") fs others toks (fun f hf => by
    obtain ⟨ds', hp, hw⟩ := hwhole f hf
    exact ⟨hp.wf.unrefined, fun t t' ht ht' => hfit.flags t t' (hlit f hf t ht) (hlit f hf t' ht'), hp.refines⟩) hok
    (fun f hf hi => hS (hres f hf S hi))]
  have hl : sourcesLang tmatch (fs.map (fun f => f.1.readSource lw.ref.annot) ++ others) =
      sourcesLang tmatch [wholeSource ds F I lw.ref.annot doc] := by
    unfold sourcesLang
    congr 1
    funext A ts
    apply propext
    constructor
    · rintro ⟨s, hs, hp⟩
      refine ⟨_, List.mem_singleton.2 rfl, ?_⟩
      rcases List.mem_append.1 hs with hs | hs
      · obtain ⟨f, hf, rfl⟩ := List.mem_map.1 hs
        obtain ⟨ds', hpc, hw⟩ := hwhole f hf
        obtain ⟨b, hb, rfl⟩ := (hpc.holds.readSource hpc.noCollision A ts).1 hp
        exact (hw A b hb).source
      · exact .document ((hdoc A ts).1 ⟨s, hs, hp⟩)
    · rintro ⟨s, hs, hp⟩
      rw [List.mem_singleton.1 hs] at hp
      cases hp with
      | main hp =>
        exact ⟨_, List.mem_append_left _ (List.mem_map_of_mem hfm), (hm.holds.readSource hm.noCollision A ts).2 hp⟩
      | included hI hp =>
        obtain ⟨f, hf, hpc⟩ := hinc _ hI
        exact ⟨_, List.mem_append_left _ (List.mem_map_of_mem hf), (hpc.holds.readSource hpc.noCollision A ts).2 hp⟩
      | document hp =>
        obtain ⟨s, hs, hp⟩ := (hdoc A ts).2 hp
        exact ⟨s, List.mem_append_right _ hs, hp⟩
  unfold SourcesDerive
  rw [hl]


/-! ### with a document -/

theorem envFor_sources (w : World) (g : Gram) (l : Option Grammar) (tokens : List Token) (starts : List String) (c : Nat) :
    (envFor w g l tokens starts c).grammars.map Grammar.source =
      (g.main :: g.includes).map Grammar.source ++ localSources l := by
  cases l <;> simp [envFor, localSources]

section
variable {w : World} {context : String} {text : Bytes} {tokens : List Token} {l : Option Grammar} {d : Doc} {starts : List String}

theorem DocFit.noDocCollision {R : String → String → Prop} {regexps : List (String × String)} (hd : DocFit w R d)
    (hR : ∀ k s, (k, s) ∈ regexps ↔ R k s) : NoDocCollision w.hash w.find regexps d := by
  obtain rfl : R = fun k s => (k, s) ∈ regexps := funext fun k => funext fun s => propext (hR k s).symm
  intro A a b k h1 h2 e1 e2
  rw [docBody_iff hd.inside (fun _ => hd.doc)] at h1 h2
  exact hd.hash A a b h1 h2 (e1.trans e2.symm)

/-- a text that can be annotated is parsed with the words of the document -/
theorem HeldBy.processes (h : HeldBy lw ds ρ F I ld) (ht : TextRead w context text d)
    (hd : DocFit w (wholeRegexps F I ρ) d) : ∃ l, process w ld.gram context text = .ok (d.words, l) := by
  have hR : wholeRegexps F I ρ = fun k s => (k, s) ∈ ld.gram.main.regexps :=
    funext fun k => funext fun s => propext (h.regexps hd.named k s).symm
  obtain ⟨h1, h0, h2⟩ := localGrammar_err (hash := w.hash) (find := w.find) (regexps := ld.gram.main.regexps) hd.inside
    (fun _ => hd.doc)
  cases hl : localGrammar w.hash w.find ld.gram.main.regexps d with
  | panic => exact absurd hl h1
  | div => exact absurd hl h0
  | err =>
    obtain ⟨A, rb, g1, g2⟩ := h2.1 hl
    rw [← hR] at g1
    exact absurd g2 (hd.hashed A rb g1)
  | ok l =>
    refine ⟨l, ?_⟩
    obtain ⟨t, ht1, ht2⟩ := ht.word
    unfold process
    simp only
    rw [if_neg ht.notBlank, annotates_iff.1 ht.annotated]
    simp only
    rw [if_neg (by
      intro e
      rw [List.filter_eq_nil_iff] at e
      exact e t ht1 (by simpa using ht2)), hl]
    rfl

theorem HeldBy.document (h : HeldBy lw ds ρ F I ld) (hp : process w ld.gram context text = .ok (tokens, l))
    (ha : annotateText w context (w.trim text) = some d)
    (hd : DocFit w (wholeRegexps F I ρ) d) (A : String) (ts : List Term) :
    (∃ s ∈ localSources l, s A ts) ↔ docSource w.find (wholeRegexps F I ρ) d A ts := by
  obtain ⟨-, d', ha', -, -, hl⟩ := process_ok hp
  rw [ha] at ha'
  cases ha'
  exact local_source hd.doc (hd.noDocCollision (h.regexps hd.named)) (h.regexps hd.named) hl A ts

/-- what the alternatives in the parser come from -/
theorem HeldBy.defines (h : HeldBy lw ds ρ F I ld) (hp : process w ld.gram context text = .ok (tokens, l))
    (ha : annotateText w context (w.trim text) = some d)
    (hd : DocFit w (wholeRegexps F I ρ) d) {c : Nat} {A : String} {rb : RuleBody}
    (hA : (envFor w ld.gram l tokens starts c).Defines A rb) :
    (Reserved A ∧ A ≠ gammaRule ∧ ∃ t, wholeLiteral ds F I t ∧ rb.terms = readTerm lw.ref.annot t) ∨
    (∃ b, wholeWritten ds F I A b ∧ List.Forall₂ (fun t0 t => (t0.type ≠ .terminal ∧ t = t0) ∨
      (t.type = .nonterminal ∧ "g_t".toList <+: t.value.toList)) b.terms rb.terms) ∨
    (docSource w.find (wholeRegexps F I ρ) d A rb.terms ∧ ∀ t ∈ rb.terms, t.type = .terminal) := by
  obtain ⟨g, hg, r, hr, hrb⟩ := hA
  have hsrc : g.source A rb.terms := ⟨r, hr, rb, hrb, rfl⟩
  have hg' : g ∈ ld.gram.main :: ld.gram.includes ∨ l = some g := by
    cases l with
    | none => left; simpa [envFor] using hg
    | some l' =>
      have : g = ld.gram.main ∨ g ∈ ld.gram.includes ∨ g = l' := by simpa [envFor] using hg
      rcases this with h | h | h
      · left; simp [h]
      · left; simp [h]
      · right; rw [h]
  rcases hg' with hg | rfl
  · obtain ⟨fs, he, hfs, -⟩ := h.pieces
    rw [← he] at hg
    obtain ⟨f, hf, rfl⟩ := List.mem_map.1 hg
    obtain ⟨ds', hpc, hw⟩ := Piece.whole (hfs f hf)
    have hpre : ∀ A, Introduced f.1 f.2 A → "g_t".toList <+: A.toList := by
      intro A hA
      obtain ⟨fuel, reg, reg', hr⟩ := hpc.refines
      exact C25_prefix hpc.wf.unrefined hr hA
    rcases hpc.refined hsrc with ⟨hi, t, ht, e⟩ | ⟨b, hb, hrel⟩
    · refine .inl ⟨.inr (hpre A hi), ?_, t, ?_, e⟩
      · rintro rfl
        exact absurd (hpre _ hi) (by decide)
      · obtain ⟨h1, B, b, hb, h2⟩ := hpc.literal ht
        exact ⟨h1, B, b, hw B b hb, h2⟩
    · refine .inr (.inl ⟨b, hw A b hb, hrel.imp fun t0 t ht => ?_⟩)
      rcases ht with ht | ⟨h1, h2⟩
      · exact .inl ht
      · exact .inr ⟨h1, hpre _ h2⟩
  · refine .inr (.inr ⟨(h.document hp ha hd A rb.terms).1 ⟨g.source, by simp [localSources], hsrc⟩, fun t ht => ?_⟩)
    obtain ⟨-, d', ha', -, -, hl⟩ := process_ok hp
    obtain ⟨e, he, rfl⟩ := List.mem_map.1 hrb
    exact (((local_rules hl A r hr).2 e he).1 t ht).1

/-- what the terms in the parser come from -/
theorem HeldBy.occurs (h : HeldBy lw ds ρ F I ld) (hp : process w ld.gram context text = .ok (tokens, l))
    (ha : annotateText w context (w.trim text) = some d)
    (hd : DocFit w (wholeRegexps F I ρ) d) {c : Nat} {t : Term}
    (ht : (envFor w ld.gram l tokens starts c).Occurs t) (htt : t.type ≠ .terminal) :
    (∃ A b, wholeWritten ds F I A b ∧ t ∈ b.terms) ∨ (t.type = .nonterminal ∧ "g_t".toList <+: t.value.toList) := by
  obtain ⟨A, rb, hA, ht⟩ := ht
  rcases h.defines hp ha hd hA with ⟨-, -, t', hl, e⟩ | ⟨b, hb, hrel⟩ | ⟨-, h1⟩
  · rw [e, readTerm, if_pos hl.1] at ht
    obtain ⟨a, -, rfl⟩ := List.mem_map.1 ht
    exact absurd rfl htt
  · obtain ⟨t0, ht0, h1⟩ := forall₂_mem_right hrel ht
    rcases h1 with ⟨-, rfl⟩ | h1
    · exact .inl ⟨A, b, hb, ht0⟩
    · exact .inr h1
  · exact absurd (h1 t ht) htt

variable (h : HeldBy lw ds ρ F I ld) (hp : process w ld.gram context text = .ok (tokens, l))
  (ha : annotateText w context (w.trim text) = some d)
  (hd : DocFit w (wholeRegexps F I ρ) d)
include h hp ha hd

theorem HeldBy.uniform (hu : WholeUniform ds F I) {c : Nat} : UniformBounds (envFor w ld.gram l tokens starts c) := by
  have key : ∀ t, (envFor w ld.gram l tokens starts c).Occurs t → t.type = .any ∨ t.type = .list →
      ∃ A b, wholeWritten ds F I A b ∧ t ∈ b.terms := by
    intro t ht htt
    rcases h.occurs hp ha hd ht (by rcases htt with e | e <;> simp [e]) with h1 | ⟨h1, -⟩
    · exact h1
    · rw [h1] at htt
      simp at htt
  constructor
  · intro t t' ht ht' e e'
    obtain ⟨A, b, hb, h1⟩ := key t ht (.inl e)
    obtain ⟨A', b', hb', h1'⟩ := key t' ht' (.inl e')
    exact hu A b A' b' hb hb' t h1 t' h1' (.inl ⟨e, e'⟩)
  · intro t t' ht ht' e e' ev
    obtain ⟨A, b, hb, h1⟩ := key t ht (.inr e)
    obtain ⟨A', b', hb', h1'⟩ := key t' ht' (.inr e')
    exact hu A b A' b' hb hb' t h1 t' h1' (.inr ⟨e, e', ev⟩)

theorem HeldBy.noEmpty (hs : WholeSolid ds F I lw.ref.annot (docSource w.find (wholeRegexps F I ρ) d)) {c : Nat} :
    NoEmpty (envFor w ld.gram l tokens starts c) := by
  constructor
  · intro A rb hA
    rcases h.defines hp ha hd hA with ⟨-, -, t', hl, e⟩ | ⟨b, hb, hrel⟩ | ⟨h1, -⟩
    · rw [e]
      exact hs.literal t' hl
    · intro e
      rw [e] at hrel
      cases hb0 : b.terms with
      | cons => rw [hb0] at hrel; cases hrel
      | nil =>
        exact (h.body hb).1 hb0
    · intro e
      rw [e] at h1
      exact hs.document A h1
  · intro t ht htt
    rcases h.occurs hp ha hd ht (by rcases htt with e | e <;> simp [e]) with ⟨A, b, hb, h1⟩ | ⟨h1, -⟩
    · exact hs.range A b hb t h1 htt
    · rw [h1] at htt
      simp at htt

theorem HeldBy.noGamma
    (hfit : WholeFit ds F I lw.ref (wholeSource ds F I lw.ref.annot (docSource w.find (wholeRegexps F I ρ) d)) starts) {c : Nat} :
    (∀ A rb, (envFor w ld.gram l tokens starts c).Defines A rb → A ≠ gammaRule) ∧
      (∀ t, (envFor w ld.gram l tokens starts c).Occurs t → t.type ≠ .terminal → t.value ≠ gammaRule) ∧
      gammaRule ∉ starts := by
  have hγ : Reserved gammaRule := .inl rfl
  refine ⟨?_, ?_, fun hs => hfit.free _ (.inr hs) hγ⟩
  · rintro A rb hA rfl
    rcases h.defines hp ha hd hA with ⟨-, h1, -⟩ | ⟨b, hb, -⟩ | ⟨h1, -⟩
    · exact h1 rfl
    · exact hfit.free _ (.inl hb.uses.1) hγ
    · exact hfit.free _ (.inl (.inl ⟨_, .document h1⟩)) hγ
  · intro t ht htt e
    rcases h.occurs hp ha hd ht htt with ⟨A, b, hb, h1⟩ | ⟨h1, h2⟩
    · have hu := hb.uses (annot := lw.ref.annot) (doc := docSource w.find (wholeRegexps F I ρ) d)
      cases (h.body hb).2 t h1 with
      | any => exact absurd (show "any" = "ɣ" from e) (by decide)
      | list => exact hfit.free _ (.inl (hu.2 _ h1 (.inr rfl))) (e ▸ hγ)
      | literal => exact htt rfl
      | flagged => exact htt rfl
      | _ => exact hfit.free _ (.inl (hu.2 _ h1 (.inl rfl))) (e ▸ hγ)
    · rw [e] at h2
      exact absurd h2 (by decide)

/-- the parser matches what the texts say -/
theorem HeldBy.matchAt
    (hfit : WholeFit ds F I lw.ref (wholeSource ds F I lw.ref.annot (docSource w.find (wholeRegexps F I ρ) d)) starts)
    {c : Nat} (i k : Nat) :
    MatchAt (envFor w ld.gram l tokens starts c) i k ↔ i + k ≤ tokens.length ∧ ∃ S ∈ starts,
      SourcesDerive (terminalMatch w.lower w.registry)
        [wholeSource ds F I lw.ref.annot (docSource w.find (wholeRegexps F I ρ) d)] S ((tokens.drop i).take k) := by
  unfold MatchAt
  refine and_congr_right fun _ => exists_congr fun S => and_congr_right fun hS => ?_
  rw [derives_iff_sources, envFor_sources]
  exact h.language (h.document hp ha hd) hfit (hfit.free S (.inr hS)) _

theorem HeldBy.parse (hs : starts ≠ []) (ho : w.OrdOK)
    (hfit : WholeFit ds F I lw.ref (wholeSource ds F I lw.ref.annot (docSource w.find (wholeRegexps F I ρ) d)) starts)
    (hu : WholeUniform ds F I) (hns : NullSafe (envFor w ld.gram l tokens starts 0)) :
    ∃ n, ∀ fuel ≥ n, ∃ ns, apiParse w ld.gram fuel context text starts = .ok ns ∧
      (ns ≠ [] ↔ ∃ k, TextMatch w
        (wholeSource ds F I lw.ref.annot (docSource w.find (wholeRegexps F I ρ) d)) starts tokens k) ∧
      ∀ t ∈ ns, ∃ S ∈ starts, ∃ k, RootOK (envFor w ld.gram l tokens starts 0) (envFor w ld.gram l tokens starts 0).lang S k t ∧
        TextMatch w (wholeSource ds F I lw.ref.annot (docSource w.find (wholeRegexps F I ρ) d)) starts tokens k ∧
        ∀ k', TextMatch w (wholeSource ds F I lw.ref.annot (docSource w.find (wholeRegexps F I ρ) d)) starts tokens k' →
          k' ≤ k := by
  have hsp : ∀ d', annotateText w context (w.trim text) = some d' → SpansOK d'.spans := by
    intro d' h'
    rw [ha] at h'
    cases h'
    exact hd.spans
  obtain ⟨hwf, hun, hany⟩ := loaded_env h.wf hp hsp starts 0 (h.noGamma hp ha hd hfit)
  have hm : ∀ k, MatchAt (envFor w ld.gram l tokens starts 0) 0 k ↔ TextMatch w
      (wholeSource ds F I lw.ref.annot (docSource w.find (wholeRegexps F I ρ) d)) starts tokens k := by
    intro k
    rw [h.matchAt hp ha hd hfit]
    simp [TextMatch]
  have := C54_end_to_end_partial w ld.gram context text starts tokens l hp hs ho hwf hns (h.uniform hp ha hd hu) hun hany
  simpa only [hm] using this

end

end

end Fmr
