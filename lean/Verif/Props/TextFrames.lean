import Verif.Proofs.TextFrames
import Verif.Props.TextTrees

/-!
# C77: frame matching follows the texts of the grammar files
-/

namespace Fmr

/-- The places of a reference `<S>` of a frame: the spans of the tokens that `S` derives, if `S` is tried. -/
def TriedSpan (tried : String → Prop) (w : World) (src : Source) (tokens : List Token) (S : String) (pos : Pos) : Prop :=
  tried S ∧ ∃ i n, SpanIs tokens i n pos ∧ TextSpan w src tokens S i n

/-- The trees for a reference `<S>` at a place. -/
def SpanTree (G : TextGrammar) (names : String → String → Prop) (tokens : List Token) (S : String) (pos : Pos) (n : Node) : Prop :=
  ∃ i k, SpanIs tokens i k pos ∧ TextRoot G names (tokens.drop i) S k n

/-- what `FrameFMR` prints for a frame: nothing, or the function that is written after the alternative -/
def FramePrints (ds : List Def) (hash : RuleBody → Option Nat) (w : FrameWorld) (nw : NodeWorld) (e : RbKey × Frame) (s : String) : Prop :=
  ∃ b, Written ds true e.1.ruleName b ∧ hash b = some e.1.bodyID ∧
    ((b.f = none ∧ s = "") ∨ ∃ fm, b.f = some fm ∧
      FrameFmr nw (fun i s => ∃ t, b.terms[i]? = some t ∧ SlotShows w nw e.2 t s) fm s)

section
variable {lw : LoadWorld} (hlw : lw.lex.OK) {F : Files} {ds : List Def} {ρ : List (String × String)} {I : String → Prop}
  {ld : Loaded} (hload : LoadedFrom lw F ds ρ I ld) (w : FrameWorld) (hw : w.OK) (ew : World) (ho : ew.OrdOK)
  (context : String) (text : Bytes) (d : Doc) (ht : TextRead ew context text d) (hd : DocFit ew (wholeRegexps F I ρ) d)
  (hord : TokensOrdered text d.words)
  (src : Source) (hsrc : src = wholeSource ds F I lw.ref.annot (docSource ew.find (wholeRegexps F I ρ) d))
  (hfit : WholeFit ds F I lw.ref src []) (G : TextGrammar) (hG : G = wholeGrammar ds ρ F I lw.ref ew d)
  (hu : WholeUniform ds F I) (hsolid : WholeSolid ds F I lw.ref.annot (docSource ew.find (wholeRegexps F I ρ) d))
  (hff : FrameFit ds F I lw.idx.trim lw.ref src)
  (hkeys : ∀ A b, Written ds true A b → BodyKeys w.termKey lw.idx.trim b)
include hlw hload hw ho ht hd hord hsrc hfit hG hu hsolid hff hkeys

/-- C77: `MatchFrames`, from the texts of the grammar files to the frames. Missing for a full statement: rules that are
not tried, see `C77_false`; optional parts and differing ranges; frames in included files. -/
theorem C77_frames_partial : ∃ words names, (∀ s, s ∈ words ↔ TextWord ds F I lw.ref.annot lw.idx.trim s) ∧
    LiteralNames names ∧
    (w.multiMatch words text = none → ∃ n, ∀ fuel ≥ n, matchFrames w ew ld fuel context text = .err) ∧
    ∀ ms, w.multiMatch words text = some ms →
      ((¬ ∃ A s pos, FoundAt ms s pos ∧ RuleWord ds F I lw.ref.annot lw.idx.trim A s) →
        ∃ n, ∀ fuel ≥ n, matchFrames w ew ld fuel context text = .err) ∧
      ((∃ A s pos, FoundAt ms s pos ∧ RuleWord ds F I lw.ref.annot lw.idx.trim A s) →
        ∃ n frames, (∀ fuel ≥ n, matchFrames w ew ld fuel context text = .ok frames) ∧
          FramesAre ds lw.lex.hash w.termKey lw.idx.trim (FoundAt ms)
            (TriedSpan (Tried ds F I lw.ref.annot lw.idx.trim (fun s => ∃ pos, FoundAt ms s pos)) ew src d.words)
            (SpanTree G names d.words) frames) := by
  subst hsrc hG
  have h := hload.held hlw
  obtain ⟨g0, hi⟩ := h.indexed
  obtain ⟨l, hp⟩ := h.processes ht hd
  have ha := annotates_iff.1 ht.annotated
  have hc := h.frameCase hi hw ho ht hd hp hord hfit hsolid hff
  obtain ⟨N, hN, hm⟩ := h.mirrors hp ha hd hfit
  have hub : UniformBounds (envFor ew ld.gram l d.words [] 0) := h.uniform hp ha hd hu
  have h41 := C41_partial hc
  refine ⟨ld.index.trie, N, h.textWord hi hfit hff, hN, fun e => h41.1 (.inl e), fun ms hms => ?_⟩
  have hne : ∀ m ∈ ms, m.2 ≠ [] := fun m hm => (hw.keys _ _ _ hms m hm).2
  have hnr := h.noRuleLiteral hi hfit hne
  refine ⟨fun hn => h41.1 (.inr (.inr ⟨ms, hms, hnr.2 hn⟩)), fun hex => ?_⟩
  obtain ⟨n, frames, hrun⟩ := h41.2 (by
    rintro (e | e | ⟨ms', e, h1⟩)
    · rw [hms] at e; simp at e
    · rw [hp] at e; simp at e
    · rw [hms, Option.some.injEq] at e
      subst e
      exact hnr.1 h1 hex)
  refine ⟨n, frames, hrun, ?_⟩
  have hfr := hrun n (Nat.le_refl n)
  obtain ⟨ms', fr, starts, ps, h1, h2, h3, h4⟩ := matchFrames_spec hc.index hc.world hfr
  rw [hms, Option.some.injEq] at h1
  subst h1
  have hset := hc.setting _ _ _ h2
  have hnd : KeysNodup frames := h4.nodup KeysNodup.nil
  have same : ∀ A b b' k, Written ds true A b → Written ds true A b' → lw.lex.hash b = some k → lw.lex.hash b' = some k → b = b' := by
    rintro A b b' k ⟨d1, hd1, -, -, hb1⟩ ⟨d2, hd2, -, -, hb2⟩ e1 e2
    exact h.noCollision.1.2 d1 hd1 b hb1 d2 hd2 b' hb2 (e1.trans e2.symm)
  -- the keys of slots
  have word : ∀ {A : String} {b : RuleBody} {k : Nat} {s : String}, Written ds true A b → lw.lex.hash b = some k →
      (InIndex ld.index.index .frame ⟨A, k⟩ s ↔ BodyWord lw.idx.trim b s) := by
    intro A b k s hb hk
    rw [show InIndex ld.index.index .frame ⟨A, k⟩ s ↔ _ from (C37_index hi.index s).2.2.1 ⟨A, k⟩, h.frameWord hi hff]
    constructor
    · rintro ⟨b', e1, e2, e3⟩
      rwa [same A b b' k hb e1 hk e2]
    · exact fun e => ⟨b, hb, hk, e⟩
  have ref : ∀ {A : String} {b : RuleBody} {k : Nat} {S : String}, Written ds true A b → lw.lex.hash b = some k →
      (InIndex ld.index.ruleIndex .frame ⟨A, k⟩ S ↔ BodyRef b S) := by
    intro A b k S hb hk
    rw [show InIndex ld.index.ruleIndex .frame ⟨A, k⟩ S ↔ _ from (C37_index hi.index S).2.2.2.2.2.1 ⟨A, k⟩, h.frameRef hi hff]
    constructor
    · rintro ⟨b', e1, e2, e3⟩
      rwa [same A b b' k hb e1 hk e2]
    · exact fun e => ⟨b, hb, hk, e⟩
  have slot : ∀ k κ s, InSlots frames k κ s ↔ (∃ m ∈ ms, WordSlots w ld.index m k κ s) ∨
      ∃ p ∈ ps, ∃ a ∈ finalPtrs false p.res.chart, FinalSlots w ld.index n p a k κ s := by
    intro k κ s
    rw [h4.slots]
    constructor
    · rintro (⟨f, hf, -⟩ | h)
      · simp at hf
      · exact h
    · exact .inr
  refine ⟨hnd, ?_, ?_, ?_, ?_⟩
  · intro k f hkf
    obtain ⟨hlk, rb, g1, g2, g3, g4, g5, -⟩ := frame_facts hc hfr hkf
    obtain ⟨hb, hh⟩ := (h.frameBodies hi hff k rb).1 g2
    refine ⟨rb, hb, hh, g5, g3, ?_, fun κ ss hs => ?_⟩
    · have hex : ∃ κ s, InSlots frames k κ s := by
        have hdom := (h4.dom k).1 (by rw [hlk]; rfl)
        simp only [List.lookup_nil, Option.isSome_none, Bool.false_eq_true, false_or] at hdom
        rcases hdom with ⟨m, hm, hmi⟩ | ⟨p, hpp, a, hap, st, tag, c1, c2, c3⟩
        · obtain ⟨pos, hpos⟩ := List.exists_mem_of_ne_nil _ (hne m hm)
          exact ⟨_, _, (slot k _ _).2 (.inl ⟨m, hm, hmi, rfl, pos, hpos, rfl⟩)⟩
        · obtain ⟨st', S', j, f1, -, -, -, f5, -, -, ⟨x, y, -, -, f10⟩, -⟩ := final_facts hset h3 hpp hap
          obtain ⟨trees, htr⟩ := trees_computed hfr h2 h3 hpp hap
          rw [c1, Option.some.injEq] at f1
          subst f1
          exact ⟨_, _, (slot k _ _).2 (.inr ⟨p, hpp, a, hap, st, tag, _, trees, c1, c2, f10, htr, c3, rfl, rfl⟩)⟩
      obtain ⟨κ, s, f', hf', ss, hss, -⟩ := hex
      rw [hlk, Option.some.injEq] at hf'
      subst hf'
      rintro e
      rw [e] at hss
      simp at hss
    · have hl := (KeysNodup.lookup g3).2 hs
      refine ⟨g4 κ ss hl, ?_⟩
      obtain ⟨s, hs⟩ := List.exists_mem_of_ne_nil _ (g4 κ ss hl)
      rcases (slot k κ s).1 ⟨f, hlk, ss, hl, hs⟩ with ⟨m, -, hmi, hκ, -⟩ | ⟨p, -, a, -, st, tag, pos, trees, -, -, -, -, c5, c6, -⟩
      · exact .inl ⟨m.1, (word hb hh).1 hmi, hκ⟩
      · exact .inr ⟨tag, (ref hb hh).1 c5, c6⟩
  · intro A b k hb hk s hs pos
    constructor
    · rintro ⟨f, hf, ss, hss, sl, hsl, rfl⟩
      rcases (slot ⟨A, k⟩ _ sl).1 ⟨f, (KeysNodup.lookup hnd).2 hf, ss, hss, hsl⟩ with
        ⟨m, hm, hmi, hκ, pos, hpos, rfl⟩ | ⟨p, -, a, -, st, tag, pos, trees, -, -, -, -, c5, c6, -⟩
      · exact ⟨m, hm, ((hkeys A b hb).words _ _ hs ((word hb hk).1 hmi) hκ).symm, hpos⟩
      · exact absurd c6 ((hkeys A b hb).apart _ _ hs ((ref hb hk).1 c5))
    · rintro ⟨m, hm, rfl, hpos⟩
      obtain ⟨f, hf, ss, hss, hsl⟩ := (slot ⟨A, k⟩ _ ⟨pos, []⟩).2 (.inl ⟨m, hm, (word hb hk).2 hs, rfl, pos, hpos, rfl⟩)
      exact ⟨f, (KeysNodup.lookup hnd).1 hf, ss, hss, _, hsl, rfl⟩
  · intro A b k hb hk S hS pos
    have hSr : ¬ Reserved S := by
      obtain ⟨-, t, ht, htt, rfl⟩ := hS
      exact hff.free A b hb t ht htt
    have hra : RefApart w lw.idx.trim ⟨g0, ld.gram.includes⟩ ⟨A, k⟩ S := by
      refine ⟨fun v hv e => ?_, fun v hv e => ?_⟩
      · exact (hkeys A b hb).refs _ _ ((ref hb hk).1 (((C37_index hi.index v).2.2.2.2.2.1 _).2 hv)) hS e
      · exact (hkeys A b hb).apart _ _ ((word hb hk).1 (((C37_index hi.index v).2.2.1 _).2 hv)) hS e
    rw [C57_partial hc hfr hp hub ((h.frameRef hi hff ⟨A, k⟩ S).2 ⟨b, hb, hk, hS⟩) hra hms pos,
      h.candidate hi hfit hff hne hSr]
    refine and_congr_right fun _ => exists_congr fun i => exists_congr fun j => and_congr_right fun _ => ?_
    rw [derives_iff_sources, envFor_sources]
    exact h.language (h.document hp ha hd) hfit hSr _
  · intro A b k hb hk S hS f hf ss hss sl hsl
    have hSr : ¬ Reserved S := by
      obtain ⟨-, t, ht, htt, rfl⟩ := hS
      exact hff.free A b hb t ht htt
    obtain ⟨hlk, rb, -, -, g3, -⟩ := frame_facts hc hfr hf
    rcases (slot ⟨A, k⟩ _ sl).1 ⟨f, hlk, ss, (KeysNodup.lookup g3).2 hss, hsl⟩ with
      ⟨m, hm, hmi, hκ, -⟩ | ⟨p, hpp, a, hap, st, tag, pos, trees, c1, c2, c3, c4, c5, c6, rfl⟩
    · exact absurd hκ.symm ((hkeys A b hb).apart _ _ ((word hb hk).1 hmi) hS)
    · obtain rfl := (hkeys A b hb).refs _ _ hS ((ref hb hk).1 c5) c6
      obtain ⟨st', S', j, f1, f2, f3, f4, f5, f6, f7, ⟨x, y, f8, f9, f10⟩, -, f11⟩ := final_facts hset h3 hpp hap
      rw [c1, Option.some.injEq] at f1
      subst f1
      rw [c2, Out.ok.injEq] at f5
      subst f5
      rw [c3, Out.ok.injEq] at f10
      subst f10
      obtain ⟨-, -, -, -, -, -, -, -, -, -, tokens', l', hp', hoff, henv⟩ := parse_facts hset h3 hpp
      rw [hp, Out.ok.injEq, Prod.mk.injEq] at hp'
      obtain ⟨rfl, rfl⟩ := hp'
      obtain ⟨k1, k2⟩ := f11 _ _ c4
      have htok : p.env.tokens = d.words.drop p.off := by rw [henv]; rfl
      rw [htok] at f8 f9
      rw [List.getElem?_drop] at f8 f9
      refine ⟨by simpa using k1, fun e he => ?_⟩
      obtain ⟨t, ht, rfl⟩ := List.mem_map.1 he
      refine ⟨p.off, j, ⟨f7, x, y, by simpa using f8, f9, rfl⟩, ?_⟩
      have hr := (k2 t ht).1
      rw [henv] at hr
      have hr' := RootOK.strict (env := envFor ew ld.gram l (d.words.drop p.off) starts p.off)
        (show UniformBounds (envFor ew ld.gram l d.words starts p.off) from h.uniform hp ha hd hu) hr
      obtain ⟨m1, m2, -⟩ := hm (d.words.drop p.off) p.off
      obtain ⟨r0, r1, r2, r3, r4, c, r5, r6⟩ := hr'
      exact (m1.root m2 hSr).1 ⟨r0, r1, r2, r3, r4, c, r5,
        TreeOK.congr (env := envFor ew ld.gram l (d.words.drop p.off) starts p.off)
          (env' := envFor ew ld.gram l (d.words.drop p.off) [] p.off) rfl (fun A rb h => h) r6⟩

omit hG hu hkeys in
/-- C77: what `FrameFMR` prints for the frames that `MatchFrames` finds, in any order: for each the function that is
written after its alternative. The result is the list of these texts, and there is one if each frame has such a text. -/
theorem C77_prints_partial (nw : NodeWorld) {fuel : Nat} {frames : List (RbKey × Frame)}
    (hm : matchFrames w ew ld fuel context text = .ok frames) (ss : List String) :
    frameFMR w ew nw ld fuel context text = .ok ss ↔
      List.Forall₂ (FramePrints ds lw.lex.hash w nw) (w.ordFrames frames) ss := by
  subst hsrc
  have h := hload.held hlw
  obtain ⟨g0, hi⟩ := h.indexed
  obtain ⟨l, hp⟩ := h.processes ht hd
  have hc := h.frameCase hi hw ho ht hd hp hord hfit hsolid hff
  unfold frameFMR
  rw [hm, Out.bind_ok, mapOut_eq_ok]
  have key : ∀ e ∈ w.ordFrames frames, ∀ s, frameStr w nw ld.gram.main e = .ok s ↔ FramePrints ds lw.lex.hash w nw e s := by
    rintro ⟨k, f⟩ he s
    obtain ⟨-, rb, g1, g2, -⟩ := frame_facts hc hm ((hw.ordFrames _).mem_iff.1 he)
    obtain ⟨hb, hh⟩ := (h.frameBodies hi hff k rb).1 g2
    rw [C45_prints w nw ld.gram.main k f rb g1 s]
    constructor
    · exact fun e => ⟨rb, hb, hh, e⟩
    · rintro ⟨b, ⟨d1, hd1, -, -, hb1⟩, hk, e⟩
      obtain ⟨d2, hd2, -, -, hb2⟩ := hb
      rwa [h.noCollision.1.2 d2 hd2 rb hb2 d1 hd1 b hb1 (hh.trans hk.symm)]
  generalize w.ordFrames frames = l at key
  induction l generalizing ss with
  | nil => cases ss <;> simp
  | cons e l ih =>
    cases ss with
    | nil => simp
    | cons s ss =>
      rw [List.forall₂_cons, List.forall₂_cons]
      exact and_congr (key e List.mem_cons_self s) (ih ss (fun e he => key e (List.mem_cons_of_mem _ he)))

end

end Fmr
