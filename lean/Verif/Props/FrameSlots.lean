import Verif.Props.FrameLoaded

/-!
# C57: the slots of a frame are the derivable spans
-/

namespace Fmr

theorem foldOut_step {σ α : Type} {f : σ → α → Out σ} : ∀ {l : List α} {s s' : σ}, foldOut f s l = .ok s' →
    ∀ a ∈ l, ∃ s1 s2, f s1 a = .ok s2
  | [], s, s', _, a, ha => by simp at ha
  | b :: l, s, s', h, a, ha => by
    rw [foldOut] at h
    obtain ⟨s1, h1, h2⟩ := Out.bind_eq_ok.1 (show (f s b >>= fun s => foldOut f s l) = _ from h)
    rcases List.mem_cons.1 ha with rfl | ha
    · exact ⟨_, _, h1⟩
    · exact foldOut_step (l := l) h2 a ha

/-- the key of the reference `<S>` of a frame differs from those of its other references and of its words -/
def RefApart (w : FrameWorld) (trim : String → String) (g0 : Gram) (k : RbKey) (S : String) : Prop :=
  (∀ v, g0.Has trim .frame .nonterminal k v →
    w.termKey ⟨v, .nonterminal, .nil⟩ = w.termKey ⟨S, .nonterminal, .nil⟩ → v = S) ∧
  ∀ v, g0.Has trim .frame .terminal k v → w.termKey ⟨v, .terminal, .nil⟩ ≠ w.termKey ⟨S, .nonterminal, .nil⟩

/-- C57 in full: a reference `<S>` of a frame has exactly the spans of the text derivable from `S` as slots. -/
def C57_statement : Prop :=
  ∀ (lw : LoadWorld) (ld : Loaded) (main : Grammar), LoadedBy lw ld → ld.From lw main →
  ∀ (w : FrameWorld) (ew : World) (context : String) (text : Bytes),
    FrameCase lw.idx ⟨main, ld.gram.includes⟩ ld w ew context text →
  ∀ fuel frames, matchFrames w ew ld fuel context text = .ok frames →
  ∀ tokens l, process ew ld.gram context text = .ok (tokens, l) → UniformBounds (envFor ew ld.gram l tokens [] 0) →
  ∀ k S, Gram.Has ⟨main, ld.gram.includes⟩ lw.idx.trim .frame .nonterminal k S →
    RefApart w lw.idx.trim ⟨main, ld.gram.includes⟩ k S → ∀ pos,
    HasSlot frames k (w.termKey ⟨S, .nonterminal, .nil⟩) pos ↔
      ∃ i n, SpanIs tokens i n pos ∧ Derives (envFor ew ld.gram l tokens [] 0) S ((tokens.drop i).take n)

/-- the rules that are tried: those with a literal that occurs in the text, and those that refer to them -/
def Candidate (iw : IndexWorld) (g0 : Gram) (ms : List (String × List Pos)) (S : String) : Prop :=
  ∃ B, (∃ m ∈ ms, g0.RuleHas iw.trim B m.1) ∧ Above (g0.Refers iw.trim) S B

section
variable {iw : IndexWorld} {g0 : Gram} {ld : Loaded} {w : FrameWorld} {ew : World} {context : String} {text : Bytes}

/-- C57, what really happens: the slots of `<S>` are exactly the derivable spans if `S` is among the rules that are
tried, and there are none otherwise.
Missing: rules that can match without any literal of a rule in the text, see `C57_false`. -/
theorem C57_partial (hc : FrameCase iw g0 ld w ew context text) {fuel : Nat} {frames : List (RbKey × Frame)}
    (h : matchFrames w ew ld fuel context text = .ok frames) {tokens : List Token} {l : Option Grammar}
    (hp : process ew ld.gram context text = .ok (tokens, l)) (hu : UniformBounds (envFor ew ld.gram l tokens [] 0))
    {k : RbKey} {S : String} (hS : g0.Has iw.trim .frame .nonterminal k S) (ha : RefApart w iw.trim g0 k S)
    {ms : List (String × List Pos)} (hms : w.multiMatch ld.index.trie text = some ms) (pos : Pos) :
    HasSlot frames k (w.termKey ⟨S, .nonterminal, .nil⟩) pos ↔ Candidate iw g0 ms S ∧
      ∃ i n, SpanIs tokens i n pos ∧ Derives (envFor ew ld.gram l tokens [] 0) S ((tokens.drop i).take n) := by
  obtain ⟨ms', fr, starts, ps, h1, h2, h3, h4⟩ := matchFrames_spec hc.index hc.world h
  rw [hms, Option.some.injEq] at h1
  subst h1
  have hst : S ∈ starts ↔ Candidate iw g0 ms S := by
    obtain ⟨ms', g1, -, -, g4⟩ := getCandidates_spec hc.index hc.world h2
    rw [hms, Option.some.injEq] at g1
    subst g1
    exact g4 S
  have hset := hc.setting _ _ _ h2
  obtain ⟨e1, e2, e3, e4, e5⟩ := hset.env tokens l hp
  have hnd : KeysNodup frames := h4.nodup KeysNodup.nil
  have hslot : HasSlot frames k (w.termKey ⟨S, .nonterminal, .nil⟩) pos ↔
      ∃ s, InSlots frames k (w.termKey ⟨S, .nonterminal, .nil⟩) s ∧ s.pos = pos := by
    constructor
    · rintro ⟨f, hf, ss, hss, s, hs, hpos⟩
      exact ⟨s, ⟨f, (KeysNodup.lookup hnd).2 hf, ss, hss, hs⟩, hpos⟩
    · rintro ⟨s, ⟨f, hf, ss, hss, hs⟩, hpos⟩
      exact ⟨f, (KeysNodup.lookup hnd).1 hf, ss, hss, s, hs, hpos⟩
  have hder : ∀ i n, i + n ≤ tokens.length → i < tokens.length → S ∈ starts →
      ((∃ p ∈ ps, p.off = i ∧ ∃ s ∈ p.res.finals, MatchFor S n s) ↔
        Derives (envFor ew ld.gram l tokens [] 0) S ((tokens.drop i).take n)) := fun i n hin hi hS =>
    C19_derivable_partial ew ld.gram fuel context text starts tokens l hp ps e1 hset.ord e2.nullSafe hu h3 S hS i n hin hi
  rw [hslot, ← hst]
  constructor
  · rintro ⟨s, hs, rfl⟩
    rw [h4.slots] at hs
    rcases hs with hs | ⟨m, -, hki, hκ, -⟩ | ⟨p, hpp, a, hap, st, tag, pos, trees, c1, c2, c3, c4, c5, c6, rfl⟩
    · obtain ⟨f', hf', -⟩ := hs; simp at hf'
    · exact absurd hκ.symm (ha.2 _ (((C37_index hc.index m.1).2.2.1 k).1 hki))
    · obtain ⟨st', S', j, f1, f2, f3, f4, f5, f6, f7, ⟨x, y, f8, f9, f10⟩, -⟩ := final_facts hset h3 hpp hap
      rw [c1, Option.some.injEq] at f1
      subst f1
      rw [c2, Out.ok.injEq] at f5
      subst f5
      have := ha.1 _ (((C37_index hc.index _).2.2.2.2.2.1 k).1 c5) c6.symm
      subst this
      rw [c3, Out.ok.injEq] at f10
      subst f10
      obtain ⟨-, -, -, -, -, -, -, -, -, -, tokens', l', hp', hoff, henv⟩ := parse_facts hset h3 hpp
      rw [hp, Out.ok.injEq, Prod.mk.injEq] at hp'
      obtain ⟨rfl, rfl⟩ := hp'
      have htok : p.env.tokens = tokens.drop p.off := by rw [henv]; rfl
      rw [htok] at f6 f8 f9
      rw [List.length_drop] at f6
      rw [List.getElem?_drop] at f8 f9
      refine ⟨f3, p.off, j, ⟨f7, x, y, by simpa using f8, f9, rfl⟩, ?_⟩
      exact (hder p.off j (by omega) hoff f3).1 ⟨p, hpp, rfl, st, f2, f4⟩
  · rintro ⟨hS', i, n, ⟨hn, x, y, hx, hy, rfl⟩, hd⟩
    have hi : i < tokens.length := (List.getElem?_eq_some_iff.1 hx).1
    have hin : i + (n - 1) < tokens.length := (List.getElem?_eq_some_iff.1 hy).1
    obtain ⟨p, hpp, hoff, s, hs, hm⟩ := (hder i n (by omega) hi hS').2 hd
    obtain ⟨-, -, -, -, -, -, -, hst', hst0, hpar, tokens', l', hp', hoff', henv⟩ := parse_facts hset h3 hpp
    rw [hp, Out.ok.injEq, Prod.mk.injEq] at hp'
    obtain ⟨rfl, rfl⟩ := hp'
    have hmem : some s ∈ (finalPtrs false p.res.chart).map (fun a => chartGet p.res.chart a.1 a.2) := by
      rw [finalPtrs_get]
      refine List.mem_map.2 ⟨s, ?_, rfl⟩
      rw [← (parse_chart (env := p.env) (by show p.env.starts ≠ []; rw [hst']; exact hst0) hpar).2]
      exact hs
    obtain ⟨a, hap, hget⟩ := List.mem_map.1 hmem
    obtain ⟨st', S', j, f1, f2, f3, f4, f5, f6, f7, ⟨x', y', f8, f9, f10⟩, -⟩ := final_facts hset h3 hpp hap
    rw [hget, Option.some.injEq] at f1
    subst f1
    have hSS : S' = S := by
      have := f4.2.1.symm.trans hm.2.1
      simpa using this
    subst hSS
    have hj : j = n := f4.2.2.2.2.symm.trans hm.2.2.2.2
    subst hj
    have htok : p.env.tokens = tokens.drop p.off := by rw [henv]; rfl
    rw [htok, List.getElem?_drop] at f8 f9
    subst hoff
    rw [Nat.add_zero, hx, Option.some.injEq] at f8
    rw [hy, Option.some.injEq] at f9
    subst f8 f9
    -- the trees were computed
    obtain ⟨trees, htrees⟩ : ∃ trees, getTrees p.res.chart fuel a.1 a.2 = some trees := by
      unfold matchFrames at h
      obtain ⟨c, g1, h⟩ := Out.bind_eq_ok.1 h
      rw [h2, Out.ok.injEq] at g1
      subst g1
      obtain ⟨ps', g1, h⟩ := Out.bind_eq_ok.1 h
      rw [h3, Out.ok.injEq] at g1
      subst g1
      obtain ⟨pi, hpi⟩ := List.mem_iff_getElem?.1 hpp
      obtain ⟨s1, s2, hs12⟩ := foldOut_step h (p, pi) (List.mem_zipIdx_iff_getElem?.2 hpi)
      obtain ⟨ai, hai⟩ := List.mem_iff_getElem?.1 hap
      obtain ⟨s3, s4, hs34⟩ := foldOut_step (show foldOut _ _ (finalPtrs false p.res.chart).zipIdx = _ from hs12) (a, ai)
        (List.mem_zipIdx_iff_getElem?.2 hai)
      unfold matchFinal at hs34
      simp only [Out.bind_eq_ok, Out.ofFuel_eq_ok] at hs34
      obtain ⟨_, -, _, -, _, -, trees, ht, -⟩ := hs34
      exact ⟨trees, ht⟩
    refine ⟨⟨⟨x.startByte, y.endByte⟩, trees.map (fun n => (p, n))⟩, ?_, rfl⟩
    rw [h4.slots]
    exact .inr (.inr ⟨p, hpp, a, hap, s, S', _, trees, hget, f5, f10, htrees,
      ((C37_index hc.index S').2.2.2.2.2.1 k).2 hS, rfl, rfl⟩)

end

end Fmr
