import Verif.Proofs.FrameMatch

/-!
# Frames: C39, C40, C41, C45, C57
-/

namespace Fmr

/-! ## the run of `MatchFrames` -/

/-- a loop whose body may only run out of fuel -/
theorem foldOut_okOrDiv {σ α : Type} {f : σ → α → Out σ} : ∀ {l : List α},
    (∀ a ∈ l, ∀ s, f s a = .div ∨ ∃ s', f s a = .ok s') → ∀ s, foldOut f s l = .div ∨ ∃ s', foldOut f s l = .ok s'
  | [], _, s => .inr ⟨s, rfl⟩
  | a :: l, h, s => by
    rcases h a (by simp) s with h1 | ⟨s1, h1⟩
    · exact .inl (by rw [foldOut, h1]; rfl)
    · rw [foldOut, h1]
      exact foldOut_okOrDiv (l := l) (fun b hb => h b (by simp [hb])) s1

/-- a bound for all members of a list -/
theorem exists_bound {α : Type} {P : α → Nat → Prop} : ∀ (l : List α), (∀ a ∈ l, ∃ n, ∀ f ≥ n, P a f) →
    ∃ n, ∀ f ≥ n, ∀ a ∈ l, P a f
  | [], _ => ⟨0, by simp⟩
  | a :: l, h => by
    obtain ⟨n, hn⟩ := h a (by simp)
    obtain ⟨m, hm⟩ := exists_bound l (fun b hb => h b (by simp [hb]))
    refine ⟨max n m, fun f hf b hb => ?_⟩
    rcases List.mem_cons.1 hb with rfl | hb
    · exact hn f (by omega)
    · exact hm f (by omega) b hb

theorem mem_of_zipIdx {α : Type} {l : List α} {e : α × Nat} (h : e ∈ l.zipIdx) : e.1 ∈ l :=
  List.mem_of_getElem? (List.mem_zipIdx_iff_getElem?.1 h)

theorem foldOut_congr {σ α : Type} {f g : σ → α → Out σ} : ∀ {l : List α}, (∀ a ∈ l, ∀ s, f s a = g s a) →
    ∀ s, foldOut f s l = foldOut g s l
  | [], _, _ => rfl
  | a :: l, h, s => by
    rw [foldOut, foldOut, h a (by simp) s]
    cases g s a with
    | ok s' => exact foldOut_congr (l := l) (fun b hb => h b (by simp [hb])) s'
    | err => rfl
    | panic => rfl
    | div => rfl

/-- every rule has a name -/
def NamedRules (g0 : Gram) : Prop := ∀ k rb, g0.Body .rule k rb → k.ruleName ≠ ""

/-- A call of `MatchFrames` under the following assumptions: the index belongs to the grammar (`Loaded.From`),
frames are defined in the grammar itself and not in an included file, and the parser is well-behaved for the
start rules that are tried (`FrameSetting`). -/
structure FrameCase (iw : IndexWorld) (g0 : Gram) (ld : Loaded) (w : FrameWorld) (ew : World) (context : String)
    (text : Bytes) : Prop where
  index : buildIndex iw g0 = .ok ld.index
  frames : ld.gram.main.frames = g0.main.frames
  own : OwnFrames g0
  named : NamedRules g0
  world : w.OK
  setting : ∀ fuel fr starts, getCandidates w ld.gram.main ld.index fuel text = .ok (fr, starts) →
    FrameSetting ew ld.gram context text starts

section
variable {iw : IndexWorld} {g0 : Gram} {ld : Loaded} {w : FrameWorld} {ew : World} {context : String} {text : Bytes}

theorem above_named {R : String → String → Prop} (hR : ∀ A B, R A B → A ≠ "") {A B : String} (hB : B ≠ "")
    (h : Above R A B) : A ≠ "" := by
  cases h with
  | refl => exact hB
  | step h _ => exact hR _ _ h

theorem starts_named (hc : FrameCase iw g0 ld w ew context text) {fuel : Nat} {fr : List (RbKey × Frame)}
    {starts : List String} (h : getCandidates w ld.gram.main ld.index fuel text = .ok (fr, starts)) :
    "" ∉ starts := by
  obtain ⟨ms, -, -, -, h4⟩ := getCandidates_spec hc.index hc.world h
  intro hm
  obtain ⟨B, ⟨m, -, k, hk, -, rb, hb, -⟩, hab⟩ := (h4 "").1 hm
  refine above_named ?_ ?_ hab rfl
  · rintro A B' ⟨k', rfl, -, rb', hb', -⟩
    exact hc.named _ _ hb'
  · rw [← hk]
    exact hc.named _ _ hb

/-- the loop over the parses runs to its end, given enough fuel -/
theorem matchParses_total (hc : FrameCase iw g0 ld w ew context text) {fuel : Nat} {starts : List String}
    (hset : FrameSetting ew ld.gram context text starts) (hnam : "" ∉ starts)
    {ps : List Parsed} (h : earleyParseAll ew ld.gram fuel context text starts = .ok ps) (fr : List (RbKey × Frame)) :
    (∀ f, foldOut (matchParse w ld f) fr ps.zipIdx = .div ∨
      ∃ fr', foldOut (matchParse w ld f) fr ps.zipIdx = .ok fr') ∧
    ∃ n fr', ∀ f ≥ n, foldOut (matchParse w ld f) fr ps.zipIdx = .ok fr' := by
  have hfin : ∀ p ∈ ps, ∀ a ∈ finalPtrs false p.res.chart, ∀ f i j fr,
      (getTrees p.res.chart f a.1 a.2 = none ∧ matchFinal w ld f p i fr (a, j) = .div) ∨
      ∃ fr', matchFinal w ld f p i fr (a, j) = .ok fr' := by
    intro p hp a ha f i j fr
    obtain ⟨st, S, j', h1, -, h3, -, h5, -, -, ⟨x, y, -, -, h8⟩, -⟩ := final_facts hset h hp ha
    exact matchFinal_total hc.index hc.frames hc.own hc.world h1 h5 (fun e => hnam (e ▸ h3)) h8 f i j fr
  refine ⟨fun f => foldOut_okOrDiv (fun e he fr => foldOut_okOrDiv (fun a ha fr => ?_) fr) fr, ?_⟩
  · rcases hfin e.1 (mem_of_zipIdx he) a.1 (mem_of_zipIdx ha) f e.2 a.2 fr with ⟨-, h1⟩ | h1
    · exact .inl h1
    · exact .inr h1
  · obtain ⟨n, hn⟩ := exists_bound (P := fun p f => ∀ a ∈ finalPtrs false p.res.chart,
        getTrees p.res.chart f a.1 a.2 ≠ none ∧
        ∀ f' ≥ f, getTrees p.res.chart f' a.1 a.2 = getTrees p.res.chart f a.1 a.2) ps
        (fun p hp => exists_bound _ (fun a ha => by
      obtain ⟨st, S, j', -, -, -, -, -, -, -, -, ⟨n, ts, h9⟩, -⟩ := final_facts hset h hp ha
      exact ⟨n, fun f hf => ⟨by rw [h9 f hf]; simp, fun f' hf' => by rw [h9 f hf, h9 f' (by omega)]⟩⟩))
    have hrun : ∃ fr', foldOut (matchParse w ld n) fr ps.zipIdx = .ok fr' := by
      refine foldOut_noErr (fun e he fr => foldOut_noErr (fun a ha fr => ?_) fr) fr
      rcases hfin e.1 (mem_of_zipIdx he) a.1 (mem_of_zipIdx ha) n e.2 a.2 fr with ⟨h1, -⟩ | h1
      · exact absurd h1 (hn n (Nat.le_refl n) _ (mem_of_zipIdx he) _ (mem_of_zipIdx ha)).1
      · exact h1
    obtain ⟨fr', hfr'⟩ := hrun
    refine ⟨n, fr', fun f hle => ?_⟩
    rw [← hfr']
    refine foldOut_congr (fun e he fr => foldOut_congr (fun a ha fr => ?_) fr) fr
    unfold matchFinal
    rw [(hn n (Nat.le_refl n) _ (mem_of_zipIdx he) _ (mem_of_zipIdx ha)).2 f hle]

end

/-! ## C40 -/

/-- `ld` is a grammar loaded from a text -/
def LoadedBy (lw : LoadWorld) (ld : Loaded) : Prop :=
  lw.lex.OK ∧ ∃ fuel depth text name reg st, loadString lw fuel depth text name reg = .ok (some ld, st)

/-- C40 in full: for every loaded grammar, neither function panics, whatever the text (if the annotator and the
registered functions behave). -/
def C40_statement : Prop :=
  ∀ (lw : LoadWorld) (ld : Loaded), LoadedBy lw ld → ∀ (w : FrameWorld), w.OK → ∀ (ew : World), ew.OrdOK →
  ∀ (nw : NodeWorld), CallsReturn nw → ∀ (fuel : Nat) (context : String) (text : Bytes),
    SpansInside ew ld.gram context text →
    (∀ tokens l, process ew ld.gram context text = .ok (tokens, l) → TokensOrdered text tokens) →
    matchFrames w ew ld fuel context text ≠ .panic ∧ frameFMR w ew nw ld fuel context text ≠ .panic

section
variable {iw : IndexWorld} {g0 : Gram} {ld : Loaded} {w : FrameWorld} {ew : World} {context : String} {text : Bytes}

/-- C40 for `MatchFrames`, when no included file defines a frame and no rule derives the empty text.
Missing: the other cases, where it does panic (`C40_false_include`, `C40_false_empty`). -/
theorem C40_match_partial (hc : FrameCase iw g0 ld w ew context text) (fuel : Nat) :
    matchFrames w ew ld fuel context text ≠ .panic := by
  unfold matchFrames
  intro h
  rcases Out.bind_eq_panic.1 h with h | ⟨⟨fr, starts⟩, h1, h⟩
  · exact getCandidates_no_panic hc.index hc.frames hc.own hc.world fuel text h
  have hset := hc.setting _ _ _ h1
  rcases Out.bind_eq_panic.1 h with h | ⟨ps, h2, h⟩
  · unfold earleyParseAll at h
    rcases Out.bind_eq_panic.1 h with h | ⟨⟨tokens, l⟩, hp, h⟩
    · exact process_panic hset.spans h
    · by_cases hst : starts = []
      · subst hst
        cases tokens with
        | nil => simp [parseAllLoop] at h
        | cons t ts =>
          simp [parseAllLoop, earleyParse] at h
      · exact (parseAllLoop_noerr hst _ _).2 h
  · rcases (matchParses_total hc hset (starts_named hc h1) h2 fr).1 fuel with e | ⟨_, e⟩
    · rw [e] at h; simp at h
    · rw [e] at h; simp at h

/-- what is in a frame that `MatchFrames` returns -/
theorem frame_facts (hc : FrameCase iw g0 ld w ew context text) {fuel : Nat} {frames : List (RbKey × Frame)}
    (h : matchFrames w ew ld fuel context text = .ok frames) {k : RbKey} {f : Frame} (hk : (k, f) ∈ frames) :
    frames.lookup k = some f ∧ ∃ rb, frameBody ld.gram.main k = .ok rb ∧ g0.Body .frame k rb ∧ KeysNodup f.slots ∧
      (∀ κ ss, f.slots.lookup κ = some ss → ss ≠ []) ∧ (f.complete = true ↔ rb.terms.length ≤ f.slots.length) ∧
      ∀ nw κ ss s p n, f.slots.lookup κ = some ss → s ∈ ss → (p, n) ∈ s.trees → Labelled nw p n := by
  obtain ⟨ms, fr, starts, ps, h1, h2, h3, h4⟩ := matchFrames_spec hc.index hc.world h
  have hlk : frames.lookup k = some f := (KeysNodup.lookup (h4.nodup KeysNodup.nil)).2 hk
  obtain ⟨rb, g1, g2, g3, g4⟩ := h4.inv (by intro k f h; simp at h) k f hlk
  have hbody : g0.Body .frame k rb := by
    have hd := (h4.dom k).1 (by rw [hlk]; rfl)
    simp only [List.lookup_nil, Option.isSome_none, Bool.false_eq_true, false_or] at hd
    have : ∃ s, InIndex ld.index.index .frame k s ∨ InIndex ld.index.ruleIndex .frame k s := by
      rcases hd with ⟨m, -, hm⟩ | ⟨p, -, a, -, st, tag, -, -, hm⟩
      · exact ⟨_, .inl hm⟩
      · exact ⟨_, .inr hm⟩
    obtain ⟨s, hs⟩ := this
    obtain ⟨rb', e1, e2⟩ := indexed_own hc.index hc.frames hc.own hs
    rw [g1, Out.ok.injEq] at e2
    rwa [e2]
  refine ⟨hlk, rb, g1, hbody, g2, g3, g4, fun nw κ ss s p n e1 e2 e3 => ?_⟩
  have hin : InSlots frames k κ s := ⟨f, hlk, ss, e1, e2⟩
  rw [h4.slots] at hin
  rcases hin with hin | ⟨m, -, -, -, q, -, rfl⟩ | ⟨p', hp', a, ha, st, tag, pos, trees, c1, c2, c3, c4, c5, c6, rfl⟩
  · obtain ⟨f', hf', -⟩ := hin; simp at hf'
  · simp at e3
  · obtain ⟨n', hn', e⟩ := List.mem_map.1 e3
    cases e
    obtain ⟨_, _, _, -, -, -, -, -, -, -, -, -, hall⟩ := final_facts (hc.setting _ _ _ h2) h3 hp' ha
    exact ((hall _ _ c4).2 n hn').2 nw

end

section
variable {nw : NodeWorld} {self : Self} {kids : List (Option Kid)} {nl : String}

mutual
theorem settled_fmrStr (hk : ∀ k, some k ∈ kids → Settled k.sem) : ∀ f : FMR, f.NoContext →
    Settled (fmrStr nw self kids nl f)
  | .mk fn args, h => by
    rw [FMR.NoContext] at h
    by_cases hfn : fn = "nf.I"
    · subst hfn
      match args, h with
      | [a], h => rw [fmrStr_proj]; exact settled_semStr hk a h.1
      | [], _ => rw [fmrStr, if_pos rfl]; exacts [.err, by simp]
      | a :: b :: l, _ => rw [fmrStr, if_pos rfl]; exacts [.err, by simp]
    · rw [fmrStr_call hfn]
      exact (settled_semStrs hk args h).bind (fun _ _ => .ok)
theorem settled_semStrs (hk : ∀ k, some k ∈ kids → Settled k.sem) : ∀ as : List Arg, NoContexts as →
    Settled (semStrs nw self kids nl as)
  | [], _ => by rw [semStrs]; exact .ok
  | a :: as, h => by
    rw [semStrs]
    exact (settled_semStr hk a h.1).bind (fun _ _ => (settled_semStrs hk as h.2).bind (fun _ _ => .ok))
theorem settled_semStr (hk : ∀ k, some k ∈ kids → Settled k.sem) : ∀ a : Arg, a.NoContext →
    Settled (semStr nw self kids nl a)
  | .mk t v, h => by rw [semStr]; exact settled_semVal hk t h.1 v h.2
theorem settled_semVal (hk : ∀ k, some k ∈ kids → Settled k.sem) (t : String) (ht : t ≠ "context") :
    ∀ v : Val, v.NoContext → Settled (semVal nw self kids nl t v)
  | .str s, _ => by rw [semVal, if_neg ht]; split; exacts [.ok, .err]
  | .bigInt s, _ => by rw [semVal, if_neg ht]; split; exacts [.ok, .err]
  | .bigFloat s, _ => by rw [semVal, if_neg ht]; split; exacts [.ok, .err]
  | .int i, _ => by
    rw [semVal, if_neg ht]
    split
    · unfold indexStr
      split
      · exact .err
      · split
        · exact .ok
        · next h1 h2 =>
          have hi : (i - 1).toNat < kids.length := by omega
          rw [List.getElem?_eq_getElem hi]
          cases e : kids[(i - 1).toNat] with
          | none => exact .ok
          | some k => exact hk k (e ▸ List.getElem_mem hi)
    · exact .err
  | .fmr f, h => by
    rw [semVal, if_neg ht]
    split
    · exact settled_fmrStr hk f h
    · exact .err
  | .nilFmr, _ => by rw [semVal, if_neg ht]; split; exacts [.ok, .err]
  | .other _, _ => by rw [semVal, if_neg ht]; exact .err
end

end

theorem Settled.mapOut {α β : Type} {f : α → Out β} : ∀ {l : List α}, (∀ a ∈ l, Settled (f a)) → Settled (Fmr.mapOut f l)
  | [], _ => .ok
  | a :: l, h => by
    rw [Fmr.mapOut]
    exact (h a (by simp)).bind (fun _ _ => (Settled.mapOut (l := l) (fun b hb => h b (by simp [hb]))).bind (fun _ _ => .ok))

theorem frameChild_some {w : FrameWorld} {nw : NodeWorld} {f : Frame} {t : Term} {k : Kid}
    (h : frameChild w nw f t = some k) : ∃ p n, FirstTree w f t p n ∧ k = n.kid nw p := by
  unfold frameChild at h
  split at h
  · next pos p n ts ss e =>
    cases h
    exact ⟨p, n, ⟨_, _, _, e, rfl⟩, rfl⟩
  · simp at h

theorem frameChild_of_first {w : FrameWorld} {nw : NodeWorld} {f : Frame} {t : Term} {p : Parsed} {n : Node}
    (h : FirstTree w f t p n) : frameChild w nw f t = some (n.kid nw p) := by
  obtain ⟨⟨pos, trees⟩, ss, ts, h1, h2⟩ := h
  simp only at h2
  subst h2
  unfold frameChild
  rw [h1]

section
variable {iw : IndexWorld} {g0 : Gram} {ld : Loaded} {w : FrameWorld} {ew : World} {context : String} {text : Bytes}

/-- C40 for `FrameFMR`, when moreover the functions of frames have no context argument `@`.
Missing: the others, where it does panic (`C40_false_context`). -/
theorem C40_fmr_partial (hc : FrameCase iw g0 ld w ew context text) {nw : NodeWorld} (hcall : CallsReturn nw)
    (hctx : ∀ k rb f, g0.Body .frame k rb → rb.f = some f → f.NoContext) (fuel : Nat) :
    frameFMR w ew nw ld fuel context text ≠ .panic := by
  unfold frameFMR
  intro h
  rcases Out.bind_eq_panic.1 h with h | ⟨frames, h1, h⟩
  · exact C40_match_partial hc fuel h
  have : Settled (mapOut (frameStr w nw ld.gram.main) (w.ordFrames frames)) := by
    refine Settled.mapOut ?_
    rintro ⟨k, f⟩ he
    have he := (hc.world.ordFrames _).mem_iff.1 he
    obtain ⟨-, rb, g1, g2, -, -, -, g3⟩ := frame_facts hc h1 he
    unfold frameStr
    rw [g1]
    simp only [Out.bind_ok]
    split
    · exact .ok
    · next fm hf =>
      refine settled_fmrStr (fun kd hkd => ?_) fm (hctx k rb fm g2 hf)
      obtain ⟨t, -, ht⟩ := List.mem_map.1 hkd
      obtain ⟨p, n, ⟨s, ss, ts, e1, e2⟩, rfl⟩ := frameChild_some ht
      exact (settled_node hcall n (g3 nw _ _ s p n e1 (by simp) (by simp [e2]))).1
  rcases this with ⟨a, e⟩ | e
  · rw [e] at h; simp at h
  · rw [e] at h; simp at h

/-! ## C41 -/

/-- no rule contains a literal found in the text -/
def NoRuleLiteral (iw : IndexWorld) (g0 : Gram) (ms : List (String × List Pos)) : Prop :=
  ∀ m ∈ ms, ∀ A, ¬ g0.RuleHas iw.trim A m.1

/-- C41 in full: on a text that can be processed and in which no literal of a rule occurs, `MatchFrames` returns
without error. -/
def C41_statement : Prop :=
  ∀ (lw : LoadWorld) (ld : Loaded) (main : Grammar), LoadedBy lw ld → ld.From lw main →
  ∀ (w : FrameWorld) (ew : World) (context : String) (text : Bytes),
    FrameCase lw.idx ⟨main, ld.gram.includes⟩ ld w ew context text →
  ∀ ms, w.multiMatch ld.index.trie text = some ms → NoRuleLiteral lw.idx ⟨main, ld.gram.includes⟩ ms →
  ∀ tokens l, process ew ld.gram context text = .ok (tokens, l) →
    ∃ n, ∀ fuel ≥ n, ∃ frames, matchFrames w ew ld fuel context text = .ok frames

theorem starts_nil_iff (hi : buildIndex iw g0 = .ok ld.index) (hw : w.OK) {fuel : Nat} {fr : List (RbKey × Frame)}
    {starts : List String} (h : getCandidates w ld.gram.main ld.index fuel text = .ok (fr, starts))
    {ms : List (String × List Pos)} (hms : w.multiMatch ld.index.trie text = some ms) :
    starts = [] ↔ NoRuleLiteral iw g0 ms := by
  obtain ⟨ms', h1, -, -, h4⟩ := getCandidates_spec hi hw h
  rw [hms] at h1
  cases h1
  constructor
  · rintro rfl m hm A hA
    exact absurd ((h4 A).2 ⟨A, ⟨m, hm, hA⟩, .refl⟩) (by simp)
  · intro hn
    rw [List.eq_nil_iff_forall_not_mem]
    intro A hA
    obtain ⟨B, ⟨m, hm, hB⟩, -⟩ := (h4 A).1 hA
    exact hn m hm B hB

theorem process_ne_div {w : World} {g : Gram} {context : String} {text : Bytes} :
    process w g context text ≠ .div := by
  intro hp
  unfold process at hp
  simp only at hp
  split at hp
  · simp at hp
  split at hp
  · simp at hp
  split at hp
  · simp at hp
  rename_i d hd _
  cases hl : localGrammar w.hash w.find g.main.regexps d with
  | ok a => rw [hl] at hp; simp at hp
  | err => rw [hl] at hp; simp at hp
  | panic => rw [hl] at hp; simp at hp
  | div => exact localGrammar_no_div hl

/-- C41, what really happens: `MatchFrames` fails exactly when `MultiMatch` fails, the text cannot be processed, or
no literal of a rule occurs in it; otherwise it returns frames. -/
theorem C41_partial (hc : FrameCase iw g0 ld w ew context text) :
    (w.multiMatch ld.index.trie text = none ∨ process ew ld.gram context text = .err ∨
        (∃ ms, w.multiMatch ld.index.trie text = some ms ∧ NoRuleLiteral iw g0 ms) →
      ∃ n, ∀ fuel ≥ n, matchFrames w ew ld fuel context text = .err) ∧
    (¬ (w.multiMatch ld.index.trie text = none ∨ process ew ld.gram context text = .err ∨
        (∃ ms, w.multiMatch ld.index.trie text = some ms ∧ NoRuleLiteral iw g0 ms)) →
      ∃ n frames, ∀ fuel ≥ n, matchFrames w ew ld fuel context text = .ok frames) := by
  cases hms : w.multiMatch ld.index.trie text with
  | none =>
    refine ⟨fun _ => ⟨0, fun fuel _ => ?_⟩, by simp⟩
    unfold matchFrames
    rw [(C37_no_error hc.index hc.world _ fuel text).2 hms]
    rfl
  | some ms =>
    obtain ⟨n, ⟨fr, starts⟩, hn⟩ := getCandidates_total hc.index hc.frames hc.own hc.world hms
    have h1 := hn n (Nat.le_refl n)
    have hset := hc.setting _ _ _ h1
    have hst := starts_nil_iff hc.index hc.world h1 hms
    have hrun : ∀ fuel ≥ n, matchFrames w ew ld fuel context text =
        (earleyParseAll ew ld.gram fuel context text starts >>= fun ps =>
          foldOut (matchParse w ld fuel) fr ps.zipIdx) := by
      intro fuel hf
      unfold matchFrames
      rw [hn fuel hf]
      rfl
    simp only [reduceCtorEq, false_or, Option.some.injEq, exists_eq_left', ← hst]
    constructor
    · intro ho
      refine ⟨n, fun fuel hf => ?_⟩
      rw [hrun fuel hf]
      have : earleyParseAll ew ld.gram fuel context text starts = .err := by
        unfold earleyParseAll
        cases hp : process ew ld.gram context text with
        | err => rfl
        | panic => exact absurd hp (process_panic hset.spans)
        | div => exact absurd hp process_ne_div
        | ok x =>
          obtain ⟨tokens, l⟩ := x
          have hs0 : starts = [] := ho.resolve_left (by rw [hp]; simp)
          have hne := (process_ok hp).1
          cases tokens with
          | nil => exact absurd rfl hne
          | cons t ts => simp [hs0, parseAllLoop, earleyParse]
      rw [this]
      rfl
    · intro ho
      rw [not_or] at ho
      cases hp : process ew ld.gram context text with
      | err => exact absurd hp ho.1
      | panic => exact absurd hp (process_panic hset.spans)
      | div => exact absurd hp process_ne_div
      | ok x =>
        obtain ⟨tokens, l⟩ := x
        obtain ⟨n2, hn2⟩ := C19_terminates ew ld.gram context text starts tokens l hp ho.2
          (hset.env tokens l hp).1 hset.ord
        obtain ⟨ps, hps⟩ := hn2 n2 (Nat.le_refl _)
        obtain ⟨n3, frames, hn3⟩ := (matchParses_total hc hset (starts_named hc h1) hps fr).2
        refine ⟨max n (max n2 n3), frames, fun fuel hf => ?_⟩
        rw [hrun fuel (by omega), earleyParseAll_mono (by omega) hps]
        exact hn3 fuel (by omega)

end

/-! ## C39 -/

/-- a term of a frame has at least one slot -/
def Filled (w : FrameWorld) (f : Frame) (t : Term) : Prop := ∃ s ss, f.slots.lookup (w.termKey t) = some (s :: ss)

/-- the keys of different terms differ -/
def KeysApart (w : FrameWorld) (rb : RuleBody) : Prop :=
  (∀ t ∈ rb.terms, ∀ t' ∈ rb.terms, w.termKey t = w.termKey t' → t = t') ∧
  ∀ t ∈ rb.terms, ∀ v, (w.termKey ⟨v, .terminal, .nil⟩ = w.termKey t → t = ⟨v, .terminal, .nil⟩) ∧
    (w.termKey ⟨v, .nonterminal, .nil⟩ = w.termKey t → t = ⟨v, .nonterminal, .nil⟩)

/-- C39 in full (for a hash without collisions): a matched frame is complete iff every term has a slot. -/
def C39_statement : Prop :=
  ∀ (lw : LoadWorld) (ld : Loaded) (main : Grammar), LoadedBy lw ld → ld.From lw main →
  ∀ (w : FrameWorld) (ew : World) (context : String) (text : Bytes),
    FrameCase lw.idx ⟨main, ld.gram.includes⟩ ld w ew context text →
  ∀ fuel frames, matchFrames w ew ld fuel context text = .ok frames →
  ∀ k f, (k, f) ∈ frames → ∀ rb, frameBody ld.gram.main k = .ok rb → KeysApart w rb →
    (f.complete = true ↔ ∀ t ∈ rb.terms, Filled w f t)

/-- literals without flags, and nothing to trim -/
def PlainTerms (iw : IndexWorld) (rb : RuleBody) : Prop :=
  ∀ t ∈ rb.terms, t.type = .terminal ∨ t.type = .nonterminal → t.meta = .nil ∧ iw.trim t.value = t.value

section
variable {iw : IndexWorld} {g0 : Gram} {ld : Loaded} {w : FrameWorld} {ew : World} {context : String} {text : Bytes}

theorem body_unique (hc : FrameCase iw g0 ld w ew context text) {k : RbKey} {rb rb' : RuleBody}
    (h : g0.Body .frame k rb) (h' : frameBody ld.gram.main k = .ok rb') : rb = rb' := by
  have := hc.own k rb h
  rw [← frameBody_congr hc.frames, h', Out.ok.injEq] at this
  exact this.symm

/-- the slots of a frame belong to its terms -/
theorem slot_of_term (hc : FrameCase iw g0 ld w ew context text) {fuel : Nat} {frames : List (RbKey × Frame)}
    (h : matchFrames w ew ld fuel context text = .ok frames) {k : RbKey} {f : Frame} (hk : (k, f) ∈ frames)
    {rb : RuleBody} (hrb : frameBody ld.gram.main k = .ok rb) (hp : PlainTerms iw rb) {κ : Nat} {ss : List Slot}
    (hs : f.slots.lookup κ = some ss) : ∃ t ∈ rb.terms, κ = w.termKey t := by
  obtain ⟨hlk, rb', g1, -, -, g2, -⟩ := frame_facts hc h hk
  obtain ⟨ms, fr, starts, ps, h1, h2, h3, h4⟩ := matchFrames_spec hc.index hc.world h
  obtain ⟨s, ss', rfl⟩ := List.exists_cons_of_ne_nil (g2 κ ss hs)
  have hin : InSlots frames k κ s := ⟨f, hlk, _, hs, by simp⟩
  rw [h4.slots] at hin
  rcases hin with hin | ⟨m, -, ⟨i, hi, hk'⟩, rfl, -⟩ | ⟨p', hp', a, ha, st, tag, pos, trees, c1, c2, c3, c4, ⟨i, hi, hk'⟩, rfl, -⟩
  · obtain ⟨f', hf', -⟩ := hin; simp at hf'
  · obtain ⟨-, rb', hb, t, ht, e1, e2⟩ := ((C37_index hc.index m.1).2.2.1 k).1 ⟨i, hi, hk'⟩
    cases body_unique hc hb hrb
    obtain ⟨e3, e4⟩ := hp t ht (.inl e1)
    refine ⟨t, ht, ?_⟩
    obtain ⟨v, ty, mt⟩ := t
    simp only at e1 e2 e3 e4
    rw [e1, e3, ← e2, e4]
  · obtain ⟨-, rb', hb, t, ht, e1, e2⟩ := ((C37_index hc.index tag).2.2.2.2.2.1 k).1 ⟨i, hi, hk'⟩
    cases body_unique hc hb hrb
    obtain ⟨e3, e4⟩ := hp t ht (.inr e1)
    refine ⟨t, ht, ?_⟩
    obtain ⟨v, ty, mt⟩ := t
    simp only at e1 e2 e3 e4
    rw [e1, e3, ← e2, e4]

/-- C39 when literals have no flags and, for one direction, when no term is repeated.
Missing: repeated terms share one slot and make the frame never complete (`C39_false`); literals with flags are
filled under a key that is not theirs (`C39_false_flags`). -/
theorem C39_partial (hc : FrameCase iw g0 ld w ew context text) {fuel : Nat} {frames : List (RbKey × Frame)}
    (h : matchFrames w ew ld fuel context text = .ok frames) {k : RbKey} {f : Frame} (hk : (k, f) ∈ frames)
    {rb : RuleBody} (hrb : frameBody ld.gram.main k = .ok rb) (hp : PlainTerms iw rb) :
    (f.complete = true → ∀ t ∈ rb.terms, Filled w f t) ∧
    ((rb.terms.map w.termKey).Nodup → ((∀ t ∈ rb.terms, Filled w f t) → f.complete = true)) := by
  obtain ⟨hlk, rb', g1, -, g3, g2, g4, -⟩ := frame_facts hc h hk
  rw [hrb, Out.ok.injEq] at g1
  subst g1
  have hsub : f.slots.map Prod.fst ⊆ rb.terms.map w.termKey := by
    intro κ hκ
    obtain ⟨ss, hss⟩ := Option.isSome_iff_exists.1 (lookup_isSome_iff.2 hκ)
    obtain ⟨t, ht, rfl⟩ := slot_of_term hc h hk hrb hp hss
    exact List.mem_map_of_mem ht
  have hfill : ∀ t, Filled w f t ↔ w.termKey t ∈ f.slots.map Prod.fst := by
    intro t
    rw [← lookup_isSome_iff, Option.isSome_iff_exists]
    constructor
    · rintro ⟨s, ss, e⟩; exact ⟨_, e⟩
    · rintro ⟨ss, e⟩
      obtain ⟨s, ss', rfl⟩ := List.exists_cons_of_ne_nil (g2 _ _ e)
      exact ⟨s, ss', e⟩
  constructor
  · intro hcomp t ht
    have hperm := (List.subperm_of_subset g3 hsub).perm_of_length_le (by
      rw [List.length_map, List.length_map]; exact g4.1 hcomp)
    exact (hfill t).2 (hperm.mem_iff.2 (List.mem_map_of_mem ht))
  · intro hnd hall
    have hsub' : rb.terms.map w.termKey ⊆ f.slots.map Prod.fst := by
      intro κ hκ
      obtain ⟨t, ht, rfl⟩ := List.mem_map.1 hκ
      exact (hfill t).1 (hall t ht)
    have := (List.subperm_of_subset hnd hsub').length_le
    rw [List.length_map, List.length_map] at this
    exact g4.2 this

end

/-! ## C45 -/

/-- what can be printed for an argument of a frame -/
def FrameArgInv (nw : NodeWorld) (V : Nat → String → Prop) : Arg → String → Prop
  | .mk t (.str x), s => t = "string" ∧ s = quoteStr nw.isPrint x
  | .mk t (.bigInt x), s => t = "int" ∧ s = toString x
  | .mk t (.bigFloat x), s => t = "float" ∧ s = nw.floatStr x
  | .mk t (.int i), s => t = "index" ∧ ((i = 0 ∧ s = "") ∨ ∃ k : Nat, i = k + 1 ∧ V k s)
  | .mk t (.fmr f), s => t = "func" ∧ FrameFmr nw V f s
  | .mk t .nilFmr, s => t = "func" ∧ s = ""
  | .mk _ (.other _), _ => False

theorem frameArg_inv {nw : NodeWorld} {V : Nat → String → Prop} {a : Arg} {s : String} (h : FrameArg nw V a s) :
    FrameArgInv nw V a s := by
  cases h with
  | string => exact ⟨rfl, rfl⟩
  | int => exact ⟨rfl, rfl⟩
  | float => exact ⟨rfl, rfl⟩
  | self => exact ⟨rfl, .inl ⟨rfl, rfl⟩⟩
  | slot h => exact ⟨rfl, .inr ⟨_, rfl, h⟩⟩
  | func h => exact ⟨rfl, h⟩
  | nilFunc => exact ⟨rfl, rfl⟩

section
variable {nw : NodeWorld} {kids : List (Option Kid)}

/-- what a child prints -/
def KidShows (kids : List (Option Kid)) (i : Nat) (s : String) : Prop :=
  (kids[i]? = some none ∧ s = "null") ∨ ∃ k, kids[i]? = some (some k) ∧ k.sem = .ok s

theorem ctxStr_blank (s : String) : ctxStr nw Self.blank kids ≠ .ok s := by
  intro h
  simp only [ctxStr, ctxValue, Self.blank, Out.bind_eq_ok] at h
  obtain ⟨v, ⟨nodes, -, x, hx, -⟩, -⟩ := h
  simp at hx

mutual
theorem fmrStr_iff : ∀ (f : FMR) (s : String),
    fmrStr nw Self.blank kids "" f = .ok s ↔ FrameFmr nw (KidShows kids) f s
  | .mk fn args, s => by
    by_cases hfn : fn = "nf.I"
    · subst hfn
      match args with
      | [a] =>
        rw [fmrStr_proj, semStr_iff a s]
        constructor
        · exact .proj
        · intro h
          cases h with
          | proj h => exact h
          | call h _ => exact absurd rfl h
      | [] =>
        rw [fmrStr, if_pos rfl]
        · simp only [reduceCtorEq, false_iff]
          intro h
          cases h with
          | call h _ => exact absurd rfl h
        · simp
      | a :: b :: l =>
        rw [fmrStr, if_pos rfl]
        · simp only [reduceCtorEq, false_iff]
          intro h
          cases h with
          | call h _ => exact absurd rfl h
        · simp
    · rw [fmrStr_call hfn]
      simp only [Out.bind_eq_ok, Out.pure_eq, Out.ok.injEq]
      constructor
      · rintro ⟨ss, h, rfl⟩
        exact .call hfn ((semStrs_iff args ss).1 h)
      · intro h
        cases h with
        | proj _ => exact absurd rfl hfn
        | call _ h => exact ⟨_, (semStrs_iff args _).2 h, rfl⟩
theorem semStrs_iff : ∀ (as : List Arg) (ss : List String),
    semStrs nw Self.blank kids "" as = .ok ss ↔ FrameArgs nw (KidShows kids) as ss
  | [], ss => by
    rw [semStrs, Out.ok.injEq]
    constructor
    · rintro rfl; exact .nil
    · intro h; cases h; rfl
  | a :: as, ss => by
    simp only [semStrs, Out.bind_eq_ok, Out.pure_eq, Out.ok.injEq]
    constructor
    · rintro ⟨s, h1, ss', h2, rfl⟩
      exact .cons ((semStr_iff a s).1 h1) ((semStrs_iff as ss').1 h2)
    · intro h
      cases h with
      | cons h1 h2 => exact ⟨_, (semStr_iff a _).2 h1, _, (semStrs_iff as _).2 h2, rfl⟩
theorem semStr_iff : ∀ (a : Arg) (s : String),
    semStr nw Self.blank kids "" a = .ok s ↔ FrameArg nw (KidShows kids) a s
  | .mk t v, s => by rw [semStr]; exact semVal_iff t v s
theorem semVal_iff (t : String) : ∀ (v : Val) (s : String),
    semVal nw Self.blank kids "" t v = .ok s ↔ FrameArg nw (KidShows kids) (.mk t v) s
  | .str x, s => by
    rw [semVal]
    split
    · next h => subst h; rw [Out.ok.injEq]; constructor
                · rintro rfl; exact .string
                · intro h; exact (frameArg_inv h).2.symm
    · next h =>
      constructor
      · intro h2; split at h2
        · exact absurd h2 (ctxStr_blank s)
        · simp at h2
      · intro h2; exact absurd (frameArg_inv h2).1 h
  | .bigInt x, s => by
    rw [semVal]
    split
    · next h => subst h; rw [Out.ok.injEq]; constructor
                · rintro rfl; exact .int
                · intro h; exact (frameArg_inv h).2.symm
    · next h =>
      constructor
      · intro h2; split at h2
        · exact absurd h2 (ctxStr_blank s)
        · simp at h2
      · intro h2; exact absurd (frameArg_inv h2).1 h
  | .bigFloat x, s => by
    rw [semVal]
    split
    · next h => subst h; rw [Out.ok.injEq]; constructor
                · rintro rfl; exact .float
                · intro h; exact (frameArg_inv h).2.symm
    · next h =>
      constructor
      · intro h2; split at h2
        · exact absurd h2 (ctxStr_blank s)
        · simp at h2
      · intro h2; exact absurd (frameArg_inv h2).1 h
  | .int i, s => by
    rw [semVal]
    split
    · next h =>
      subst h
      unfold indexStr
      by_cases hb : i < 0 ∨ i > kids.length
      · rw [if_pos hb]
        simp only [reduceCtorEq, false_iff]
        intro h
        obtain ⟨-, ⟨rfl, -⟩ | ⟨k, rfl, hV⟩⟩ := frameArg_inv h
        · omega
        · rcases hV with ⟨h, -⟩ | ⟨_, h, -⟩
          · have := (List.getElem?_eq_some_iff.1 h).1; omega
          · have := (List.getElem?_eq_some_iff.1 h).1; omega
      · rw [if_neg hb]
        by_cases h0 : i = 0
        · subst h0
          rw [if_pos rfl, Out.ok.injEq]
          constructor
          · rintro rfl; exact .self
          · intro h
            obtain ⟨-, ⟨-, e⟩ | ⟨k, e, -⟩⟩ := frameArg_inv h
            · exact e.symm
            · omega
        · rw [if_neg h0]
          obtain ⟨k, rfl⟩ : ∃ k : Nat, i = k + 1 := ⟨(i - 1).toNat, by omega⟩
          have hk : k < kids.length := by omega
          have e : ((k : Int) + 1 - 1).toNat = k := by omega
          rw [e]
          have hshow : FrameArg nw (KidShows kids) (.mk "index" (.int (k + 1))) s ↔ KidShows kids k s := by
            constructor
            · intro h
              obtain ⟨-, ⟨e, -⟩ | ⟨k', e, h⟩⟩ := frameArg_inv h
              · omega
              · have : k' = k := by omega
                exact this ▸ h
            · exact .slot
          rw [hshow]
          unfold KidShows
          rw [List.getElem?_eq_getElem hk]
          cases kids[k] with
          | none => simp [eq_comm]
          | some kd => simp
    · next h =>
      constructor
      · intro h2; split at h2
        · exact absurd h2 (ctxStr_blank s)
        · simp at h2
      · intro h2; exact absurd (frameArg_inv h2).1 h
  | .fmr f, s => by
    rw [semVal]
    split
    · next h =>
      subst h
      rw [fmrStr_iff f s]
      constructor
      · exact .func
      · intro h; exact (frameArg_inv h).2
    · next h =>
      constructor
      · intro h2; split at h2
        · exact absurd h2 (ctxStr_blank s)
        · simp at h2
      · intro h2; exact absurd (frameArg_inv h2).1 h
  | .nilFmr, s => by
    rw [semVal]
    split
    · next h => subst h; rw [Out.ok.injEq]; constructor
                · rintro rfl; exact .nilFunc
                · intro h; exact (frameArg_inv h).2.symm
    · next h =>
      constructor
      · intro h2; split at h2
        · exact absurd h2 (ctxStr_blank s)
        · simp at h2
      · intro h2; exact absurd (frameArg_inv h2).1 h
  | .other _, s => by
    rw [semVal]
    constructor
    · intro h2; split at h2
      · exact absurd h2 (ctxStr_blank s)
      · simp at h2
    · intro h2; cases h2
end

end

/-- what a term of a frame prints: `null` iff its first slot has no tree -/
theorem kidShows_iff (w : FrameWorld) (nw : NodeWorld) (f : Frame) (terms : List Term) (i : Nat) (s : String) :
    KidShows (terms.map (frameChild w nw f)) i s ↔ ∃ t, terms[i]? = some t ∧ SlotShows w nw f t s := by
  unfold KidShows
  rw [List.getElem?_map]
  constructor
  · rintro (⟨h, rfl⟩ | ⟨k, h, hs⟩)
    · obtain ⟨t, ht, hc⟩ := Option.map_eq_some_iff.1 h
      refine ⟨t, ht, .null (fun p n hf => ?_)⟩
      rw [frameChild_of_first hf] at hc
      simp at hc
    · obtain ⟨t, ht, hc⟩ := Option.map_eq_some_iff.1 h
      obtain ⟨p, n, hf, rfl⟩ := frameChild_some hc
      exact ⟨t, ht, .tree hf hs⟩
  · rintro ⟨t, ht, hs⟩
    rw [ht]
    cases hs with
    | null hn =>
      refine .inl ⟨?_, rfl⟩
      cases hc : frameChild w nw f t with
      | none => rw [Option.map_some, hc]
      | some k =>
        obtain ⟨p, n, hf, -⟩ := frameChild_some hc
        exact absurd hf (hn p n)
    | tree hf hs => exact .inr ⟨_, by rw [Option.map_some, frameChild_of_first hf], hs⟩

/-- C45, for every frame and all slots: `FrameFMR` prints the function of the frame, where `$k` is `null` if the
first slot of term `k` has no tree (in particular if there is no slot), and the semantic of the first tree
otherwise; `$0` prints as nothing. Nothing else is ever printed. -/
theorem C45_prints (w : FrameWorld) (nw : NodeWorld) (g : Grammar) (k : RbKey) (f : Frame) (rb : RuleBody)
    (hrb : frameBody g k = .ok rb) (s : String) :
    frameStr w nw g (k, f) = .ok s ↔ (rb.f = none ∧ s = "") ∨
      ∃ fm, rb.f = some fm ∧ FrameFmr nw (fun i s => ∃ t, rb.terms[i]? = some t ∧ SlotShows w nw f t s) fm s := by
  unfold frameStr
  rw [hrb]
  simp only [Out.bind_ok]
  cases hf : rb.f with
  | none => simp [eq_comm]
  | some fm =>
    simp only [fmrStr_iff, reduceCtorEq, false_and, false_or, Option.some.injEq, exists_eq_left']
    have : KidShows (rb.terms.map (frameChild w nw f)) =
        fun i s => ∃ t, rb.terms[i]? = some t ∧ SlotShows w nw f t s :=
      funext fun i => funext fun s => propext (kidShows_iff w nw f rb.terms i s)
    rw [this]

/-- what should be printed for a term: `null` if it has no slot, and otherwise the semantic of its first tree -/
def SlotPrints (w : FrameWorld) (nw : NodeWorld) (f : Frame) (t : Term) (s : String) : Prop :=
  (¬ Filled w f t ∧ s = "null") ∨ (Filled w f t ∧ ∃ p n, FirstTree w f t p n ∧ n.semantic nw p = .ok s)

/-- C45 in full -/
def C45_statement : Prop :=
  ∀ (lw : LoadWorld) (ld : Loaded) (main : Grammar), LoadedBy lw ld → ld.From lw main →
  ∀ (w : FrameWorld) (ew : World) (context : String) (text : Bytes),
    FrameCase lw.idx ⟨main, ld.gram.includes⟩ ld w ew context text →
  ∀ fuel frames, matchFrames w ew ld fuel context text = .ok frames →
  ∀ k f, (k, f) ∈ frames → ∀ rb fm, frameBody ld.gram.main k = .ok rb → rb.f = some fm →
  ∀ nw s, frameStr w nw ld.gram.main (k, f) = .ok s ↔
    FrameFmr nw (fun i s => ∃ t, rb.terms[i]? = some t ∧ SlotPrints w nw f t s) fm s

section
variable {iw : IndexWorld} {g0 : Gram} {ld : Loaded} {w : FrameWorld} {ew : World} {context : String} {text : Bytes}

/-- C45 for the slots of rules: a reference `<S>` of a matched frame prints `null` exactly if it has no slot.
Missing: literals, whose slots have no trees, so that they always print `null` (`C45_false`). -/
theorem C45_partial (hc : FrameCase iw g0 ld w ew context text) {fuel : Nat} {frames : List (RbKey × Frame)}
    (h : matchFrames w ew ld fuel context text = .ok frames) {k : RbKey} {f : Frame} (hk : (k, f) ∈ frames)
    {t : Term} (ht : ∀ v, w.termKey ⟨v, .terminal, .nil⟩ ≠ w.termKey t) (nw : NodeWorld) (s : String) :
    SlotShows w nw f t s ↔ SlotPrints w nw f t s := by
  obtain ⟨hlk, -⟩ := frame_facts hc h hk
  obtain ⟨ms, fr, starts, ps, h1, h2, h3, h4⟩ := matchFrames_spec hc.index hc.world h
  have hfill : Filled w f t ↔ ∃ p n, FirstTree w f t p n := by
    constructor
    · rintro ⟨sl, ss, e⟩
      have hin : InSlots frames k (w.termKey t) sl := ⟨f, hlk, _, e, by simp⟩
      rw [h4.slots] at hin
      rcases hin with hin | ⟨m, -, -, hκ, -⟩ | ⟨p', hp', a, ha, st, tag, pos, trees, c1, c2, c3, c4, -, -, rfl⟩
      · obtain ⟨f', hf', -⟩ := hin; simp at hf'
      · exact absurd hκ.symm (ht _)
      · obtain ⟨_, _, _, -, -, -, -, -, -, -, -, -, hall⟩ := final_facts (hc.setting _ _ _ h2) h3 hp' ha
        obtain ⟨n, ns, rfl⟩ := List.exists_cons_of_ne_nil (hall _ _ c4).1
        exact ⟨p', n, _, _, _, e, rfl⟩
    · rintro ⟨p, n, sl, ss, ts, e, -⟩
      exact ⟨sl, ss, e⟩
  constructor
  · intro hs
    cases hs with
    | null hn => exact .inl ⟨fun hf => (hfill.1 hf).elim fun p hp => hp.elim fun n hn' => hn p n hn', rfl⟩
    | tree hf hs => exact .inr ⟨hfill.2 ⟨_, _, hf⟩, _, _, hf, hs⟩
  · rintro (⟨hf, rfl⟩ | ⟨hf, p, n, h1, h2⟩)
    · exact .null (fun p n hn => hf (hfill.2 ⟨p, n, hn⟩))
    · exact .tree h1 h2

end

end Fmr
