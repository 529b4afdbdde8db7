import Verif.Props.Index
import Verif.Props.Eval
import Verif.Props.Greedy

/-!
# Lemmas on `MatchFrames`
-/

namespace Fmr

/-- the slot made for the final state at address `a` of parse `p` -/
def FinalSlots (w : FrameWorld) (gi : GIndex) (fuel : Nat) (p : Parsed) (a : Nat × Nat) (k : RbKey) (κ : Nat)
    (s : Slot) : Prop :=
  ∃ st tag pos trees, chartGet p.res.chart a.1 a.2 = some st ∧ stateTag st = .ok tag ∧
    boundary p.env.tokens st = .ok pos ∧ getTrees p.res.chart fuel a.1 a.2 = some trees ∧
    InIndex gi.ruleIndex .frame k tag ∧
    κ = w.termKey { value := tag, type := .nonterminal, «meta» := .nil } ∧
    s = { pos := pos, trees := trees.map (fun n => (p, n)) }

/-- the frames that mention the rule of the final state at `a` -/
def FinalKeys (gi : GIndex) (p : Parsed) (a : Nat × Nat) (k : RbKey) : Prop :=
  ∃ st tag, chartGet p.res.chart a.1 a.2 = some st ∧ stateTag st = .ok tag ∧ InIndex gi.ruleIndex .frame k tag

theorem matchFinal_fills {w : FrameWorld} (ho : ∀ s l, (w.ordKeys s l).Perm l) {ld : Loaded} {fuel : Nat}
    {p : Parsed} {i : Nat} {fr fr' : List (RbKey × Frame)} {e : (Nat × Nat) × Nat}
    (h : matchFinal w ld fuel p i fr e = .ok fr') :
    Fills ld.gram.main fr fr' (FinalKeys ld.index p e.1) (FinalSlots w ld.index fuel p e.1) := by
  unfold matchFinal at h
  simp only [Out.bind_eq_ok, Out.ofIndex_eq_ok, Out.ofFuel_eq_ok] at h
  obtain ⟨st, h1, tag, h2, pos, h3, trees, h4, h⟩ := h
  split at h
  · simp at h
  have hK : ∀ k, FinalKeys ld.index p e.1 k ↔ InIndex ld.index.ruleIndex .frame k tag := by
    intro k
    constructor
    · rintro ⟨st', tag', g1, g2, g3⟩
      rw [h1] at g1; cases g1
      rw [h2] at g2; cases g2
      exact g3
    · exact fun g3 => ⟨st, tag, h1, h2, g3⟩
  have hS : ∀ k κ s, FinalSlots w ld.index fuel p e.1 k κ s ↔ InIndex ld.index.ruleIndex .frame k tag ∧
      κ = w.termKey { value := tag, type := .nonterminal, «meta» := .nil } ∧
      s = { pos := pos, trees := trees.map (fun n => (p, n)) } := by
    intro k κ s
    constructor
    · rintro ⟨st', tag', pos', trees', g1, g2, g3, g4, g5⟩
      rw [h1] at g1; cases g1
      rw [h2] at g2; cases g2
      rw [h3] at g3; cases g3
      rw [h4] at g4; cases g4
      exact g5
    · exact fun g5 => ⟨st, tag, pos, trees, h1, h2, h3, h4, g5⟩
  split at h
  · next hn =>
    simp only [Out.ok.injEq] at h
    subst h
    have : ∀ k, ¬ InIndex ld.index.ruleIndex .frame k tag := by simp [InIndex, hn]
    exact .refl _ _ (fun k hk => this k ((hK k).1 hk)) (fun k κ s hs => this k ((hS k κ s).1 hs).1)
  · next v hv =>
    have hin : ∀ k, InIndex ld.index.ruleIndex .frame k tag ↔ k ∈ v.frames := by
      intro k
      unfold InIndex
      rw [hv]
      simp [Index.get]
    refine (foldOut_fills (fun a _ s s' h => fillFrame_fills h) h).congr ?_ ?_
    · intro k
      rw [hK, hin]
      simp only [(ho _ _).mem_iff, exists_eq_right']
    · intro k κ s
      rw [hS, hin]
      simp only [(ho _ _).mem_iff, List.mem_singleton]
      constructor
      · rintro ⟨a, ha, rfl, rfl, rfl⟩; exact ⟨ha, rfl, rfl⟩
      · rintro ⟨ha, rfl, rfl⟩; exact ⟨k, ha, rfl, rfl, rfl⟩

theorem exists_zipIdx {α : Type} {l : List α} {P : α → Prop} : (∃ e ∈ l.zipIdx, P e.1) ↔ ∃ a ∈ l, P a := by
  constructor
  · rintro ⟨e, he, hp⟩
    exact ⟨e.1, List.mem_of_getElem? (List.mem_zipIdx_iff_getElem?.1 he), hp⟩
  · rintro ⟨a, ha, hp⟩
    obtain ⟨i, hi, rfl⟩ := List.mem_iff_getElem.1 ha
    exact ⟨(l[i], i), List.mem_zipIdx_iff_getElem?.2 (List.getElem?_eq_getElem hi), hp⟩

theorem matchParse_fills {w : FrameWorld} (ho : ∀ s l, (w.ordKeys s l).Perm l) {ld : Loaded} {fuel : Nat}
    {fr fr' : List (RbKey × Frame)} {e : Parsed × Nat} (h : matchParse w ld fuel fr e = .ok fr') :
    Fills ld.gram.main fr fr' (fun k => ∃ a ∈ finalPtrs false e.1.res.chart, FinalKeys ld.index e.1 a k)
      (fun k κ s => ∃ a ∈ finalPtrs false e.1.res.chart, FinalSlots w ld.index fuel e.1 a k κ s) :=
  (foldOut_fills (fun _ _ _ _ h => matchFinal_fills ho h) h).congr
    (fun k => exists_zipIdx (P := fun a => FinalKeys ld.index e.1 a k))
    (fun k κ s => exists_zipIdx (P := fun a => FinalSlots w ld.index fuel e.1 a k κ s))

/-- the frames `MatchFrames` returns -/
theorem matchFrames_spec {iw : IndexWorld} {g0 : Gram} {ld : Loaded} (hi : buildIndex iw g0 = .ok ld.index)
    {w : FrameWorld} (hw : w.OK) {ew : World} {fuel : Nat} {context : String} {text : Bytes}
    {frames : List (RbKey × Frame)} (h : matchFrames w ew ld fuel context text = .ok frames) :
    ∃ ms fr starts ps, w.multiMatch ld.index.trie text = some ms ∧
      getCandidates w ld.gram.main ld.index fuel text = .ok (fr, starts) ∧
      earleyParseAll ew ld.gram fuel context text starts = .ok ps ∧
      Fills ld.gram.main [] frames
        (fun k => (∃ m ∈ ms, InIndex ld.index.index .frame k m.1) ∨
          ∃ p ∈ ps, ∃ a ∈ finalPtrs false p.res.chart, FinalKeys ld.index p a k)
        (fun k κ s => (∃ m ∈ ms, WordSlots w ld.index m k κ s) ∨
          ∃ p ∈ ps, ∃ a ∈ finalPtrs false p.res.chart, FinalSlots w ld.index fuel p a k κ s) := by
  unfold matchFrames at h
  simp only [Out.bind_eq_ok] at h
  obtain ⟨⟨fr, starts⟩, h1, ps, h2, h3⟩ := h
  obtain ⟨ms, g1, g2, g3, g4⟩ := getCandidates_spec hi hw h1
  refine ⟨ms, fr, starts, ps, g1, h1, h2, (g2.trans (foldOut_fills (fun a _ _ _ h => matchParse_fills hw.ordKeys h) h3)).congr
    (fun k => ?_) (fun k κ s => ?_)⟩
  · rw [exists_zipIdx (P := fun p => ∃ a ∈ finalPtrs false p.res.chart, FinalKeys ld.index p a k)]
  · rw [exists_zipIdx (P := fun p => ∃ a ∈ finalPtrs false p.res.chart, FinalSlots w ld.index fuel p a k κ s)]

/-! ### final states -/

/-- The conditions on a call of `MatchFrames` under which the parser is well-behaved: iteration orders permute,
tagged spans lie inside the text, the rules are well-formed and nothing derives the empty text, the tokens
lie in the text one after the other, and no literal is "ɣ". -/
structure FrameSetting (ew : World) (g : Gram) (context : String) (text : Bytes) (starts : List String) : Prop where
  ord : ew.OrdOK
  spans : SpansInside ew g context text
  env : ∀ tokens l, process ew g context text = .ok (tokens, l) →
    (envFor ew g l tokens starts 0).WF ∧ NoEmpty (envFor ew g l tokens starts 0) ∧
    Unmixed (envFor ew g l tokens starts 0) ∧ AnyNamed (envFor ew g l tokens starts 0) ∧ TokensOrdered text tokens
  lits : ∀ tokens l, process ew g context text = .ok (tokens, l) → (envFor ew g l tokens starts 0).NoGammaText

theorem TokensOrdered.drop {text : Bytes} {tokens : List Token} (h : TokensOrdered text tokens) (n : Nat) :
    TokensOrdered text (tokens.drop n) :=
  ⟨fun t ht => h.inside t (List.mem_of_mem_drop ht), h.sorted.sublist (List.drop_sublist _ _)⟩

theorem stateTag_of_match {S : String} {j : Nat} {s : TState} (h : MatchFor S j s) : stateTag s = .ok S := by
  obtain ⟨-, h2, -⟩ := h
  unfold stateTag
  cases hrb : s.rb with
  | none => rw [hrb] at h2; simp at h2
  | some rb =>
    rw [hrb] at h2
    simp only [Option.map_some, Option.some.injEq] at h2
    simp [h2, Out.ofIndex]

/-- a parse of `EarleyParseAll` in such a setting -/
theorem parse_facts {ew : World} {g : Gram} {fuel : Nat} {context : String} {text : Bytes} {starts : List String}
    (hset : FrameSetting ew g context text starts) {ps : List Parsed}
    (h : earleyParseAll ew g fuel context text starts = .ok ps) {p : Parsed} (hp : p ∈ ps) :
    p.env.WF ∧ p.env.OrdOK ∧ NoEmpty p.env ∧ Unmixed p.env ∧ AnyNamed p.env ∧ TokensOrdered text p.env.tokens ∧
    p.text = text ∧ p.env.starts = starts ∧ starts ≠ [] ∧ parse p.env false fuel = some p.res ∧
    ∃ tokens l, process ew g context text = .ok (tokens, l) ∧ p.off < tokens.length ∧
      p.env = envFor ew g l (tokens.drop p.off) starts p.off := by
  obtain ⟨⟨tokens, l⟩, h1, h2⟩ := Out.bind_eq_ok.1 (show (process ew g context text >>= _) = _ from h)
  obtain ⟨-, h3, -⟩ := C19_all_offsets ew g fuel context text starts tokens l h1 ps h
  obtain ⟨g1, g2, g3, g4, g5⟩ := h3 p hp
  obtain ⟨e1, e2, e3, e4, e5⟩ := hset.env tokens l h1
  have hs := (all_parsed h p hp).1
  refine ⟨?_, ?_, ?_, ?_, ?_, ?_, g2, ?_, ?_, g4, tokens, l, h1, g1, g3⟩
  · rw [g3]; exact wf_envFor e1 _ _
  · rw [g3]; exact ord_envFor hset.ord _ _ _ _ _
  · rw [g3]; exact e2
  · rw [g3]; exact e3
  · rw [g3]; exact e4
  · rw [g3]; exact e5.drop _
  · rw [g3]; rfl
  · rw [g3] at hs; exact hs

/-- every final state of such a parse -/
theorem final_facts {ew : World} {g : Gram} {fuel : Nat} {context : String} {text : Bytes} {starts : List String}
    (hset : FrameSetting ew g context text starts) {ps : List Parsed}
    (h : earleyParseAll ew g fuel context text starts = .ok ps) {p : Parsed} (hp : p ∈ ps) {a : Nat × Nat}
    (ha : a ∈ finalPtrs false p.res.chart) :
    ∃ st S j, chartGet p.res.chart a.1 a.2 = some st ∧ st ∈ p.res.finals ∧ S ∈ starts ∧ MatchFor S j st ∧
      stateTag st = .ok S ∧ j ≤ p.env.tokens.length ∧ 0 < j ∧
      (∃ x y, p.env.tokens[0]? = some x ∧ p.env.tokens[j - 1]? = some y ∧
        boundary p.env.tokens st = .ok ⟨x.startByte, y.endByte⟩) ∧
      (∃ n ts, ∀ f ≥ n, getTrees p.res.chart f a.1 a.2 = some ts) ∧
      ∀ f ts, getTrees p.res.chart f a.1 a.2 = some ts →
        ts ≠ [] ∧ ∀ n ∈ ts, RootOK p.env p.env.relaxedLang S j n ∧ ∀ nw, Labelled nw p n := by
  obtain ⟨hwf, ho, hne, hun, hany, htok, htext, hst, hst0, hpar, tokens, l, hproc, -, henv⟩ := parse_facts hset h hp
  have hlit : p.env.NoGammaText := by rw [henv]; exact hset.lits tokens l hproc
  have hst1 : p.env.starts ≠ [] := by rw [hst]; exact hst0
  have hmem : chartGet p.res.chart a.1 a.2 ∈ p.res.finals.map some := by
    rw [(parse_chart (env := p.env) hst1 hpar).2, ← finalPtrs_get]
    exact List.mem_map.2 ⟨a, ha, rfl⟩
  obtain ⟨st, hs, hget⟩ := List.mem_map.1 hmem
  obtain ⟨S, hS, j, hm, hj, hd⟩ := C01_relaxed_partial p.env false fuel p.res hwf ho hpar st hs
  have hS' : S ∈ starts := by rw [← hst]; exact hS
  have hj0 : 0 < j := by
    rcases Nat.eq_zero_or_pos j with rfl | hj0
    · rw [List.take_zero] at hd
      have := hne.yields hd rfl
      simp at this
    · exact hj0
  refine ⟨st, S, j, hget.symm, hs, hS', hm, stateTag_of_match hm, hj, hj0, ?_, ?_, ?_⟩
  · have hx : 0 < p.env.tokens.length := by omega
    have hy : j - 1 < p.env.tokens.length := by omega
    refine ⟨_, _, List.getElem?_eq_getElem hx, List.getElem?_eq_getElem hy, ?_⟩
    obtain ⟨i, rfl⟩ : ∃ i, j = i + 1 := ⟨j - 1, by omega⟩
    obtain ⟨-, -, m3, -, m5⟩ := hm
    unfold boundary
    rw [m3, m5, columnToken_succ, columnToken_succ, List.getElem?_eq_getElem hx,
      List.getElem?_eq_getElem (show i < p.env.tokens.length by omega)]
    have hle := ordered_le htok (Nat.zero_le i) (List.getElem?_eq_getElem hx)
      (List.getElem?_eq_getElem (show i < p.env.tokens.length by omega))
    simp only [Out.ofIndex, Out.bind_ok, Out.pure_eq, Nat.add_sub_cancel]
    rw [if_neg (by omega)]
  · exact C11_getTrees_returns p.env false fuel p.res hwf ho hun hpar a.1 a.2 st hget.symm S hS j hm
  · intro f ts hts
    refine ⟨C12_match_has_tree p.env false fuel f p.res hwf ho hun hany hpar a.1 a.2 st hget.symm S hS j hm ts hts,
      fun n hn => ?_⟩
    have hroot := C10_trees_valid p.env false fuel f p.res hwf ho hun hpar a.1 a.2 st hget.symm S hS j hm ts hts n hn
    exact ⟨hroot, fun nw => hroot.labelled hwf hlit (hroot.noEdge hne hj) hS hj htok (by rw [htext])⟩

/-! ### frames of the grammar itself -/

/-- every frame that is indexed is a frame of the grammar itself -/
def OwnFrames (g0 : Gram) : Prop := ∀ k rb, g0.Body .frame k rb → frameBody g0.main k = .ok rb

theorem ownFrames {lw : LexWorld} {g0 : Gram} (hwf : GrammarWF lw g0.main)
    (hi : ∀ ig ∈ g0.includes, ig.frames = []) : OwnFrames g0 := by
  rintro k rb ⟨ig, hig, e, he, hk, hb⟩
  rcases List.mem_cons.1 hig with rfl | hig
  · have hr := hwf.frames e he
    have h1 : g0.main.frames.lookup k.ruleName = some e.2 := by
      rw [hk, hr.name]
      exact (KeysNodup.lookup hwf.frameKeys).2 he
    unfold frameBody
    rw [h1]
    simp only [Out.ofIndex_eq_ok]
    exact (KeysNodup.lookup hr.keys).2 hb
  · simp [Grammar.defs, hi ig hig] at he

theorem frameBody_congr {g g' : Grammar} (h : g.frames = g'.frames) (k : RbKey) : frameBody g k = frameBody g' k := by
  unfold frameBody
  rw [h]

theorem fillFrames_total {g : Grammar} {key : Nat} {new : List Slot} {ks : List RbKey}
    (h : ∀ k ∈ ks, ∃ rb, frameBody g k = .ok rb) (m : List (RbKey × Frame)) :
    ∃ m', foldOut (fillFrame g key new) m ks = .ok m' :=
  foldOut_noErr (fun k hk m => by
    obtain ⟨rb, hrb⟩ := h k hk
    unfold fillFrame
    rw [hrb]
    exact ⟨_, rfl⟩) m

section
variable {iw : IndexWorld} {g0 : Gram} {ld : Loaded} {w : FrameWorld}

/-- a frame in the index can be looked up -/
theorem indexed_own (hi : buildIndex iw g0 = .ok ld.index) (hf : ld.gram.main.frames = g0.main.frames)
    (hown : OwnFrames g0) {k : RbKey} {s : String}
    (h : InIndex ld.index.index .frame k s ∨ InIndex ld.index.ruleIndex .frame k s) :
    ∃ rb, g0.Body .frame k rb ∧ frameBody ld.gram.main k = .ok rb := by
  have : ∃ ty, g0.Has iw.trim .frame ty k s := by
    rcases h with ⟨i, hi', hk⟩ | ⟨i, hi', hk⟩
    · exact ⟨_, ((C37_index hi s).2.2.1 k).1 ⟨i, hi', hk⟩⟩
    · exact ⟨_, ((C37_index hi s).2.2.2.2.2.1 k).1 ⟨i, hi', hk⟩⟩
  obtain ⟨ty, -, rb, hb, -⟩ := this
  exact ⟨rb, hb, by rw [frameBody_congr hf]; exact hown k rb hb⟩

theorem matchWord_total (hi : buildIndex iw g0 = .ok ld.index) (hf : ld.gram.main.frames = g0.main.frames)
    (hown : OwnFrames g0) (ho : ∀ s l, (w.ordKeys s l).Perm l) (st : List (RbKey × Frame) × List String)
    {m : String × List Pos} (hm : m.1 ∈ ld.index.trie) : ∃ st', matchWord w ld.gram.main ld.index st m = .ok st' := by
  unfold matchWord
  have hd := ((C37_index hi m.1).2.2.2.1).2 hm
  split
  · next e => rw [e] at hd; simp at hd
  · next v hv =>
    obtain ⟨m', hm'⟩ := fillFrames_total (g := ld.gram.main)
      (key := w.termKey { value := m.1, type := .terminal, «meta» := .nil })
      (new := m.2.map (fun p => { pos := p, trees := [] })) (ks := w.ordKeys (.word m.1) v.frames) (fun k hk => by
        obtain ⟨rb, -, hrb⟩ := indexed_own hi hf hown (k := k) (s := m.1)
          (.inl ⟨v, hv, (ho _ _).mem_iff.1 hk⟩)
        exact ⟨rb, hrb⟩) st.1
    simp only [hm', Out.bind_ok]
    exact ⟨_, rfl⟩

theorem matchWords_total (hi : buildIndex iw g0 = .ok ld.index) (hf : ld.gram.main.frames = g0.main.frames)
    (hown : OwnFrames g0) (hw : w.OK) {text : Bytes} {ms : List (String × List Pos)}
    (hms : w.multiMatch ld.index.trie text = some ms) :
    ∃ st, foldOut (matchWord w ld.gram.main ld.index) ([], []) ms = .ok st :=
  foldOut_noErr (fun m hm st => matchWord_total hi hf hown hw.ordKeys st (hw.keys _ _ _ hms m hm).1) _

theorem closeRules_mono {gi : GIndex} : ∀ {fuel fuel' n : Nat} {work rules res : List String}, fuel ≤ fuel' →
    closeRules w gi fuel n work rules = .ok res → closeRules w gi fuel' n work rules = .ok res
  | 0, _, _, _, _, _, _, h => by simp [closeRules] at h
  | fuel + 1, 0, _, _, _, _, hle, _ => by omega
  | fuel + 1, fuel' + 1, n, [], rules, res, _, h => by simpa [closeRules] using h
  | fuel + 1, fuel' + 1, n, r :: work, rules, res, hle, h => by
    simp only [closeRules] at h ⊢
    split
    · next e => rw [e] at h; exact closeRules_mono (by omega) h
    · next v e => rw [e] at h; exact closeRules_mono (by omega) h

theorem getCandidates_mono {g : Grammar} {gi : GIndex} {fuel fuel' : Nat} {text : Bytes}
    {r : List (RbKey × Frame) × List String} (hle : fuel ≤ fuel') (h : getCandidates w g gi fuel text = .ok r) :
    getCandidates w g gi fuel' text = .ok r := by
  obtain ⟨ms, st, rules, h1, h2, h3, h4⟩ := getCandidates_ok h
  unfold getCandidates
  rw [h1]
  simp only [Out.ofErr, Out.bind_ok, h2, closeRules_mono hle h3]
  rw [h4]
  rfl

theorem getCandidates_no_panic (hi : buildIndex iw g0 = .ok ld.index) (hf : ld.gram.main.frames = g0.main.frames)
    (hown : OwnFrames g0) (hw : w.OK) (fuel : Nat) (text : Bytes) :
    getCandidates w ld.gram.main ld.index fuel text ≠ .panic := by
  unfold getCandidates
  cases h1 : w.multiMatch ld.index.trie text with
  | none => simp [Out.ofErr]
  | some ms =>
    obtain ⟨st, hst⟩ := matchWords_total hi hf hown hw h1
    simp only [Out.ofErr, Out.bind_ok, hst]
    have : ∀ (fuel n : Nat) (work rules : List String), closeRules w ld.index fuel n work rules ≠ .panic := by
      intro fuel
      induction fuel with
      | zero => simp [closeRules]
      | succ fuel ih =>
        intro n work rules
        cases work with
        | nil => simp [closeRules]
        | cons r work =>
          simp only [closeRules]
          split <;> exact ih _ _ _
    intro hc
    rcases Out.bind_eq_panic.1 hc with hc | ⟨_, _, hc⟩
    · exact this _ _ _ _ hc
    · simp at hc

/-- the candidates are found, given enough fuel -/
theorem getCandidates_total (hi : buildIndex iw g0 = .ok ld.index) (hf : ld.gram.main.frames = g0.main.frames)
    (hown : OwnFrames g0) (hw : w.OK) {text : Bytes} {ms : List (String × List Pos)}
    (hms : w.multiMatch ld.index.trie text = some ms) :
    ∃ n r, ∀ fuel ≥ n, getCandidates w ld.gram.main ld.index fuel text = .ok r := by
  obtain ⟨st, hst⟩ := matchWords_total hi hf hown hw hms
  obtain ⟨res, hres⟩ := closeRules_total hw.ordKeys (gi := ld.index)
    ((w.ordWork st.2).length + notYet ld.index.names st.2 + 1) 0 (w.ordWork st.2) st.2 (by omega)
  refine ⟨(w.ordWork st.2).length + notYet ld.index.names st.2 + 1, (st.1, w.ordStarts res),
    fun fuel hf => getCandidates_mono hf ?_⟩
  unfold getCandidates
  rw [hms]
  simp only [Out.ofErr, Out.bind_ok, hst, hres]
  rfl

/-- one final state: the only thing that can go wrong is the fuel of `GetTrees` -/
theorem matchFinal_total (hi : buildIndex iw g0 = .ok ld.index) (hf : ld.gram.main.frames = g0.main.frames)
    (hown : OwnFrames g0) (hw : w.OK) {p : Parsed} {a : Nat × Nat} {st : TState} {S : String} {pos : Pos}
    (hget : chartGet p.res.chart a.1 a.2 = some st) (htag : stateTag st = .ok S) (hS : S ≠ "")
    (hpos : boundary p.env.tokens st = .ok pos) (fuel i j : Nat) (fr : List (RbKey × Frame)) :
    (getTrees p.res.chart fuel a.1 a.2 = none ∧ matchFinal w ld fuel p i fr (a, j) = .div) ∨
    ∃ fr', matchFinal w ld fuel p i fr (a, j) = .ok fr' := by
  unfold matchFinal
  simp only [hget, Out.ofIndex, Out.bind_ok, htag, hpos]
  cases ht : getTrees p.res.chart fuel a.1 a.2 with
  | none => exact .inl ⟨rfl, rfl⟩
  | some ts =>
    refine .inr ?_
    simp only [Out.ofFuel, Out.bind_ok, if_neg hS]
    split
    · exact ⟨_, rfl⟩
    · next v hv =>
      exact fillFrames_total (fun k hk => by
        obtain ⟨rb, -, hrb⟩ := indexed_own hi hf hown (k := k) (s := S)
          (.inr ⟨v, hv, (hw.ordKeys _ _).mem_iff.1 hk⟩)
        exact ⟨rb, hrb⟩) fr

end

end Fmr
