import Verif.Spec.FrameSpace
import Verif.Props.Trimmed
import Verif.Proofs.Rename
import Verif.Props.SlotPlaces
import Verif.Proofs.Json

/-!
# C114: frames of a text with white space around it
-/

namespace Fmr

theorem mapSet_mapVal {κ ν μ : Type} [BEq κ] (f : ν → μ) (k : κ) (v : ν) : ∀ l : List (κ × ν),
    (mapSet l k v).map (fun e => (e.1, f e.2)) = mapSet (l.map (fun e => (e.1, f e.2))) k (f v)
  | [] => rfl
  | (k', v') :: l => by
    simp only [mapSet, List.map_cons]
    split
    · rfl
    · rw [List.map_cons, mapSet_mapVal f k v l]

theorem lookup_bare {κ ν μ : Type} [BEq κ] (f : ν → μ) (k : κ) : ∀ l : List (κ × ν),
    (l.map (fun e => (e.1, f e.2))).lookup k = (l.lookup k).map f
  | [] => rfl
  | (k', v') :: l => by
    simp only [List.map_cons, List.lookup_cons]
    cases k == k' with
    | true => rfl
    | false => exact lookup_bare f k l

/-- the slots of a frame, bare -/
def bareSlots (m : List (Nat × List Slot)) : List (Nat × List Slot) := m.map (fun e => (e.1, e.2.map Slot.bare))

theorem addSlot_bare (m : List (Nat × List Slot)) (k : Nat) (s : Slot) :
    bareSlots (addSlot m k s) = addSlot (bareSlots m) k s.bare := by
  unfold addSlot bareSlots
  rw [mapSet_mapVal (List.map Slot.bare), lookup_bare (List.map Slot.bare)]
  cases m.lookup k <;> simp

theorem addSlots_bare (k : Nat) : ∀ (new : List Slot) (m : List (Nat × List Slot)),
    bareSlots (new.foldl (fun m s => addSlot m k s) m) = (new.map Slot.bare).foldl (fun m s => addSlot m k s) (bareSlots m)
  | [], m => rfl
  | s :: new, m => by rw [List.foldl_cons, addSlots_bare k new, addSlot_bare, List.map_cons, List.foldl_cons]

/-- the same frames, but for positions and texts -/
def SameBare (a b : List (RbKey × Frame)) : Prop := bareFrames b = bareFrames a

theorem fillFrame_bare (g : Grammar) (key : Nat) (new : List Slot) (fr : List (RbKey × Frame)) (k : RbKey) :
    (match fillFrame g key new fr k with | .ok fr => Out.ok (bareFrames fr) | .err => .err | .panic => .panic | .div => .div) =
      fillFrame g key (new.map Slot.bare) (bareFrames fr) k := by
  unfold fillFrame
  cases frameBody g k with
  | ok rb =>
    simp only [Out.bind_ok, Out.pure_eq]
    congr 1
    have hl : (bareFrames fr).lookup k = (fr.lookup k).map Frame.bare := lookup_bare Frame.bare k fr
    have hs : ((bareFrames fr).lookup k).getD {} = ((fr.lookup k).getD {}).bare := by
      rw [hl]; cases fr.lookup k <;> rfl
    unfold bareFrames at hs ⊢
    rw [mapSet_mapVal Frame.bare, hs]
    congr 1
    have := addSlots_bare key new ((fr.lookup k).getD {}).slots
    unfold Frame.bare
    simp only [Frame.mk.injEq]
    refine ⟨this, ?_⟩
    have hlen := congrArg List.length this
    simp only [bareSlots, List.length_map] at hlen
    simp only [bareSlots] at *
    rw [← hlen]
  | _ => rfl

theorem fillFrame_same {g : Grammar} {key : Nat} {new new' : List Slot} (hn : new'.map Slot.bare = new.map Slot.bare)
    {fr fr' : List (RbKey × Frame)} (h : SameBare fr fr') (k : RbKey) :
    (fillFrame g key new fr k).Both SameBare (fillFrame g key new' fr' k) := by
  have h1 := fillFrame_bare g key new fr k
  have h2 := fillFrame_bare g key new' fr' k
  rw [hn, h, ← h1] at h2
  cases e : fillFrame g key new fr k <;> cases e' : fillFrame g key new' fr' k <;> rw [e, e'] at h2 <;>
    first | trivial | (simp only [Out.ok.injEq] at h2; exact h2)

theorem foldOut_both {σ τ α β : Type} {r : σ → τ → Prop} {q : α → β → Prop} {f : σ → α → Out σ} {f' : τ → β → Out τ}
    (hf : ∀ s t a b, r s t → q a b → (f s a).Both r (f' t b)) : ∀ {l : List α} {l' : List β}, List.Forall₂ q l l' →
    ∀ {s : σ} {t : τ}, r s t → (foldOut f s l).Both r (foldOut f' t l')
  | _, _, .nil, s, t, h => h
  | _, _, .cons hab hl, s, t, h => by
    rw [foldOut, foldOut]
    exact (hf _ _ _ _ h hab).bind (fun a b hab => foldOut_both hf hl hab)

theorem forall₂_eq {α : Type} : ∀ l : List α, List.Forall₂ Eq l l
  | [] => .nil
  | _ :: l => .cons rfl (forall₂_eq l)

theorem fillFrames_same {g : Grammar} {key : Nat} {new new' : List Slot} (hn : new'.map Slot.bare = new.map Slot.bare)
    {fr fr' : List (RbKey × Frame)} (h : SameBare fr fr') (ks : List RbKey) :
    (foldOut (fillFrame g key new) fr ks).Both SameBare (foldOut (fillFrame g key new') fr' ks) :=
  foldOut_both (q := Eq) (fun s t a b hst hab => by subst hab; exact fillFrame_same hn hst a) (forall₂_eq ks) h

/-- the same word, found as many times -/
def SameWord (m m' : String × List Pos) : Prop := m'.1 = m.1 ∧ m'.2.length = m.2.length

theorem wordSlots_bare : ∀ {l l' : List Pos}, l'.length = l.length →
    (l'.map (fun p => ({ pos := p, trees := [] } : Slot))).map Slot.bare = (l.map (fun p => ({ pos := p, trees := [] } : Slot))).map Slot.bare
  | [], [], _ => rfl
  | [], _ :: _, h => by simp at h
  | _ :: _, [], h => by simp at h
  | a :: l, b :: l', h => by
    simp only [List.length_cons, Nat.add_right_cancel_iff] at h
    simp only [List.map_cons, wordSlots_bare h]
    rfl

section
variable {w : FrameWorld} {ew : World} {ld : Loaded} {fuel : Nat} {context : String} {text text' : Bytes}

theorem matchWord_same {g : Grammar} {gi : GIndex} {st st' : List (RbKey × Frame) × List String} {m m' : String × List Pos}
    (hs : SameBare st.1 st'.1 ∧ st'.2 = st.2) (hm : SameWord m m') :
    (matchWord w g gi st m).Both (fun a b => SameBare a.1 b.1 ∧ b.2 = a.2) (matchWord w g gi st' m') := by
  unfold matchWord
  rw [hm.1]
  cases gi.index.lookup m.1 with
  | none => trivial
  | some v =>
    refine (fillFrames_same (wordSlots_bare hm.2) hs.1 _).bind (fun a b hab => ⟨hab, ?_⟩)
    rw [hs.2]

theorem sameWords_forall : ∀ {ms ms' : List (String × List Pos)},
    ms'.map (fun m => (m.1, m.2.length)) = ms.map (fun m => (m.1, m.2.length)) → List.Forall₂ SameWord ms ms'
  | [], [], _ => .nil
  | [], _ :: _, h => by simp at h
  | _ :: _, [], h => by simp at h
  | m :: ms, m' :: ms', h => by
    simp only [List.map_cons, List.cons.injEq, Prod.mk.injEq] at h
    exact .cons h.1 (sameWords_forall h.2)

theorem getCandidates_same {g : Grammar} {gi : GIndex} (hm : SameWords (w.multiMatch gi.trie text) (w.multiMatch gi.trie text')) :
    (getCandidates w g gi fuel text).Both (fun a b => SameBare a.1 b.1 ∧ b.2 = a.2) (getCandidates w g gi fuel text') := by
  unfold getCandidates
  cases h1 : w.multiMatch gi.trie text with
  | none =>
    cases h2 : w.multiMatch gi.trie text' with
    | none => trivial
    | some ms' => rw [h1, h2] at hm; exact hm.elim
  | some ms =>
    cases h2 : w.multiMatch gi.trie text' with
    | none => rw [h1, h2] at hm; exact hm.elim
    | some ms' =>
      rw [h1, h2] at hm
      show (foldOut (matchWord w g gi) ([], []) ms >>= _).Both _ (foldOut (matchWord w g gi) ([], []) ms' >>= _)
      have h0 : SameBare ([] : List (RbKey × Frame)) [] ∧ ([] : List String) = [] := ⟨rfl, rfl⟩
      refine (foldOut_both (r := fun (a b : List (RbKey × Frame) × List String) => SameBare a.1 b.1 ∧ b.2 = a.2)
        (q := SameWord) (fun s t a b hst hab => matchWord_same hst hab) (sameWords_forall hm) h0).bind (fun a b hab => ?_)
      rw [hab.2]
      cases closeRules w gi fuel 0 (w.ordWork a.2) a.2 with
      | ok r => exact ⟨hab.1, rfl⟩
      | _ => trivial

theorem matchFinal_same {p : Parsed} {i : Nat} {fr fr' : List (RbKey × Frame)} (h : SameBare fr fr') (e : (Nat × Nat) × Nat) :
    (matchFinal w ld fuel p i fr e).Both SameBare (matchFinal w ld fuel (p.of text') i fr' e) := by
  unfold matchFinal
  have h1 : (p.of text').res = p.res := rfl
  have h2 : (p.of text').env = p.env := rfl
  rw [h1, h2]
  cases Out.ofIndex (chartGet p.res.chart e.1.1 e.1.2) with
  | ok s =>
    simp only [Out.bind_ok]
    cases stateTag s with
    | ok tag =>
      simp only [Out.bind_ok]
      cases boundary p.env.tokens s with
      | ok pos =>
        simp only [Out.bind_ok]
        cases Out.ofFuel (getTrees p.res.chart fuel e.1.1 e.1.2) with
        | ok trees =>
          simp only [Out.bind_ok]
          split
          · trivial
          · cases ld.index.ruleIndex.lookup tag with
            | none => exact h
            | some v => exact fillFrames_same (by simp [Slot.bare, Parsed.of]) h _
        | _ => trivial
      | _ => trivial
    | _ => trivial
  | _ => trivial

theorem zipIdx_map_of (ps : List Parsed) : List.Forall₂ (fun a b => b.1 = a.1.of text' ∧ b.2 = a.2) ps.zipIdx (ps.map (·.of text')).zipIdx := by
  rw [List.zipIdx_map]
  rw [List.forall₂_map_right_iff]
  generalize ps.zipIdx = l
  induction l with
  | nil => exact .nil
  | cons a l ih => exact .cons ⟨rfl, rfl⟩ ih

/-- C114 for the frames: texts that differ in white space around them, in which the same words are found, have the same
frames, with the same slots and trees, but for positions; or the call fails in the same way for both. -/
theorem C114_frames (ht : ew.trim text' = ew.trim text)
    (hm : SameWords (w.multiMatch ld.index.trie text) (w.multiMatch ld.index.trie text')) :
    (matchFrames w ew ld fuel context text).Both (fun a b => bareFrames b = bareFrames a) (matchFrames w ew ld fuel context text') := by
  unfold matchFrames
  refine (getCandidates_same hm).bind (fun c c' hc => ?_)
  rw [hc.2]
  refine (C109_parses ew ld.gram fuel context c.2 ht).2.2.2.bind (fun ps ps' hps => ?_)
  subst hps
  refine foldOut_both (r := SameBare) (fun s t a b hst hab => ?_) (zipIdx_map_of ps) hc.1
  obtain ⟨b1, b2⟩ := b
  obtain ⟨rfl, rfl⟩ := hab
  unfold matchParse
  have h1 : (a.1.of text').res = a.1.res := rfl
  rw [h1]
  exact foldOut_both (q := Eq) (fun s t x y hst hxy => by subst hxy; exact matchFinal_same hst x) (forall₂_eq _) hst

end

/-! ## `FrameFMR` -/

/-- no function of the frames takes the context `@` -/
def FramesPlain (g : Grammar) (frames : List (RbKey × Frame)) : Prop :=
  g.NoContext ∧ ∀ k κ s, SlotOf frames k κ s → ∀ t ∈ s.trees, t.2.Plain

theorem frameChild_sem (w : FrameWorld) (nw : NodeWorld) {f : Frame}
    (hf : ∀ κ ss, f.slots.lookup κ = some ss → ∀ s ∈ ss, ∀ t ∈ s.trees, t.2.Plain)
    (t : Term) : (frameChild w nw f t).map Kid.sem = (frameChild w nw f.bare t).map Kid.sem := by
  unfold frameChild
  have hl : f.bare.slots.lookup (w.termKey t) = (f.slots.lookup (w.termKey t)).map (List.map Slot.bare) :=
    lookup_bare (List.map Slot.bare) _ f.slots
  rw [hl]
  cases hx : f.slots.lookup (w.termKey t) with
  | none => rfl
  | some ss =>
    cases ss with
    | nil => rfl
    | cons s ss =>
      obtain ⟨pos, trees⟩ := s
      cases trees with
      | nil => rfl
      | cons pn ts =>
        have hp : pn.2.Plain := hf _ _ hx _ (List.mem_cons_self) pn (List.mem_cons_self)
        exact congrArg some (kid_sem nw pn.1 [] pn.2 hp).symm

theorem frameStr_bare (w : FrameWorld) (nw : NodeWorld) {g : Grammar} {frames : List (RbKey × Frame)} (hp : FramesPlain g frames)
    {e : RbKey × Frame} (he : e ∈ frames) : frameStr w nw g e = frameStr w nw g (e.1, e.2.bare) := by
  unfold frameStr
  cases hb : frameBody g e.1 with
  | ok rb =>
    simp only [Out.bind_ok]
    cases hf : rb.f with
    | none => rfl
    | some f =>
      have hc : f.NoContext := by
        unfold frameBody at hb
        split at hb
        · cases hb
        · next r hr =>
          rw [Out.ofIndex_eq_ok] at hb
          exact hp.1.frames _ r _ rb f hr hb hf
      refine fmrStr_sem ?_ "" f hc
      rw [List.map_map, List.map_map]
      exact List.map_congr_left (fun t _ => frameChild_sem w nw
        (fun κ ss hl s hs t ht => hp.2 e.1 κ s ⟨e.2, he, ss, hl, hs⟩ t ht) t)
  | _ => rfl

/-- the trees of a parse with grammars whose functions do not take the context -/
theorem getTrees_plain {env : Env} (hp : env.Plain) (ho : env.OrdOK) {flag : Bool} {fuel : Nat} {res : ParseResult}
    (h : parse env flag fuel = some res) {f c r : Nat} {ts : List Node} (hts : getTrees res.chart f c r = some ts) :
    ∀ n ∈ ts, n.Plain := by
  intro n hn
  unfold getTrees at hts
  cases hc : res.chart[c]? with
  | none => rw [hc] at hts; simp at hts
  | some col =>
    rw [hc] at hts
    simp only at hts
    cases hr : col[r]? with
    | none => rw [hr] at hts; simp at hts
    | some s =>
      rw [hr] at hts
      simp only at hts
      have hat : chartGet res.chart c r = some s := by simp [chartGet, hc, hr]
      obtain ⟨_, _, hch⟩ := parse_at ho h hat
      have hall : ∀ col ∈ res.chart, ∀ x ∈ col, x.Plain := by
        intro col hcol x hx
        obtain ⟨i, hi⟩ := List.mem_iff_getElem?.1 hcol
        exact item_plain hp (hch i col hi x hx)
      exact buildTrees_plain hall f c r s ts
        (hall col (List.mem_of_getElem? hc) s (List.mem_of_getElem? hr)) hts n hn

theorem framesPlain_of {iw : IndexWorld} {g0 : Gram} {ld : Loaded} (hi : buildIndex iw g0 = .ok ld.index) {w : FrameWorld}
    (hw : w.OK) {ew : World} (ho : ew.OrdOK) {context : String} {text : Bytes} (hg : TextNoContext ew ld context text) {fuel : Nat}
    {frames : List (RbKey × Frame)} (h : matchFrames w ew ld fuel context text = .ok frames) : FramesPlain ld.gram.main frames := by
  refine ⟨hg.1, fun k κ s hs t ht => ?_⟩
  obtain ⟨ms, fr, starts, ps, h1, h2, h3, h4⟩ := matchFrames_spec hi hw h
  have hs' : InSlots frames k κ s := by
    obtain ⟨f, hf, ss, hss, hs⟩ := hs
    exact ⟨f, (KeysNodup.lookup (h4.nodup KeysNodup.nil)).2 hf, ss, hss, hs⟩
  rcases (h4.slots k κ s).1 hs' with hn | ⟨m, hm, hk, hκ, pos, hpos, rfl⟩ | ⟨p, hpp, a, ha, st, tag, pos, trees, g1, g2, g3, g4, hk, hκ, rfl⟩
  · obtain ⟨f, hf, -⟩ := hn
    simp at hf
  · simp at ht
  · cases hp : process ew ld.gram context text with
    | ok x =>
      obtain ⟨tokens, l⟩ := x
      obtain ⟨-, h5, -⟩ := C19_all_offsets ew ld.gram fuel context text starts tokens l hp ps h3
      obtain ⟨-, -, h6, h7, -⟩ := h5 p hpp
      obtain ⟨n, hn, rfl⟩ := List.mem_map.1 ht
      refine getTrees_plain ?_ ?_ h7 g4 n hn
      · rw [h6]
        rintro A rb f ⟨g, hgm, r, hr, hb⟩ hf
        have hgn : g.NoContext := by
          simp only [envFor, List.mem_append, List.mem_singleton] at hgm
          rcases hgm with (rfl | hgm) | hgm
          · exact hg.1
          · exact hg.2.1 g hgm
          · cases l with
            | none => simp at hgm
            | some l =>
              obtain rfl := List.mem_singleton.1 hgm
              exact hg.2.2 _ _ hp
        exact hgn.rules A r rb f hr hb hf
      · rw [h6]
        exact fun c r k l => ho _ c r k l
    | err => unfold earleyParseAll at h3; rw [hp] at h3; cases h3
    | panic => unfold earleyParseAll at h3; rw [hp] at h3; cases h3
    | div => unfold earleyParseAll at h3; rw [hp] at h3; cases h3

theorem mapOut_perm {α β : Type} {f : α → Out β} {l l' : List α} (hl : l'.Perm l) {r : List β} (h : mapOut f l = .ok r) :
    ∃ r', mapOut f l' = .ok r' ∧ r'.Perm r := by
  obtain ⟨r', h1, h2⟩ := List.perm_comp_forall₂ hl (mapOut_eq_ok.1 h)
  exact ⟨r', mapOut_eq_ok.2 h1, h2⟩

theorem mapOut_bare (w : FrameWorld) (nw : NodeWorld) {g : Grammar} {frames : List (RbKey × Frame)} (hp : FramesPlain g frames) :
    ∀ {l : List (RbKey × Frame)}, (∀ e ∈ l, e ∈ frames) → mapOut (frameStr w nw g) (bareFrames l) = mapOut (frameStr w nw g) l
  | [], _ => rfl
  | e :: l, h => by
    have ih := mapOut_bare w nw hp (fun e he => h e (List.mem_cons_of_mem _ he))
    unfold bareFrames at ih ⊢
    rw [List.map_cons, mapOut, mapOut, ih, ← frameStr_bare w nw hp (h e List.mem_cons_self)]

/-- C114: texts that differ in white space around them, in which the same words are found, have the same frames in words, if
no function takes the context `@`. -/
theorem C114_fmr {iw : IndexWorld} {g0 : Gram} {ld : Loaded} (hi : buildIndex iw g0 = .ok ld.index) {w : FrameWorld} (hw : w.OK)
    {ew : World} (ho : ew.OrdOK) {fuel : Nat} {context : String} {text text' : Bytes}
    (nw : NodeWorld) (ht : ew.trim text' = ew.trim text)
    (hm : SameWords (w.multiMatch ld.index.trie text) (w.multiMatch ld.index.trie text'))
    (hg : TextNoContext ew ld context text)
    {ss : List String} (h : frameFMR w ew nw ld fuel context text = .ok ss) :
    ∃ ss', frameFMR w ew nw ld fuel context text' = .ok ss' ∧ ss'.Perm ss := by
  have hb := C114_frames (fuel := fuel) (context := context) ht hm
  have hg' : TextNoContext ew ld context text' :=
    ⟨hg.1, hg.2.1, fun tokens l hp => hg.2.2 tokens l (by rw [← hp, process_trim ht])⟩
  unfold frameFMR at h ⊢
  cases e : matchFrames w ew ld fuel context text with
  | ok frames =>
    cases e' : matchFrames w ew ld fuel context text' with
    | ok frames' =>
      rw [e, e'] at hb
      rw [e] at h
      rw [Out.bind_ok] at h ⊢
      have hb : bareFrames frames' = bareFrames frames := hb
      have p1 := framesPlain_of hi hw ho hg e
      have p2 := framesPlain_of hi hw ho hg' e'
      rw [← mapOut_bare w nw p1 (fun e he => (hw.ordFrames _).mem_iff.1 he)] at h
      rw [← mapOut_bare w nw p2 (fun e he => (hw.ordFrames _).mem_iff.1 he)]
      refine mapOut_perm ?_ h
      have q1 := (hw.ordFrames frames).map (fun e => (e.1, e.2.bare))
      have q2 := (hw.ordFrames frames').map (fun e => (e.1, e.2.bare))
      exact (q2.trans (List.Perm.of_eq hb)).trans q1.symm
    | _ => rw [e, e'] at hb; exact hb.elim
  | _ => rw [e] at h; cases h

/-! ## an example -/

/-- a function with one argument `$i`, or none -/
def oneIndexB : Option FMR → Bool
  | some (.mk _ [.mk t (.int _)]) => t != "context"
  | none => true
  | _ => false

theorem oneIndexB_ok {f : FMR} (h : oneIndexB (some f) = true) : f.NoContext := by
  simp only [oneIndexB] at h
  split at h
  · next e =>
    cases e
    simp only [bne_iff_ne] at h
    simp [FMR.NoContext, NoContexts, Arg.NoContext, Val.NoContext, h]
  · next e => cases e
  · cases h

/-- all functions of a grammar are of the form `f($i)` -/
def oneIndexesB (g : Grammar) : Bool :=
  g.rules.all (fun x => x.2.bodies.all (fun rb => oneIndexB rb.f)) && g.frames.all (fun x => x.2.body.all (fun b => oneIndexB b.2.f))

theorem oneIndexesB_ok {g : Grammar} (h : oneIndexesB g = true) : g.NoContext := by
  simp only [oneIndexesB, Bool.and_eq_true, List.all_eq_true] at h
  constructor
  · intro x r rb f hr hb hf
    have := h.1 _ (mem_of_lookup hr) rb hb
    rw [hf] at this
    exact oneIndexB_ok this
  · intro x r i rb f hr hb hf
    have := h.2 _ (mem_of_lookup hr) _ (mem_of_lookup hb)
    simp only [hf] at this
    exact oneIndexB_ok this

/-- the functions that are used in the text `ab` -/
def spaceFunsB (ld : Loaded) : Bool :=
  oneIndexesB ld.gram.main && ld.gram.includes.all oneIndexesB &&
  match process leadWorld ld.gram "" (asciiBytes "ab") with
  | .ok (_, some l) => oneIndexesB l
  | _ => true

theorem spaceFunsB_ok {ld : Loaded} (h : spaceFunsB ld = true) : TextNoContext leadWorld ld "" (asciiBytes "ab") := by
  simp only [spaceFunsB, Bool.and_eq_true, List.all_eq_true] at h
  refine ⟨oneIndexesB_ok h.1.1, fun g hg => oneIndexesB_ok (h.1.2 g hg), fun tokens l hp => oneIndexesB_ok ?_⟩
  have := h.2
  rw [hp] at this
  exact this

/-- the slots of the frames of `ab` and of ` ab` are not at the same places -/
def spaceFramesB (ld : Loaded) : Bool :=
  match matchFrames wFrames leadWorld ld 60 "" (asciiBytes "ab"), matchFrames wFrames leadWorld ld 60 "" (asciiBytes " ab") with
  | .ok fs, .ok fs' =>
    decide (fs.map (fun e => e.2.slots.map (fun x => x.2.map Slot.pos)) ≠ fs'.map (fun e => e.2.slots.map (fun x => x.2.map Slot.pos)))
  | _, _ => false

/-- the words found in `ab` and in ` ab` -/
def spaceWordsB (ld : Loaded) : Bool :=
  match wFrames.multiMatch ld.index.trie (asciiBytes "ab"), wFrames.multiMatch ld.index.trie (asciiBytes " ab") with
  | some ms, some ms' => decide (ms'.map (fun m => (m.1, m.2.length)) = ms.map (fun m => (m.1, m.2.length)))
  | _, _ => false

/-- the meaning of a text is `f("b")` -/
def spaceMeansB (text : Bytes) (ld : Loaded) : Bool :=
  match frameFMR wFrames leadWorld wPlain ld 60 "" text with
  | .ok ss => decide (ss = ["f(\"b\")"])
  | _ => false

/-- non-vacuity of `C114_frames` and `C114_fmr`: the texts `ab` and ` ab` of the grammar `<s> = "b"; [f] = "a" <s> {f($2)}`, which
have slots at different places, but both print `f("b")` -/
example : ∃ ld g0, buildIndex exLoad.idx g0 = .ok ld.index ∧ TextNoContext leadWorld ld "" (asciiBytes "ab") ∧ leadWorld.OrdOK ∧ wFrames.OK ∧
    SameWords (wFrames.multiMatch ld.index.trie (asciiBytes "ab")) (wFrames.multiMatch ld.index.trie (asciiBytes " ab")) ∧
    frameFMR wFrames leadWorld wPlain ld 60 "" (asciiBytes "ab") = .ok ["f(\"b\")"] ∧
    frameFMR wFrames leadWorld wPlain ld 60 "" (asciiBytes " ab") = .ok ["f(\"b\")"] ∧ spaceFramesB ld = true := by
  obtain ⟨ld, st, main, -, hl, hm, h⟩ := exCheck_ok (gt := "<s>=\"b\";\n[f]=\"a\" <s> {f($2)};\n")
    (P := fun ld => spaceFunsB ld && (spaceWordsB ld && (spaceFramesB ld &&
      (spaceMeansB (asciiBytes "ab") ld && spaceMeansB (asciiBytes " ab") ld)))) (by decide +kernel)
  simp only [Bool.and_eq_true] at h
  obtain ⟨h1, h2, h3, h4, h5⟩ := h
  have ho : leadWorld.OrdOK := exWorld_ord
  have hmean : ∀ text, spaceMeansB text ld = true → frameFMR wFrames leadWorld wPlain ld 60 "" text = .ok ["f(\"b\")"] := by
    intro text h
    unfold spaceMeansB at h
    split at h
    · next e => rw [e, of_decide_eq_true h]
    · cases h
  refine ⟨ld, ⟨main, ld.gram.includes⟩, hm.2.1, spaceFunsB_ok h1, ho, wFrames_ok, ?_, hmean _ h4, hmean _ h5, h3⟩
  unfold spaceWordsB at h2
  split at h2
  · next e e' =>
    have := of_decide_eq_true h2
    rw [e, e']
    exact this
  · cases h2
example : leadWorld.trim (asciiBytes " ab") = leadWorld.trim (asciiBytes "ab") := by decide +kernel

end Fmr
