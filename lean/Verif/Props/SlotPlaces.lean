import Verif.Spec.SlotPlaces
import Verif.Props.FrameWitness

/-!
# C112: where the slots of a frame are
-/

namespace Fmr

/-! ## pieces -/

theorem PieceAt.eq {text : Bytes} {pos : Pos} {b : Bytes} (h : PieceAt text pos b) :
    b = (text.take pos.endByte).drop pos.startByte := by
  obtain ⟨pre, post, rfl, h1, h2⟩ := h
  rw [h2, ← h1, List.take_length_add_append, List.drop_left, List.take_left]

theorem pieceAt_of_le {text : Bytes} {pos : Pos} (h1 : pos.startByte ≤ pos.endByte) (h2 : pos.endByte ≤ text.length) :
    PieceAt text pos ((text.drop pos.startByte).take (pos.endByte - pos.startByte)) := by
  refine ⟨text.take pos.startByte, (text.drop pos.startByte).drop (pos.endByte - pos.startByte), ?_, ?_, ?_⟩
  · rw [List.take_append_drop, List.take_append_drop]
  · rw [List.length_take]; omega
  · rw [List.length_take, List.length_drop]; omega

theorem PieceAt.mono {text text' : Bytes} {pos : Pos} {b : Bytes} (h : PieceAt text pos b) (hp : text <+: text') :
    PieceAt text' pos b := by
  obtain ⟨pre, post, rfl, h1, h2⟩ := h
  obtain ⟨rest, rfl⟩ := hp
  exact ⟨pre, post ++ rest, by simp, h1, h2⟩

/-- C112 in full: every slot is where it says. -/
def C112_statement : Prop :=
  ∀ (lw : LoadWorld) (ld : Loaded) (main : Grammar), LoadedBy lw ld → ld.From lw main →
  ∀ (enc : String → Bytes) (w : FrameWorld) (ew : World) (context : String) (text : Bytes), w.OK → w.FindsThere enc →
  ∀ tokens l, process ew ld.gram context text = .ok (tokens, l) → TokensIn (ew.trim text) tokens →
  ∀ fuel frames, matchFrames w ew ld fuel context text = .ok frames → ∀ k κ s, SlotOf frames k κ s →
    SlotThere enc lw.idx.trim ⟨main, ld.gram.includes⟩ w text (ew.trim text) tokens k κ s

theorem columnToken_in {tokens : List Token} {k : Nat} {t : Token} (h : columnToken tokens k = .ok t) : t ∈ tokens := by
  cases k with
  | zero => simp [columnToken] at h
  | succ k =>
    unfold columnToken at h
    rw [Out.ofIndex_eq_ok] at h
    exact List.mem_of_getElem? h

theorem boundary_tokens {tokens : List Token} {st : TState} {pos : Pos} (h : boundary tokens st = .ok pos) :
    ∃ x ∈ tokens, ∃ y ∈ tokens, pos = ⟨x.startByte, max x.startByte y.endByte⟩ := by
  unfold boundary at h
  simp only [Out.bind_eq_ok, Out.pure_eq, Out.ok.injEq] at h
  obtain ⟨x, hx, y, hy, rfl⟩ := h
  refine ⟨x, columnToken_in hx, y, columnToken_in hy, ?_⟩
  congr 1
  split <;> omega

section
variable {iw : IndexWorld} {g0 : Gram} {ld : Loaded} {w : FrameWorld} {ew : World} {context : String} {text : Bytes}

/-- C112 up to the text that the references are read from: the literals are where they say, and the references are
where they say in the annotated text. -/
theorem C112_annotated (hi : buildIndex iw g0 = .ok ld.index) (hw : w.OK) {enc : String → Bytes} (he : w.FindsThere enc)
    {tokens : List Token} {l : Option Grammar} (hp : process ew ld.gram context text = .ok (tokens, l))
    (ht : TokensIn (ew.trim text) tokens) {fuel : Nat} {frames : List (RbKey × Frame)}
    (h : matchFrames w ew ld fuel context text = .ok frames) {k : RbKey} {κ : Nat} {s : Slot} (hs : SlotOf frames k κ s) :
    (∃ v, g0.Has iw.trim .frame .terminal k v ∧ κ = w.termKey ⟨v, .terminal, .nil⟩ ∧ s.trees = [] ∧ PieceAt text s.pos (enc v)) ∨
    ∃ S, g0.Has iw.trim .frame .nonterminal k S ∧ κ = w.termKey ⟨S, .nonterminal, .nil⟩ ∧
      (∃ x ∈ tokens, ∃ y ∈ tokens, s.pos = ⟨x.startByte, max x.startByte y.endByte⟩) ∧
      ∃ b, PieceAt (ew.trim text) s.pos b := by
  obtain ⟨ms, fr, starts, ps, h1, h2, h3, h4⟩ := matchFrames_spec hi hw h
  have hs' : InSlots frames k κ s := by
    obtain ⟨f, hf, ss, hss, hs⟩ := hs
    exact ⟨f, (KeysNodup.lookup (h4.nodup KeysNodup.nil)).2 hf, ss, hss, hs⟩
  rcases (h4.slots k κ s).1 hs' with hn | ⟨m, hm, hk, hκ, pos, hpos, rfl⟩ | ⟨p, hpp, a, ha, st, tag, pos, trees, g1, g2, g3, g4, hk, hκ, rfl⟩
  · obtain ⟨f, hf, -⟩ := hn
    simp at hf
  · exact .inl ⟨m.1, ((C37_index hi m.1).2.2.1 k).1 hk, hκ, rfl, he _ _ _ h1 m hm pos hpos⟩
  · obtain ⟨-, h5, -⟩ := C19_all_offsets ew ld.gram fuel context text starts tokens l hp ps h3
    obtain ⟨-, -, h6, -⟩ := h5 p hpp
    obtain ⟨x, hx, y, hy, rfl⟩ := boundary_tokens g3
    have hd : p.env.tokens = tokens.drop p.off := by rw [h6]; rfl
    rw [hd] at hx hy
    have hx := List.mem_of_mem_drop hx
    have hy := List.mem_of_mem_drop hy
    refine .inr ⟨tag, ((C37_index hi tag).2.2.2.2.2.1 k).1 hk, hκ, ⟨x, hx, y, hy, rfl⟩, _, pieceAt_of_le ?_ ?_⟩
    · exact Nat.le_max_left _ _
    · have := ht x hx
      have := ht y hy
      dsimp only
      omega

/-- C112 for texts whose white space, if any, is at their end.
Missing: texts with white space in front, see `C112_false`. -/
theorem C112_partial (hi : buildIndex iw g0 = .ok ld.index) (hw : w.OK) {enc : String → Bytes} (he : w.FindsThere enc)
    (htrim : ew.trim text <+: text) {tokens : List Token} {l : Option Grammar}
    (hp : process ew ld.gram context text = .ok (tokens, l)) (ht : TokensIn (ew.trim text) tokens) {fuel : Nat}
    {frames : List (RbKey × Frame)} (h : matchFrames w ew ld fuel context text = .ok frames) {k : RbKey} {κ : Nat} {s : Slot}
    (hs : SlotOf frames k κ s) : SlotThere enc iw.trim g0 w text (ew.trim text) tokens k κ s := by
  rcases C112_annotated hi hw he hp ht h hs with h | ⟨S, h1, h2, h3, b, h4⟩
  · exact .inl h
  · exact .inr ⟨S, h1, h2, h3, b, h4, h4.mono htrim⟩

end

/-! ## a text with a space in front -/

/-- `exWorld` where texts lose the spaces in front -/
def leadWorld : World := { exWorld with trim := fun b => b.dropWhile (· == 32) }

theorem occurrences_there (key : Bytes) : ∀ (text pre : Bytes), ∀ pos ∈ occurrences key pre.length text,
    PieceAt (pre ++ text) pos key
  | [], pre, pos, h => by simp [occurrences] at h
  | b :: text, pre, pos, h => by
    rw [occurrences, List.mem_append] at h
    rcases h with h | h
    · split at h
      · next hk =>
        rw [List.isPrefixOf_iff_prefix] at hk
        obtain ⟨post, hpost⟩ := hk
        rw [List.mem_singleton] at h
        subst h
        exact ⟨pre, post, by rw [hpost], rfl, rfl⟩
      · simp at h
    · have := occurrences_there key text (pre ++ [b]) pos (by simpa using h)
      simpa using this

theorem wFrames_there : wFrames.FindsThere asciiBytes := by
  intro trie text ms h m hm pos hpos
  simp only [wFrames, Option.some.injEq] at h
  subst h
  obtain ⟨hm, -⟩ := List.mem_filter.1 hm
  obtain ⟨v, -, rfl⟩ := List.mem_map.1 hm
  exact occurrences_there _ text [] pos hpos

/-- the slots of the only frame found in a text: their positions and the number of their trees -/
def placeCheck (ew : World) (ld : Loaded) (text : Bytes) (P : RbKey → List (Nat × List (Pos × Nat)) → Bool) : Bool :=
  match matchFrames wFrames ew ld 60 "" text with
  | .ok [(k, f)] => P k (f.slots.map (fun e => (e.1, e.2.map (fun s => (s.pos, s.trees.length)))))
  | _ => false

theorem placeCheck_ok {ew : World} {ld : Loaded} {text : Bytes} {P : RbKey → List (Nat × List (Pos × Nat)) → Bool}
    (h : placeCheck ew ld text P = true) : ∃ k f, matchFrames wFrames ew ld 60 "" text = .ok [(k, f)] ∧
      P k (f.slots.map (fun e => (e.1, e.2.map (fun s => (s.pos, s.trees.length))))) = true := by
  unfold placeCheck at h
  split at h
  · next k f e => exact ⟨k, f, e, h⟩
  · simp at h

/-- a check of the tokens of a text -/
def tokensCheck (ew : World) (ld : Loaded) (text : Bytes) : Bool :=
  match process ew ld.gram "" text with
  | .ok (tokens, _) => tokens.all (fun t => decide (t.startByte ≤ t.endByte) && decide (t.endByte ≤ (ew.trim text).length))
  | _ => false

theorem tokensCheck_ok {ew : World} {ld : Loaded} {text : Bytes} (h : tokensCheck ew ld text = true) :
    ∃ tokens l, process ew ld.gram "" text = .ok (tokens, l) ∧ TokensIn (ew.trim text) tokens := by
  unfold tokensCheck at h
  split at h
  · next tokens l e =>
    simp only [List.all_eq_true, Bool.and_eq_true, decide_eq_true_eq] at h
    exact ⟨tokens, l, e, h⟩
  · simp at h

/-- the slots of a frame with one place for its literal and one for its reference -/
theorem two_slots {f : Frame} {κ κ' : Nat} {p p' : Pos} {n : Nat}
    (h : f.slots.map (fun e => (e.1, e.2.map (fun s => (s.pos, s.trees.length)))) = [(κ, [(p, 0)]), (κ', [(p', n + 1)])])
    (hne : κ ≠ κ') : ∃ s s', f.slots.lookup κ = some [s] ∧ s.pos = p ∧ f.slots.lookup κ' = some [s'] ∧ s'.pos = p' ∧
      s'.trees ≠ [] := by
  obtain ⟨⟨a, ss⟩, rest, h0, h1, h2⟩ := List.map_eq_cons_iff.1 h
  obtain ⟨⟨a', ss'⟩, rest', rfl, h3, h4⟩ := List.map_eq_cons_iff.1 h2
  obtain rfl := List.map_eq_nil_iff.1 h4
  simp only [Prod.mk.injEq, List.map_eq_singleton_iff] at h1 h3
  obtain ⟨rfl, s, rfl, rfl, -⟩ := h1
  obtain ⟨rfl, s', rfl, rfl, hn⟩ := h3
  refine ⟨s, s', by simp [h0, List.lookup], rfl, ?_, rfl, ?_⟩
  · have : (a' == a) = false := by simpa using fun e => hne e.symm
    simp [h0, List.lookup, this]
  · intro e
    simp [e] at hn

/-- Of the frame `[f] = "a" <s>` with `<s> = "b"`, the literal and the reference have the same place in the text ` ab`,
namely that of the `a`. -/
theorem same_place : ∃ ld main k f s s', LoadedBy exLoad ld ∧ ld.From exLoad main ∧
    (∃ tokens l, process leadWorld ld.gram "" (asciiBytes " ab") = .ok (tokens, l) ∧
      TokensIn (leadWorld.trim (asciiBytes " ab")) tokens) ∧
    matchFrames wFrames leadWorld ld 60 "" (asciiBytes " ab") = .ok [(k, f)] ∧
    f.slots.lookup (wFrames.termKey (tt "a")) = some [s] ∧ f.slots.lookup (wFrames.termKey (nt "s")) = some [s'] ∧
    s.pos = ⟨1, 2⟩ ∧ s'.pos = ⟨1, 2⟩ ∧ s'.trees ≠ [] := by
  obtain ⟨ld, st, main, -, hl, hm, h1⟩ := exCheck_ok (gt := "<s>=\"b\";\n[f]=\"a\" <s>;\n")
    (P := fun ld => tokensCheck leadWorld ld (asciiBytes " ab") && placeCheck leadWorld ld (asciiBytes " ab") (fun _ ss =>
      decide (ss = [(wFrames.termKey (tt "a"), [(⟨1, 2⟩, 0)]), (wFrames.termKey (nt "s"), [(⟨1, 2⟩, 0 + 1)])])))
    (by decide +kernel)
  rw [Bool.and_eq_true] at h1
  obtain ⟨k, f, h2, h3⟩ := placeCheck_ok h1.2
  obtain ⟨s, s', g1, g2, g3, g4, g5⟩ := two_slots (of_decide_eq_true h3) (by decide +kernel)
  exact ⟨ld, main, k, f, s, s', hl, hm, tokensCheck_ok h1.1, h2, g1, g3, g2, g4, g5⟩

/-- C112 fails for texts with white space in front. -/
theorem C112_false : ¬ C112_statement := by
  intro h
  obtain ⟨ld, main, k, f, s, s', hl, hm, ⟨tokens, l, hp, ht⟩, h1, -, h2, -, h3, h4⟩ := same_place
  rcases h exLoad ld main hl hm asciiBytes wFrames leadWorld "" _ wFrames_ok wFrames_there tokens l hp ht 60 _ h1 k _ s'
    ⟨f, by simp, _, h2, by simp⟩ with ⟨v, -, -, he, -⟩ | ⟨S, -, -, -, b, e1, e2⟩
  · exact h4 he
  · rw [h3] at e1 e2
    have := e1.eq.symm.trans e2.eq
    revert this
    decide +kernel

/-- non-vacuity of `C112_partial`: in the text `ab` the two slots are at two places -/
example : exCheck "<s>=\"b\";\n[f]=\"a\" <s>;\n" (fun ld => tokensCheck leadWorld ld (asciiBytes "ab") &&
    placeCheck leadWorld ld (asciiBytes "ab") (fun _ ss =>
      decide (ss = [(wFrames.termKey (tt "a"), [(⟨0, 1⟩, 0)]), (wFrames.termKey (nt "s"), [(⟨1, 2⟩, 1)])]))) = true ∧
    leadWorld.trim (asciiBytes "ab") <+: asciiBytes "ab" := by
  refine ⟨?_, ?_⟩ <;> decide +kernel

end Fmr
