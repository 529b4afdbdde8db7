import Verif.Props.TextFrames
import Verif.Props.TextTreesWitness

/-!
# C77: an example, and a rule that is never tried
-/

namespace Fmr

/-- C77 for all rules, tried or not. -/
def C77_statement : Prop :=
  ∀ (lw : LoadWorld), lw.lex.OK → ∀ (F : Files) (ds : List Def) (ρ : List (String × String)) (I : String → Prop) (ld : Loaded),
    LoadedFrom lw F ds ρ I ld → ∀ w : FrameWorld, w.OK → ∀ ew : World, ew.OrdOK →
    ∀ (context : String) (text : Bytes) (d : Doc), TextRead ew context text d → DocFit ew (wholeRegexps F I ρ) d →
    TokensOrdered text d.words → ∀ src, src = wholeSource ds F I lw.ref.annot (docSource ew.find (wholeRegexps F I ρ) d) →
    WholeFit ds F I lw.ref src [] → WholeUniform ds F I →
    WholeSolid ds F I lw.ref.annot (docSource ew.find (wholeRegexps F I ρ) d) → FrameFit ds F I lw.idx.trim lw.ref src →
    (∀ A b, Written ds true A b → BodyKeys w.termKey lw.idx.trim b) →
    ∃ names, LiteralNames names ∧ ∀ fuel frames, matchFrames w ew ld fuel context text = .ok frames →
      ∃ found, FramesAre ds lw.lex.hash w.termKey lw.idx.trim found (TriedSpan (fun _ => True) ew src d.words)
        (SpanTree (wholeGrammar ds ρ F I lw.ref ew d) names d.words) frames

/-- a frame with a rule `<n>` that no literal leads to -/
def slotText : List Char := "<s>=\"a\";[f]=<n><s>;<n>=(any{1,1});".toList

def slotFrame : RuleBody := ⟨[⟨"n", .nonterminal, .nil⟩, ⟨"s", .nonterminal, .nil⟩], none⟩

def slotS : RuleBody := ⟨[⟨"a", .terminal, .nil⟩], none⟩

def slotN : RuleBody := ⟨[⟨"any", .any, .range 1 1⟩], none⟩

def slotDefs : List Def := [⟨false, "s", [slotS]⟩, ⟨true, "f", [slotFrame]⟩, ⟨false, "n", [slotN]⟩]

/-- the tokens of the text `ab` -/
def slotTokens : List Token :=
  [{ text := "a", startByte := 0, endByte := 1, i := 0 }, { text := "b", startByte := 1, endByte := 2, i := 1 }]

def slotDoc : Doc := { text := [97, 98], tokens := slotTokens, spans := [] }

def slotWorld : World := { twoWorld with annotate := fun _ => some slotDoc }

theorem slot_file : FileSyn exampleLex slotText slotDefs [] := by
  refine .defs (.cons (g := []) (l := "<s>=\"a\";".toList) (r := "[f]=<n><s>;<n>=(any{1,1});".toList) (ρ1 := []) two_nogap ?_
    (.cons (g := []) (l := "[f]=<n><s>;".toList) (r := "<n>=(any{1,1});".toList) (ρ1 := []) two_nogap ?_
      (.cons (g := []) (l := "<n>=(any{1,1});".toList) (r := []) two_nogap ?_ (.nil two_nogap))))
  · exact DefSyn.rule (x := ['s']) (g1 := []) (g2 := []) (l := ['"', 'a', '"']) (ident_alpha (by rfl) (by rfl))
      two_nogap two_nogap (.one (.plain (.one (l := ['"', 'a', '"']) (g := []) (.literal
        (twoLit (by decide) (by decide) (by decide) (by decide))) two_nogap)))
  · exact DefSyn.frame (x := ['f']) (g1 := []) (g2 := []) (l := "<n><s>".toList) (ident_alpha (by rfl) (by rfl))
      two_nogap two_nogap (.one (.plain (.more (l := "<n>".toList) (g := []) (r := "<s>".toList)
        (.nonterminal (x := ['n']) (ident_alpha (by rfl) (by rfl))) two_nogap
        (.one (l := "<s>".toList) (g := []) (.nonterminal (x := ['s']) (ident_alpha (by rfl) (by rfl))) two_nogap))))
  · exact DefSyn.rule (x := ['n']) (g1 := []) (g2 := []) (l := "(any{1,1})".toList) (ident_alpha (by rfl) (by rfl))
      two_nogap two_nogap (.one (.plain (.one (l := "(any{1,1})".toList) (g := []) (.any (s1 := []) (r := "{1,1}".toList)
        (by intro c hc; cases hc) (mix_range (c := '1') (n := 1) (num_digit (by decide) (by decide) (by decide)) (by decide)))
        two_nogap)))

theorem slot_load : ∃ ld st, loadString mixLoad 60 5 slotText "g" [] = .ok (some ld, st) ∧
    ∀ p, ¬ Includes mixLoad "." slotText p := by
  have hc : (match loadString mixLoad 60 5 slotText "g" [] with
    | .ok (some ld, _) => ld.gram.includes.isEmpty
    | _ => false) = true := by decide +kernel
  cases e : loadString mixLoad 60 5 slotText "g" [] with
  | ok x =>
    obtain ⟨o, st⟩ := x
    rw [e] at hc
    cases o with
    | none => cases hc
    | some ld =>
      rw [List.isEmpty_iff] at hc
      refine ⟨ld, st, rfl, fun p hp => ?_⟩
      obtain ⟨ld', e', -, -, -, hn, -⟩ := C33_string (w := mixLoad) exampleLex_ok (by decide) (fun p t _ hr => by cases hr) e
      cases e'
      have := (hn p).2 hp
      rw [hc] at this
      cases this
  | _ => rw [e] at hc; cases hc

theorem slot_written {f : Bool} {A : String} {b : RuleBody} (h : Written slotDefs f A b) :
    (f = false ∧ A = "s" ∧ b = slotS) ∨ (f = true ∧ A = "f" ∧ b = slotFrame) ∨ (f = false ∧ A = "n" ∧ b = slotN) := by
  obtain ⟨d, h1, rfl, rfl, h2⟩ := h
  simp only [slotDefs, List.mem_cons, List.not_mem_nil, or_false] at h1
  rcases h1 with rfl | rfl | rfl <;> rw [List.mem_singleton] at h2 <;> subst h2 <;> simp

/-- what the file and the document say -/
def slotSource : Source := wholeSource slotDefs noDefs (Includes mixLoad "." slotText) mixLoad.ref.annot
  (docSource slotWorld.find (wholeRegexps noDefs (Includes mixLoad "." slotText) []) slotDoc)

/-- all assumptions of C77 hold together -/
theorem slot_setting : ∃ ld, LoadedFrom mixLoad noDefs slotDefs [] (Includes mixLoad "." slotText) ld ∧
    (∀ p, ¬ Includes mixLoad "." slotText p) ∧ TextRead slotWorld "" [97, 98] slotDoc ∧
    DocFit slotWorld (wholeRegexps noDefs (Includes mixLoad "." slotText) []) slotDoc ∧
    TokensOrdered [97, 98] slotDoc.words ∧
    WholeFit slotDefs noDefs (Includes mixLoad "." slotText) mixLoad.ref slotSource [] ∧
    WholeUniform slotDefs noDefs (Includes mixLoad "." slotText) ∧
    WholeSolid slotDefs noDefs (Includes mixLoad "." slotText) mixLoad.ref.annot
      (docSource slotWorld.find (wholeRegexps noDefs (Includes mixLoad "." slotText) []) slotDoc) ∧
    FrameFit slotDefs noDefs (Includes mixLoad "." slotText) mixLoad.idx.trim mixLoad.ref slotSource ∧
    ∀ A b, Written slotDefs true A b → BodyKeys wFrames.termKey mixLoad.idx.trim b := by
  obtain ⟨ld, st, hload, hinc⟩ := slot_load
  have hF : FilesRead mixLoad noDefs (Includes mixLoad "." slotText) :=
    ⟨fun q t h => absurd h (hinc q), fun q h => absurd h (hinc q)⟩
  have hc : NoCollision mixLoad.lex.hash slotDefs := by
    refine ⟨(fun d _ b _ h => by cases h), ?_⟩
    intro d hd b hb d' hd' b' hb' e
    have h1 := slot_written ⟨d, hd, rfl, rfl, hb⟩
    have h2 := slot_written ⟨d', hd', rfl, rfl, hb'⟩
    rcases h1 with ⟨-, -, rfl⟩ | ⟨-, -, rfl⟩ | ⟨-, -, rfl⟩ <;>
      rcases h2 with ⟨-, -, rfl⟩ | ⟨-, -, rfl⟩ | ⟨-, -, rfl⟩ <;>
      first
      | rfl
      | exact absurd e (by decide +kernel)
  have ht : TextRead slotWorld "" [97, 98] slotDoc := ⟨by decide, .plain rfl, _, List.mem_cons_self, by decide⟩
  have hR : ∀ k s, ¬ wholeRegexps noDefs (Includes mixLoad "." slotText) [] k s := by
    rintro k s (h | ⟨p, -, h⟩) <;> simp [noDefs] at h
  have htok : ∀ t ∈ slotDoc.tokens, t.type = .word := by decide
  have hdoc : ∀ A ts, docSource slotWorld.find (wholeRegexps noDefs (Includes mixLoad "." slotText) []) slotDoc A ts →
      A = "word" ∧ ∃ t ∈ slotDoc.tokens, ts = [tokenTerm t] := by
    intro A ts h
    cases h with
    | word h1 h2 => exact ⟨rfl, _, h1, rfl⟩
    | tag h1 => cases h1
    | regexp h1 => exact absurd h1 (hR _ _)
    | punct h1 h2 => rw [htok _ h1] at h2; cases h2
    | symbol h1 h2 => rw [htok _ h1] at h2; cases h2
    | letters h1 h2 => rw [htok _ h1] at h2; cases h2
  have hd : DocFit slotWorld (wholeRegexps noDefs (Includes mixLoad "." slotText) []) slotDoc := by
    have halt : ∀ A b, DocAlt slotWorld.find (wholeRegexps noDefs (Includes mixLoad "." slotText) []) slotDoc A b →
        ∃ t ∈ slotDoc.tokens, b = ⟨[tokenTerm t], none⟩ := by
      intro A b h
      cases h with
      | word h => exact ⟨_, h, rfl⟩
      | punct h => exact ⟨_, h, rfl⟩
      | symbol h => exact ⟨_, h, rfl⟩
      | letters h => exact ⟨_, h, rfl⟩
      | tag h => cases h
      | values h => cases h
      | regexp h => exact absurd h (hR _ _)
    refine ⟨⟨?_, by decide, by decide⟩, (by intro sp h; cases h), (by intro sp h; cases h), ?_, ?_,
      fun k s s' h => absurd h (hR k s)⟩
    · intro k t h
      match k, h with
      | 0, h | 1, h => cases h; rfl
    · intro A b h e
      obtain ⟨t, ht, rfl⟩ := halt _ _ h
      cases e
    · intro A b b' h h' e2
      obtain ⟨t, ht, rfl⟩ := halt _ _ h
      obtain ⟨t', ht', rfl⟩ := halt _ _ h'
      have key : ∀ t ∈ slotDoc.tokens, ∀ t' ∈ slotDoc.tokens,
          slotWorld.hash ⟨[tokenTerm t], none⟩ = slotWorld.hash ⟨[tokenTerm t'], none⟩ → tokenTerm t = tokenTerm t' := by
        decide +kernel
      rw [key t ht t' ht' e2]
  have hwr : ∀ A b, wholeWritten slotDefs noDefs (Includes mixLoad "." slotText) A b →
      (A = "s" ∧ b = slotS) ∨ (A = "n" ∧ b = slotN) := by
    rintro A b (h | ⟨p, h, -⟩)
    · rcases slot_written h with ⟨-, h⟩ | ⟨e, -⟩ | ⟨-, h⟩
      · exact .inl h
      · cases e
      · exact .inr h
    · exact absurd h (hinc p)
  have hsrc : ∀ A ts, slotSource A ts → (A = "s" ∨ A = "n" ∨ A = "word") ∧
      ∀ t ∈ ts, t.type = .terminal ∧ t.value ≠ "ɣ" ∨ t.type = .any := by
    intro A ts h
    cases h with
    | main h =>
      obtain ⟨b, hb, rfl⟩ := h
      rcases hwr A b (.inl hb) with ⟨rfl, rfl⟩ | ⟨rfl, rfl⟩
      · exact ⟨.inl rfl, by decide +kernel⟩
      · exact ⟨.inr (.inl rfl), by decide +kernel⟩
    | included hi h => exact absurd hi (hinc _)
    | document h =>
      obtain ⟨rfl, t, ht, rfl⟩ := hdoc A ts h
      refine ⟨.inr (.inr rfl), fun t' ht' => ?_⟩
      rw [List.mem_singleton.1 ht']
      have key : ∀ t ∈ slotDoc.tokens, (tokenTerm t).type = .terminal ∧ (tokenTerm t).value ≠ "ɣ" := by decide
      exact .inl (key t ht)
  have hlit : ∀ t, wholeLiteral slotDefs noDefs (Includes mixLoad "." slotText) t → t = ⟨"a", .terminal, .nil⟩ := by
    rintro t ⟨htt, A, b, hb, ht⟩
    rcases hwr A b hb with ⟨-, rfl⟩ | ⟨-, rfl⟩
    · exact List.mem_singleton.1 ht
    · rw [List.mem_singleton.1 ht] at htt
      cases htt
  refine ⟨ld, .string (by decide) slot_file hc hF hload, hinc, ht, hd, ⟨by decide, by decide⟩,
    ⟨?_, fun ⟨p, h⟩ => absurd h (hinc p), ?_⟩, ?_, ⟨?_, ?_, ?_⟩, ⟨fun p hp => absurd hp (hinc p), fun _ _ _ _ _ _ => rfl,
    fun p _ _ hp => absurd hp (hinc p), ?_, ?_⟩, ?_⟩
  · intro t t' h h' _
    rw [hlit t h, hlit t' h']
  · intro A hA
    have : A = "s" ∨ A = "n" ∨ A = "word" := by
      rcases hA with (⟨ts, h⟩ | ⟨B, ts, h, t, ht, htt, rfl⟩) | h
      · exact (hsrc A ts h).1
      · rcases (hsrc B ts h).2 t ht with h | h
        · rw [h.1] at htt
          simp at htt
        · rw [h] at htt
          simp at htt
      · cases h
    unfold Reserved
    rcases this with rfl | rfl | rfl <;> decide
  · intro A b A' b' h h' t ht t' ht'
    rcases hwr A b h with ⟨-, rfl⟩ | ⟨-, rfl⟩ <;> rcases hwr A' b' h' with ⟨-, rfl⟩ | ⟨-, rfl⟩ <;>
      rw [List.mem_singleton.1 ht, List.mem_singleton.1 ht'] <;> simp
  · intro t ht
    rw [hlit t ht]
    decide +kernel
  · intro A b hb t ht htt
    rcases hwr A b hb with ⟨-, rfl⟩ | ⟨-, rfl⟩ <;> rw [List.mem_singleton.1 ht] at htt ⊢
    · simp at htt
    · rintro ⟨h, -⟩
      exact absurd h (by decide)
  · intro A h
    obtain ⟨-, t, -, e⟩ := hdoc A [] h
    cases e
  · intro A b hb t ht _
    rcases slot_written hb with ⟨e, -⟩ | ⟨-, -, rfl⟩ | ⟨e, -⟩
    · cases e
    · simp only [slotFrame, List.mem_cons, List.not_mem_nil, or_false] at ht
      unfold Reserved
      rcases ht with rfl | rfl <;> decide
    · cases e
  · intro A ts h t ht htt
    rcases (hsrc A ts h).2 t ht with h | h
    · exact h.2
    · rw [htt] at h
      cases h
  · intro A b hb
    refine ⟨fun _ _ _ _ h => (wFrames_key h).2, fun _ _ _ _ h => (wFrames_key h).2, fun _ _ _ _ h => ?_⟩
    have := (wFrames_key h).1
    simp [termKind] at this

theorem slot_found {words : List String} (h : "a" ∈ words) : FoundAt (findWords words [97, 98]) "a" ⟨0, 1⟩ :=
  ⟨("a", [⟨0, 1⟩]), List.mem_filter.2 ⟨List.mem_map.2 ⟨"a", foldl_setAdd_mem.2 (.inr h), by decide⟩, by decide⟩, rfl,
    List.mem_singleton.2 rfl⟩

theorem slot_main {A : String} {b : RuleBody} (h : Written slotDefs false A b) : slotSource A (b.terms.flatMap (readTerm mixLoad.ref.annot)) :=
  .main ⟨b, h, rfl⟩

/-- C77: the frame is found, and `<s>` has a slot at the first byte -/
theorem slot_frames : ∃ ld n frames, LoadedFrom mixLoad noDefs slotDefs [] (Includes mixLoad "." slotText) ld ∧
    (∀ fuel ≥ n, matchFrames wFrames slotWorld ld fuel "" [97, 98] = .ok frames) ∧
    HasSlot frames ⟨"f", 22⟩ (wFrames.termKey ⟨"s", .nonterminal, .nil⟩) ⟨0, 1⟩ ∧
    ¬ ∃ pos, HasSlot frames ⟨"f", 22⟩ (wFrames.termKey ⟨"n", .nonterminal, .nil⟩) pos := by
  obtain ⟨ld, hload, hinc, ht, hd, hord, hfit, hu, hsolid, hff, hkeys⟩ := slot_setting
  have hs : Written slotDefs false "s" slotS := ⟨_, List.mem_cons_self, rfl, rfl, List.mem_singleton.2 rfl⟩
  have hf : Written slotDefs true "f" slotFrame :=
    ⟨_, List.mem_cons_of_mem _ List.mem_cons_self, rfl, rfl, List.mem_singleton.2 rfl⟩
  have hrw : RuleWord slotDefs noDefs (Includes mixLoad "." slotText) mixLoad.ref.annot mixLoad.idx.trim "s" "a" :=
    .main hs ⟨by decide, _, List.mem_singleton.2 rfl, rfl, rfl⟩
  obtain ⟨words, names, hwords, hN, -, h⟩ := C77_frames_partial exampleLex_ok hload wFrames wFrames_ok slotWorld
    (fun _ _ _ _ _ => List.Perm.refl _) "" [97, 98] slotDoc ht hd hord slotSource rfl hfit _ rfl hu hsolid hff hkeys
  have hfa := slot_found ((hwords "a").2 (.inl ⟨"s", hrw⟩))
  obtain ⟨n, frames, hrun, hfr⟩ := (h _ rfl).2 ⟨"s", "a", _, hfa, hrw⟩
  refine ⟨ld, n, frames, hload, hrun, (hfr.refs "f" slotFrame 22 hf (by decide +kernel) "s" ⟨by decide, _, .tail _ (.head _), rfl, rfl⟩ _).2
    ⟨⟨"s", "a", ⟨_, hfa⟩, hrw, .refl⟩, 0, 1, ⟨by decide, _, _, rfl, rfl, rfl⟩, ?_⟩, ?_⟩
  · exact Yields.nonterminal (u := [{ text := "a", startByte := 0, endByte := 1, i := 0 }]) (w := []) rfl
      ⟨_, List.mem_singleton.2 rfl, slot_main hs⟩ (.terminal rfl (by decide +kernel) .nil) .nil
  · rintro ⟨pos, hn⟩
    obtain ⟨⟨B, s, -, hBs, hab⟩, -⟩ := (hfr.refs "f" slotFrame 22 hf (by decide +kernel) "n" ⟨by decide, _, .head _, rfl, rfl⟩ pos).1 hn
    have hnn : ∀ {b : RuleBody}, wholeWritten slotDefs noDefs (Includes mixLoad "." slotText) "n" b → b = slotN := by
      rintro b (h | ⟨p, h, -⟩)
      · rcases slot_written h with ⟨-, e, -⟩ | ⟨-, e, -⟩ | ⟨-, -, e⟩
        · exact absurd e (by decide)
        · exact absurd e (by decide)
        · exact e
      · exact absurd h (hinc p)
    cases hab with
    | refl =>
      cases hBs with
      | main h1 h2 =>
        obtain rfl := hnn (.inl h1)
        obtain ⟨-, t, ht, htt, -⟩ := h2
        rw [List.mem_singleton.1 ht] at htt
        cases htt
      | included h1 => exact absurd h1 (hinc _)
    | step h1 h2 =>
      obtain ⟨b, hb, -, t, ht, htt, -⟩ := h1
      obtain rfl := hnn hb
      rw [List.mem_singleton.1 ht] at htt
      cases htt

/-- C77: the alternative has no function, and `FrameFMR` prints the empty string for the frame -/
example : ∃ ld n, LoadedFrom mixLoad noDefs slotDefs [] (Includes mixLoad "." slotText) ld ∧ ∀ fuel ≥ n, ∃ frames,
    matchFrames wFrames slotWorld ld fuel "" [97, 98] = .ok frames ∧ frames ≠ [] ∧
    ∀ nw, frameFMR wFrames slotWorld nw ld fuel "" [97, 98] = .ok (frames.map fun _ => "") := by
  obtain ⟨ld, n, frames, hload, hrun, ⟨f, hf, -⟩, -⟩ := slot_frames
  obtain ⟨-, -, -, ht, hd, hord, hfit, hu, hsolid, hff, hkeys⟩ := slot_setting
  refine ⟨ld, n, hload, fun fuel hfuel => ⟨frames, hrun fuel hfuel, List.ne_nil_of_mem hf, fun nw => ?_⟩⟩
  refine (C77_prints_partial exampleLex_ok hload wFrames wFrames_ok slotWorld (fun _ _ _ _ _ => List.Perm.refl _) "" [97, 98]
    slotDoc ht hd hord slotSource rfl hfit hsolid hff nw (hrun fuel hfuel) _).2 ?_
  obtain ⟨words, names, hwords, hN, -, h⟩ := C77_frames_partial exampleLex_ok hload wFrames wFrames_ok slotWorld
    (fun _ _ _ _ _ => List.Perm.refl _) "" [97, 98] slotDoc ht hd hord slotSource rfl hfit _ rfl hu hsolid hff hkeys
  have hrw : RuleWord slotDefs noDefs (Includes mixLoad "." slotText) mixLoad.ref.annot mixLoad.idx.trim "s" "a" :=
    .main (b := slotS) ⟨_, List.mem_cons_self, rfl, rfl, List.mem_singleton.2 rfl⟩ ⟨by decide, _, List.mem_singleton.2 rfl, rfl, rfl⟩
  obtain ⟨n', frames', hrun', hfr⟩ := (h _ rfl).2 ⟨"s", "a", _, slot_found ((hwords "a").2 (.inl ⟨"s", hrw⟩)), hrw⟩
  have e := (hrun' (max n n') (Nat.le_max_right _ _)).symm.trans (hrun (max n n') (Nat.le_max_left _ _))
  rw [Out.ok.injEq] at e
  subst e
  rw [List.forall₂_map_right_iff, show wFrames.ordFrames frames' = frames' from rfl, List.forall₂_same]
  rintro ⟨k, f⟩ he
  obtain ⟨b, hb, hk, -⟩ := hfr.written k f he
  refine ⟨b, hb, hk, .inl ⟨?_, rfl⟩⟩
  rcases slot_written hb with ⟨e, -⟩ | ⟨-, -, rfl⟩ | ⟨e, -⟩
  · cases e
  · rfl
  · cases e

/-- False for `<s>="a"; [f]=<n><s>; <n>=(any{1,1});` on `ab`: `<n>` derives both tokens, but no literal leads to it, and
it gets no slot. -/
theorem C77_false : ¬ C77_statement := by
  intro hall
  obtain ⟨ld, n, frames, hload, hrun, -, hno⟩ := slot_frames
  obtain ⟨-, -, -, ht, hd, hord, hfit, hu, hsolid, hff, hkeys⟩ := slot_setting
  obtain ⟨names, -, h⟩ := hall mixLoad exampleLex_ok noDefs slotDefs [] _ ld hload wFrames wFrames_ok slotWorld
    (fun _ _ _ _ _ => List.Perm.refl _) "" [97, 98] slotDoc ht hd hord slotSource rfl hfit hu hsolid hff hkeys
  obtain ⟨found, hfr⟩ := h n frames (hrun n (Nat.le_refl n))
  refine hno ⟨⟨0, 1⟩, (hfr.refs "f" slotFrame 22 ⟨_, .tail _ (.head _), rfl, rfl, List.mem_singleton.2 rfl⟩ (by decide +kernel) "n"
    ⟨by decide, _, .head _, rfl, rfl⟩ _).2 ⟨trivial, 0, 1, ⟨by decide, _, _, rfl, rfl, rfl⟩, ?_⟩⟩
  exact Yields.nonterminal (u := [{ text := "a", startByte := 0, endByte := 1, i := 0 }]) (w := []) rfl
    ⟨_, List.mem_singleton.2 rfl, slot_main (b := slotN) ⟨_, .tail _ (.tail _ (.head _)), rfl, rfl, List.mem_singleton.2 rfl⟩⟩
    (.any (u := [{ text := "a", startByte := 0, endByte := 1, i := 0 }]) (w := []) rfl ⟨by decide, by decide⟩ .nil) .nil

end Fmr
