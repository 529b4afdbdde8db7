import Verif.Props.Unused
import Verif.Props.MovedWitness

/-!
# C116: rules that are not used, and the condition on the words of literals
-/

namespace Fmr

/-- files with none but the rules `bangA` and `bangB`, and no includes, meet the conditions of C116 -/
theorem bang_conditions {ds : List Def} (hds : ∀ d ∈ ds, d ∈ [bangA, bangB]) {I : String → Prop} (hno : ∀ p, ¬ I p)
    {starts : List String} (hst : ∀ S ∈ starts, S = "a" ∨ S = "b") :
    DocFit bangWorld (wholeRegexps noDefs I []) bangDoc ∧
    WholeFit ds noDefs I bangLoad.ref (wholeSource ds noDefs I bangLoad.ref.annot
      (docSource bangWorld.find (wholeRegexps noDefs I []) bangDoc)) starts ∧
    WholeUniform ds noDefs I ∧
    WholeSafe ds noDefs I bangLoad.ref.annot (docSource bangWorld.find (wholeRegexps noDefs I []) bangDoc) starts := by
  have hR : ∀ k s, ¬ wholeRegexps noDefs I [] k s := by
    rintro k s (h | ⟨p, -, h⟩) <;> simp [noDefs] at h
  have hdoc : ∀ A ts, docSource bangWorld.find (wholeRegexps noDefs I []) bangDoc A ts →
      A = "word" ∧ ∃ t ∈ bangDoc.tokens, ts = [tokenTerm t] := by
    intro A ts h
    have htok : ∀ t ∈ bangDoc.tokens, t.type = .word := by decide
    cases h with
    | word h1 h2 => exact ⟨rfl, _, h1, rfl⟩
    | tag h1 => cases h1
    | regexp h1 => exact absurd h1 (hR _ _)
    | punct h1 h2 => rw [htok _ h1] at h2; cases h2
    | symbol h1 h2 => rw [htok _ h1] at h2; cases h2
    | letters h1 h2 => rw [htok _ h1] at h2; cases h2
  have hwr : ∀ A b, wholeWritten ds noDefs I A b → (A = "a" ∨ A = "b") ∧
      (b = ⟨[⟨"y!", .terminal, .nil⟩], none⟩ ∨ b = ⟨[⟨"y", .terminal, .nil⟩], none⟩) := by
    rintro A b (⟨d, h1, -, rfl, h2⟩ | ⟨p, h, -⟩)
    · have h1 := hds d h1
      refine ⟨?_, bang_bodies d h1 b h2⟩
      simp only [List.mem_cons, List.not_mem_nil, or_false] at h1
      rcases h1 with rfl | rfl
      · exact .inl rfl
      · exact .inr rfl
    · exact absurd h (hno p)
  have hterm : ∀ A b, wholeWritten ds noDefs I A b → ∀ t ∈ b.terms,
      t.type = .terminal ∧ t.meta = .nil ∧ readTerm bangLoad.ref.annot t ≠ [] := by
    intro A b hb t ht
    rcases (hwr A b hb).2 with rfl | rfl <;> rw [List.mem_singleton.1 ht] <;> exact ⟨rfl, rfl, by decide +kernel⟩
  have hsolid : WholeSolid ds noDefs I bangLoad.ref.annot
      (docSource bangWorld.find (wholeRegexps noDefs I []) bangDoc) := by
    refine ⟨?_, ?_, ?_⟩
    · rintro t ⟨-, A, b, hb, ht⟩
      exact (hterm A b hb t ht).2.2
    · intro A b hb t ht htt
      rw [(hterm A b hb t ht).1] at htt
      simp at htt
    · intro A h
      obtain ⟨-, t, -, e⟩ := hdoc A _ h
      cases e
  refine ⟨?_, ⟨?_, fun ⟨p, h⟩ => absurd h (hno p), ?_⟩, ?_, hsolid.safe ?_ _⟩
  · have this : ∀ A b, DocAlt bangWorld.find (wholeRegexps noDefs I []) bangDoc A b →
        ∃ t ∈ bangDoc.tokens, b = ⟨[tokenTerm t], none⟩ := by
      intro A b h
      cases h with
      | word h => exact ⟨_, h, rfl⟩
      | punct h => exact ⟨_, h, rfl⟩
      | symbol h => exact ⟨_, h, rfl⟩
      | letters h => exact ⟨_, h, rfl⟩
      | tag h => cases h
      | values h => cases h
      | regexp h => exact absurd h (hR _ _)
    refine ⟨⟨?_, by decide, by decide⟩, (by intro sp h; cases h), (by intro sp h; cases h), ?_, ?_,
      fun k s s' h => absurd h (hR k s)⟩
    · intro k t h
      match k, h with
      | 0, h => cases h; rfl
    · intro A b h e
      obtain ⟨t, ht, rfl⟩ := this _ _ h
      cases e
    · intro A b b' h h' e2
      obtain ⟨t, ht, rfl⟩ := this _ _ h
      obtain ⟨t', ht', rfl⟩ := this _ _ h'
      rw [List.mem_singleton.1 ht, List.mem_singleton.1 ht']
  · rintro t t' ⟨-, A, b, hb, ht⟩ ⟨-, A', b', hb', ht'⟩ _
    rw [(hterm A b hb t ht).2.1, (hterm A' b' hb' t' ht').2.1]
  · have hsrc : ∀ A ts, wholeSource ds noDefs I bangLoad.ref.annot
        (docSource bangWorld.find (wholeRegexps noDefs I []) bangDoc) A ts →
        (A = "a" ∨ A = "b" ∨ A = "word") ∧ ∀ t ∈ ts, t.type = .terminal := by
      intro A ts h
      rcases wholeSource_iff.1 h with ⟨b, hb, rfl⟩ | h
      · refine ⟨by rcases (hwr A b hb).1 with h | h <;> simp [h], fun t ht => ?_⟩
        obtain ⟨t0, h0, ht⟩ := List.mem_flatMap.1 ht
        rw [readTerm, if_pos (hterm A b hb t0 h0).1] at ht
        obtain ⟨a, -, rfl⟩ := List.mem_map.1 ht
        rfl
      · obtain ⟨rfl, t, -, rfl⟩ := hdoc A ts h
        refine ⟨by simp, fun t' ht' => ?_⟩
        rw [List.mem_singleton.1 ht']
        rfl
    intro A hA
    have : A = "a" ∨ A = "b" ∨ A = "word" := by
      rcases hA with (⟨ts, h⟩ | ⟨B, ts, h, t, ht, htt, rfl⟩) | h
      · exact (hsrc A ts h).1
      · have := (hsrc B ts h).2 t ht
        rw [this] at htt
        simp at htt
      · rcases hst A h with h | h <;> simp [h]
    unfold Reserved
    rcases this with rfl | rfl | rfl <;> decide
  · intro A b A' b' hb hb' t ht t' ht' _
    rw [(hterm A b hb t ht).2.1, (hterm A' b' hb' t' ht').2.1]
  · intro A b hb
    rcases (hwr A b hb).2 with rfl | rfl <;> simp

theorem bang_loadedFrom {text : List Char} (hr : runeError ∉ text) {ds : List Def} (hds : ∀ d ∈ ds, d ∈ [bangA, bangB])
    (hsyn : FileSyn exampleLex text ds []) {ld : Loaded} {st : LoadSt} (hload : loadString bangLoad 60 5 text "g" [] = .ok (some ld, st))
    (hno : ∀ p, ¬ Includes bangLoad "." text p) : LoadedFrom bangLoad noDefs ds [] (Includes bangLoad "." text) ld :=
  .string hr hsyn (bang_noCollision hds) ⟨fun q _ h => absurd h (hno q), fun q h => absurd h (hno q)⟩ hload

/-- only the rule `<a>` -/
def bangOnlyA : List Char := "<a>=\"y!\";\n".toList

/-- only the rule `<b>` -/
def bangOnlyB : List Char := "<b>=\"y\";\n".toList

theorem bang_fileA : FileSyn exampleLex bangOnlyA [bangA] [] :=
  .defs (.cons (g := []) (l := "<a>=\"y!\";".toList) (r := ['\n']) two_nogap bang_defA (.nil (two_gap (by decide))))

theorem bang_fileB : FileSyn exampleLex bangOnlyB [bangB] [] :=
  .defs (.cons (g := []) (l := "<b>=\"y\";".toList) (r := ['\n']) two_nogap bang_defB (.nil (two_gap (by decide))))

/-- the rules `<a>` and `<b>` in the other order -/
def bangSwap : List Char := "<b>=\"y\";<a>=\"y!\";\n".toList

theorem bang_fileSwap : FileSyn exampleLex bangSwap [bangB, bangA] [] :=
  .defs (.cons (g := []) (l := "<b>=\"y\";".toList) (r := "<a>=\"y!\";\n".toList) two_nogap bang_defB
    (.cons (g := []) (l := "<a>=\"y!\";".toList) (r := ['\n']) two_nogap bang_defA (.nil (two_gap (by decide)))))

/-- C96: the rules of a file can be put in another order, although the literals `y!` and `y` have the same words -/
example : ∃ ld st ld' st', loadString bangLoad 60 5 bangOne "g" [] = .ok (some ld, st) ∧
    loadString bangLoad 60 5 bangSwap "g" [] = .ok (some ld', st') ∧
    ∃ n, ∀ fuel ≥ n, ∃ ns ns', apiParse bangWorld ld.gram fuel "" [121] ["a"] = .ok ns ∧
      apiParse bangWorld ld'.gram fuel "" [121] ["a"] = .ok ns' ∧ (ns = [] ↔ ns' = []) := by
  obtain ⟨ld, st, ns, hload, hinc, hp, hlen⟩ := bang_load bangOne [] 0 (by decide) (by decide +kernel)
  obtain ⟨ld', st', ns', hload', hinc', hp', hlen'⟩ := bang_load bangSwap [] 0 (by decide) (by decide +kernel)
  have hno : ∀ p, ¬ Includes bangLoad "." bangOne p := fun p h => by simpa using (hinc p).1 h
  have hno' : ∀ p, ¬ Includes bangLoad "." bangSwap p := fun p h => by simpa using (hinc' p).1 h
  have hmem : ∀ d, d ∈ [bangA, bangB] ↔ d ∈ [bangB, bangA] := fun d => by simp [or_comm]
  have hl := bang_loadedFrom (by decide) (fun _ h => h) bang_fileOne hload hno
  have hl' := bang_loadedFrom (by decide) (fun d h => (hmem d).2 h) bang_fileSwap hload' hno'
  obtain ⟨c1, c2, c3, c4⟩ := bang_conditions (ds := [bangA, bangB]) (fun _ h => h) hno (starts := ["a"])
    (fun S h => .inl (List.mem_singleton.1 h))
  have hs : SameText [bangA, bangB] noDefs (Includes bangLoad "." bangOne) [] [bangB, bangA] noDefs (Includes bangLoad "." bangSwap) [] := by
    refine ⟨fun A b => ⟨?_, ?_⟩, fun A s => ⟨?_, ?_⟩⟩
    · rintro (⟨d, h1, h2⟩ | ⟨p, h, -⟩)
      · exact .inl ⟨d, (hmem d).1 h1, h2⟩
      · exact absurd h (hno p)
    · rintro (⟨d, h1, h2⟩ | ⟨p, h, -⟩)
      · exact .inl ⟨d, (hmem d).2 h1, h2⟩
      · exact absurd h (hno' p)
    · rintro (h | ⟨p, -, h⟩) <;> simp [noDefs] at h
    · rintro (h | ⟨p, -, h⟩) <;> simp [noDefs] at h
  obtain ⟨_, _, -, -, n, hn⟩ := C96_calls_partial exampleLex_ok exampleLex_ok rfl hl hl' hs bangWorld
    (fun _ _ _ _ _ => List.Perm.refl _) "" [121] ["a"] (by decide) bangDoc
    ⟨by decide, .plain rfl, _, List.mem_cons_self, by decide⟩ c1 _ rfl c2 (fun ⟨p, h⟩ => absurd h (hno' p)) _ rfl c3 c4
  refine ⟨ld, st, ld', st', hload, hload', n, fun fuel hf => ?_⟩
  obtain ⟨⟨ns, ns', h1, h2, h3, -⟩, -⟩ := hn fuel hf
  exact ⟨ns, ns', h1, h2, h3⟩

/-- C116: with and without the rule `<a>`, which `<b>` does not use, the text `y` is parsed with the same result -/
example : ∃ ld st ld' st', loadString bangLoad 60 5 bangOne "g" [] = .ok (some ld, st) ∧
    loadString bangLoad 60 5 bangOnlyB "g" [] = .ok (some ld', st') ∧
    (∃ n, ∀ fuel ≥ n, ∃ ns ns', apiParse bangWorld ld.gram fuel "" [121] ["b"] = .ok ns ∧
      apiParse bangWorld ld'.gram fuel "" [121] ["b"] = .ok ns' ∧ (ns = [] ↔ ns' = [])) ∧
    ∃ ns, apiParse bangWorld ld.gram 60 "" [121] ["b"] = .ok ns ∧ ns ≠ [] := by
  obtain ⟨ld, st, ns, hload, hinc, hp, hlen⟩ := bang_load bangOne [] 0 (by decide) (by decide +kernel)
  obtain ⟨ld', st', ns', hload', hinc', hp', hlen'⟩ := bang_load bangOnlyB [] 0 (by decide) (by decide +kernel)
  have hno : ∀ p, ¬ Includes bangLoad "." bangOne p := fun p h => by simpa using (hinc p).1 h
  have hno' : ∀ p, ¬ Includes bangLoad "." bangOnlyB p := fun p h => by simpa using (hinc' p).1 h
  have hl := bang_loadedFrom (by decide) (fun _ h => h) bang_fileOne hload hno
  have hl' := bang_loadedFrom (ds := [bangB]) (by decide) (fun d h => List.mem_cons_of_mem _ h) bang_fileB hload' hno'
  obtain ⟨c1, c2, c3, c4⟩ := bang_conditions (ds := [bangA, bangB]) (fun _ h => h) hno (starts := ["b"])
    (fun S h => .inr (List.mem_singleton.1 h))
  obtain ⟨c1', c2', c3', c4'⟩ := bang_conditions (ds := [bangB]) (fun d h => List.mem_cons_of_mem _ h) hno' (starts := ["b"])
    (fun S h => .inr (List.mem_singleton.1 h))
  have hs : SameUsed (· = "b") [bangA, bangB] noDefs (Includes bangLoad "." bangOne) [] [bangB] noDefs (Includes bangLoad "." bangOnlyB) [] := by
    refine ⟨?_, ?_, ?_⟩
    · rintro A rfl b
      constructor
      · rintro (⟨d, h1, h2, h3, h4⟩ | ⟨p, h, -⟩)
        · rcases List.mem_cons.1 h1 with rfl | h1
          · exact absurd h3 (by decide)
          · exact .inl ⟨d, h1, h2, h3, h4⟩
        · exact absurd h (hno p)
      · rintro (⟨d, h1, h2⟩ | ⟨p, h, -⟩)
        · exact .inl ⟨d, List.mem_cons_of_mem _ h1, h2⟩
        · exact absurd h (hno' p)
    · rintro A - s
      constructor <;> rintro (h | ⟨p, -, h⟩) <;> simp [noDefs] at h
    · rintro A - b (⟨d, h1, -, -, h2⟩ | ⟨p, h, -⟩) t ht htt
      · rcases bang_bodies d h1 b h2 with rfl | rfl <;> rw [List.mem_singleton.1 ht] at htt <;> simp at htt
      · exact absurd h (hno p)
  obtain ⟨_, _, -, -, n, hn⟩ := C116_calls_partial exampleLex_ok exampleLex_ok rfl hl hl' hs bangWorld
    (fun _ _ _ _ _ => List.Perm.refl _) "" [121] ["b"] (by decide) (fun S h => List.mem_singleton.1 h) bangDoc
    ⟨by decide, .plain rfl, _, List.mem_cons_self, by decide⟩ c1 c1' _ rfl _ rfl c2 c2' _ rfl c3 c3' c4 c4'
  refine ⟨ld, st, ld', st', hload, hload', ⟨n, fun fuel hf => ?_⟩, ?_⟩
  · obtain ⟨⟨ns, ns', h1, h2, h3, -⟩, -⟩ := hn fuel hf
    exact ⟨ns, ns', h1, h2, h3⟩
  · have hc : (match loadString bangLoad 60 5 bangOne "g" [] with
      | .ok (some ld, _) => (match apiParse bangWorld ld.gram 60 "" [121] ["b"] with
        | .ok ns => decide (ns.length = 1)
        | _ => false)
      | _ => false) = true := by decide +kernel
    rw [hload] at hc
    simp only at hc
    cases e2 : apiParse bangWorld ld.gram 60 "" [121] ["b"] with
    | ok ns =>
      rw [e2] at hc
      refine ⟨ns, rfl, fun h => ?_⟩
      rw [h] at hc
      cases hc
    | _ => rw [e2] at hc; cases hc

/-! ## without the conditions on the rules that are not used -/

/-- C116 as it should be: what is written besides the rules in use does not matter. False of the code. -/
def C116_statement : Prop :=
  ∀ (lw lw' : LoadWorld), lw.lex.OK → lw'.lex.OK → lw.ref = lw'.ref → ∀ (F F' : Files) (ds ds' : List Def)
    (ρ ρ' : List (String × String)) (I I' : String → Prop) (ld ld' : Loaded), LoadedFrom lw F ds ρ I ld →
    LoadedFrom lw' F' ds' ρ' I' ld' → ∀ R : String → Prop, SameUsed R ds F I ρ ds' F' I' ρ' → ∀ w : World, w.OrdOK →
    ∀ (context : String) (text : Bytes) (starts : List String), starts ≠ [] → (∀ S ∈ starts, R S) → ∀ d : Doc,
    TextRead w context text d → DocFit w (wholeRegexps F I ρ) d →
    ∀ src : Source, src = wholeSource ds F I lw.ref.annot (docSource w.find (wholeRegexps F I ρ) d) → WholeFit ds F I lw.ref src starts →
    WholeUniform ds F I → WholeSafe ds F I lw.ref.annot (docSource w.find (wholeRegexps F I ρ) d) starts →
    ∀ fuel ns ns', apiParse w ld.gram fuel context text starts = .ok ns → apiParse w ld'.gram fuel context text starts = .ok ns' →
      (ns = [] ↔ ns' = [])

/-- False: `<a>` does not match `y`, since its literal is `y!`. If the file with `<b>` is included, it does, although `<a>` does
not use `<b>`: the literals `y!` and `y` get the same generated name. -/
theorem C116_false : ¬ C116_statement := by
  intro hall
  obtain ⟨ld, st, ns, hload, hinc, hp, hlen⟩ := bang_load bangOnlyA [] 0 (by decide) (by decide +kernel)
  obtain ⟨ld', st', ns', hload', hinc', hp', hlen'⟩ := bang_load bangTwo ["./b"] 1 (by decide) (by decide +kernel)
  have hA : ∀ d ∈ [bangA], d ∈ [bangA, bangB] := fun d h => List.mem_cons.2 (.inl (List.mem_singleton.1 h))
  have hno : ∀ p, ¬ Includes bangLoad "." bangOnlyA p := fun p h => by simpa using (hinc p).1 h
  have hl := bang_loadedFrom (by decide) hA bang_fileA hload hno
  have hl' : LoadedFrom bangLoad twoFilesDefs [bangA] [] (Includes bangLoad "." bangTwo) ld' := by
    refine .string (by decide) bang_fileTwo (bang_noCollision hA) ⟨fun q t hq hr => ?_, fun q hq => ?_⟩ hload'
    · obtain rfl := List.mem_singleton.1 ((hinc' q).1 hq)
      obtain rfl : "<b>=\"y\";\n".toList = t := Option.some.inj hr
      exact ⟨by decide, two_fileB⟩
    · exact bang_noCollision (ds := [bangB]) fun d h => List.mem_cons_of_mem _ h
  obtain ⟨c1, c2, c3, c4⟩ := bang_conditions hA hno (starts := ["a"]) (fun S h => .inl (List.mem_singleton.1 h))
  have hs : SameUsed (· = "a") [bangA] noDefs (Includes bangLoad "." bangOnlyA) [] [bangA] twoFilesDefs (Includes bangLoad "." bangTwo) [] := by
    refine ⟨?_, ?_, ?_⟩
    · rintro A rfl b
      constructor
      · rintro (h | ⟨p, h, -⟩)
        · exact .inl h
        · exact absurd h (hno p)
      · rintro (h | ⟨p, -, d, h1, -, h2, -⟩)
        · exact .inl h
        · rw [List.mem_singleton.1 h1] at h2
          exact absurd h2 (by decide)
    · rintro A - s
      constructor <;> rintro (h | ⟨p, -, h⟩) <;> simp [noDefs, twoFilesDefs] at h
    · rintro A - b (⟨d, h1, -, -, h2⟩ | ⟨p, h, -⟩) t ht htt
      · rcases bang_bodies d (hA d h1) b h2 with rfl | rfl <;> rw [List.mem_singleton.1 ht] at htt <;> simp at htt
      · exact absurd h (hno p)
  have h := hall bangLoad bangLoad exampleLex_ok exampleLex_ok rfl noDefs twoFilesDefs _ _ [] [] _ _ ld ld' hl hl' _ hs bangWorld
    (fun _ _ _ _ _ => List.Perm.refl _) "" [121] ["a"] (by decide) (fun S h => List.mem_singleton.1 h) bangDoc
    ⟨by decide, .plain rfl, _, List.mem_cons_self, by decide⟩ c1 _ rfl c2 c3 c4 60 ns ns' hp hp'
  rw [List.length_eq_zero_iff] at hlen
  rw [h.1 hlen] at hlen'
  cases hlen'

end Fmr
