import Verif.Props.RemoveUnused
import Verif.Props.UnusedWitness

/-!
# C117: files that say more, and the condition on the words of literals
-/

namespace Fmr

/-- C117: with `<a>` besides `<b>`, and as a start rule, the text `y` is still found -/
example : ∃ ld st ld' st', loadString bangLoad 60 5 bangOnlyB "g" [] = .ok (some ld, st) ∧
    loadString bangLoad 60 5 bangOne "g" [] = .ok (some ld', st') ∧
    (∃ n, ∀ fuel ≥ n, ∃ ns ns', apiParse bangWorld ld.gram fuel "" [121] ["b"] = .ok ns ∧
      apiParse bangWorld ld'.gram fuel "" [121] ["a", "b"] = .ok ns' ∧ (ns ≠ [] → ns' ≠ [])) ∧
    ∃ ns, apiParse bangWorld ld.gram 60 "" [121] ["b"] = .ok ns ∧ ns ≠ [] := by
  obtain ⟨ld', st', ns', hload', hinc', hp', hlen'⟩ := bang_load bangOne [] 0 (by decide) (by decide +kernel)
  obtain ⟨ld, st, ns, hload, hinc, hp, hlen⟩ := bang_load bangOnlyB [] 0 (by decide) (by decide +kernel)
  have hno : ∀ p, ¬ Includes bangLoad "." bangOnlyB p := fun p h => by simpa using (hinc p).1 h
  have hno' : ∀ p, ¬ Includes bangLoad "." bangOne p := fun p h => by simpa using (hinc' p).1 h
  have hB : ∀ d ∈ [bangB], d ∈ [bangA, bangB] := fun d h => List.mem_cons_of_mem _ h
  have hl := bang_loadedFrom (by decide) hB bang_fileB hload hno
  have hl' := bang_loadedFrom (by decide) (fun _ h => h) bang_fileOne hload' hno'
  obtain ⟨c1', c2', c3', c4'⟩ := bang_conditions (ds := [bangA, bangB]) (fun _ h => h) hno' (starts := ["a", "b"])
    (fun S h => by simpa using h)
  have hs : MoreText [bangB] noDefs (Includes bangLoad "." bangOnlyB) [] [bangA, bangB] noDefs (Includes bangLoad "." bangOne) [] := by
    refine ⟨?_, ?_⟩
    · rintro A b (⟨d, h1, h2⟩ | ⟨p, h, -⟩)
      · exact .inl ⟨d, hB d h1, h2⟩
      · exact absurd h (hno p)
    · rintro A s (h | ⟨p, -, h⟩) <;> simp [noDefs] at h
  obtain ⟨_, _, -, -, n, hn⟩ := C117_calls_partial exampleLex_ok exampleLex_ok rfl hl hl' hs bangWorld
    (fun _ _ _ _ _ => List.Perm.refl _) "" [121] ["b"] ["a", "b"] (by decide) (fun S h => List.mem_cons_of_mem _ h) bangDoc
    ⟨by decide, .plain rfl, _, List.mem_cons_self, by decide⟩ c1' _ rfl (fun ⟨p, h⟩ => absurd h (hno p)) c2' _ rfl _ rfl c3' c4'
  refine ⟨ld, st, ld', st', hload, hload', ⟨n, fun fuel hf => ?_⟩, ?_⟩
  · obtain ⟨⟨ns, ns', h1, h2, h3⟩, -⟩ := hn fuel hf
    exact ⟨ns, ns', h1, h2, fun h => (h3 h).1⟩
  · have hc : (match loadString bangLoad 60 5 bangOnlyB "g" [] with
      | .ok (some ld, _) => (match apiParse bangWorld ld.gram 60 "" [121] ["b"] with
        | .ok ns => decide (ns.length = 1)
        | _ => false)
      | _ => false) = true := by decide +kernel
    rw [hload] at hc
    simp only at hc
    cases e2 : apiParse bangWorld ld.gram 60 "" [121] ["b"] with
    | ok ns =>
      rw [e2] at hc
      refine ⟨ns, rfl, fun h => ?_⟩
      rw [h] at hc
      cases hc
    | _ => rw [e2] at hc; cases hc

/-- C116: without `<a>`, which `<b>` does not use, `<b>` finds the same -/
example : ∃ ld st ld' st', loadString bangLoad 60 5 bangOnlyB "g" [] = .ok (some ld, st) ∧
    loadString bangLoad 60 5 bangOne "g" [] = .ok (some ld', st') ∧
    ∃ n, ∀ fuel ≥ n, ∃ ns ns', apiParse bangWorld ld.gram fuel "" [121] ["b"] = .ok ns ∧
      apiParse bangWorld ld'.gram fuel "" [121] ["b"] = .ok ns' ∧ (ns = [] ↔ ns' = []) := by
  obtain ⟨ld', st', ns', hload', hinc', hp', hlen'⟩ := bang_load bangOne [] 0 (by decide) (by decide +kernel)
  obtain ⟨ld, st, ns, hload, hinc, hp, hlen⟩ := bang_load bangOnlyB [] 0 (by decide) (by decide +kernel)
  have hno : ∀ p, ¬ Includes bangLoad "." bangOnlyB p := fun p h => by simpa using (hinc p).1 h
  have hno' : ∀ p, ¬ Includes bangLoad "." bangOne p := fun p h => by simpa using (hinc' p).1 h
  have hB : ∀ d ∈ [bangB], d ∈ [bangA, bangB] := fun d h => List.mem_cons_of_mem _ h
  have hl := bang_loadedFrom (by decide) hB bang_fileB hload hno
  have hl' := bang_loadedFrom (by decide) (fun _ h => h) bang_fileOne hload' hno'
  obtain ⟨c1', c2', c3', c4'⟩ := bang_conditions (ds := [bangA, bangB]) (fun _ h => h) hno' (starts := ["b"])
    (fun S h => .inr (List.mem_singleton.1 h))
  have hm : MoreText [bangB] noDefs (Includes bangLoad "." bangOnlyB) [] [bangA, bangB] noDefs (Includes bangLoad "." bangOne) [] := by
    refine ⟨?_, ?_⟩
    · rintro A b (⟨d, h1, h2⟩ | ⟨p, h, -⟩)
      · exact .inl ⟨d, hB d h1, h2⟩
      · exact absurd h (hno p)
    · rintro A s (h | ⟨p, -, h⟩) <;> simp [noDefs] at h
  have hs : SameUsed (· = "b") [bangB] noDefs (Includes bangLoad "." bangOnlyB) [] [bangA, bangB] noDefs (Includes bangLoad "." bangOne) [] := by
    refine ⟨fun A hA b => ⟨hm.alternatives A b, ?_⟩, fun A _ s => ⟨hm.regexps A s, ?_⟩, ?_⟩
    · rintro (⟨d, h1, h2, h3, h4⟩ | ⟨p, h, -⟩)
      · rcases List.mem_cons.1 h1 with rfl | h1
        · exact absurd (h3.trans hA) (by decide)
        · exact .inl ⟨d, h1, h2, h3, h4⟩
      · exact absurd h (hno' p)
    · rintro (h | ⟨p, -, h⟩) <;> simp [noDefs] at h
    · rintro A - b (⟨d, h1, -, -, h2⟩ | ⟨p, h, -⟩) t ht htt
      · rcases bang_bodies d (hB d h1) b h2 with rfl | rfl <;> rw [List.mem_singleton.1 ht] at htt <;> simp at htt
      · exact absurd h (hno p)
  obtain ⟨_, _, -, -, n, hn⟩ := C116_remove_partial exampleLex_ok exampleLex_ok rfl hl hl' hs hm bangWorld
    (fun _ _ _ _ _ => List.Perm.refl _) "" [121] ["b"] (by decide) (fun S h => List.mem_singleton.1 h) bangDoc
    ⟨by decide, .plain rfl, _, List.mem_cons_self, by decide⟩ c1' _ rfl _ rfl (fun ⟨p, h⟩ => absurd h (hno p)) c2' _ rfl c3' c4'
  refine ⟨ld, st, ld', st', hload, hload', n, fun fuel hf => ?_⟩
  obtain ⟨⟨ns, ns', h1, h2, h3, -⟩, -⟩ := hn fuel hf
  exact ⟨ns, ns', h1, h2, h3⟩

/-! ## without the condition on the smaller set of files -/

/-- C117 as it should be: what is found is found with more rules. False of the code. -/
def C117_statement : Prop :=
  ∀ (lw lw' : LoadWorld), lw.lex.OK → lw'.lex.OK → lw.ref = lw'.ref → ∀ (F F' : Files) (ds ds' : List Def)
    (ρ ρ' : List (String × String)) (I I' : String → Prop) (ld ld' : Loaded), LoadedFrom lw F ds ρ I ld →
    LoadedFrom lw' F' ds' ρ' I' ld' → MoreText ds F I ρ ds' F' I' ρ' → ∀ w : World, w.OrdOK →
    ∀ (context : String) (text : Bytes) (starts starts' : List String), starts ≠ [] → (∀ S ∈ starts, S ∈ starts') → ∀ d : Doc,
    TextRead w context text d → DocFit w (wholeRegexps F' I' ρ') d →
    ∀ src : Source, src = wholeSource ds' F' I' lw'.ref.annot (docSource w.find (wholeRegexps F' I' ρ') d) →
    WholeFit ds' F' I' lw'.ref src starts' → WholeUniform ds' F' I' →
    WholeSafe ds' F' I' lw'.ref.annot (docSource w.find (wholeRegexps F' I' ρ') d) starts' →
    ∀ fuel ns ns', apiParse w ld.gram fuel context text starts = .ok ns → apiParse w ld'.gram fuel context text starts' = .ok ns' →
      ns ≠ [] → ns' ≠ []

/-- False: if `<b>="y";` is included, `<a>="y!";` matches `y`. If the file says `<b>="y";` itself, `<a>` does not. -/
theorem C117_false : ¬ C117_statement := by
  intro hall
  obtain ⟨ld, st, ns, hload, hinc, hp, hlen⟩ := bang_load bangTwo ["./b"] 1 (by decide) (by decide +kernel)
  obtain ⟨ld', st', ns', hload', hinc', hp', hlen'⟩ := bang_load bangOne [] 0 (by decide) (by decide +kernel)
  have hA : ∀ d ∈ [bangA], d ∈ [bangA, bangB] := fun d h => List.mem_cons.2 (.inl (List.mem_singleton.1 h))
  have hno' : ∀ p, ¬ Includes bangLoad "." bangOne p := fun p h => by simpa using (hinc' p).1 h
  have hl' := bang_loadedFrom (by decide) (fun _ h => h) bang_fileOne hload' hno'
  have hl : LoadedFrom bangLoad twoFilesDefs [bangA] [] (Includes bangLoad "." bangTwo) ld := by
    refine .string (by decide) bang_fileTwo (bang_noCollision hA) ⟨fun q t hq hr => ?_, fun q hq => ?_⟩ hload
    · obtain rfl := List.mem_singleton.1 ((hinc q).1 hq)
      obtain rfl : "<b>=\"y\";\n".toList = t := Option.some.inj hr
      exact ⟨by decide, two_fileB⟩
    · exact bang_noCollision (ds := [bangB]) fun d h => List.mem_cons_of_mem _ h
  obtain ⟨c1, c2, c3, c4⟩ := bang_conditions (ds := [bangA, bangB]) (fun _ h => h) hno' (starts := ["a"])
    (fun S h => .inl (List.mem_singleton.1 h))
  have hs : MoreText [bangA] twoFilesDefs (Includes bangLoad "." bangTwo) [] [bangA, bangB] noDefs (Includes bangLoad "." bangOne) [] := by
    refine ⟨?_, ?_⟩
    · rintro A b (⟨d, h1, h2⟩ | ⟨p, -, d, h1, h2⟩)
      · exact .inl ⟨d, hA d h1, h2⟩
      · exact .inl ⟨d, List.mem_cons_of_mem _ h1, h2⟩
    · rintro A s (h | ⟨p, -, h⟩) <;> simp [twoFilesDefs] at h
  have h := hall bangLoad bangLoad exampleLex_ok exampleLex_ok rfl twoFilesDefs noDefs _ _ [] [] _ _ ld ld' hl hl' hs bangWorld
    (fun _ _ _ _ _ => List.Perm.refl _) "" [121] ["a"] ["a"] (by decide) (fun _ h => h) bangDoc
    ⟨by decide, .plain rfl, _, List.mem_cons_self, by decide⟩ c1 _ rfl c2 c3 c4 60 ns ns' hp hp'
  refine h (fun e => ?_) (List.length_eq_zero_iff.1 hlen')
  rw [e] at hlen
  cases hlen

end Fmr
