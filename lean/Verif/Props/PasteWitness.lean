import Verif.Props.Paste
import Verif.Props.UnusedWitness

/-!
# C118: a grammar with its include pasted in
-/

namespace Fmr

theorem two_defsB : DefsSyn exampleLex "<b>=\"y\";\n".toList [⟨false, "b", [⟨[⟨"y", .terminal, .nil⟩], none⟩]⟩] [] [] := by
  refine .cons (g := []) (l := "<b>=\"y\";".toList) (r := ['\n']) two_nogap ?_ (.nil (two_gap (by decide)))
  exact bang_defB

theorem two_defsA : DefsSyn exampleLex "\n<a>=<b> \"x\"(any{0,1});\n".toList twoDefs [] [] := by
  refine .cons (g := ['\n']) (l := "<a>=<b> \"x\"(any{0,1});".toList) (r := ['\n']) (two_gap (by decide)) ?_
    (.nil (two_gap (by decide)))
  refine DefSyn.rule (x := ['a']) (g1 := []) (g2 := []) (l := "<b> \"x\"(any{0,1})".toList) (ident_alpha (by rfl) (by rfl))
    two_nogap two_nogap (.one (.plain (.more (l := "<b>".toList) (g := [' ']) (r := "\"x\"(any{0,1})".toList)
      (.nonterminal (x := ['b']) (ident_alpha (by rfl) (by rfl))) (two_gap (by decide))
      (.more (l := ['"', 'x', '"']) (g := []) (r := "(any{0,1})".toList) (.literal ?_) two_nogap
        (.one (l := "(any{0,1})".toList) (g := []) (.any (s1 := []) (r := "{0,1}".toList) ?_ ?_) two_nogap)))))
  · exact twoLit (by decide) (by decide) (by decide) (by decide)
  · intro c hc
    cases hc
  · exact .some (s0 := []) (s1 := []) (s2 := []) (s3 := []) (s4 := []) (s5 := []) (d1 := ['0']) (d2 := ['1'])
      (a := 0) (b := 1) (by intro c hc; cases hc) (by intro c hc; cases hc) (by intro c hc; cases hc)
      (by intro c hc; cases hc) (by intro c hc; cases hc) (by intro c hc; cases hc)
      (num_digit (n := 0) (by decide) (by decide) (by decide)) (num_digit (n := 1) (by decide) (by decide) (by decide)) (by decide)

/-- the definitions of the file `b` and of `twoText` -/
def pasteText : List Char := "<b>=\"y\";\n\n<a>=<b> \"x\"(any{0,1});\n".toList

theorem paste_load : ∃ ld st, loadString twoFiles 60 5 pasteText "g" [] = .ok (some ld, st) := by
  have hc : (match loadString twoFiles 60 5 pasteText "g" [] with
    | .ok (some _, _) => true
    | _ => false) = true := by decide +kernel
  cases e : loadString twoFiles 60 5 pasteText "g" [] with
  | ok x =>
    obtain ⟨o, st⟩ := x
    rw [e] at hc
    cases o with
    | none => cases hc
    | some ld => exact ⟨ld, st, rfl⟩
  | _ => rw [e] at hc; cases hc

/-- C118: `twoText` and `pasteText` find the text `yx` -/
example : ∃ ld st ld' st' n, loadString twoFiles 60 5 twoText "g" [] = .ok (some ld, st) ∧
    loadString twoFiles 60 5 pasteText "g" [] = .ok (some ld', st') ∧ ∀ fuel ≥ n, ∃ ns ns',
      apiParse twoWorld ld.gram fuel "" [121, 120] ["a"] = .ok ns ∧ apiParse twoWorld ld'.gram fuel "" [121, 120] ["a"] = .ok ns' ∧
      ns ≠ [] ∧ ns' ≠ [] := by
  obtain ⟨ld, st, hload, hF, hc, ht, hd, hfit, hu, hsafe, hder, -⟩ := two_setting
  obtain ⟨ld', st', hload'⟩ := paste_load
  obtain ⟨_, _, -, hinc, -⟩ := two_load
  have hl : LoadedFrom twoFiles twoFilesDefs twoDefs [] (Includes twoFiles "." twoText) ld :=
    .string (by decide) two_file hc hF hload
  have hp : Pastes twoFiles.lex twoFilesDefs twoDefs [] (Includes twoFiles "." twoText) ["./b"] pasteText :=
    ⟨fun p => (hinc p).trans List.mem_singleton.symm, fun _ => "<b>=\"y\";\n".toList, "\n<a>=<b> \"x\"(any{0,1});\n".toList,
      fun _ _ => two_defsB, two_defsA, by decide⟩
  have hcol : NoCollision twoFiles.lex.hash (["./b"].flatMap twoFilesDefs.defs ++ twoDefs) := by
    refine ⟨(fun d _ b _ h => by cases h), ?_⟩
    have key : ∀ d ∈ ["./b"].flatMap twoFilesDefs.defs ++ twoDefs, ∀ b ∈ d.bodies,
        b = ⟨twoTerms, none⟩ ∨ b = ⟨[⟨"y", .terminal, .nil⟩], none⟩ := by
      intro d hd b hb
      simp only [List.flatMap_cons, List.flatMap_nil, List.append_nil, twoFilesDefs, twoDefs, List.cons_append, List.nil_append,
        List.mem_cons, List.not_mem_nil, or_false] at hd
      rcases hd with rfl | rfl <;> rw [List.mem_singleton] at hb <;> simp [hb]
    intro d hd b hb d' hd' b' hb' e
    rcases key d hd b hb with rfl | rfl <;> rcases key d' hd' b' hb' with rfl | rfl <;>
      first
      | rfl
      | exact absurd e (by decide +kernel)
  obtain ⟨_, _, -, -, n, hn⟩ := C118_calls_partial exampleLex_ok hl hp (by decide) hcol hload' twoWorld
    (fun _ _ _ _ _ => List.Perm.refl _) "" [121, 120] ["a"] (by decide) twoDoc ht hd _ rfl hfit _ rfl hu hsafe
  obtain ⟨_, -, n', hn'⟩ := C73_string_partial exampleLex_ok (by decide) two_file hc hF hload twoWorld "" [121, 120] ["a"]
    twoDoc ht hd _ rfl hfit hu hsafe (by decide) (fun _ _ _ _ _ => List.Perm.refl _)
  refine ⟨ld, st, ld', st', max n n', hload, hload', fun fuel hf => ?_⟩
  obtain ⟨⟨ns, ns', h1, h2, h3, -⟩, -⟩ := hn fuel (by omega)
  obtain ⟨ns0, h4, h5, -⟩ := hn' fuel (by omega)
  rw [h1] at h4
  cases h4
  have hne := h5.2 ⟨2, by decide, "a", List.mem_singleton.2 rfl, hder⟩
  exact ⟨ns, ns', h1, h2, hne, fun h => hne (h3.2 h)⟩

/-! ## without the conditions on the grammar with includes -/

/-- C118 as it should be: includes can be pasted in, whatever the literals are. The conditions of C76 are asked of the pasted text.
False of the code. -/
def C118_statement : Prop :=
  ∀ lw : LoadWorld, lw.lex.OK → ∀ (F : Files) (ds : List Def) (ρ : List (String × String)) (I : String → Prop) (ld ld' : Loaded),
    LoadedFrom lw F ds ρ I ld → ∀ (ps : List String) (gtext : List Char), Pastes lw.lex F ds ρ I ps gtext → runeError ∉ gtext →
    ∀ (ds' : List Def) (ρ' : List (String × String)), FileSyn lw.lex gtext ds' ρ' → NoCollision lw.lex.hash ds' →
    ∀ (fuel0 depth : Nat) (name : String) (reg : Registry) (st : LoadSt),
    loadString lw fuel0 depth gtext name reg = .ok (some ld', st) → ∀ w : World, w.OrdOK →
    ∀ (context : String) (text : Bytes) (starts : List String), starts ≠ [] → ∀ d : Doc, TextRead w context text d →
    DocFit w (wholeRegexps noDefs (fun _ => False) ρ') d →
    ∀ src : Source, src = wholeSource ds' noDefs (fun _ => False) lw.ref.annot (docSource w.find (wholeRegexps noDefs (fun _ => False) ρ') d) →
    WholeFit ds' noDefs (fun _ => False) lw.ref src starts → WholeUniform ds' noDefs (fun _ => False) →
    WholeSafe ds' noDefs (fun _ => False) lw.ref.annot (docSource w.find (wholeRegexps noDefs (fun _ => False) ρ') d) starts →
    ∀ fuel ns ns', apiParse w ld.gram fuel context text starts = .ok ns → apiParse w ld'.gram fuel context text starts = .ok ns' →
      (ns = [] ↔ ns' = [])

/-- the definitions of the file `b` and of `bangTwo` -/
def bangPaste : List Char := "<b>=\"y\";\n<a>=\"y!\";\n".toList

theorem bang_filePaste : FileSyn exampleLex bangPaste [bangB, bangA] [] :=
  .defs (.cons (g := []) (l := "<b>=\"y\";".toList) (r := "\n<a>=\"y!\";\n".toList) two_nogap bang_defB
    (.cons (g := ['\n']) (l := "<a>=\"y!\";".toList) (r := ['\n']) (two_gap (by decide)) bang_defA (.nil (two_gap (by decide)))))

/-- False: `<a>="y!";` matches `y` if `<b>="y";` is included, but not if it is pasted in. -/
theorem C118_false : ¬ C118_statement := by
  intro hall
  obtain ⟨ld, st, ns, hload, hinc, hp, hlen⟩ := bang_load bangTwo ["./b"] 1 (by decide) (by decide +kernel)
  obtain ⟨ld', st', ns', hload', hinc', hp', hlen'⟩ := bang_load bangPaste [] 0 (by decide) (by decide +kernel)
  have hA : ∀ d ∈ [bangA], d ∈ [bangA, bangB] := fun d h => List.mem_cons.2 (.inl (List.mem_singleton.1 h))
  have hsw : ∀ d ∈ [bangB, bangA], d ∈ [bangA, bangB] := fun d h => by simpa [or_comm] using h
  have hl : LoadedFrom bangLoad twoFilesDefs [bangA] [] (Includes bangLoad "." bangTwo) ld := by
    refine .string (by decide) bang_fileTwo (bang_noCollision hA) ⟨fun q t hq hr => ?_, fun q hq => ?_⟩ hload
    · obtain rfl := List.mem_singleton.1 ((hinc q).1 hq)
      obtain rfl : "<b>=\"y\";\n".toList = t := Option.some.inj hr
      exact ⟨by decide, two_fileB⟩
    · exact bang_noCollision (ds := [bangB]) fun d h => List.mem_cons_of_mem _ h
  have hpaste : Pastes bangLoad.lex twoFilesDefs [bangA] [] (Includes bangLoad "." bangTwo) ["./b"] bangPaste :=
    ⟨hinc, fun _ => "<b>=\"y\";\n".toList, "<a>=\"y!\";\n".toList, fun _ _ => two_defsB,
      .cons (g := []) (l := "<a>=\"y!\";".toList) (r := ['\n']) two_nogap bang_defA (.nil (two_gap (by decide))), by decide⟩
  obtain ⟨c1, c2, c3, c4⟩ := bang_conditions hsw (I := fun _ => False) (fun _ h => h) (starts := ["a"])
    (fun S h => .inl (List.mem_singleton.1 h))
  have h := hall bangLoad exampleLex_ok twoFilesDefs _ [] _ ld ld' hl _ _ hpaste (by decide) _ _ bang_filePaste (bang_noCollision hsw)
    _ _ _ _ _ hload' bangWorld (fun _ _ _ _ _ => List.Perm.refl _) "" [121] ["a"] (by decide) bangDoc
    ⟨by decide, .plain rfl, _, List.mem_cons_self, by decide⟩ c1 _ rfl c2 c3 c4 60 ns ns' hp hp'
  rw [h.2 (List.length_eq_zero_iff.1 hlen')] at hlen
  cases hlen

end Fmr
