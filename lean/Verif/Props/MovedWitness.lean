import Verif.Props.Moved
import Verif.Props.WholeWitness
import Verif.Proofs.WordParse

/-!
# C96: a grammar in one file and in two
-/

namespace Fmr

/-- `twoText` and the file that it includes, in one text -/
def oneText : List Char := "\n<a>=<b> \"x\"(any{0,1});<b>=\"y\";\n".toList

def oneDefs : List Def := [⟨false, "a", [⟨twoTerms, none⟩]⟩, ⟨false, "b", [⟨[⟨"y", .terminal, .nil⟩], none⟩]⟩]

/-- texts without includes -/
theorem noIncludes {lw : LoadWorld} (hlw : lw.lex.OK) {text : List Char} {ld : Loaded} {st : LoadSt}
    (hr : runeError ∉ text) (hr' : ∀ p t, lw.read p = some t → runeError ∉ t)
    (h : loadString lw 60 5 text "g" [] = .ok (some ld, st)) (hi : ld.gram.includes = []) (p : String) : ¬ Includes lw "." text p := by
  intro hp
  obtain ⟨ld', e', -, -, -, hn, -⟩ := C33_string (w := lw) hlw hr (fun p t _ ht => hr' p t ht) h
  cases e'
  have := (hn p).2 hp
  rw [hi] at this
  cases this

theorem two_read (p : String) (t : List Char) (hr : twoFiles.read p = some t) : runeError ∉ t := by
  simp only [twoFiles] at hr
  split at hr
  · cases hr
    decide
  · cases hr

theorem one_load : ∃ ld st, loadString twoFiles 60 5 oneText "g" [] = .ok (some ld, st) ∧ ∀ p, ¬ Includes twoFiles "." oneText p := by
  have hc : (match loadString twoFiles 60 5 oneText "g" [] with
    | .ok (some ld, _) => ld.gram.includes.isEmpty
    | _ => false) = true := by decide +kernel
  cases e : loadString twoFiles 60 5 oneText "g" [] with
  | ok x =>
    obtain ⟨o, st⟩ := x
    rw [e] at hc
    cases o with
    | none => cases hc
    | some ld => exact ⟨ld, st, rfl, noIncludes exampleLex_ok (by decide) two_read e (List.isEmpty_iff.1 hc)⟩
  | _ => rw [e] at hc; cases hc

theorem one_file : FileSyn exampleLex oneText oneDefs [] := by
  refine .defs ?_
  refine .cons (g := ['\n']) (l := "<a>=<b> \"x\"(any{0,1});".toList) (r := "<b>=\"y\";\n".toList) (ρ1 := []) (ρ2 := []) (two_gap (by decide)) ?_ ?_
  · refine DefSyn.rule (x := ['a']) (g1 := []) (g2 := []) (l := "<b> \"x\"(any{0,1})".toList) (ident_alpha (by rfl) (by rfl))
      two_nogap two_nogap (.one (.plain (.more (l := "<b>".toList) (g := [' ']) (r := "\"x\"(any{0,1})".toList)
        (.nonterminal (x := ['b']) (ident_alpha (by rfl) (by rfl))) (two_gap (by decide))
        (.more (l := ['"', 'x', '"']) (g := []) (r := "(any{0,1})".toList) (.literal ?_) two_nogap
          (.one (l := "(any{0,1})".toList) (g := []) (.any (s1 := []) (r := "{0,1}".toList) ?_ ?_) two_nogap)))))
    · exact twoLit (by decide) (by decide) (by decide) (by decide)
    · intro c hc
      cases hc
    · exact .some (s0 := []) (s1 := []) (s2 := []) (s3 := []) (s4 := []) (s5 := []) (d1 := ['0']) (d2 := ['1'])
        (a := 0) (b := 1) (by intro c hc; cases hc) (by intro c hc; cases hc) (by intro c hc; cases hc)
        (by intro c hc; cases hc) (by intro c hc; cases hc) (by intro c hc; cases hc)
        (num_digit (n := 0) (by decide) (by decide) (by decide)) (num_digit (n := 1) (by decide) (by decide) (by decide)) (by decide)
  · refine .cons (g := []) (l := "<b>=\"y\";".toList) (r := ['\n']) two_nogap ?_ (.nil (two_gap (by decide)))
    refine DefSyn.rule (x := ['b']) (g1 := []) (g2 := []) (l := ['"', 'y', '"']) (ident_alpha (by rfl) (by rfl))
      two_nogap two_nogap (.one (.plain (.one (l := ['"', 'y', '"']) (g := []) (.literal ?_) two_nogap)))
    exact twoLit (by decide) (by decide) (by decide) (by decide)

theorem one_same : SameText twoDefs twoFilesDefs (Includes twoFiles "." twoText) [] oneDefs noDefs (Includes twoFiles "." oneText) [] := by
  obtain ⟨_, _, -, hinc, -⟩ := two_load
  obtain ⟨_, _, -, hno⟩ := one_load
  refine ⟨fun A b => ⟨?_, ?_⟩, fun k s => ⟨?_, ?_⟩⟩
  · rintro (⟨d, h1, h2⟩ | ⟨p, -, d, h1, h2⟩)
    · exact .inl ⟨d, List.mem_cons.2 (.inl (List.mem_singleton.1 h1)), h2⟩
    · exact .inl ⟨d, List.mem_cons_of_mem _ h1, h2⟩
  · rintro (⟨d, h1, h2⟩ | ⟨p, h, -⟩)
    · rcases List.mem_cons.1 h1 with h1 | h1
      · exact .inl ⟨d, List.mem_singleton.2 h1, h2⟩
      · exact .inr ⟨"./b", (hinc _).2 rfl, d, h1, h2⟩
    · exact absurd h (hno p)
  · rintro (h | ⟨p, -, h⟩) <;> simp [twoFilesDefs] at h
  · rintro (h | ⟨p, -, h⟩) <;> simp [noDefs] at h

/-- C96: the two files and the one file both find the two tokens -/
example : ∃ ld st ld' st' n, loadString twoFiles 60 5 twoText "g" [] = .ok (some ld, st) ∧
    loadString twoFiles 60 5 oneText "g" [] = .ok (some ld', st') ∧ ∀ fuel ≥ n, ∃ ns ns',
      apiParse twoWorld ld.gram fuel "" [121, 120] ["a"] = .ok ns ∧ apiParse twoWorld ld'.gram fuel "" [121, 120] ["a"] = .ok ns' ∧
      ns ≠ [] ∧ ns' ≠ [] := by
  obtain ⟨ld, st, hload, hF, hc, ht, hd, hfit, hu, hsafe, hder, -⟩ := two_setting
  obtain ⟨ld', st', hload', hno⟩ := one_load
  have hl : LoadedFrom twoFiles twoFilesDefs twoDefs [] (Includes twoFiles "." twoText) ld :=
    .string (by decide) two_file hc hF hload
  have hl' : LoadedFrom twoFiles noDefs oneDefs [] (Includes twoFiles "." oneText) ld' := by
    refine .string (by decide) one_file ⟨(fun d _ b _ h => by cases h), ?_⟩
      ⟨fun q _ h => absurd h (hno q), fun q h => absurd h (hno q)⟩ hload'
    have key : ∀ d ∈ oneDefs, ∀ b ∈ d.bodies, b = ⟨twoTerms, none⟩ ∨ b = ⟨[⟨"y", .terminal, .nil⟩], none⟩ := by
      intro d hd b hb
      simp only [oneDefs, List.mem_cons, List.not_mem_nil, or_false] at hd
      rcases hd with rfl | rfl <;> rw [List.mem_singleton] at hb <;> simp [hb]
    intro d hd b hb d' hd' b' hb' e
    rcases key d hd b hb with rfl | rfl <;> rcases key d' hd' b' hb' with rfl | rfl <;>
      first
      | rfl
      | exact absurd e (by decide +kernel)
  obtain ⟨_, _, -, hinc, -⟩ := two_load
  obtain ⟨_, _, -, -, n, hn⟩ := C96_calls_partial exampleLex_ok exampleLex_ok rfl hl hl' one_same twoWorld
    (fun _ _ _ _ _ => List.Perm.refl _) "" [121, 120] ["a"] (by decide) twoDoc ht hd _ rfl hfit
    (fun _ => hfit.apart ⟨"./b", (hinc _).2 rfl⟩) _ rfl hu hsafe
  obtain ⟨_, -, n', hn'⟩ := C73_string_partial exampleLex_ok (by decide) two_file hc hF hload twoWorld "" [121, 120] ["a"]
    twoDoc ht hd _ rfl hfit hu hsafe (by decide) (fun _ _ _ _ _ => List.Perm.refl _)
  refine ⟨ld, st, ld', st', max n n', hload, hload', fun fuel hf => ?_⟩
  obtain ⟨⟨ns, ns', h1, h2, h3, -⟩, -⟩ := hn fuel (by omega)
  obtain ⟨ns0, h4, h5, -⟩ := hn' fuel (by omega)
  rw [h1] at h4
  cases h4
  have hne := h5.2 ⟨2, by decide, "a", List.mem_singleton.2 rfl, hder⟩
  exact ⟨ns, ns', h1, h2, hne, fun h => hne (h3.2 h)⟩

/-! ## without the condition on the words of literals -/

/-- C96 as it should be: two sets of files that say the same find something in the same texts. False of the code. -/
def C96_statement : Prop :=
  ∀ (lw lw' : LoadWorld), lw.lex.OK → lw'.lex.OK → lw.ref = lw'.ref → ∀ (F F' : Files) (ds ds' : List Def)
    (ρ ρ' : List (String × String)) (I I' : String → Prop) (ld ld' : Loaded), LoadedFrom lw F ds ρ I ld →
    LoadedFrom lw' F' ds' ρ' I' ld' → SameText ds F I ρ ds' F' I' ρ' → ∀ w : World, w.OrdOK → ∀ (context : String) (text : Bytes)
    (starts : List String), starts ≠ [] → ∀ d : Doc, TextRead w context text d → DocFit w (wholeRegexps F I ρ) d →
    ∀ src : Source, src = wholeSource ds F I lw.ref.annot (docSource w.find (wholeRegexps F I ρ) d) → WholeFit ds F I lw.ref src starts →
    WholeUniform ds F I → WholeSafe ds F I lw.ref.annot (docSource w.find (wholeRegexps F I ρ) d) starts →
    ∀ fuel ns ns', apiParse w ld.gram fuel context text starts = .ok ns → apiParse w ld'.gram fuel context text starts = .ok ns' →
      (ns = [] ↔ ns' = [])

/-- the literal `y!` has two tokens -/
def bangTok (s : String) : List Token := if s = "y!" then [tk "y", { tk "!" with type := .punct }] else [tk s]

def bangLoad : LoadWorld :=
  { twoFiles with ref := { annot := fun s => some (bangTok s), ascii := id, hash := fun _ => some 0 } }

def bangOne : List Char := "<a>=\"y!\";<b>=\"y\";\n".toList

def bangTwo : List Char := "#include \"b\"<a>=\"y!\";\n".toList

def bangA : Def := ⟨false, "a", [⟨[⟨"y!", .terminal, .nil⟩], none⟩]⟩

def bangB : Def := ⟨false, "b", [⟨[⟨"y", .terminal, .nil⟩], none⟩]⟩

/-- the text `y` -/
def bangDoc : Doc := { text := [121], tokens := [{ text := "y", startByte := 0, endByte := 1, i := 0 }], spans := [] }

def bangWorld : World := { wWorld [] with annotate := fun _ => some bangDoc }

theorem bang_load (text : List Char) (incs : List String) (len : Nat) (hr : runeError ∉ text)
    (hc : (match loadString bangLoad 60 5 text "g" [] with
      | .ok (some ld, _) => decide (ld.gram.includes.map (·.name) = incs) &&
        (match apiParse bangWorld ld.gram 60 "" [121] ["a"] with
        | .ok ns => decide (ns.length = len)
        | _ => false)
      | _ => false) = true) :
    ∃ ld st ns, loadString bangLoad 60 5 text "g" [] = .ok (some ld, st) ∧ (∀ p, Includes bangLoad "." text p ↔ p ∈ incs) ∧
      apiParse bangWorld ld.gram 60 "" [121] ["a"] = .ok ns ∧ ns.length = len := by
  cases e : loadString bangLoad 60 5 text "g" [] with
  | ok x =>
    obtain ⟨o, st⟩ := x
    rw [e] at hc
    cases o with
    | none => cases hc
    | some ld =>
      simp only [Bool.and_eq_true, decide_eq_true_eq] at hc
      obtain ⟨h1, h2⟩ := hc
      cases e2 : apiParse bangWorld ld.gram 60 "" [121] ["a"] with
      | ok ns =>
        rw [e2] at h2
        refine ⟨ld, st, ns, rfl, fun p => ?_, e2, of_decide_eq_true h2⟩
        obtain ⟨ld', e', -, -, -, hn, -⟩ := C33_string (w := bangLoad) exampleLex_ok hr (fun p t _ ht => two_read p t ht) e
        cases e'
        rw [← hn, h1]
      | _ => rw [e2] at h2; cases h2
  | _ => rw [e] at hc; cases hc

theorem bang_litA : LitSyn exampleLex ['"', 'y', '!', '"'] "" "y!" :=
  .plain (s := []) (t := ['y', '!']) (v := ['y', '!']) (by intro c hc; cases hc)
    (.plain (by decide) (by decide) (.plain (by decide) (by decide) .nil)) (by
      intro c hc
      cases hc
      exact ⟨by decide, by decide⟩)

theorem bang_defA : DefSyn exampleLex "<a>=\"y!\";".toList bangA [] [] := by
  refine DefSyn.rule (x := ['a']) (g1 := []) (g2 := []) (l := ['"', 'y', '!', '"']) (ident_alpha (by rfl) (by rfl))
    two_nogap two_nogap (.one (.plain (.one (l := ['"', 'y', '!', '"']) (g := []) (.literal bang_litA) two_nogap)))

theorem bang_defB : DefSyn exampleLex "<b>=\"y\";".toList bangB [] [] := by
  refine DefSyn.rule (x := ['b']) (g1 := []) (g2 := []) (l := ['"', 'y', '"']) (ident_alpha (by rfl) (by rfl))
    two_nogap two_nogap (.one (.plain (.one (l := ['"', 'y', '"']) (g := []) (.literal ?_) two_nogap)))
  exact twoLit (by decide) (by decide) (by decide) (by decide)

theorem bang_fileOne : FileSyn exampleLex bangOne [bangA, bangB] [] := by
  refine .defs (.cons (g := []) (l := "<a>=\"y!\";".toList) (r := "<b>=\"y\";\n".toList) (ρ1 := []) (ρ2 := []) two_nogap bang_defA ?_)
  exact .cons (g := []) (l := "<b>=\"y\";".toList) (r := ['\n']) two_nogap bang_defB (.nil (two_gap (by decide)))

theorem bang_fileTwo : FileSyn exampleLex bangTwo [bangA] [] := by
  refine .incl (t := "#include \"b\"".toList) (l := "<a>=\"y!\";\n".toList) (f := "b") ?_ (.defs ?_)
  · refine .mk (g := []) (s1 := []) (s2 := [' ']) (l := ['"', 'b', '"']) (f := "") two_nogap (by intro c hc; cases hc)
      (by intro c hc; rw [List.mem_singleton.1 hc]; decide) (twoLit (by decide) (by decide) (by decide) (by decide))
  · exact .cons (g := []) (l := "<a>=\"y!\";".toList) (r := ['\n']) two_nogap bang_defA (.nil (two_gap (by decide)))

theorem bang_bodies (d : Def) (hd : d ∈ [bangA, bangB]) (b : RuleBody) (hb : b ∈ d.bodies) :
    b = ⟨[⟨"y!", .terminal, .nil⟩], none⟩ ∨ b = ⟨[⟨"y", .terminal, .nil⟩], none⟩ := by
  simp only [List.mem_cons, List.not_mem_nil, or_false] at hd
  rcases hd with rfl | rfl
  · exact .inl (List.mem_singleton.1 hb)
  · exact .inr (List.mem_singleton.1 hb)

theorem bang_noCollision {ds : List Def} (h : ∀ d ∈ ds, d ∈ [bangA, bangB]) : NoCollision bangLoad.lex.hash ds := by
  refine ⟨(fun d _ b _ h => by cases h), ?_⟩
  intro d hd b hb d' hd' b' hb' e
  rcases bang_bodies d (h d hd) b hb with rfl | rfl <;> rcases bang_bodies d' (h d' hd') b' hb' with rfl | rfl <;>
    first
    | rfl
    | exact absurd e (by decide +kernel)

/-- False: with the rules in one file `<a>` does not match `y`, since its literal is `y!`; with `<b>` in a file of its own it
does, since both literals get the same generated name. -/
theorem C96_false : ¬ C96_statement := by
  intro hall
  obtain ⟨ld, st, ns, hload, hinc, hp, hlen⟩ := bang_load bangOne [] 0 (by decide) (by decide +kernel)
  obtain ⟨ld', st', ns', hload', hinc', hp', hlen'⟩ := bang_load bangTwo ["./b"] 1 (by decide) (by decide +kernel)
  have hno : ∀ p, ¬ Includes bangLoad "." bangOne p := fun p h => by simpa using (hinc p).1 h
  have hl : LoadedFrom bangLoad noDefs [bangA, bangB] [] (Includes bangLoad "." bangOne) ld :=
    .string (by decide) bang_fileOne (bang_noCollision fun _ h => h)
      ⟨fun q _ h => absurd h (hno q), fun q h => absurd h (hno q)⟩ hload
  have hl' : LoadedFrom bangLoad twoFilesDefs [bangA] [] (Includes bangLoad "." bangTwo) ld' := by
    refine .string (by decide) bang_fileTwo (bang_noCollision fun d h => List.mem_cons.2 (.inl (List.mem_singleton.1 h)))
      ⟨fun q t hq hr => ?_, fun q hq => ?_⟩ hload'
    · obtain rfl := List.mem_singleton.1 ((hinc' q).1 hq)
      obtain rfl : "<b>=\"y\";\n".toList = t := Option.some.inj hr
      exact ⟨by decide, two_fileB⟩
    · exact bang_noCollision (ds := [bangB]) fun d h => List.mem_cons_of_mem _ h
  have hs : SameText [bangA, bangB] noDefs (Includes bangLoad "." bangOne) [] [bangA] twoFilesDefs (Includes bangLoad "." bangTwo) [] := by
    refine ⟨fun A b => ⟨?_, ?_⟩, fun k s => ⟨?_, ?_⟩⟩
    · rintro (⟨d, h1, h2⟩ | ⟨p, h, -⟩)
      · rcases List.mem_cons.1 h1 with h1 | h1
        · exact .inl ⟨d, List.mem_singleton.2 h1, h2⟩
        · exact .inr ⟨"./b", (hinc' _).2 (List.mem_singleton.2 rfl), d, h1, h2⟩
      · exact absurd h (hno p)
    · rintro (⟨d, h1, h2⟩ | ⟨p, -, d, h1, h2⟩)
      · exact .inl ⟨d, List.mem_cons.2 (.inl (List.mem_singleton.1 h1)), h2⟩
      · exact .inl ⟨d, List.mem_cons_of_mem _ h1, h2⟩
    · rintro (h | ⟨p, -, h⟩) <;> simp [noDefs] at h
    · rintro (h | ⟨p, -, h⟩) <;> simp [twoFilesDefs] at h
  have hR : ∀ k s, ¬ wholeRegexps noDefs (Includes bangLoad "." bangOne) [] k s := by
    rintro k s (h | ⟨p, -, h⟩) <;> simp [noDefs] at h
  have hdoc : ∀ A ts, docSource bangWorld.find (wholeRegexps noDefs (Includes bangLoad "." bangOne) []) bangDoc A ts →
      A = "word" ∧ ∃ t ∈ bangDoc.tokens, ts = [tokenTerm t] := by
    intro A ts h
    have htok : ∀ t ∈ bangDoc.tokens, t.type = .word := by decide
    cases h with
    | word h1 h2 => exact ⟨rfl, _, h1, rfl⟩
    | tag h1 => cases h1
    | regexp h1 => exact absurd h1 (hR _ _)
    | punct h1 h2 => rw [htok _ h1] at h2; cases h2
    | symbol h1 h2 => rw [htok _ h1] at h2; cases h2
    | letters h1 h2 => rw [htok _ h1] at h2; cases h2
  have hd : DocFit bangWorld (wholeRegexps noDefs (Includes bangLoad "." bangOne) []) bangDoc := by
    have this : ∀ A b, DocAlt bangWorld.find (wholeRegexps noDefs (Includes bangLoad "." bangOne) []) bangDoc A b →
        ∃ t ∈ bangDoc.tokens, b = ⟨[tokenTerm t], none⟩ := by
      intro A b h
      cases h with
      | word h => exact ⟨_, h, rfl⟩
      | punct h => exact ⟨_, h, rfl⟩
      | symbol h => exact ⟨_, h, rfl⟩
      | letters h => exact ⟨_, h, rfl⟩
      | tag h => cases h
      | values h => cases h
      | regexp h => exact absurd h (hR _ _)
    refine ⟨⟨?_, by decide, by decide⟩, (by intro sp h; cases h), (by intro sp h; cases h), ?_, ?_,
      fun k s s' h => absurd h (hR k s)⟩
    · intro k t h
      match k, h with
      | 0, h => cases h; rfl
    · intro A b h e
      obtain ⟨t, ht, rfl⟩ := this _ _ h
      cases e
    · intro A b b' h h' e2
      obtain ⟨t, ht, rfl⟩ := this _ _ h
      obtain ⟨t', ht', rfl⟩ := this _ _ h'
      rw [List.mem_singleton.1 ht, List.mem_singleton.1 ht']
  have hwr : ∀ A b, wholeWritten [bangA, bangB] noDefs (Includes bangLoad "." bangOne) A b → (A = "a" ∨ A = "b") ∧
      (b = ⟨[⟨"y!", .terminal, .nil⟩], none⟩ ∨ b = ⟨[⟨"y", .terminal, .nil⟩], none⟩) := by
    rintro A b (⟨d, h1, -, rfl, h2⟩ | ⟨p, h, -⟩)
    · refine ⟨?_, bang_bodies d h1 b h2⟩
      simp only [List.mem_cons, List.not_mem_nil, or_false] at h1
      rcases h1 with rfl | rfl
      · exact .inl rfl
      · exact .inr rfl
    · exact absurd h (hno p)
  have hterm : ∀ A b, wholeWritten [bangA, bangB] noDefs (Includes bangLoad "." bangOne) A b → ∀ t ∈ b.terms,
      t.type = .terminal ∧ t.meta = .nil ∧ readTerm bangLoad.ref.annot t ≠ [] := by
    intro A b hb t ht
    rcases (hwr A b hb).2 with rfl | rfl <;> rw [List.mem_singleton.1 ht] <;> exact ⟨rfl, rfl, by decide +kernel⟩
  have hsolid : WholeSolid [bangA, bangB] noDefs (Includes bangLoad "." bangOne) bangLoad.ref.annot
      (docSource bangWorld.find (wholeRegexps noDefs (Includes bangLoad "." bangOne) []) bangDoc) := by
    refine ⟨?_, ?_, ?_⟩
    · rintro t ⟨-, A, b, hb, ht⟩
      exact (hterm A b hb t ht).2.2
    · intro A b hb t ht htt
      rw [(hterm A b hb t ht).1] at htt
      simp at htt
    · intro A h
      obtain ⟨-, t, -, e⟩ := hdoc A _ h
      cases e
  have hfit : WholeFit [bangA, bangB] noDefs (Includes bangLoad "." bangOne) bangLoad.ref (wholeSource [bangA, bangB] noDefs
      (Includes bangLoad "." bangOne) bangLoad.ref.annot
      (docSource bangWorld.find (wholeRegexps noDefs (Includes bangLoad "." bangOne) []) bangDoc)) ["a"] := by
    refine ⟨?_, fun ⟨p, h⟩ => absurd h (hno p), ?_⟩
    · rintro t t' ⟨-, A, b, hb, ht⟩ ⟨-, A', b', hb', ht'⟩ _
      rw [(hterm A b hb t ht).2.1, (hterm A' b' hb' t' ht').2.1]
    · have hsrc : ∀ A ts, wholeSource [bangA, bangB] noDefs (Includes bangLoad "." bangOne) bangLoad.ref.annot
          (docSource bangWorld.find (wholeRegexps noDefs (Includes bangLoad "." bangOne) []) bangDoc) A ts →
          (A = "a" ∨ A = "b" ∨ A = "word") ∧ ∀ t ∈ ts, t.type = .terminal := by
        intro A ts h
        rcases wholeSource_iff.1 h with ⟨b, hb, rfl⟩ | h
        · refine ⟨by rcases (hwr A b hb).1 with h | h <;> simp [h], fun t ht => ?_⟩
          obtain ⟨t0, h0, ht⟩ := List.mem_flatMap.1 ht
          rw [readTerm, if_pos (hterm A b hb t0 h0).1] at ht
          obtain ⟨a, -, rfl⟩ := List.mem_map.1 ht
          rfl
        · obtain ⟨rfl, t, -, rfl⟩ := hdoc A ts h
          refine ⟨by simp, fun t' ht' => ?_⟩
          rw [List.mem_singleton.1 ht']
          rfl
      intro A hA
      have : A = "a" ∨ A = "b" ∨ A = "word" := by
        rcases hA with (⟨ts, h⟩ | ⟨B, ts, h, t, ht, htt, rfl⟩) | h
        · exact (hsrc A ts h).1
        · have := (hsrc B ts h).2 t ht
          rw [this] at htt
          simp at htt
        · exact .inl (List.mem_singleton.1 h)
      unfold Reserved
      rcases this with rfl | rfl | rfl <;> decide
  have h := hall bangLoad bangLoad exampleLex_ok exampleLex_ok rfl noDefs twoFilesDefs _ _ [] [] _ _ ld ld' hl hl' hs bangWorld
    (fun _ _ _ _ _ => List.Perm.refl _) "" [121] ["a"] (by decide) bangDoc ⟨by decide, .plain rfl, _, List.mem_cons_self, by decide⟩
    hd _ rfl hfit ?_ (hsolid.safe ?_ _) 60 ns ns' hp hp'
  · rw [List.length_eq_zero_iff] at hlen
    rw [h.1 hlen] at hlen'
    cases hlen'
  · intro A b A' b' hb hb' t ht t' ht' _
    rw [(hterm A b hb t ht).2.1, (hterm A' b' hb' t' ht').2.1]
  · intro A b hb
    rcases (hwr A b hb).2 with rfl | rfl <;> simp

end Fmr
