import Verif.Proofs.LoadReach
import Verif.Proofs.LexerDiv
import Verif.Props.LexerWitness

/-!
# Loading of grammars: C27, C33
-/

namespace Fmr

/-! ## C27 loading terminates -/

/-- The full statement: with finitely many readable files, loading any text returns a grammar (possibly nil)
or an error. -/
def C27_statement : Prop :=
  ∀ (w : LoadWorld), w.lex.OK → ∀ F : List String, (∀ p, w.read p ≠ none → p ∈ F) →
    ∀ (text : List Char) (name : String) (reg : Registry), ∃ N r, (r = .err ∨ ∃ x, r = .ok x) ∧
      ∀ fuel depth, N ≤ fuel → N ≤ depth → loadString w fuel depth text name reg = r

theorem done_iff {α : Type} {r : Out α} : Done r ↔ r = .err ∨ ∃ x, r = .ok x := by
  cases r <;> simp [Done]

/-- Proved if no text contains U+FFFD (also the decoding of invalid UTF-8) and every line comment ends with a
newline. -/
theorem C27_partial {w : LoadWorld} (hw : w.lex.OK) {F : List String} (hF : ∀ p, w.read p ≠ none → p ∈ F)
    (hread : ∀ p t, w.read p = some t → TextOK t) {text : List Char} (ht : TextOK text) (name : String) (reg : Registry) :
    ∃ N r, (r = .err ∨ ∃ x, r = .ok x) ∧
      ∀ fuel depth, N ≤ fuel → N ≤ depth → loadString w fuel depth text name reg = r := by
  obtain ⟨N, r, hr, hN⟩ := ev_fromString hw hF hread _ text name "." { reg := reg } ht (Nat.le_refl _)
  exact ⟨N, r, done_iff.mp hr, fun a b ha hb => hN a b N ha hb (Nat.le_refl _)⟩

/-- a text that ends with a newline is fine -/
theorem textOK_newline {l : List Char} (h : runeError ∉ l) : TextOK (l ++ ['\n']) := by
  refine ⟨by simp [h]; decide, fun t ht => ?_⟩
  obtain ⟨a, ha⟩ := ht
  rcases List.eq_nil_or_concat t with rfl | ⟨t, c, rfl⟩
  · have h1 : (a ++ ['/', '/']).getLast? = (l ++ ['\n']).getLast? := by rw [ha]
    simp at h1
  · have h1 : (a ++ '/' :: '/' :: t.concat c).getLast? = (l ++ ['\n']).getLast? := by rw [ha]
    simp [List.getLast?_append, List.getLast?_cons] at h1
    simp [h1]

/-- False for every grammar text without includes that ends in a line comment without a newline: loading it
never ends. -/
theorem C27_false {w : LoadWorld} (hw : w.lex.OK) {d b : List Char} {ds : List Def} {ρ : List (String × String)}
    (h : DefsSyn w.lex d ds [] ρ) (hk : ∀ e ∈ ds, ∃ kb, keyed w.lex e.bodies = some kb) (hb : '\n' ∉ b)
    (hg : runeError ∉ d ++ '/' :: '/' :: b) (name : String) (reg : Registry) (fuel depth : Nat) :
    loadString w fuel depth (d ++ '/' :: '/' :: b) name reg = .div := by
  unfold loadString fromString
  rw [if_neg (by simp [LoadSt.count])]
  unfold grammarText
  cases fuel with
  | zero => rfl
  | succ fuel =>
    rw [directives_succ]
    rcases div_text hg hw h hk hb (n := fuel + 1) (name := name) (s := { pos := 0, width := 0 }) ⟨by simp, rfl⟩ with e | ⟨s', e, e2⟩
    · rw [e]; rfl
    · rw [e]
      show (grammarRules w.lex _ (fuel + 1) name s' >>= _) >>= _ = _
      rw [e2]
      rfl

/-- a world without files -/
def noFiles (lw : LexWorld) : LoadWorld :=
  { lex := lw, ref := { annot := fun _ => some [], ascii := id, hash := fun _ => some 0 },
    idx := { trim := id, update := fun _ _ => true }, read := fun _ => none, dir := fun _ => none, join := fun a b => a ++ b }

theorem bind_div {α β : Type} {x : P α} {f : α → P β} {s : PSt} (h : x s = .div) : (x >>= f) s = .div := by
  show (match x s with | .ok (a, s) => f a s | .err => .err | .panic => .panic | .div => .div) = _
  rw [h]

theorem bind_ok {α β : Type} {x : P α} {f : α → P β} {s s' : PSt} {a : α} (h : x s = .ok (a, s')) (h2 : f a s' = .div) :
    (x >>= f) s = .div := by
  show (match x s with | .ok (a, s) => f a s | .err => .err | .panic => .panic | .div => .div) = _
  rw [h]
  exact h2

/-- `<a>="x"` followed by U+FFFD, or by invalid UTF-8 -/
def unknownText : List Char := ['<', 'a', '>', '=', '"', 'x', '"', runeError]

theorem unknown_loop (k n : Nat) : ruleBodyLoop asciiLex unknownText (k + 20) n { pos := 6, width := 1 } = .div := by
  induction n with
  | zero => rfl
  | succ n ih =>
    unfold ruleBodyLoop
    refine bind_ok (a := ()) (s' := { pos := 6, width := 1 }) rfl ?_
    refine bind_ok (a := some '"') (s' := { pos := 6, width := 1 }) rfl ?_
    rw [if_pos (by decide)]
    refine bind_ok (a := ⟨"", .terminal, .nil⟩) (s' := { pos := 7, width := 1 }) rfl ?_
    refine bind_ok (a := ()) (s' := { pos := 6, width := 1 }) rfl ?_
    exact bind_div ih

theorem unknown_rules (n : Nat) (name : String) :
    grammarRules asciiLex unknownText n name { pos := 0, width := 1 } = .div := by
  have key : ∀ k, grammarRules asciiLex unknownText (k + 20) name { pos := 0, width := 1 } = .div := by
    intro k
    unfold grammarRules
    refine bind_div ?_
    show rulesLoop asciiLex unknownText (k + 20) (k + 19 + 1) ([], []) _ = .div
    unfold rulesLoop
    refine bind_ok (a := ()) (s' := { pos := 0, width := 1 }) rfl ?_
    refine bind_ok (a := some '<') (s' := { pos := 0, width := 1 }) rfl ?_
    rw [if_pos (by decide)]
    refine bind_div ?_
    unfold rule
    refine bind_ok (a := "a") (s' := { pos := 3, width := 1 }) rfl ?_
    refine bind_ok (a := ()) (s' := { pos := 3, width := 1 }) rfl ?_
    refine bind_ok (a := ()) (s' := { pos := 4, width := 1 }) rfl ?_
    refine bind_ok (a := ()) (s' := { pos := 4, width := 1 }) rfl ?_
    refine bind_div ?_
    unfold ruleBodies
    refine bind_div ?_
    unfold ruleBody
    refine bind_ok (a := ⟨"x", .terminal, .nil⟩) (s' := { pos := 7, width := 1 }) rfl ?_
    refine bind_ok (a := ()) (s' := { pos := 6, width := 1 }) rfl ?_
    exact bind_div (unknown_loop k _)
  refine Classical.byContradiction fun h => h ?_
  rw [← le_grammarRules asciiLex unknownText (Nat.le_add_right n 20) { pos := 0, width := 1 } h]
  exact key n

/-- Also false for a text with U+FFFD after a literal: `backup` after the failed `next` goes back over the
quote, which then starts another literal, without end. -/
theorem C27_false_unknown (name : String) (reg : Registry) (fuel depth : Nat) :
    loadString (noFiles asciiLex) fuel depth unknownText name reg = .div := by
  unfold loadString fromString
  rw [if_neg (by simp [LoadSt.count])]
  unfold grammarText
  cases fuel with
  | zero => rfl
  | succ fuel =>
    rw [directives_succ]
    by_cases hd : directive asciiLex unknownText (fuel + 1) { pos := 0, width := 0 } = .div
    · show (((directive asciiLex unknownText (fuel + 1) { pos := 0, width := 0 } >>= _) >>= _) >>= _) = _
      rw [hd]
      rfl
    · have h2 := le_directive asciiLex unknownText (Nat.le_add_right (fuel + 1) 20) { pos := 0, width := 0 } hd
      have h3 : directive asciiLex unknownText (fuel + 1 + 20) { pos := 0, width := 0 } = .ok (none, { pos := 0, width := 1 }) := rfl
      rw [h3] at h2
      show (((directive asciiLex unknownText (fuel + 1) { pos := 0, width := 0 } >>= _) >>= _) >>= _) = _
      rw [← h2]
      show (grammarRules asciiLex unknownText (fuel + 1) name { pos := 0, width := 1 } >>= _) >>= _ = _
      rw [unknown_rules]
      rfl

theorem C27_statement_false : ¬ C27_statement := by
  intro h
  obtain ⟨N, r, hr, hN⟩ := h (noFiles asciiLex) asciiLex_ok [] (fun p hp => absurd rfl hp) "//".toList "g" []
  have h1 := hN N N (Nat.le_refl _) (Nat.le_refl _)
  have h2 := C27_false (w := noFiles asciiLex) asciiLex_ok (d := []) (b := []) (.nil (ρ := []) Gap.nil) (by simp) (by simp)
    (by decide) "g" [] N N
  rw [show ([] ++ '/' :: '/' :: [] : List Char) = "//".toList from by simp, h1] at h2
  subst h2
  rcases hr with hr | ⟨x, hr⟩ <;> cases hr

/-! ## C33 includes -/

/-- Loading a file terminates for every include graph. -/
theorem C33_terminates_partial {w : LoadWorld} (hw : w.lex.OK) {F : List String} (hF : ∀ p, w.read p ≠ none → p ∈ F)
    (hread : ∀ p t, w.read p = some t → TextOK t) (file : String) (reg : Registry) :
    ∃ N r, (r = .err ∨ ∃ x, r = .ok x) ∧
      ∀ fuel depth, N ≤ fuel → N ≤ depth → loadFile w fuel depth file reg = r := by
  unfold loadFile
  cases hr : w.read file with
  | none => exact ⟨0, .err, .inl rfl, fun _ _ _ _ => rfl⟩
  | some t =>
    cases hd : w.dir file with
    | none => exact ⟨0, .err, .inl rfl, fun _ _ _ _ => rfl⟩
    | some dir =>
      obtain ⟨N, r, hr, hN⟩ := ev_fromString hw hF hread _ t file dir { files := [(file, 1)], reg := reg } (hread _ _ hr)
        (Nat.le_refl _)
      exact ⟨N, r, done_iff.mp hr, fun a b ha hb => hN a b N ha hb (Nat.le_refl _)⟩

/-- the regexps of the grammars are in the table of the first -/
def RegexpsShared (md5 : String → String) (g : Gram) : Prop :=
  ∀ ig ∈ g.includes, ∀ e ∈ ig.regexps, e.1 = md5 e.2 ∧ ∃ v, (e.1, v) ∈ g.main.regexps ∧ md5 v = md5 e.2

theorem LoadedOK.shared {w : LoadWorld} {ld : Loaded} (h : LoadedOK w ld) : RegexpsShared w.lex.md5 ld.gram := by
  intro ig hig e he
  obtain ⟨h1, h2⟩ := h.keys ig hig
  have he1 := (h1.2 e he).1
  refine ⟨he1, ?_⟩
  obtain ⟨v, hv⟩ := Option.isSome_iff_exists.mp (h2 e he)
  have hm := mem_of_lookup hv
  exact ⟨v, hm, by rw [← he1]; exact (h.wf.2 _ hm).1.symm⟩

/-- Without collisions of MD5 every regexp of an included file is in the table of the root. -/
theorem C33_regexps {md5 : String → String} (hinj : ∀ a b, md5 a = md5 b → a = b) {g : Gram}
    (h : RegexpsShared md5 g) {ig : Grammar} (hig : ig ∈ g.includes) {e : String × String} (he : e ∈ ig.regexps) :
    e ∈ g.main.regexps := by
  obtain ⟨-, v, hv, hm⟩ := h ig hig e he
  rw [hinj _ _ hm] at hv
  exact hv

/-- A load from a string: each included file is read once, in the order of the list of includes; the list has
exactly the files reachable by include directives. -/
theorem C33_string {w : LoadWorld} (hw : w.lex.OK) {fuel depth : Nat} {text : List Char} (hg : runeError ∉ text)
    (hread : ∀ p t, Includes w "." text p → w.read p = some t → runeError ∉ t) {name : String} {reg : Registry} {o : Option Loaded} {st : LoadSt}
    (h : loadString w fuel depth text name reg = .ok (o, st)) :
    ∃ ld, o = some ld ∧ ld.gram.main.name = name ∧ st.log = ld.gram.includes.map (·.name) ∧ st.log.Nodup ∧
      (∀ p, p ∈ ld.gram.includes.map (·.name) ↔ Includes w "." text p) ∧ RegexpsShared w.lex.md5 ld.gram := by
  unfold loadString at h
  cases o with
  | none =>
    unfold fromString at h
    rw [if_neg (by simp [LoadSt.count])] at h
    obtain ⟨⟨ld', st1⟩, h1, h2⟩ := Out.bind_eq_ok.mp h
    cases h2
  | some ld =>
    obtain ⟨hok, hname, st1, rfl, hv, ht⟩ := visited_fromString hw (root := none) (visited_fromFile hw
      ⟨hread, fun _ _ _ _ h1 h2 h3 h4 => .step h1 h2 h3 h4⟩ depth) hg (fun f hf => .direct hf) h
    have hk := hv.known (fun q hq => by simp [LoadSt.count] at hq)
    have hlog : st1.log = ld.gram.includes.map (·.name) := hv.log
    have ho := hv.once [] ⟨List.nodup_nil, by simp⟩
    refine ⟨ld, rfl, hname, hlog, ho.1, fun p => ⟨fun hp => ?_, fun hp => ?_⟩, hok.shared⟩
    · obtain ⟨g, hg, rfl⟩ := List.mem_map.mp hp
      exact hv.reach g hg
    · rw [← hlog]
      induction hp with
      | direct hf => exact (hk _ (ht _ hf)).resolve_right (by simp)
      | step _ hr hd hf ih =>
        rw [hlog] at ih
        obtain ⟨g, hg, rfl⟩ := List.mem_map.mp ih
        exact (hk _ (hv.closed g hg _ _ hr hd _ hf)).resolve_right (by simp)

/-- A load from a file; the root file itself is not included again under its own name. -/
theorem C33_file {w : LoadWorld} (hw : w.lex.OK) {fuel depth : Nat} {file : String}
    (hg : ∀ t, w.read file = some t → runeError ∉ t)
    (hread : ∀ text dir, w.read file = some text → w.dir file = some dir →
      ∀ p t, Includes w dir text p → w.read p = some t → runeError ∉ t) {reg : Registry} {o : Option Loaded} {st : LoadSt}
    (h : loadFile w fuel depth file reg = .ok (o, st)) :
    ∃ ld text dir, w.read file = some text ∧ w.dir file = some dir ∧ o = some ld ∧ ld.gram.main.name = file ∧
      st.log = ld.gram.includes.map (·.name) ∧ (file :: st.log).Nodup ∧
      (∀ p, p ∈ ld.gram.includes.map (·.name) ↔ Includes w dir text p ∧ p ≠ file) ∧
      RegexpsShared w.lex.md5 ld.gram := by
  unfold loadFile at h
  split at h
  · cases h
  rename_i text hr
  split at h
  · cases h
  rename_i dir hd
  have hc0 : ∀ q, ({ files := [(file, 1)], reg := reg } : LoadSt).count q = if q = file then 1 else 0 := by
    intro q
    by_cases hq : q = file
    · subst hq
      simp [LoadSt.count]
    · have hb : (q == file) = false := by simpa using hq
      simp [LoadSt.count, List.lookup, hq, hb]
  cases o with
  | none =>
    unfold fromString at h
    rw [if_neg (by rw [hc0]; split <;> omega)] at h
    obtain ⟨⟨ld', st1⟩, h1, h2⟩ := Out.bind_eq_ok.mp h
    cases h2
  | some ld =>
    obtain ⟨hok, hname, st1, rfl, hv, ht⟩ := visited_fromString hw (root := some file) (visited_fromFile hw
      ⟨hread text dir hr hd, fun _ _ _ _ h1 h2 h3 h4 => .step h1 h2 h3 h4⟩ depth) (hg _ hr) (fun f hf => .direct hf) h
    have hk := hv.known (fun q hq => by
      rw [hc0] at hq
      split at hq
      · subst_vars; exact .inr rfl
      · omega)
    have hlog : st1.log = ld.gram.includes.map (·.name) := hv.log
    have ho := (hv.once [file] ⟨by simp, fun q hq => by
      have hq : q = file := by simpa using hq
      rw [hc0, if_pos hq]⟩).1
    have hnot : file ∉ st1.log := (List.nodup_cons.mp ho).1
    have hmem : ∀ q, 1 ≤ st1.count q → q ≠ file → q ∈ st1.log := fun q hq hne =>
      (hk q hq).resolve_right fun e => hne (Option.some.inj e).symm
    refine ⟨ld, text, dir, hr, hd, rfl, hname, hlog, ho, fun p => ⟨fun hp => ⟨?_, ?_⟩, fun hp => ?_⟩, hok.shared⟩
    · obtain ⟨g, hg, rfl⟩ := List.mem_map.mp hp
      exact hv.reach g hg
    · rw [← hlog] at hp
      rintro rfl
      exact hnot hp
    · obtain ⟨hp, hne⟩ := hp
      rw [← hlog]
      have : ∀ p, Includes w dir text p → p = file ∨ p ∈ st1.log := by
        intro p hp
        induction hp with
        | direct hf =>
          refine Classical.or_iff_not_imp_left.mpr fun hne => hmem _ (ht _ hf) hne
        | step _ hr' hd' hf ih =>
          refine Classical.or_iff_not_imp_left.mpr fun hne => hmem _ ?_ hne
          rcases ih with rfl | ih
          · rw [hr] at hr'
            rw [hd] at hd'
            cases hr'
            cases hd'
            exact ht _ hf
          · rw [hlog] at ih
            obtain ⟨g, hg, rfl⟩ := List.mem_map.mp ih
            exact hv.closed g hg _ _ hr' hd' _ hf
      exact (this p hp).resolve_left hne

/-! ### examples -/

/-- two files that include each other, one of them with a regexp -/
def cyclicFiles : LoadWorld := { noFiles asciiLex with
  read := fun p => if p = "./b" then some "#include \"c\"\n<b>=`r`;\n".toList
    else if p = "./c" then some "#include \"b\"\n<c>=\"y\";\n".toList else none
  dir := fun _ => some "."
  join := fun a b => a ++ "/" ++ b }

/-- C33, C27: the cycle is loaded, each file once; the regexp arrives at the root -/
example : (match loadString cyclicFiles 60 5 "#include \"b\"\n#include \"c\"\n<a>=<b>;\n".toList "g" [] with
    | .ok (some ld, st) => decide (st.log = ["./b", "./c"] ∧ ld.gram.includes.map (·.name) = ["./b", "./c"] ∧
        ld.gram.main.regexps = [("r", "r")])
    | _ => false) = true := by decide +kernel

/-- C33: a file that includes itself through another one -/
example : (match loadFile cyclicFiles 60 5 "./b" [] with
    | .ok (some ld, st) => decide (st.log = ["./c"] ∧ ld.gram.includes.map (·.name) = ["./c"])
    | _ => false) = true := by decide +kernel

/-- C27: the assumptions of `C27_partial` and `C33_string` hold of it -/
example : (∀ p, cyclicFiles.read p ≠ none → p ∈ ["./b", "./c"]) ∧ ∀ p t, cyclicFiles.read p = some t → TextOK t := by
  refine ⟨fun p hp => ?_, fun p t h => ?_⟩
  · simp only [cyclicFiles] at hp
    split at hp
    · simp_all
    · split at hp
      · simp_all
      · exact absurd rfl hp
  · simp only [cyclicFiles] at h
    split at h
    · rw [← Option.some.inj h]
      exact textOK_newline (l := "#include \"c\"\n<b>=`r`;".toList) (by decide)
    · split at h
      · rw [← Option.some.inj h]
        exact textOK_newline (l := "#include \"b\"\n<c>=\"y\";".toList) (by decide)
      · cases h

/-- C33: an included file -/
example : Includes cyclicFiles "." "#include \"b\"\n".toList "./b" := by
  have hs : Spaces asciiLex [] := by simp [Spaces]
  have hb : Spaces asciiLex [' '] := by intro c hc; rw [List.mem_singleton] at hc; subst hc; decide
  have : IncludeSyn asciiLex ([] ++ '#' :: ([] ++ ("include".toList ++ ([' '] ++ ('"' :: ([] ++ (['b'] ++ ['"']))))))) (String.ofList ['b']) :=
    .mk Gap.nil hs hb (.plain hs (.plain (by decide) (by decide) .nil)
      (fun c hc => by cases hc; exact ⟨show asciiLex.isSpace 'b' = false by decide, by decide⟩))
  have h1 := Includes.direct (w := cyclicFiles) (dir := ".") (target_cons (w := cyclicFiles) (l := ['\n']) this)
  exact h1

end Fmr
