import Verif.Proofs.Accept
import Verif.Proofs.Unique
import Verif.Props.TextTrees
import Verif.Props.WholeWitness

/-!
# C79, C80: which grammar files can be loaded, and that they can be read in one way

A grammar loads exactly if its text and the texts of all files that it includes, directly or through other files,
are in the documented syntax, its literals can be split into tokens and the included files can be read; and a text in
the syntax has one list of definitions.
-/

namespace Fmr

/-! ## C80 -/

/-- C80: the definitions, the regexps and the included files of a text are determined by the text. -/
theorem C80_unique {w : LexWorld} (hw : w.OK) {t : List Char} (hg : runeError ∉ t) {ds ds' : List Def}
    {ρ ρ' : List (String × String)} (h : FileSyn w t ds ρ) (h' : FileSyn w t ds' ρ') :
    ds = ds' ∧ ρ = ρ' :=
  h.det hw h' rfl hg

/-- C80: the text starts with directives to finitely many files. -/
theorem C80_targets {w : LexWorld} (hw : w.OK) {t : List Char} (hg : runeError ∉ t) {ds : List Def}
    {ρ : List (String × String)} (h : FileSyn w t ds ρ) : ∃ fs : List String, ∀ f, Target w t f ↔ f ∈ fs :=
  h.header hw hg

/-- C80: what the included files say is determined by their texts. -/
theorem C80_files {w : LoadWorld} (hw : w.lex.OK) {I : String → Prop} {F F' : Files} (h : FilesRead w F I)
    (h' : FilesRead w F' I) {q : String} (hq : I q) (hr : w.read q ≠ none) :
    F.defs q = F'.defs q ∧ F.regexps q = F'.regexps q := by
  obtain ⟨t, ht⟩ := Option.ne_none_iff_exists'.1 hr
  obtain ⟨hg, h1⟩ := h.read q t hq ht
  exact h1.det hw (h'.read q t hq ht).2 rfl hg

example : ∀ ds ρ, FileSyn exampleLex twoText ds ρ → ds = twoDefs ∧ ρ = [] := fun _ _ h =>
  C80_unique exampleLex_ok (by decide) h two_file

/-! ## C79 -/

theorem TextTaken.loads {w : LoadWorld} {t : List Char} (h : TextTaken w t) (ha : HashesApart w.lex t) : TextLoads w t := by
  obtain ⟨ds, ρ, h1, h2, h3⟩ := h
  exact ⟨ds, ρ, h1, h2, h3 ⟨h2, ha ds ρ h1⟩⟩

section
variable {w : LoadWorld} (hw : w.lex.OK) {dir : String} {text : List Char} (hfit : LoadFit w dir text)
include hw hfit

theorem accepted_of {fuel depth : Nat} {name : String} {st st' : LoadSt} {ld : Loaded}
    (h : fromString w (fromFile w fuel depth) fuel text name dir st = .ok (some ld, st')) (hlog : st.log = [])
    (hall : ∀ p, Includes w dir text p →
      p ∈ st'.log ∨ ∃ t, w.read p = some t ∧ w.dir p ≠ none ∧ (TextLoads w text → TextLoads w t)) :
    TextsLoad w dir text := by
  obtain ⟨k1, k2⟩ := taken_fromString (G := Includes w dir text) hw
    (fun p st o st' hp h => (taken_fromFile (G := Includes w dir text) hw (fun q t hq hr => (hfit.included q t hq hr).1)
      (fun _ _ _ _ h1 h2 h3 h4 => .step h1 h2 h3 h4) depth p st o st' hp h).1)
    (fun p st ld st' hp h => (taken_fromFile (G := Includes w dir text) hw (fun q t hq hr => (hfit.included q t hq hr).1)
      (fun _ _ _ _ h1 h2 h3 h4 => .step h1 h2 h3 h4) depth p st _ st' hp h).2 ld rfl)
    hfit.main.1 (fun f hf => .direct hf) h
  have hm := (k2 ld rfl).1.loads hfit.main.2
  refine ⟨hm, fun p hp => ?_⟩
  rcases hall p hp with hl | ⟨t, h1, h2, h3⟩
  · rcases k1 p hl with hl | ⟨t, h1, h2, h3⟩
    · rw [hlog] at hl
      cases hl
    · exact ⟨t, h1, h2, h3.loads (hfit.included p t hp h1).2⟩
  · exact ⟨t, h1, h2, h3 hm⟩

theorem loads_of (h : TextsLoad w dir text) {name : String} {st : LoadSt} (h2 : ¬ 2 ≤ st.count name) :
    ∃ N ld st', ∀ fuel depth, N ≤ fuel → N ≤ depth →
      fromString w (fromFile w fuel depth) fuel text name dir st = .ok (some ld, st') := by
  obtain ⟨F, hF⟩ := hfit.finite
  obtain ⟨ds, ρ, h3, h4, h5⟩ := h.main
  refine ok_string (G := Includes w dir text) hw hfit.update hfit.hash hF ?_ (fun _ _ _ _ h1 h2 h3 h4 => .step h1 h2 h3 h4)
    hfit.main.1 h3 ⟨h4, hfit.main.2 ds ρ h3⟩ h5 (fun f hf => .direct hf) h2
  intro p hp
  obtain ⟨t, hr, hd, ds, ρ, h3, h4, h5⟩ := h.included p hp
  obtain ⟨d, hd⟩ := Option.ne_none_iff_exists'.1 hd
  obtain ⟨hg, ha⟩ := hfit.included p t hp hr
  exact ⟨t, d, hr, hd, hg, ds, ρ, h3, ⟨h4, ha ds ρ h3⟩, h5⟩

end

section
variable {w : LoadWorld} (hw : w.lex.OK)
include hw

/-- C79: a text that is loaded is in the syntax, as are all the files that it includes, and these can be read. -/
theorem C79_accepted {text : List Char} (hfit : LoadFit w "." text) {fuel depth : Nat} {name : String} {reg : Registry}
    {x : Option Loaded × LoadSt} (h : loadString w fuel depth text name reg = .ok x) : TextsLoad w "." text := by
  obtain ⟨o, st⟩ := x
  obtain ⟨ld, rfl, -, h1, -, h2, -⟩ := C33_string hw hfit.main.1 (fun p t hp hr => (hfit.included p t hp hr).1) h
  exact accepted_of hw hfit h rfl fun p hp => .inl (h1 ▸ (h2 p).2 hp)

/-- C79: and every such text is loaded. -/
theorem C79_loads {text : List Char} (hfit : LoadFit w "." text) (h : TextsLoad w "." text) (name : String) (reg : Registry) :
    ∃ N ld st, ∀ fuel depth, N ≤ fuel → N ≤ depth → loadString w fuel depth text name reg = .ok (some ld, st) :=
  loads_of hw hfit h (by simp [LoadSt.count])

/-- C79: a file that is loaded. -/
theorem C79_accepted_file {file dir : String} {text : List Char} (hr : w.read file = some text) (hd : w.dir file = some dir)
    (hfit : LoadFit w dir text) {fuel depth : Nat} {reg : Registry} {x : Option Loaded × LoadSt}
    (h : loadFile w fuel depth file reg = .ok x) : TextsLoad w dir text := by
  obtain ⟨o, st⟩ := x
  obtain ⟨ld, text', dir', hr', hd', rfl, -, h1, -, h2, -⟩ := C33_file hw
    (fun t ht => by rw [hr] at ht; cases ht; exact hfit.main.1)
    (fun text' dir' ht hd' p t hp hpt => by
      rw [hr] at ht
      rw [hd] at hd'
      cases ht
      cases hd'
      exact (hfit.included p t hp hpt).1) h
  rw [hr] at hr'
  rw [hd] at hd'
  cases hr'
  cases hd'
  unfold loadFile at h
  rw [hr] at h
  simp only [hd] at h
  refine accepted_of hw hfit h rfl fun p hp => ?_
  by_cases e : p = file
  · subst e
    exact .inr ⟨text, hr, by simp [hd], id⟩
  · exact .inl (h1 ▸ (h2 p).2 ⟨hp, e⟩)

/-- C79: and every such file is loaded. -/
theorem C79_loads_file {file dir : String} {text : List Char} (hr : w.read file = some text) (hd : w.dir file = some dir)
    (hfit : LoadFit w dir text) (h : TextsLoad w dir text) (reg : Registry) :
    ∃ N ld st, ∀ fuel depth, N ≤ fuel → N ≤ depth → loadFile w fuel depth file reg = .ok (some ld, st) := by
  unfold loadFile
  rw [hr]
  simp only [hd]
  exact loads_of hw hfit h (by simp [LoadSt.count])

/-- C79: a grammar loads exactly if everything that is written in it and in the files that it includes is in the
documented syntax. -/
theorem C79_partial {text : List Char} (hfit : LoadFit w "." text) (name : String) (reg : Registry) :
    (∃ fuel depth x, loadString w fuel depth text name reg = .ok x) ↔ TextsLoad w "." text := by
  refine ⟨fun ⟨_, _, _, h⟩ => C79_accepted hw hfit h, fun h => ?_⟩
  obtain ⟨N, ld, st, hN⟩ := C79_loads hw hfit h name reg
  exact ⟨N, N, _, hN N N (Nat.le_refl _) (Nat.le_refl _)⟩

/-- C79, for a file. -/
theorem C79_file_partial {file dir : String} {text : List Char} (hr : w.read file = some text) (hd : w.dir file = some dir)
    (hfit : LoadFit w dir text) (reg : Registry) :
    (∃ fuel depth x, loadFile w fuel depth file reg = .ok x) ↔ TextsLoad w dir text := by
  refine ⟨fun ⟨_, _, _, h⟩ => C79_accepted_file hw hr hd hfit h, fun h => ?_⟩
  obtain ⟨N, ld, st, hN⟩ := C79_loads_file hw hr hd hfit h reg
  exact ⟨N, N, _, hN N N (Nat.le_refl _) (Nat.le_refl _)⟩

/-- C79: if moreover no text ends inside a `//` comment, every other grammar is rejected with an error. -/
theorem C79_rejected_partial {text : List Char} (hfit : LoadFit w "." text) {F : List String} (hF : ∀ p, w.read p ≠ none → p ∈ F)
    (hread : ∀ p t, w.read p = some t → TextOK t) (ht : TextOK text) (h : ¬ TextsLoad w "." text) (name : String)
    (reg : Registry) :
    ∃ N, ∀ fuel depth, N ≤ fuel → N ≤ depth → loadString w fuel depth text name reg = .err := by
  obtain ⟨N, r, hr, hN⟩ := C27_partial hw hF hread ht name reg
  rcases hr with rfl | ⟨x, rfl⟩
  · exact ⟨N, hN⟩
  · exact absurd (C79_accepted hw hfit (hN N N (Nat.le_refl _) (Nat.le_refl _))) h

/-- what the files of a grammar say, if they are in the syntax -/
theorem exists_files {dir : String} {text : List Char} (hfit : LoadFit w dir text) (h : TextsLoad w dir text) (I : String → Prop)
    (hI : ∀ p, I p → ∃ t, w.read p = some t ∧ runeError ∉ t ∧ HashesApart w.lex t ∧ TextLoads w t) :
    ∃ F, FilesRead w F I := by
  have key : ∀ p, ∃ x : List Def × List (String × String), I p → ∀ t, w.read p = some t →
      FileSyn w.lex t x.1 x.2 ∧ NoCollision w.lex.hash x.1 := by
    intro p
    by_cases hp : I p
    · obtain ⟨t, hr, hg, ha, ds, ρ, h1, h2, -⟩ := hI p hp
      refine ⟨(ds, ρ), fun _ t' hr' => ?_⟩
      rw [hr] at hr'
      cases hr'
      exact ⟨h1, h2, ha ds ρ h1⟩
    · exact ⟨([], []), fun h => absurd h hp⟩
  choose x hx using key
  refine ⟨⟨fun p => (x p).1, fun p => (x p).2⟩, fun q t hq hr => ?_, fun q hq => ?_⟩
  · obtain ⟨t', hr', hg, -⟩ := hI q hq
    rw [hr] at hr'
    cases hr'
    exact ⟨hg, (hx q hq t hr).1⟩
  · obtain ⟨t', hr', -⟩ := hI q hq
    exact (hx q hq t' hr').2

/-- Every grammar that is loaded has definitions: C73 to C78 say what it does. -/
theorem C79_loaded {text : List Char} (hfit : LoadFit w "." text) {fuel depth : Nat} {name : String} {reg : Registry}
    {ld : Loaded} {st : LoadSt} (h : loadString w fuel depth text name reg = .ok (some ld, st)) :
    ∃ F ds ρ, LoadedFrom w F ds ρ (Includes w "." text) ld := by
  have hs := C79_accepted hw hfit h
  obtain ⟨F, hF⟩ := exists_files hw hfit hs (Includes w "." text) fun p hp => by
    obtain ⟨t, h1, -, h2⟩ := hs.included p hp
    obtain ⟨h3, h4⟩ := hfit.included p t hp h1
    exact ⟨t, h1, h3, h4, h2⟩
  obtain ⟨ds, ρ, h1, h2, -⟩ := hs.main
  exact ⟨F, ds, ρ, .string hfit.main.1 h1 ⟨h2, hfit.main.2 ds ρ h1⟩ hF h⟩

/-- C79_loaded for a file. -/
theorem C79_loaded_file {file dir : String} {text : List Char} (hr : w.read file = some text) (hd : w.dir file = some dir)
    (hfit : LoadFit w dir text) {fuel depth : Nat} {reg : Registry} {ld : Loaded} {st : LoadSt}
    (h : loadFile w fuel depth file reg = .ok (some ld, st)) :
    ∃ F, LoadedFrom w F (F.defs file) (F.regexps file) (fun q => Includes w dir text q ∧ q ≠ file) ld := by
  have hs := C79_accepted_file hw hr hd hfit h
  obtain ⟨F, hF⟩ := exists_files hw hfit hs (fun q => q = file ∨ Includes w dir text q) fun p hp => by
    rcases hp with rfl | hp
    · exact ⟨text, hr, hfit.main.1, hfit.main.2, hs.main⟩
    · obtain ⟨t, h1, -, h2⟩ := hs.included p hp
      obtain ⟨h3, h4⟩ := hfit.included p t hp h1
      exact ⟨t, h1, h3, h4, h2⟩
  exact ⟨F, .file hr hd hF h⟩

end

/-! ### the restriction on U+FFFD is needed -/

/-- C79 without it. -/
def C79_statement : Prop :=
  ∀ (w : LoadWorld), w.lex.OK → (∀ t s, w.idx.update t s = true) → (∀ b, w.ref.hash b ≠ none) → ∀ text,
    (∃ F : List String, ∀ p, Includes w "." text p → p ∈ F) → ∀ name reg, HashesApart w.lex text →
    (∀ p t, Includes w "." text p → w.read p = some t → HashesApart w.lex t) →
    ((∃ fuel depth x, loadString w fuel depth text name reg = .ok x) ↔ TextsLoad w "." text)

/-- a comment that holds U+FFFD -/
def markText : List Char := ['/', '*', runeError, '*', '/']

theorem mark_not {c : Char} (h : c ∈ ['<', '[', '#']) : c ∉ markText := by
  revert c
  decide

theorem mark_syn {ds : List Def} {ρ : List (String × String)} {t : List Char} (ht : t = markText) (h : FileSyn asciiLex t ds ρ) :
    ds = [] := by
  cases h with
  | defs hd =>
    cases hd with
    | nil => rfl
    | @cons g l r d ds _ _ _ hg hd hds =>
      cases hd with
      | rule => exact absurd (by rw [← ht]; simp) (mark_not (c := '<') (by decide))
      | frame => exact absurd (by rw [← ht]; simp) (mark_not (c := '[') (by decide))
  | incl hi _ =>
    cases hi
    exact absurd (by rw [← ht]; simp) (mark_not (c := '#') (by decide))

theorem mark_header {fs : List String} {t : List Char} (ht : t = markText) (h : HeaderSyn asciiLex t fs) : fs = [] := by
  cases h with
  | nil => rfl
  | cons hi _ =>
    cases hi
    exact absurd (by rw [← ht]; simp) (mark_not (c := '#') (by decide))

theorem mark_includes {p : String} : ¬ Includes (noFiles asciiLex) "." markText p := by
  intro h
  induction h with
  | direct hf =>
    obtain ⟨fs, h1, h2⟩ := hf
    rw [mark_header rfl h1] at h2
    cases h2
  | step _ _ _ _ ih => exact ih

theorem mark_load (name : String) (reg : Registry) (fuel depth : Nat) (x : Option Loaded × LoadSt) :
    loadString (noFiles asciiLex) fuel depth markText name reg ≠ .ok x := by
  intro h
  unfold loadString fromString at h
  rw [if_neg (by simp [LoadSt.count])] at h
  obtain ⟨_, h, -⟩ := Out.bind_eq_ok.mp h
  unfold grammarText at h
  obtain ⟨_, h, -⟩ := Out.bind_eq_ok.mp h
  cases fuel with
  | zero => cases h
  | succ fuel =>
    rw [directives_succ] at h
    obtain ⟨_, h, -⟩ := Out.bind_eq_ok.mp h
    have h2 := le_directive asciiLex markText (Nat.le_add_right (fuel + 1) 20) { pos := 0, width := 0 }
      (by rw [show (noFiles asciiLex).lex = asciiLex from rfl] at h; rw [h]; simp)
    rw [show directive asciiLex markText (fuel + 1 + 20) { pos := 0, width := 0 } = .err from rfl] at h2
    rw [show (noFiles asciiLex).lex = asciiLex from rfl, ← h2] at h
    cases h

/-- C79 is false for texts with U+FFFD: a comment that holds it is rejected. -/
theorem C79_false : ¬ C79_statement := by
  intro h
  have hm : TextLoads (noFiles asciiLex) markText := by
    refine ⟨[], [], .defs (.nil (Gap.block (s := []) (b := [runeError]) (g := []) (by intro c hc; cases hc) ?_ Gap.nil)), ?_, ?_⟩
    · intro hi
      exact absurd hi.length_le (by decide)
    · intro d hd
      cases hd
    · rintro A b t ⟨d, hd, -⟩
      cases hd
  obtain ⟨f, d, x, hx⟩ := (h (noFiles asciiLex) asciiLex_ok (fun _ _ => rfl) (fun _ => by simp [noFiles]) markText
    ⟨[], fun p hp => absurd hp mark_includes⟩ "g" [] (fun ds ρ hs d hd => by rw [mark_syn rfl hs] at hd; cases hd)
    (fun p t hp => absurd hp mark_includes)).2 ⟨hm, fun p hp => absurd hp mark_includes⟩
  exact mark_load _ _ _ _ _ hx

/-! ### examples -/

theorem two_main : runeError ∉ twoText ∧ HashesApart twoFiles.lex twoText := by
  refine ⟨by decide, fun ds ρ h d hd b hb d' hd' b' hb' _ => ?_⟩
  obtain ⟨rfl, -⟩ := C80_unique exampleLex_ok (by decide) h two_file
  cases List.mem_singleton.1 hd
  cases List.mem_singleton.1 hd'
  rw [List.mem_singleton.1 hb, List.mem_singleton.1 hb']

theorem two_hash (b : RuleBody) : twoFiles.ref.hash b ≠ none := fun e => by cases e

/-- a grammar in two files: everything that is asked of it, and that it loads -/
theorem two_accept : LoadFit twoFiles "." twoText ∧ TextsLoad twoFiles "." twoText := by
  obtain ⟨ld, st, hload, hinc, -⟩ := two_load
  have hfit : LoadFit twoFiles "." twoText := by
    refine ⟨fun _ _ => rfl, fun b => two_hash b, ⟨["./b"], fun p hp => by rw [(hinc p).1 hp]; simp⟩, two_main,
      fun p t hp hr => ?_⟩
    cases (hinc p).1 hp
    rw [show twoFiles.read "./b" = some "<b>=\"y\";\n".toList from rfl] at hr
    cases hr
    refine ⟨by decide, fun ds ρ h d hd b hb d' hd' b' hb' _ => ?_⟩
    obtain ⟨rfl, -⟩ := C80_unique exampleLex_ok (by decide) h two_fileB
    cases List.mem_singleton.1 hd
    cases List.mem_singleton.1 hd'
    rw [List.mem_singleton.1 hb, List.mem_singleton.1 hb']
  exact ⟨hfit, C79_accepted exampleLex_ok hfit hload⟩

example : ∃ fuel depth x, loadString twoFiles fuel depth twoText "g" [] = .ok x :=
  (C79_partial exampleLex_ok two_accept.1 "g" []).2 two_accept.2

/-- a text that includes a file that is not there is not accepted -/
example : ¬ TextsLoad (noFiles exampleLex) "." twoText := by
  intro h
  have ht : Target exampleLex twoText "b" := ⟨["b"], .cons (t := "#include \"b\"".toList)
    (l := "\n<a>=<b> \"x\"(any{0,1});\n".toList)
    (.mk (g := []) (s1 := []) (s2 := [' ']) (l := ['"', 'b', '"']) (f := "") two_nogap (by intro c hc; cases hc)
      (by intro c hc; rw [List.mem_singleton.1 hc]; decide) (twoLit (by decide) (by decide) (by decide) (by decide))) .nil,
    by simp⟩
  obtain ⟨t, h1, -⟩ := h.included _ (.direct ht)
  cases h1

end Fmr
