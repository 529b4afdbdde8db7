import Verif.Proofs.BadFile
import Verif.Proofs.ShippedSheets
import Verif.Props.NumberZhWitness

/-!
# C83: the grammar files of the repository
-/

namespace Fmr

/-- the definitions of a file -/
def sheetDefs (w : LexWorld) (s : Sheet) : List Def := partsDefs w shippedFloats (s.file.parts.map String.toList)

section
variable {lw : LoadWorld} {place : String → String} (h : ReadsShipped lw place)
include h

theorem ReadsShipped.plain : PlainLex lw.lex shippedFloats := by
  refine ⟨h.ok, h.capitals, h.ints, fun s q hm => ?_⟩
  rcases List.mem_cons.1 hm with e | hm
  · cases e
    exact h.half
  · cases List.mem_singleton.1 hm
    exact h.percent

theorem ReadsShipped.text {f : ShippedFile} (hf : f ∈ anyFile :: goodFiles) : PlainText lw.lex f.text := by
  intro c hc hs
  rcases h.spaces f hf c hc hs with rfl | rfl | rfl <;> rfl

omit h in
theorem Sheet.good {s : Sheet} (hs : s ∈ sheets) : s.file ∈ goodFiles :=
  sheets_files ▸ List.mem_map_of_mem hs

theorem sheet_says {s : Sheet} (hs : s ∈ sheets) :
    ∃ ρ, Says lw.lex s.file.text s.includes s.names s.known (sheetDefs lw.lex s) ρ := by
  obtain ⟨ls, h1, h2, -⟩ := sheets_read s hs
  have := fileOK_sound h.plain (by
    have := h.regexp
    rwa [show ".(?:城|都)" = String.ofList theRegexp from rfl] at this) (ls := ls)
    (by rw [← h1.eq]; exact h.text (List.mem_cons_of_mem _ (Sheet.good hs))) h2
  rw [sheetDefs, ShippedFile.text, h1.eq]
  exact this

/-- the files that the repository has for the directives of a file -/
def Sheet.next (s : Sheet) : List Sheet := sheets.filter fun t => t.file.dir == s.file.dir && s.includes.contains t.file.name

def Sheet.reach : Nat → Sheet → List Sheet
  | 0, _ => []
  | n + 1, s => s.next ++ s.next.flatMap (Sheet.reach n)

omit h in
theorem sheets_complete : ∀ s ∈ sheets, ∀ f ∈ s.includes, ∃ t ∈ sheets, t.file.dir = s.file.dir ∧ t.file.name = f := by
  decide +kernel

omit h in
theorem sheets_known : ∀ s ∈ sheets, ∀ x ∈ s.known, x ∈ ["numeric", "digits", "letters"] ∨ ∃ t ∈ Sheet.reach 3 s, x ∈ t.names := by
  decide +kernel

/-- the path of a file -/
def Sheet.path (lw : LoadWorld) (place : String → String) (s : Sheet) : String := lw.join (place s.file.dir) s.file.name

theorem sheet_included {s : Sheet} (hs : s ∈ sheets) {p : String} (hp : Includes lw (place s.file.dir) s.file.text p) :
    ∃ t ∈ sheets, p = t.path lw place := by
  have one : ∀ {s : Sheet} {f : String}, s ∈ sheets → Target lw.lex s.file.text f →
      ∃ t ∈ sheets, lw.join (place s.file.dir) f = t.path lw place := by
    intro s f hs ht
    obtain ⟨ρ, k⟩ := sheet_says h hs
    obtain ⟨t, h1, h2, h3⟩ := sheets_complete s hs f (k.is.target h.ok k.clean ht)
    exact ⟨t, h1, by rw [Sheet.path, h2, h3]⟩
  induction hp with
  | direct ht => exact one hs ht
  | step _ hr hd ht ih =>
    obtain ⟨t, h1, rfl⟩ := ih
    rw [Sheet.path, h.read _ (List.mem_cons_of_mem _ (Sheet.good h1))] at hr
    rw [Sheet.path, h.dir _ (List.mem_cons_of_mem _ (Sheet.good h1))] at hd
    cases hr
    cases hd
    exact one h1 ht

theorem sheet_next {s t : Sheet} (hs : s ∈ sheets) (ht : t ∈ s.next) :
    t ∈ sheets ∧ Includes lw (place s.file.dir) s.file.text (t.path lw place) := by
  rw [Sheet.next, List.mem_filter, Bool.and_eq_true, beq_iff_eq, List.contains_iff_mem] at ht
  obtain ⟨h1, h2, h3⟩ := ht
  obtain ⟨ρ, k⟩ := sheet_says h hs
  rw [Sheet.path, h2]
  exact ⟨h1, .direct ⟨_, k.is.header, h3⟩⟩

theorem sheet_reach : ∀ {n : Nat} {s t : Sheet}, s ∈ sheets → t ∈ Sheet.reach n s →
    t ∈ sheets ∧ Includes lw (place s.file.dir) s.file.text (t.path lw place)
  | 0, _, _, _, ht => by cases ht
  | n + 1, s, t, hs, ht => by
    rw [Sheet.reach, List.mem_append, List.mem_flatMap] at ht
    rcases ht with ht | ⟨u, hu, ht⟩
    · exact sheet_next h hs ht
    · obtain ⟨h1, h2⟩ := sheet_next h hs hu
      obtain ⟨h3, h4⟩ := sheet_reach h1 ht
      have hg := List.mem_cons_of_mem anyFile (Sheet.good h1)
      exact ⟨h3, h2.trans (h.read _ hg) (h.dir _ hg) h4⟩

theorem sheet_loads {s : Sheet} (hs : s ∈ sheets) : TextLoads lw s.file.text := by
  obtain ⟨ρ, k⟩ := sheet_says h hs
  exact ⟨_, ρ, k.is.syn, fun _ _ b _ => h.hash b, fun _ _ _ _ _ _ => h.annot _⟩

theorem sheet_clean {s : Sheet} (hs : s ∈ sheets) : runeError ∉ s.file.text := by
  obtain ⟨ρ, k⟩ := sheet_says h hs
  exact k.clean

/-- C83: all grammar files of the repository but one can be loaded, -/
theorem C83_loads_partial {f : ShippedFile} (hf : f ∈ goodFiles) {file : String} (hr : lw.read file = some f.text)
    (hd : lw.dir file = some (place f.dir)) (reg : Registry) :
    ∃ N ld st, ∀ fuel depth, N ≤ fuel → N ≤ depth → loadFile lw fuel depth file reg = .ok (some ld, st) := by
  rw [← sheets_files] at hf
  obtain ⟨s, hs, rfl⟩ := List.mem_map.1 hf
  refine C79_loads_file h.ok hr hd ⟨h.update, h.termHash, ⟨sheets.map (Sheet.path lw place), fun p hp => ?_⟩,
    ⟨sheet_clean h hs, h.apart _ hf⟩, fun p t hp hpt => ?_⟩ ⟨sheet_loads h hs, fun p hp => ?_⟩ reg
  · obtain ⟨t, h1, rfl⟩ := sheet_included h hs hp
    exact List.mem_map_of_mem h1
  · obtain ⟨t, h1, rfl⟩ := sheet_included h hs hp
    rw [Sheet.path, h.read _ (List.mem_cons_of_mem _ (Sheet.good h1))] at hpt
    cases hpt
    exact ⟨sheet_clean h h1, h.apart _ (Sheet.good h1)⟩
  · obtain ⟨t, h1, rfl⟩ := sheet_included h hs hp
    have hg := List.mem_cons_of_mem anyFile (Sheet.good h1)
    exact ⟨_, h.read _ hg, by rw [Sheet.path, h.dir _ hg]; simp, sheet_loads h h1⟩

/-- C83: and their alternatives use only rules that they or the files they include define, regexps of their own, and
classes of tokens; and their functions refer only to terms that are there. -/
theorem C83_fits_partial {f : ShippedFile} (hf : f ∈ goodFiles) :
    (∃ ds ρ, FileSyn lw.lex f.text ds ρ) ∧
      ∀ ds ρ, FileSyn lw.lex f.text ds ρ → DefsFit (Usable lw (place f.dir) f.text) ds := by
  rw [← sheets_files] at hf
  obtain ⟨s, hs, rfl⟩ := List.mem_map.1 hf
  obtain ⟨ρ, k⟩ := sheet_says h hs
  refine ⟨⟨_, ρ, k.is.syn⟩, fun ds ρ' hf => ?_⟩
  obtain ⟨rfl, rfl⟩ := C80_unique h.ok k.clean k.is.syn hf
  refine k.fits.mono fun x hx => ?_
  rcases hx with hx | hx
  · rcases List.mem_append.1 hx with hx | hx
    · exact .own ⟨_, _, hf, k.defines x hx⟩
    · rcases sheets_known s hs x hx with hx | ⟨t, ht, hx⟩
      · exact .tagged hx
      · obtain ⟨h1, h2⟩ := sheet_reach h hs ht
        obtain ⟨ρ1, k1⟩ := sheet_says h h1
        exact .included h2 (h.read _ (List.mem_cons_of_mem _ (Sheet.good h1))) ⟨_, _, k1.is.syn, k1.defines x hx⟩
  · exact .regexp hf hx

omit h in
set_option maxRecDepth 100000 in
theorem any_chars : ∃ ls, PartsAre anyParts ls ∧ badDef shippedFloats 100 ls.flatten = true ∧ !ls.flatten.contains runeError :=
  ⟨_, .cons rfl <| .cons rfl <| .cons rfl <| .nil, by decide +kernel, by decide +kernel⟩

theorem any_syntax {ds : List Def} {ρ : List (String × String)} : ¬ FileSyn lw.lex anyFile.text ds ρ := by
  obtain ⟨ls, h1, h2, h3⟩ := any_chars
  have hp := h.text (f := anyFile) List.mem_cons_self
  have e : anyFile.text = ls.flatten := congrArg List.flatten h1.eq
  rw [e] at hp ⊢
  exact badDef_file h.plain hp (by simpa using h3) h2

omit h in
theorem any_clean : runeError ∉ anyFile.text := by
  obtain ⟨ls, h1, -, h3⟩ := any_chars
  rw [show anyFile.text = ls.flatten from congrArg List.flatten h1.eq]
  simpa using h3

theorem any_includes {dir p : String} : ¬ Includes lw dir anyFile.text p := by
  intro hi
  induction hi with
  | direct ht =>
    obtain ⟨ls, h1, h2, h3⟩ := any_chars
    have e : anyFile.text = ls.flatten := congrArg List.flatten h1.eq
    have hc := any_clean
    rw [e] at ht hc
    obtain ⟨fs, ht, hf⟩ := ht
    generalize e2 : ls.flatten = l at ht
    cases ht with
    | nil => cases hf
    | cons hi _ => exact badDef_include h.plain hc h2 hi e2
  | step _ _ _ _ ih => exact ih

/-- C83: examples/builtin/any.grammar cannot be loaded, -/
theorem C83_rejected {file dir : String} (hr : lw.read file = some anyFile.text) (hd : lw.dir file = some dir) (fuel depth : Nat)
    (reg : Registry) (x : Option Loaded × LoadSt) : loadFile lw fuel depth file reg ≠ .ok x := by
  intro hl
  obtain ⟨ds, ρ, hs, -⟩ := (C79_accepted_file h.ok hr hd ⟨h.update, h.termHash, ⟨[], fun p hp => absurd hp (any_includes h)⟩,
    ⟨any_clean, fun ds ρ hs => absurd hs (any_syntax h)⟩, fun p t hp => absurd hp (any_includes h)⟩ hl).main
  exact any_syntax h hs

/-- C83: that is, loading it ends with an error, if there are finitely many files and all can be read to the end. -/
theorem C83_error {F : List String} (hF : ∀ p, lw.read p ≠ none → p ∈ F) (hread : ∀ p t, lw.read p = some t → TextOK t)
    {file dir : String} (hr : lw.read file = some anyFile.text) (hd : lw.dir file = some dir) (reg : Registry) :
    ∃ N, ∀ fuel depth, N ≤ fuel → N ≤ depth → loadFile lw fuel depth file reg = .err := by
  obtain ⟨N, r, hr', hN⟩ := C33_terminates_partial h.ok hF hread file reg
  rcases hr' with rfl | ⟨x, rfl⟩
  · exact ⟨N, hN⟩
  · exact absurd (hN N N (Nat.le_refl _) (Nat.le_refl _)) (C83_rejected h hr hd _ _ _ _)

end

/-! ### a setting in which all assumptions hold -/

/-- the path of a file, relative to the root -/
def ShippedFile.path (f : ShippedFile) : String := f.dir ++ "/" ++ f.name

/-- ASCII only, without hashes -/
def shLex0 : LexWorld := { asciiLex with isSpace := isSp, scanFloat := fun s => shippedFloats.lookup s, regexpOK := fun _ => true }

/-- the hash of an alternative is its place in the files -/
noncomputable def shLex : LexWorld :=
  open Classical in { shLex0 with hash := fun b => some (((sheets.flatMap (sheetDefs shLex0)).flatMap (·.bodies)).idxOf b) }

/-- the files of the repository, and no others -/
noncomputable def shLoad : LoadWorld :=
  { lex := shLex
    ref := { annot := fun s => some (charTokens s.toList), ascii := id, hash := fun _ => some 0 }
    idx := (noFiles asciiLex).idx
    read := fun p => ((anyFile :: goodFiles).find? fun f => f.path == p).map (·.text)
    dir := fun p => ((anyFile :: goodFiles).find? fun f => f.path == p).map (·.dir)
    join := fun d n => d ++ "/" ++ n }

theorem sh_find {f : ShippedFile} (hf : f ∈ anyFile :: goodFiles) :
    (anyFile :: goodFiles).find? (fun g => g.path == f.path) = some f := by
  have hn : ((anyFile :: goodFiles).map ShippedFile.path).Nodup := by decide +kernel
  generalize anyFile :: goodFiles = l at hf hn
  induction l with
  | nil => cases hf
  | cons a l ih =>
    rw [List.map_cons, List.nodup_cons] at hn
    rw [List.find?_cons]
    rcases List.mem_cons.1 hf with rfl | hf
    · rw [beq_self_eq_true]
    · have : (a.path == f.path) = false := by
        refine beq_eq_false_iff_ne.2 fun e => hn.1 (e ▸ List.mem_map_of_mem hf)
      rw [this]
      exact ih hf hn.2

theorem shLex_ok : shLex.OK :=
  ⟨zhLex_ok.1, zhLex_ok.2, zhLex_ok.3, zhLex_ok.4, zhLex_ok.5, zhLex_ok.6, zhLex_ok.7, zhLex_ok.8⟩

theorem shLex_plain : PlainLex shLex shippedFloats := by
  refine ⟨shLex_ok, zhLex_plain.2, zhLex_plain.3, fun s q hm => ?_⟩
  show shippedFloats.lookup s = some q
  rcases List.mem_cons.1 hm with e | hm
  · cases e
    rfl
  · cases List.mem_singleton.1 hm
    rfl

theorem shLex_says {s : Sheet} (hs : s ∈ sheets) :
    ∃ ρ, Says shLex s.file.text s.includes s.names s.known (sheetDefs shLex s) ρ := by
  obtain ⟨ls, h1, h2, -⟩ := sheets_read s hs
  rw [sheetDefs, ShippedFile.text, h1.eq]
  exact fileOK_sound shLex_plain rfl (fun _ _ h => h) h2

theorem sheetDefs_md5 {w w' : LexWorld} (hm : w.md5 = w'.md5) {s : Sheet} : sheetDefs w s = sheetDefs w' s := by
  have h : Part.toDefs w = Part.toDefs w' := by
    funext p
    cases p with
    | defs => rfl
    | re x bs r => rw [Part.toDefs, Part.toDefs, reBody, reBody, hm]
  rw [sheetDefs, sheetDefs]
  generalize s.file.parts.map String.toList = ls
  cases ls with
  | nil => rfl
  | cons l ls => rw [partsDefs, partsDefs, h]

theorem shLex_apart : ∀ f ∈ goodFiles, HashesApart shLex f.text := by
  classical
  intro f hf ds ρ h d hd b hb d' hd' b' hb' e
  rw [← sheets_files] at hf
  obtain ⟨s, hs, rfl⟩ := List.mem_map.1 hf
  obtain ⟨ρ', k⟩ := shLex_says hs
  obtain ⟨rfl, -⟩ := C80_unique shLex_ok k.clean k.is.syn h
  have hb1 : b ∈ (sheets.flatMap (sheetDefs shLex0)).flatMap (·.bodies) :=
    List.mem_flatMap.2 ⟨d, List.mem_flatMap.2 ⟨s, hs, sheetDefs_md5 (show shLex.md5 = shLex0.md5 by rw [shLex]) ▸ hd⟩, hb⟩
  exact (List.idxOf_inj hb1).1 (Option.some.inj e)

theorem shLoad_ok : ReadsShipped shLoad id where
  ok := shLex_ok
  capitals := shLex_plain.2
  ints := shLex_plain.3
  half := rfl
  percent := rfl
  regexp := rfl
  spaces f _ c _ h := by
    have h : (c == ' ' || c == '\n' || c == '\t') = true := h
    simpa [or_assoc] using h
  read f hf := congrArg (Option.map ShippedFile.text) (sh_find hf)
  dir f hf := congrArg (Option.map ShippedFile.dir) (sh_find hf)
  hash b := by simp [shLoad, shLex]
  apart := shLex_apart
  annot s := by simp [shLoad]
  termHash b := by simp [shLoad]
  update _ _ := rfl

/-- C83: every grammar file of the repository can be loaded. -/
def C83_statement : Prop :=
  ∀ (lw : LoadWorld) (place : String → String), ReadsShipped lw place → ∀ f ∈ anyFile :: goodFiles, ∀ reg,
    ∃ fuel depth x, loadFile lw fuel depth (lw.join (place f.dir) f.name) reg = .ok x

/-- C83 is false. -/
theorem C83_false : ¬ C83_statement := by
  intro h
  obtain ⟨fuel, depth, x, hx⟩ := h shLoad id shLoad_ok anyFile List.mem_cons_self []
  exact C83_rejected shLoad_ok (shLoad_ok.read _ List.mem_cons_self) (shLoad_ok.dir _ List.mem_cons_self) _ _ _ _ hx

example : ∃ N ld st, ∀ fuel depth, N ≤ fuel → N ≤ depth → loadFile shLoad fuel depth "./sf.grammar" [] = .ok (some ld, st) :=
  have hf : (⟨".", "sf.grammar", sfParts⟩ : ShippedFile) ∈ goodFiles := by simp [goodFiles]
  C83_loads_partial shLoad_ok hf (file := "./sf.grammar") (shLoad_ok.read _ (List.mem_cons_of_mem _ hf))
    (shLoad_ok.dir _ (List.mem_cons_of_mem _ hf)) []

/-- the check of functions is not vacuous -/
example : ¬ FmrFits 1 (.mk "nf.I" [.mk "index" (.int (2 : Nat))]) := by
  have key : ∀ a, ArgFits 1 a → a ≠ .mk "index" (.int (2 : Nat)) := by
    intro a h e
    cases h with
    | @index i h => simp at e; omega
    | _ => simp at e
  intro h
  cases h with
  | mk _ h => cases h with
    | cons h _ => exact key _ h rfl

/-- nor is that of rules -/
example : ¬ DefsFit (fun _ => False) [⟨false, "a", [⟨[⟨"b", .nonterminal, .nil⟩], none⟩]⟩] := by
  intro h
  exact (h _ List.mem_cons_self _ List.mem_cons_self).2.1 _ List.mem_cons_self (.inl rfl)

end Fmr
