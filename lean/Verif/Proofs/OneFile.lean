import Verif.Proofs.NumberZh
import Verif.Props.Accept

/-!
# Grammars of one file, over words
-/

namespace Fmr

/-- What is asked of the loader: `file` has this text; numbers are read as such; the text has no white space but blanks,
line ends and tabs; and its alternatives have different hashes. -/
structure HasFile (lw : LoadWorld) (file : String) (text : List Char) : Prop where
  lex : PlainLex lw.lex []
  spaces : PlainText lw.lex text
  read : lw.read file = some text
  dir : lw.dir file ≠ none
  hash : ∀ b, lw.lex.hash b ≠ none
  apart : HashesApart lw.lex text

/-- The annotator splits the texts as stated. -/
def SplitsAs (annot : String → Option (List Token)) (splits : List (String × List String)) : Prop :=
  ∀ p ∈ splits, ∃ ts, annot p.1 = some ts ∧ (ts.filter (fun a => a.type ≠ .space)).map (·.text) = p.2

/-- What is asked of the text that is parsed: it is annotated with the words `ws` as its tokens (and spaces), and
annotations do not define these rules or use reserved names. -/
structure HasWords (w : World) (context : String) (text : Bytes) (d : Doc) (ws names : List String) : Prop where
  read : TextRead w context text d
  fit : DocFit w (fun _ _ => False) d
  ordered : TokensOrdered text d.words
  words : d.words.map (·.text) = ws
  tags : ∀ A b, DocAlt w.find (fun _ _ => False) d A b → A ∉ names ∧ ¬ Reserved A ∧ b.terms ≠ []
  tokens : ∀ t ∈ d.tokens, t.text ≠ "ɣ"

/-- how a literal is split -/
def splitIn (splits : List (String × List String)) (s : String) : List String := (splits.lookup s).getD []

/-- a check of the terms of a grammar -/
def wordTermOK (names : List String) (splits : List (String × List String)) (t : Term) : Bool :=
  (t.type == .nonterminal && names.contains t.value) ||
  (t.type == .terminal && t.meta == .nil &&
    match splits.lookup t.value with
    | some ws => !ws.isEmpty && !ws.contains "ɣ"
    | none => false)

def wordDefsOK (names : List String) (splits : List (String × List String)) (ds : List Def) : Bool :=
  (names.all fun A => !(A == "ɣ" || "g_t".toList.isPrefixOf A.toList)) &&
  ds.all fun d => names.contains d.name && !d.frame && d.bodies.all fun b => !b.terms.isEmpty && b.terms.all (wordTermOK names splits)

/-- a grammar that begins with a definition includes nothing -/
theorem no_target {w : LexWorld} (hw : w.OK) {f : String} {r : List Char} : ¬ Target w ('<' :: r) f := by
  rintro ⟨fs, h, hf⟩
  have hsp : w.isSpace '<' = false := (hw.punct '<' (by decide)).2.2
  have hs : ∀ {s x : List Char} {c : Char}, Spaces w s → c ≠ '<' → '<' :: r = s ++ c :: x → False := by
    intro s x c h1 h2 h3
    cases s with
    | nil => exact h2 (List.cons.inj h3).1.symm
    | cons y s =>
      have := h1 y List.mem_cons_self
      rw [← (List.cons.inj h3).1, hsp] at this
      cases this
  generalize e2 : '<' :: r = l at h
  cases h with
  | nil => cases hf
  | cons h1 h2 =>
    cases h1 with
    | mk hg =>
      cases hg with
      | spaces hg =>
        rw [List.append_assoc] at e2
        exact hs (c := '#') hg (by decide) e2
      | line hg =>
        rw [List.append_assoc, List.append_assoc] at e2
        exact hs (c := '/') hg (by decide) e2
      | block hg =>
        rw [List.append_assoc, List.append_assoc] at e2
        exact hs (c := '/') hg (by decide) e2

theorem no_includes {lw : LoadWorld} (hw : lw.lex.OK) {dir q : String} {r : List Char} : ¬ Includes lw dir ('<' :: r) q := by
  intro h
  induction h with
  | direct h => exact no_target hw h
  | step _ _ _ _ ih => exact ih

section
variable {parts : List String} {ds : List Def} {text : List Char} {names : List String} {splits : List (String × List String)}
  (hparts : PartsRead [] parts ds) (htext : text = (parts.map String.toList).flatten) (hhead : ∃ r, text = '<' :: r)
  (hok : wordDefsOK names splits ds = true)
  {lw : LoadWorld} {file : String} (h : HasFile lw file text) (htok : SplitsAs lw.ref.annot splits)

include hok in
theorem wordDefs_written {A : String} {b : RuleBody} (hb : Written ds false A b) :
    A ∈ names ∧ b.terms ≠ [] ∧ ∀ t ∈ b.terms, (t.type = .nonterminal ∧ t.value ∈ names) ∨
      (t.type = .terminal ∧ t.meta = .nil ∧ (t.value, splitIn splits t.value) ∈ splits ∧ splitIn splits t.value ≠ [] ∧
        "ɣ" ∉ splitIn splits t.value) := by
  obtain ⟨d, h1, -, rfl, h2⟩ := hb
  rw [wordDefsOK, Bool.and_eq_true] at hok
  have := List.all_eq_true.1 hok.2 d h1
  rw [Bool.and_eq_true, Bool.and_eq_true] at this
  have h3 := List.all_eq_true.1 this.2 b h2
  rw [Bool.and_eq_true] at h3
  refine ⟨by simpa using this.1.1, by simpa using h3.1, fun t ht => ?_⟩
  have h4 := List.all_eq_true.1 h3.2 t ht
  rw [wordTermOK, Bool.or_eq_true] at h4
  rcases h4 with h4 | h4
  · rw [Bool.and_eq_true, beq_iff_eq] at h4
    exact .inl ⟨h4.1, by simpa using h4.2⟩
  · simp only [Bool.and_eq_true, beq_iff_eq] at h4
    cases e : splits.lookup t.value with
    | none => rw [e] at h4; simp at h4
    | some ws =>
      rw [e] at h4
      simp only [Bool.and_eq_true] at h4
      refine .inr ⟨h4.1.1, h4.1.2, ?_⟩
      rw [splitIn, e]
      exact ⟨mem_of_lookup e, by simpa using h4.2.1, by simpa using h4.2.2⟩

include hparts htext h in
theorem oneFile_syn : FileSyn lw.lex text ds [] := by
  have := h.spaces
  subst htext
  exact .defs (hparts.sound h.lex this)

include hparts htext in
theorem oneFile_clean : runeError ∉ text := by
  subst htext
  exact hparts.clean

include hparts htext h in
/-- the grammar that is loaded from such a file -/
theorem oneFile_exact {kds : List (Def × List (Nat × RuleBody))}
    (hk : List.Forall₂ (fun d e => e.1 = d ∧ keyed lw.lex d.bodies = some e.2) ds kds) {fuel₀ depth : Nat} {reg : Registry}
    {ld : Loaded} {st : LoadSt} (hload : loadFile lw fuel₀ depth file reg = .ok (some ld, st)) :
    ld.gram.includes = [] ∧ ∃ reg', refine lw.ref "g" fuel₀ reg
      ⟨file, (addDefs ([], []) kds).1, (addDefs ([], []) kds).2, [], false⟩ = .ok (reg', ld.gram.main) := by
  obtain ⟨dir, hd⟩ := Option.ne_none_iff_exists'.1 h.dir
  have hg := oneFile_clean hparts htext
  have hds : DefsSyn lw.lex text ds [] [] := by
    have := h.spaces
    rw [htext] at this ⊢
    exact hparts.sound h.lex this
  unfold loadFile at hload
  rw [h.read] at hload
  simp only [hd] at hload
  unfold fromString at hload
  split at hload
  · cases hload
  obtain ⟨⟨ld', st1⟩, h1, h2⟩ := Out.bind_eq_ok.mp hload
  cases h2
  unfold grammarText at h1
  obtain ⟨⟨⟨gs, st2⟩, ps⟩, h3, h1⟩ := Out.bind_eq_ok.mp h1
  obtain ⟨⟨g, ps'⟩, h4, h1⟩ := Out.bind_eq_ok.mp h1
  obtain ⟨gi, h5, h1⟩ := Out.bind_eq_ok.mp h1
  obtain ⟨⟨reg', g'⟩, h6, h1⟩ := Out.bind_eq_ok.mp h1
  cases h1
  have key : gs = [] ∧ st2.reg = reg ∧ ps.regexps = [] ∧ DefsSyn lw.lex (text.drop ps.pos) ds [] [] := by
    cases fuel₀ with
    | zero => cases h3
    | succ n =>
      unfold directives at h3
      cases e : directive lw.lex text (n + 1) { pos := 0, width := 0 } with
      | err => rw [e] at h3; cases h3
      | panic => rw [e] at h3; cases h3
      | div => rw [e] at h3; cases h3
      | ok x =>
        obtain ⟨o, ps1⟩ := x
        obtain ⟨rfl, h7, h8⟩ := directive_defs hg h.lex.ok hds (s := { pos := 0, width := 0 }) rfl e
        rw [e] at h3
        cases h3
        exact ⟨rfl, rfl, h7, h8⟩
  obtain ⟨rfl, h7, h8, h9⟩ := key
  have e := grammarRules_exact hg h.lex.ok (ρ' := []) (by rw [h8]; exact h9) hk rfl h4
  simp only [h7, e] at h6
  exact ⟨rfl, _, h6⟩

include hparts htext hhead hok htok h

/-- such a grammar can be loaded -/
theorem oneFile_loads (hu : ∀ t s, lw.idx.update t s = true) (hh : ∀ b, lw.ref.hash b ≠ none) (reg : Registry) :
    ∃ N ld st, ∀ fuel depth, N ≤ fuel → N ≤ depth → loadFile lw fuel depth file reg = .ok (some ld, st) := by
  obtain ⟨dir, hd⟩ := Option.ne_none_iff_exists'.1 h.dir
  obtain ⟨r, hr⟩ := hhead
  have hinc : ∀ q, ¬ Includes lw dir text q := by
    intro q
    rw [hr]
    exact no_includes h.lex.ok
  refine C79_loads_file h.lex.ok h.read hd ⟨hu, hh, ⟨[], fun p hp => absurd hp (hinc p)⟩, ⟨oneFile_clean hparts htext, h.apart⟩,
    fun p t hp => absurd hp (hinc p)⟩ ⟨⟨ds, [], oneFile_syn hparts htext h, fun _ _ b _ => h.hash b, ?_⟩,
    fun p hp => absurd hp (hinc p)⟩ reg
  intro A b t hb ht htt
  rcases (wordDefs_written hok hb).2.2 t ht with ⟨h1, -⟩ | ⟨-, -, h2, -⟩
  · rw [htt] at h1; cases h1
  · obtain ⟨ts, h4, -⟩ := htok _ h2
    rw [h4]
    simp

/-- what the parse calls and `Eval` give with such a grammar -/
theorem oneFile_calls {fuel₀ depth : Nat} {reg : Registry} {ld : Loaded} {st : LoadSt}
    (hload : loadFile lw fuel₀ depth file reg = .ok (some ld, st)) (w : World) (ho : w.OrdOK) (nw : NodeWorld)
    (hc : CallsReturn nw) {V : Type} {ev : List (Option V) → FMR → Option V} {is : Expr → V → Prop} (hev : EvSound ev is)
    {context : String} {txt : Bytes} {d : Doc} {ws : List String} (ht : HasWords w context txt d ws names) {S : String} (hS : S ∈ names)
    {D : String → Nat → Nat → Prop} {T : Nat → String → Nat → Node → Prop}
    (hD : D = WordSpan (Written ds false) (splitIn splits) ev ws)
    (hT : T = WordTree (Written ds false) (splitIn splits) ev ws is nw txt d.words) :
    ∃ N, ∀ fuel ≥ N,
      (∃ ns, apiParse w ld.gram fuel context txt [S] = .ok ns ∧ PrefixMatches D T [S] d.words.length ns) ∧
      (∃ ns, apiParseAny w ld.gram fuel context txt [S] = .ok ns ∧ FirstMatches D T [S] d.words.length ns) ∧
      (∃ groups : List (Nat × List Node), apiExtractAll w ld.gram fuel context txt [S] = .ok (groups.map (·.2)).flatten ∧
        AllMatches D T [S] d.words.length groups) ∧
      ((∀ v, ¬ WordLang (Written ds false) (splitIn splits) ev S [] v) → ∃ groups : List ((Nat × Nat) × List Node),
        apiExtractMaxAll w ld.gram fuel context txt [S] = .ok (groups.map (·.2)).flatten ∧
        GreedyMatches D T [S] d.words.length groups ∧ ParseGroups w ld.gram fuel context txt [S] d.words groups) := by
  subst hD hT
  obtain ⟨dir, hd⟩ := Option.ne_none_iff_exists'.1 h.dir
  obtain ⟨r, hr⟩ := hhead
  have hinc : ∀ q, ¬ Includes lw dir text q := by
    intro q
    rw [hr]
    exact no_includes h.lex.ok
  have hsyn := oneFile_syn hparts htext h
  let F : Files := ⟨fun _ => ds, fun _ => []⟩
  have hl : LoadedFrom lw F ds [] (fun q => Includes lw dir text q ∧ q ≠ file) ld := by
    refine LoadedFrom.file (F := F) h.read hd ⟨fun q t hq hr => ?_, fun q hq => ?_⟩ hload
    · rcases hq with rfl | hq
      · rw [h.read] at hr
        obtain rfl := Option.some.inj hr
        exact ⟨oneFile_clean hparts htext, hsyn⟩
      · exact absurd hq (hinc q)
    · exact ⟨fun _ _ b _ => h.hash b, h.apart _ _ hsyn⟩
  have hR : wholeRegexps F (fun q => Includes lw dir text q ∧ q ≠ file) [] = fun _ _ => False := by
    funext k s
    simp [wholeRegexps, F]
  have hW : wholeWritten ds F (fun q => Includes lw dir text q ∧ q ≠ file) = Written ds false := by
    funext A b
    refine propext ⟨?_, .inl⟩
    rintro (h1 | ⟨p, h1, -⟩)
    · exact h1
    · exact absurd h1.1 (hinc p)
  rw [← hW]
  refine words_calls h.lex.ok hl w context txt d ht.read (hR ▸ ht.fit) ht.ordered ho nw hc hev (rules := names) ?_ ?_ ?_
    (fun ⟨p, hp⟩ => absurd hp.1 (hinc p)) (hR ▸ ht.tags) ht.tokens hS ht.words
  · rw [hW]
    intro A b hb t htm
    rcases (wordDefs_written hok hb).2.2 t htm with h3 | ⟨h3, h4, h5, -⟩
    · exact .inl h3
    · refine .inr ⟨h3, ?_⟩
      obtain ⟨ts, h7, h8⟩ := htok _ h5
      simp only at h7 h8
      rw [readTerm, if_pos h3, h7, Option.getD_some, h4, ← h8, List.map_map]
      rfl
  · rw [hW]
    intro A b hb
    obtain ⟨h3, h4, h5⟩ := wordDefs_written hok hb
    refine ⟨h4, h3, fun t htm htt => ?_⟩
    rcases h5 t htm with ⟨h6, -⟩ | ⟨-, -, -, h6, h7⟩
    · rw [htt] at h6; cases h6
    · exact ⟨h6, h7⟩
  · intro A hA
    rw [wordDefsOK, Bool.and_eq_true] at hok
    exact Reserved.of_dec (by simpa only [Bool.not_eq_true'] using List.all_eq_true.1 hok.1 A hA)

end

end Fmr
