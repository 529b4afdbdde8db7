import Verif.Proofs.NumberZhText
import Verif.Proofs.Printed
import Verif.Props.Accept
import Verif.Props.TextMeaning

/-!
# C81: the shipped grammar for Chinese numbers

What `Parse` and `Eval` give for the numerals of `Spec/Numerals.lean` with the grammar that the repository ships,
from the text of the grammar file to the value.
-/

namespace Fmr

/-! ## grammars over characters -/

section
variable {lw : LoadWorld} (hlw : lw.lex.OK) {F : Files} {ds : List Def} {ρ : List (String × String)} {I : String → Prop}
  {ld : Loaded} (hload : LoadedFrom lw F ds ρ I ld) (w : World) (context : String) (text : Bytes)
  (d : Doc) (ht : TextRead w context text d) (hd : DocFit w (wholeRegexps F I ρ) d) (hord : TokensOrdered text d.words)
  (ho : w.OrdOK) (nw : NodeWorld) (hc : CallsReturn nw) {ext : String → Option BF} (hm : HasMath nw ext)
  {rules : List String} (hch : CharTerms lw.ref.annot (wholeWritten ds F I) rules)
  (hne : ∀ A b, wholeWritten ds F I A b → b.terms ≠ [] ∧ A ∈ rules ∧
    ∀ t ∈ b.terms, t.type = .terminal → t.value ≠ "" ∧ 'ɣ' ∉ t.value.toList)
  (hrules : ∀ A ∈ rules, ¬ Reserved A)
  (hone : (∃ p, I p) → ∀ t t', wholeLiteral ds F I t → wholeLiteral ds F I t' →
    literalName lw.ref "g" t.value = literalName lw.ref "g" t'.value → t.value = t'.value)
  (hdoc : ∀ A b, DocAlt w.find (wholeRegexps F I ρ) d A b → A ∉ rules ∧ ¬ Reserved A ∧ b.terms ≠ [])
  (htoks : ∀ t ∈ d.tokens, t.text ≠ "ɣ")
  {S : String} (hS : S ∈ rules) {cs : List Char} (hcs : d.words.map (·.text) = cs.map String.singleton)
include hlw hload ht hd hord ho hc hm hch hne hrules hone hdoc htoks hS hcs

/-- With a grammar of literals that are split into their characters, and of functions that the library has for numbers: if
all the characters of a text form an `S`, and in every way to see this its value is `n`, then `Parse` returns trees, and
each of them has the value `n`. -/
theorem chars_number {n : Nat} (h1 : ∃ v, CharLang (wholeWritten ds F I) S cs v)
    (h2 : ∀ v, CharLang (wholeWritten ds F I) S cs v → v = some n) :
    ∃ N, ∀ fuel ≥ N, ∃ ns, apiParse w ld.gram fuel context text [S] = .ok ns ∧ ns ≠ [] ∧
      ∀ node ∈ ns, node.value.stop = d.words.length ∧ ∀ p : Parsed, p.text = text → p.env.tokens = d.words →
        node.eval nw p = .ok (.str (utf8 (numText n))) := by
  obtain ⟨v0, h0⟩ := h1
  obtain ⟨N, h3⟩ := words_parse hlw hload w context text d ht hd hord ho nw hc (fmrNum_ev hm) hch.words (fun A b hb => by
    obtain ⟨h4, h5, h6⟩ := hne A b hb
    refine ⟨h4, h5, fun t h7 h8 => ?_⟩
    obtain ⟨h9, h10⟩ := h6 t h7 h8
    refine ⟨fun e => h9 ?_, fun h => ?_⟩
    · rw [charWords, List.map_eq_nil_iff] at e
      rw [← String.ofList_toList (s := t.value), e]
    · obtain ⟨c, h11, e⟩ := List.mem_map.1 h
      have e := congrArg String.toList e
      rw [String.toList_singleton, show "ɣ".toList = ['ɣ'] by decide +kernel] at e
      exact h10 ((List.cons.inj e).1 ▸ h11)) hrules hone hdoc htoks hS hcs ⟨v0, h0.word⟩
  refine ⟨N, fun fuel hf => ?_⟩
  obtain ⟨ns, h4, h5, h6⟩ := h3 fuel hf
  refine ⟨ns, h4, h5, fun node hn => ?_⟩
  obtain ⟨h7, v, h8, h9⟩ := h6 node hn
  obtain ⟨cs', e, h10⟩ := h8.char
  rw [← singletons_inj e] at h10
  obtain ⟨e, h11, h12⟩ := h9 n (h2 v h10)
  exact ⟨h7, fun p hp1 hp2 => by rw [(h12 p hp1 hp2).2, h11]⟩

end

/-! ## the grammar -/

/-- the names that the grammar uses; `digits` and `numeric` are not defined in it -/
def zhNames : List String :=
  ["number", "numbers", "cn_unit", "cn_zero", "cn_digit", "cn_e1", "cn_e2", "cn_e3", "cn_e4", "cn_e8", "cn_e1s", "cn_e2s", "cn_e3s",
    "cn_e4s", "cn_e8s", "cn_decimal", "digits", "numeric"]

/-- What is asked of the loader: `file` is the shipped grammar; decimal digits make numbers; the grammar has no white space but
blanks and line ends; its alternatives have different hashes; and the tokens of a text of numerals and 点 are its
characters. -/
structure ZhLoader (lw : LoadWorld) (file : String) : Prop where
  lex : PlainLex lw.lex []
  spaces : PlainText lw.lex numberZh
  read : lw.read file = some numberZh
  dir : lw.dir file ≠ none
  hash : ∀ b, lw.lex.hash b ≠ none
  apart : HashesApart lw.lex numberZh
  tokens : ∀ l : List Char, l ≠ [] → (∀ c ∈ l, c = '点' ∨ ∃ v ∈ zhVariants, c ∈ v) →
    ∃ ts, lw.ref.annot (String.ofList l) = some ts ∧ (ts.filter (fun a => a.type ≠ .space)).map (·.text) = l.map String.singleton

/-- What is asked of the text that is parsed: it is annotated with the characters `cs` as its tokens (and spaces), and
annotations do not define the rules of the grammar or use reserved names. -/
structure ZhText (w : World) (context : String) (text : Bytes) (d : Doc) (cs : List Char) : Prop where
  read : TextRead w context text d
  fit : DocFit w (fun _ _ => False) d
  ordered : TokensOrdered text d.words
  chars : d.words.map (·.text) = cs.map String.singleton
  tags : ∀ A b, DocAlt w.find (fun _ _ => False) d A b → A ∉ zhNames ∧ ¬ Reserved A ∧ b.terms ≠ []
  tokens : ∀ t ∈ d.tokens, t.text ≠ "ɣ"

/-- a check of the terms of the grammar -/
def zhTermOK (t : Term) : Bool :=
  (t.type == .nonterminal && zhNames.contains t.value) ||
  (t.type == .terminal && t.meta == .nil && !t.value.toList.isEmpty &&
    t.value.toList.all fun c => c == '点' || zhVariants.any (·.contains c))

theorem zh_check : (zhDefs.all fun d => zhNames.contains d.name && !d.frame &&
    d.bodies.all fun b => !b.terms.isEmpty && b.terms.all zhTermOK) = true := by decide +kernel

theorem zh_written {A : String} {b : RuleBody} (h : Written zhDefs false A b) :
    A ∈ zhNames ∧ b.terms ≠ [] ∧ ∀ t ∈ b.terms, zhTermOK t = true := by
  obtain ⟨d, h1, -, rfl, h2⟩ := h
  have := List.all_eq_true.1 zh_check d h1
  rw [Bool.and_eq_true, Bool.and_eq_true] at this
  have h3 := List.all_eq_true.1 this.2 b h2
  rw [Bool.and_eq_true] at h3
  exact ⟨by simpa using this.1.1, by simpa using h3.1, List.all_eq_true.1 h3.2⟩

theorem zhTermOK_cases {t : Term} (h : zhTermOK t = true) : (t.type = .nonterminal ∧ t.value ∈ zhNames) ∨
    (t.type = .terminal ∧ t.meta = .nil ∧ t.value.toList ≠ [] ∧ ∀ c ∈ t.value.toList, c = '点' ∨ ∃ v ∈ zhVariants, c ∈ v) := by
  rw [zhTermOK, Bool.or_eq_true] at h
  rcases h with h | h
  · rw [Bool.and_eq_true, beq_iff_eq] at h
    exact .inl ⟨h.1, by simpa using h.2⟩
  · simp only [Bool.and_eq_true, beq_iff_eq] at h
    refine .inr ⟨h.1.1.1, h.1.1.2, by simpa using h.1.2, fun c hc => ?_⟩
    have := List.all_eq_true.1 h.2 c hc
    rw [Bool.or_eq_true, beq_iff_eq, List.any_eq_true] at this
    rcases this with h | ⟨v, h1, h2⟩
    · exact .inl h
    · exact .inr ⟨v, h1, by simpa using h2⟩

theorem zh_no_gamma : ∀ c, (c = '点' ∨ ∃ v ∈ zhVariants, c ∈ v) → c ≠ 'ɣ' := by
  have h : ∀ v ∈ zhVariants, ∀ c ∈ v, c ≠ 'ɣ' := by decide +kernel
  rintro c (rfl | ⟨v, h1, h2⟩)
  · decide
  · exact h v h1 c h2

set_option maxRecDepth 100000 in
theorem zh_head : ∃ r, numberZh = '<' :: r := by
  have h : numberZhParts = numberZhParts.head (by decide) :: numberZhParts.tail := rfl
  rw [numberZh, h, List.map_cons, List.flatten_cons]
  have h2 : ∃ r, numberZhParts.head (by decide) = String.ofList ('<' :: r) := ⟨_, rfl⟩
  obtain ⟨r, h2⟩ := h2
  rw [h2, String.toList_ofList]
  exact ⟨_, rfl⟩

/-- the grammar includes nothing -/
theorem zh_target {w : LexWorld} (hw : w.OK) {f : String} : ¬ Target w numberZh f := by
  rintro ⟨fs, h, hf⟩
  obtain ⟨r, e⟩ := zh_head
  rw [e] at h
  have hsp : w.isSpace '<' = false := (hw.punct '<' (by decide)).2.2
  have hs : ∀ {s x : List Char} {c : Char}, Spaces w s → c ≠ '<' → '<' :: r = s ++ c :: x → False := by
    intro s x c h1 h2 h3
    cases s with
    | nil => exact h2 (List.cons.inj h3).1.symm
    | cons y s =>
      have := h1 y List.mem_cons_self
      rw [← (List.cons.inj h3).1, hsp] at this
      cases this
  generalize e2 : '<' :: r = l at h
  cases h with
  | nil => cases hf
  | cons h1 h2 =>
    cases h1 with
    | mk hg =>
      cases hg with
      | spaces hg =>
        rw [List.append_assoc] at e2
        exact hs (c := '#') hg (by decide) e2
      | line hg =>
        rw [List.append_assoc, List.append_assoc] at e2
        exact hs (c := '/') hg (by decide) e2
      | block hg =>
        rw [List.append_assoc, List.append_assoc] at e2
        exact hs (c := '/') hg (by decide) e2

theorem zh_includes {lw : LoadWorld} (hw : lw.lex.OK) {dir q : String} : ¬ Includes lw dir numberZh q := by
  intro h
  induction h with
  | direct h => exact zh_target hw h
  | step _ _ _ _ ih => exact ih

theorem zh_fileSyn {lw : LoadWorld} {file : String} (h : ZhLoader lw file) : FileSyn lw.lex numberZh zhDefs [] :=
  .defs (zh_syntax h.lex h.spaces)

theorem zh_clean : runeError ∉ numberZh := zh_parts.clean

/-- The grammar can be loaded. -/
theorem C81_loads {lw : LoadWorld} {file : String} (h : ZhLoader lw file) (hu : ∀ t s, lw.idx.update t s = true)
    (hh : ∀ b, lw.ref.hash b ≠ none) (reg : Registry) :
    ∃ N ld st, ∀ fuel depth, N ≤ fuel → N ≤ depth → loadFile lw fuel depth file reg = .ok (some ld, st) := by
  obtain ⟨dir, hd⟩ := Option.ne_none_iff_exists'.1 h.dir
  refine C79_loads_file h.lex.ok h.read hd ⟨hu, hh, ⟨[], fun p hp => absurd hp (zh_includes h.lex.ok)⟩, ⟨zh_clean, h.apart⟩,
    fun p t hp => absurd hp (zh_includes h.lex.ok)⟩ ⟨⟨zhDefs, [], zh_fileSyn h, fun _ _ b _ => h.hash b, ?_⟩,
    fun p hp => absurd hp (zh_includes h.lex.ok)⟩ reg
  intro A b t hb ht htt
  rcases zhTermOK_cases ((zh_written hb).2.2 t ht) with ⟨h1, -⟩ | ⟨-, -, h2, h3⟩
  · rw [htt] at h1; cases h1
  · obtain ⟨ts, h4, -⟩ := h.tokens _ h2 h3
    rw [String.ofList_toList] at h4
    rw [h4]
    simp

/-- what `Parse` and `Eval` give for a numeral -/
theorem zh_number {lw : LoadWorld} {file : String} (h : ZhLoader lw file) {fuel₀ depth : Nat} {reg : Registry} {ld : Loaded}
    {st : LoadSt} (hload : loadFile lw fuel₀ depth file reg = .ok (some ld, st)) (w : World) (ho : w.OrdOK) (nw : NodeWorld)
    (hc : CallsReturn nw) {ext : String → Option BF} (hm : HasMath nw ext) {context : String} {text : Bytes} {d : Doc}
    {cs : List Char} (ht : ZhText w context text d cs) {n : Nat} (hn : n < 10 ^ 16) (hcs : ZhNumeral n cs) :
    ∃ N, ∀ fuel ≥ N, ∃ ns, apiParse w ld.gram fuel context text ["number"] = .ok ns ∧ ns ≠ [] ∧
      ∀ node ∈ ns, node.value.stop = d.words.length ∧ ∀ p : Parsed, p.text = text → p.env.tokens = d.words →
        node.eval nw p = .ok (.str (utf8 (numText n))) := by
  obtain ⟨dir, hd⟩ := Option.ne_none_iff_exists'.1 h.dir
  have hinc := @zh_includes lw h.lex.ok dir
  let F : Files := ⟨fun _ => zhDefs, fun _ => []⟩
  have hl : LoadedFrom lw F zhDefs [] (fun q => Includes lw dir numberZh q ∧ q ≠ file) ld := by
    refine LoadedFrom.file (F := F) h.read hd ⟨fun q t hq hr => ?_, fun q hq => ?_⟩ hload
    · rcases hq with rfl | hq
      · rw [h.read] at hr
        obtain rfl := Option.some.inj hr
        exact ⟨zh_clean, zh_fileSyn h⟩
      · exact absurd hq hinc
    · exact ⟨fun _ _ b _ => h.hash b, h.apart _ _ (zh_fileSyn h)⟩
  have hR : wholeRegexps F (fun q => Includes lw dir numberZh q ∧ q ≠ file) [] = fun _ _ => False := by
    funext k s
    simp [wholeRegexps, F]
  have hW : wholeWritten zhDefs F (fun q => Includes lw dir numberZh q ∧ q ≠ file) = zhW := by
    funext A b
    refine propext ⟨?_, .inl⟩
    rintro (h1 | ⟨p, h1, -⟩)
    · exact h1
    · exact absurd h1.1 hinc
  obtain ⟨h1, h2⟩ := number_reads hcs hn
  rw [← hW] at h1 h2
  refine chars_number h.lex.ok hl w context text d ht.read (hR ▸ ht.fit) ht.ordered ho nw hc hm (rules := zhNames) ?_ ?_ ?_
    (fun ⟨p, hp⟩ => absurd hp.1 hinc) (hR ▸ ht.tags) ht.tokens (by decide) ht.chars h1 h2
  · rw [hW]
    intro A b hb t htm
    rcases zhTermOK_cases ((zh_written hb).2.2 t htm) with h3 | ⟨h3, h4, h5, h6⟩
    · exact .inl h3
    · refine .inr ⟨h3, ?_⟩
      obtain ⟨ts, h7, h8⟩ := h.tokens _ h5 h6
      rw [String.ofList_toList] at h7
      rw [readTerm, if_pos h3, h7, Option.getD_some, h4]
      have := congrArg (List.map fun s => (⟨s, .terminal, .nil⟩ : Term)) h8
      rw [List.map_map, List.map_map] at this
      exact this
  · rw [hW]
    intro A b hb
    obtain ⟨h3, h4, h5⟩ := zh_written hb
    refine ⟨h4, h3, fun t htm htt => ?_⟩
    rcases zhTermOK_cases (h5 t htm) with ⟨h6, -⟩ | ⟨-, -, h6, h7⟩
    · rw [htt] at h6; cases h6
    · refine ⟨fun e => h6 (by rw [e]; rfl), fun h8 => zh_no_gamma _ (h7 _ h8) rfl⟩
  · intro A hA
    have : ∀ A ∈ zhNames, (A == "ɣ" || "g_t".toList.isPrefixOf A.toList) = false := by decide +kernel
    exact Reserved.of_dec (this A hA)

/-- C81: with the shipped grammar for Chinese numbers, `Parse` of a numeral for `n` returns trees, they cover the whole
text, and `Eval` of each of them gives the decimal digits of `n`. -/
def C81_statement : Prop :=
  ∀ (lw : LoadWorld) (file : String), ZhLoader lw file → ∀ (fuel₀ depth : Nat) (reg : Registry) (ld : Loaded) (st : LoadSt),
    loadFile lw fuel₀ depth file reg = .ok (some ld, st) → ∀ w : World, w.OrdOK → ∀ nw, CallsReturn nw → ∀ ext, HasMath nw ext →
    ∀ context text d cs, ZhText w context text d cs → ∀ n, n < 10 ^ 16 → ZhNumeral n cs →
    ∃ N, ∀ fuel ≥ N, ∃ ns, apiParse w ld.gram fuel context text ["number"] = .ok ns ∧ ns ≠ [] ∧
      ∀ node ∈ ns, node.value.stop = d.words.length ∧ ∀ p : Parsed, p.text = text → p.env.tokens = d.words →
        node.eval nw p = .ok (.str (utf8 (toString n)))

/-- C81: the trees give the number with ten significant digits, so all its digits below 10^10. Missing for the full
statement: from 10^10 on the value has an exponent. -/
theorem C81_partial {lw : LoadWorld} {file : String} (h : ZhLoader lw file) {fuel₀ depth : Nat} {reg : Registry} {ld : Loaded}
    {st : LoadSt} (hload : loadFile lw fuel₀ depth file reg = .ok (some ld, st)) (w : World) (ho : w.OrdOK) (nw : NodeWorld)
    (hc : CallsReturn nw) {ext : String → Option BF} (hm : HasMath nw ext) {context : String} {text : Bytes} {d : Doc}
    {cs : List Char} (ht : ZhText w context text d cs) {n : Nat} (hn : n < 10 ^ 16) (hcs : ZhNumeral n cs) :
    ∃ s, TenDigitText n s ∧ (s = toString n ↔ n < 10 ^ 10) ∧
    ∃ N, ∀ fuel ≥ N, ∃ ns, apiParse w ld.gram fuel context text ["number"] = .ok ns ∧ ns ≠ [] ∧
      ∀ node ∈ ns, node.value.stop = d.words.length ∧ ∀ p : Parsed, p.text = text → p.env.tokens = d.words →
        node.eval nw p = .ok (.str (utf8 s)) := by
  refine ⟨_, printed_shown n, ⟨fun e => ?_, printed_small⟩, zh_number h hload w ho nw hc hm ht hn hcs⟩
  by_contra hlt
  have := text_big (neg := false) (q := (n : ℚ)) (by exact_mod_cast Nat.le_of_not_lt hlt)
  rw [show BF.text ⟨false, (n : ℚ)⟩ = toString (n : Int) from e] at this
  exact e_notMem_int n this

end Fmr
