import Verif.Proofs.Called
import Verif.Props.Eval
import Verif.Props.NumberEn
import Verif.Props.Shipped

/-!
# C86: functions that grammars call and the library does not have
-/

namespace Fmr

/-- C86, full statement: the grammar files of the repository call only functions that are registered. -/
def C86_statement (w : LexWorld) : Prop :=
  ∀ f ∈ goodFiles, ∀ ds ρ, FileSyn w f.text ds ρ → ∀ g, DefsCall ds g → g ∈ registered

section
variable {lw : LoadWorld} {place : String → String} (h : ReadsShipped lw place)
include h

/-- C86: for each file exactly the functions of the table are missing. -/
theorem C86_missing {f : ShippedFile} (hf : f ∈ goodFiles) : ∃ gs, missingFuncs.lookup (f.dir, f.name) = some gs ∧
    (∃ ds ρ, FileSyn lw.lex f.text ds ρ) ∧
    ∀ ds ρ, FileSyn lw.lex f.text ds ρ → ∀ g, (DefsCall ds g ∧ g ∉ registered) ↔ g ∈ gs := by
  rw [← sheets_files] at hf
  obtain ⟨s, hs, rfl⟩ := List.mem_map.1 hf
  obtain ⟨ρ, k⟩ := sheet_says h hs
  obtain ⟨ls, h1, -, h3⟩ := sheets_read s hs
  refine ⟨_, h3, ⟨_, ρ, k.is.syn⟩, fun ds ρ' hf g => ?_⟩
  obtain ⟨rfl, rfl⟩ := C80_unique h.ok k.clean k.is.syn hf
  rw [sheetDefs, h1.eq, partsCalls_iff, List.mem_eraseDups, List.mem_filter]
  simp

/-- C86: three of the sixteen files call only what is registered. Missing for the full statement: the others do not. -/
theorem C86_partial {f : ShippedFile} (hf : f ∈ goodFiles) :
    (∀ ds ρ, FileSyn lw.lex f.text ds ρ → ∀ g, DefsCall ds g → g ∈ registered) ↔
      f.name ∈ ["arithmetic.grammar", "builtin.grammar", "cn_num.grammar"] := by
  obtain ⟨gs, h1, ⟨ds, ρ, h2⟩, h3⟩ := C86_missing h hf
  have key : ∀ f ∈ goodFiles, missingFuncs.lookup (f.dir, f.name) = some [] ↔
      f.name ∈ ["arithmetic.grammar", "builtin.grammar", "cn_num.grammar"] := by decide +kernel
  rw [← key f hf, h1, Option.some.injEq]
  constructor
  · intro h4
    rw [List.eq_nil_iff_forall_not_mem]
    intro g hg
    obtain ⟨h5, h6⟩ := (h3 ds ρ h2 g).2 hg
    exact h6 (h4 ds ρ h2 g h5)
  · rintro rfl ds ρ h4 g h5
    by_contra h6
    exact absurd ((h3 ds ρ h4 g).1 ⟨h5, h6⟩) (by simp)

/-- C86 fails: number.zh.grammar calls nf.math.decimal. -/
theorem C86_false : ¬ C86_statement lw.lex := by
  intro hall
  have h1 := (C86_partial h (f := goodFiles.head (by decide)) (List.head_mem _)).1 (hall _ (List.head_mem _))
  exact absurd h1 (by decide +kernel)

end

/-- C86: the tree of an expression with a call of a function that is not registered cannot be evaluated. -/
theorem C86_eval {w : NodeWorld} (hc : CallsReturn w) {known : List String} (ho : CallsOnly w known) {p : Parsed} {n : Node} {e : Expr}
    (h : Means w p n e) {g : String} (hg : ExprCalls e g) (hk : g ∉ known) : n.eval w p = .err := by
  rw [(C42_same_expression w p n e h).2, exprCalls_err hc ho hg hk]

/-! ## decimals -/

theorem WordLang.other {V V' : Type} {W : String → RuleBody → Prop} {split : String → List String}
    {ev : List (Option V) → FMR → Option V} {ev' : List (Option V') → FMR → Option V'} {A : String} {l : List String}
    {v : Option V} (h : WordLang W split ev A l v) : ∃ v', WordLang W split ev' A l v' :=
  WordLang.rec (motive_1 := fun A l _ _ => ∃ v', WordLang W split ev' A l v')
    (motive_2 := fun ts l _ _ => ∃ vs', WordSeq W split ev' ts l vs')
    (fun h1 _ ⟨_, h2⟩ => ⟨_, .mk h1 h2⟩) ⟨_, .nil⟩ (fun h1 _ ⟨_, h2⟩ => ⟨_, .lit h1 h2⟩)
    (fun h1 _ _ ⟨_, h2⟩ ⟨_, h3⟩ => ⟨_, .ref h1 h2 h3⟩) h

/-- With a grammar of one file in which every function that belongs to the word `x` fails: all trees over that word fail, and the
trees of `Parse` are over it if it is in a text that is derived as a whole. -/
theorem word_fails {parts : List String} {ds : List Def} {text : List Char} {names : List String} {splits : List (String × List String)}
    (hparts : PartsRead [] parts ds) (htext : text = (parts.map String.toList).flatten) (hhead : ∃ r, text = '<' :: r)
    (hok : wordDefsOK names splits ds = true) {known : List String} {x : String} {free : List String} (hb : badDefs known (splitIn splits) x free ds = true)
    {lw : LoadWorld} {file : String} (h : HasFile lw file text) (htok : SplitsAs lw.ref.annot splits)
    {fuel₀ depth : Nat} {reg : Registry} {ld : Loaded} {st : LoadSt}
    (hload : loadFile lw fuel₀ depth file reg = .ok (some ld, st)) (w : World) (ho : w.OrdOK) (nw : NodeWorld)
    (hc : CallsReturn nw) (hk : CallsOnly nw known) {context : String} {txt : Bytes} {d : Doc} {ws : List String}
    (ht : HasWords w context txt d ws names) {S : String} (hS : S ∈ names) :
    ∃ N, ∀ fuel ≥ N,
      (∃ ns, apiParse w ld.gram fuel context txt [S] = .ok ns ∧
        ((∃ v, WordLang (Written ds false) (splitIn splits) fmrNum S ws v) → ns ≠ [] ∧ ∀ n ∈ ns, n.value.stop = d.words.length) ∧
        ∀ n ∈ ns, x ∈ ws.take n.value.stop → ∀ p : Parsed, p.text = txt → p.env.tokens = d.words → n.eval nw p = .err) ∧
      (∃ groups : List (Nat × List Node), apiExtractAll w ld.gram fuel context txt [S] = .ok (groups.map (·.2)).flatten ∧
        ∀ a ∈ groups, ∀ n ∈ a.2, x ∈ (ws.drop a.1).take n.value.stop →
          ∀ p : Parsed, p.text = txt → p.env.tokens = d.words.drop a.1 → n.eval nw p = .err) := by
  obtain ⟨N, h1⟩ := oneFile_calls hparts htext hhead hok h htok hload w ho nw hc (fmrBad_ev hc hk) ht hS rfl rfl
  refine ⟨N, fun fuel hf => ?_⟩
  obtain ⟨⟨ns, h2, h3⟩, -, ⟨groups, h4, h5⟩, -⟩ := h1 fuel hf
  refine ⟨⟨ns, h2, fun ⟨v, hv⟩ => ?_, fun n hn hx => ?_⟩, ⟨groups, h4, fun a ha n hn hx => ?_⟩⟩
  · have := h3.whole (by
      obtain ⟨t, h3, h4⟩ := ht.read.word
      exact List.length_pos_of_mem (List.mem_filter.2 ⟨h3, by simpa using h4⟩)) ht.words hv.other
    exact ⟨this.1, fun n hn => (this.2 n hn).1⟩
  · obtain ⟨S', -, k, h6, -⟩ := h3.trees n hn
    have hk := h6.1
    subst hk
    exact wordTree_bad hb h6 hx
  · obtain ⟨S', -, k, h6, -⟩ := h5.trees a ha n hn
    have hk := h6.1
    subst hk
    exact wordTree_bad hb h6 hx

/-! ### English -/

theorem en_point : badDefs registered (splitIn enSplits) "point" [] enDefs = true := by decide +kernel

theorem enLang_ex {A : String} {bs : List RuleBody} (hb : (enDefs.filter fun d => d.name == A).flatMap (·.bodies) = bs) {b : RuleBody}
    (h : b ∈ bs) {l : List String} (hs : ∃ vs, EnSeq b.terms l vs) : ∃ v, EnLang A l v := by
  obtain ⟨vs, hs⟩ := hs
  exact ⟨_, (enLang_alts bs hb).2 ⟨b, h, vs, hs, rfl⟩⟩

theorem enSeq_ex {A : String} {ts : List Term} {l1 l2 : List String} (h1 : ∃ v, EnLang A l1 v) (h2 : ∃ vs, EnSeq ts l2 vs) :
    ∃ vs, EnSeq (nt A :: ts) (l1 ++ l2) vs := by
  obtain ⟨v, h1⟩ := h1
  obtain ⟨vs, h2⟩ := h2
  exact ⟨_, enSeq_nt.2 ⟨_, _, _, _, h1, h2, rfl, rfl⟩⟩

theorem enSeq_ex1 {A : String} {l : List String} (h : ∃ v, EnLang A l v) : ∃ vs, EnSeq [nt A] l vs := by
  simpa using enSeq_ex h ⟨[], .nil⟩

theorem en_digit {s : String} (h : s = "zero" ∨ s ∈ enDigits.map (·.1)) : ∃ v, EnLang "unit" [s] v := by
  rcases h with rfl | h
  · exact ⟨_, en_unit.2 ⟨("zero", 0), by simp [enUnits], rfl, rfl⟩⟩
  · obtain ⟨p, hp, rfl⟩ := List.mem_map.1 h
    exact ⟨_, en_unit.2 ⟨p, by simp [enUnits, hp], rfl, rfl⟩⟩

theorem en_digits : ∀ {ds : List String}, ds ≠ [] → (∀ s ∈ ds, s = "zero" ∨ s ∈ enDigits.map (·.1)) → ∃ v, EnLang "numbers" ds v
  | [s], _, h => enLang_ex rfl (.head _) (enSeq_ex1 (A := "unit") (en_digit (h s (by simp))))
  | s :: s' :: ds, _, h => enLang_ex rfl (.tail _ (.head _)) (enSeq_ex (A := "unit") (en_digit (h s (by simp)))
      (enSeq_ex1 (A := "numbers") (en_digits (List.cons_ne_nil s' ds) (fun t ht => h t (List.mem_cons_of_mem _ ht)))))

theorem en_decimal_lang {ds : List String} (h1 : ds ≠ []) (h2 : ∀ s ∈ ds, s = "zero" ∨ s ∈ enDigits.map (·.1)) :
    ∃ v, EnLang "en_decimal" ("point" :: ds) v := by
  obtain ⟨vs, hv⟩ := enSeq_ex1 (en_digits h1 h2)
  exact enLang_ex rfl (.head _) ⟨_, (enSeq_lit (x := "point") (ts := [nt "numbers"]) (by decide +kernel)).2 ⟨_, _, hv, rfl, rfl⟩⟩

theorem en_decimal_number {ws : List String} (h : EnDecimal ws) : (∃ v, EnLang "number" ws v) ∧ "point" ∈ ws := by
  cases h with
  | point h1 h2 => exact ⟨enLang_ex rfl (.tail _ (.head _)) (enSeq_ex1 (A := "en_decimal") (en_decimal_lang h1 h2)), .head _⟩
  | both h1 h2 h3 h4 =>
    have hd := enSeq_ex1 (en_decimal_lang h3 h4)
    have hn : ∃ v, EnLang "en_number" _ v := enLang_ex (bs := [sameAlt "e12s"]) rfl (.head _)
      (enSeq_ex1 (A := "e12s") ⟨_, e12s_iff.2 (.less (numeral_e9s h1).lang)⟩)
    refine ⟨?_, by simp⟩
    simp only [List.mem_cons, List.not_mem_nil, or_false] at h2
    rcases h2 with rfl | rfl
    · exact enLang_ex (b := addAlt [nt "en_number", nt "en_decimal"] 1 2) rfl (.tail _ (.tail _ (.head _))) (enSeq_ex hn hd)
    · obtain ⟨vs, hd⟩ := hd
      exact enLang_ex (b := addAlt [nt "en_number", lit "and", nt "en_decimal"] 1 3) rfl (.tail _ (.tail _ (.tail _ (.head _))))
        (enSeq_ex hn ⟨_, (enSeq_lit (by decide +kernel)).2 ⟨_, _, hd, rfl, rfl⟩⟩)

/-- C86: with the shipped grammar for English numbers, `Parse` of a number with decimals returns trees over the whole text, and none of
them can be evaluated. -/
theorem C86_english {lw : LoadWorld} {file : String} (h : EnLoader lw file) {fuel₀ depth : Nat} {reg : Registry} {ld : Loaded}
    {st : LoadSt} (hload : loadFile lw fuel₀ depth file reg = .ok (some ld, st)) (w : World) (ho : w.OrdOK) (nw : NodeWorld)
    (hc : CallsReturn nw) (hk : CallsOnly nw registered) {context : String} {text : Bytes} {d : Doc} {ws : List String}
    (ht : HasWords w context text d ws enNames) (hd : EnDecimal ws) :
    ∃ N, ∀ fuel ≥ N, ∃ ns, apiParse w ld.gram fuel context text ["number"] = .ok ns ∧ ns ≠ [] ∧
      ∀ node ∈ ns, node.value.stop = d.words.length ∧ ∀ p : Parsed, p.text = text → p.env.tokens = d.words →
        node.eval nw p = .err := by
  obtain ⟨N, h1⟩ := word_fails en_parts rfl en_head en_check en_point h.file h.tokens hload w ho nw hc hk ht (S := "number") (by decide)
  obtain ⟨h2, h3⟩ := en_decimal_number hd
  refine ⟨N, fun fuel hf => ?_⟩
  obtain ⟨⟨ns, g1, g2, g3⟩, -⟩ := h1 fuel hf
  refine ⟨ns, g1, (g2 h2).1, fun node hn => ⟨(g2 h2).2 node hn, g3 node hn ?_⟩⟩
  rw [(g2 h2).2 node hn, show d.words.length = ws.length by rw [← ht.words, List.length_map], List.take_length]
  exact h3

/-! ### Chinese -/

/-- the characters of the literals -/
def zhSplits : List (String × List String) :=
  ((zhVariants.flatten.map String.singleton ++ ["点"]).map fun s => (s, [s])) ++ [("万万", ["万", "万"])]

theorem zh_words : wordDefsOK zhNames zhSplits zhDefs = true := by decide +kernel

theorem zh_point : badDefs registered (splitIn zhSplits) "点" ["cn_zero"] zhDefs = true := by decide +kernel

theorem zhSplits_chars : ∀ p ∈ zhSplits, p.1.toList ≠ [] ∧ p.2 = p.1.toList.map String.singleton ∧
    ∀ c ∈ p.1.toList, c = '点' ∨ ∃ v ∈ zhVariants, c ∈ v := by decide +kernel

theorem ZhLoader.splits {lw : LoadWorld} {file : String} (h : ZhLoader lw file) : SplitsAs lw.ref.annot zhSplits := by
  intro p hp
  obtain ⟨h1, h2, h3⟩ := zhSplits_chars p hp
  obtain ⟨ts, h4, h5⟩ := h.tokens _ h1 h3
  rw [String.ofList_toList] at h4
  exact ⟨ts, h4, by rw [h5, h2]⟩

theorem ZhLoader.hasFile {lw : LoadWorld} {file : String} (h : ZhLoader lw file) : HasFile lw file numberZh :=
  ⟨h.lex, h.spaces, h.read, h.dir, h.hash, h.apart⟩

theorem ZhText.hasWords {w : World} {context : String} {text : Bytes} {d : Doc} {cs : List Char} (h : ZhText w context text d cs) :
    HasWords w context text d (cs.map String.singleton) zhNames :=
  ⟨h.read, h.fit, h.ordered, h.chars, h.tags, h.tokens⟩

mutual
theorem CharLang.split : ∀ {A : String} {l : List Char} {v : Option Nat}, CharLang zhW A l v →
    WordLang zhW (splitIn zhSplits) fmrNum A (l.map String.singleton) v
  | _, _, _, .mk h1 h2 => .mk h1 (h2.split fun t ht htt => by
      rcases (wordDefs_written zh_words h1).2.2 t ht with h | h
      · rw [htt] at h; cases h.1
      · exact (zhSplits_chars _ h.2.2.1).2.1)
theorem CharSeq.split : ∀ {ts : List Term} {l : List Char} {vs : List (Option Nat)}, CharSeq zhW ts l vs →
    (∀ t ∈ ts, t.type = .terminal → splitIn zhSplits t.value = t.value.toList.map String.singleton) →
    WordSeq zhW (splitIn zhSplits) fmrNum ts (l.map String.singleton) vs
  | _, _, _, .nil, _ => .nil
  | _, _, _, .lit (t := t) h1 h2, h => by
    rw [List.map_append, ← h t List.mem_cons_self h1]
    exact .lit h1 (h2.split fun t ht => h t (List.mem_cons_of_mem _ ht))
  | _, _, _, .ref h1 h2 h3, h => by
    rw [List.map_append]
    exact .ref h1 h2.split (h3.split fun t ht => h t (List.mem_cons_of_mem _ ht))
end

theorem zhLang_ex {A : String} {b : RuleBody} (h : b ∈ (zhDefs.filter fun d => d.name == A).flatMap (·.bodies)) {l : List Char}
    (hs : ∃ vs, CharSeq zhW b.terms l vs) : ∃ v, CharLang zhW A l v := by
  obtain ⟨vs, hs⟩ := hs
  exact ⟨_, .mk (zhW_iff.2 h) hs⟩

theorem zhSeq_ex {A : String} {ts : List Term} {l1 l2 : List Char} (h1 : ∃ v, CharLang zhW A l1 v) (h2 : ∃ vs, CharSeq zhW ts l2 vs) :
    ∃ vs, CharSeq zhW (nt A :: ts) (l1 ++ l2) vs := by
  obtain ⟨v, h1⟩ := h1
  obtain ⟨vs, h2⟩ := h2
  exact ⟨_, charSeq_nt.2 ⟨_, _, _, _, h1, h2, rfl, rfl⟩⟩

theorem zhSeq_ex1 {A : String} {l : List Char} (h : ∃ v, CharLang zhW A l v) : ∃ vs, CharSeq zhW [nt A] l vs := by
  simpa using zhSeq_ex h ⟨[], .nil⟩

theorem zh_digit {c : Char} (h : ∃ v ∈ zhVariants.take 10, c ∈ v) : ∃ v, CharLang zhW "cn_digit" [c] v := by
  have h1 : ∀ v ∈ zhVariants.take 10, ∀ c ∈ v, sign c = .Z ∨ ∃ d ∈ List.range 10, sign c = .D d := by decide +kernel
  obtain ⟨v, hv, hc⟩ := h
  rcases h1 v hv c hc with h | ⟨d, -, h⟩
  · exact zhLang_ex (.tail _ (.head _)) (zhSeq_ex1 (A := "cn_zero") ⟨_, lang_zero.2 ⟨c, rfl, h, rfl⟩⟩)
  · exact zhLang_ex (.head _) (zhSeq_ex1 (A := "cn_unit") ⟨_, lang_unit.2 ⟨c, d, rfl, h, rfl⟩⟩)

theorem zh_digits : ∀ {ds : List Char}, ds ≠ [] → (∀ c ∈ ds, ∃ v ∈ zhVariants.take 10, c ∈ v) → ∃ v, CharLang zhW "numbers" ds v
  | [c], _, h => zhLang_ex (.head _) (zhSeq_ex1 (A := "cn_digit") (zh_digit (h c (by simp))))
  | c :: c' :: ds, _, h => zhLang_ex (.tail _ (.head _)) (zhSeq_ex (A := "cn_digit") (l1 := [c]) (zh_digit (h c (by simp)))
      (zhSeq_ex1 (A := "numbers") (zh_digits (List.cons_ne_nil c' ds) (fun t ht => h t (List.mem_cons_of_mem _ ht)))))

theorem zh_decimal_lang {ds : List Char} (h1 : ds ≠ []) (h2 : ∀ c ∈ ds, ∃ v ∈ zhVariants.take 10, c ∈ v) :
    ∃ v, CharLang zhW "cn_decimal" ('点' :: ds) v := by
  obtain ⟨vs, hv⟩ := zhSeq_ex1 (zh_digits h1 h2)
  exact zhLang_ex (.head _) ⟨_, (charSeq_lit (x := "点") (ts := [nt "numbers"])).2 ⟨_, _, hv, by simp, rfl⟩⟩

theorem zh_decimal_number {cs : List Char} (h : ZhDecimal cs) : (∃ v, CharLang zhW "number" cs v) ∧ '点' ∈ cs := by
  cases h with
  | point h1 h2 => exact ⟨zhLang_ex (.tail _ (.head _)) (zhSeq_ex1 (A := "cn_decimal") (zh_decimal_lang h1 h2)), .head _⟩
  | both h0 h1 h3 h4 =>
    obtain ⟨⟨b, e⟩, hp⟩ := h1.signs h0
    exact ⟨zhLang_ex (.tail _ (.tail _ (.head _))) (zhSeq_ex (A := "cn_e8s") (e8s_covers _ _ (e ▸ sgnNumber_ok h0))
      (zhSeq_ex1 (A := "cn_decimal") (zh_decimal_lang h3 h4))), by simp⟩

/-- C86: with the shipped grammar for Chinese numbers, `Parse` of a number with decimals returns trees over the whole text, and none of
them can be evaluated. -/
theorem C86_chinese {lw : LoadWorld} {file : String} (h : ZhLoader lw file) {fuel₀ depth : Nat} {reg : Registry} {ld : Loaded}
    {st : LoadSt} (hload : loadFile lw fuel₀ depth file reg = .ok (some ld, st)) (w : World) (ho : w.OrdOK) (nw : NodeWorld)
    (hc : CallsReturn nw) (hk : CallsOnly nw registered) {context : String} {text : Bytes} {d : Doc} {cs : List Char}
    (ht : ZhText w context text d cs) (hd : ZhDecimal cs) :
    ∃ N, ∀ fuel ≥ N, ∃ ns, apiParse w ld.gram fuel context text ["number"] = .ok ns ∧ ns ≠ [] ∧
      ∀ node ∈ ns, node.value.stop = d.words.length ∧ ∀ p : Parsed, p.text = text → p.env.tokens = d.words →
        node.eval nw p = .err := by
  obtain ⟨N, h1⟩ := word_fails zh_parts rfl zh_head zh_words zh_point h.hasFile h.splits hload w ho nw hc hk ht.hasWords (S := "number")
    (by decide)
  obtain ⟨⟨v, h2⟩, h3⟩ := zh_decimal_number hd
  refine ⟨N, fun fuel hf => ?_⟩
  obtain ⟨⟨ns, g1, g2, g3⟩, -⟩ := h1 fuel hf
  have g2 := g2 ⟨v, h2.split⟩
  refine ⟨ns, g1, g2.1, fun node hn => ⟨g2.2 node hn, g3 node hn ?_⟩⟩
  rw [g2.2 node hn, show d.words.length = (cs.map String.singleton).length by rw [← ht.chars, List.length_map], List.take_length]
  exact List.mem_map.2 ⟨_, h3, by decide⟩

/-! ## all assumptions hold together -/

theorem mathNode_only : CallsOnly mathNode registered := by
  intro fn vs h
  simp only [mathNode]
  split
  · rw [if_neg (by rintro rfl; exact h (by decide)), if_neg (by rintro rfl; exact h (by decide))]
  · rfl

/-- C86 with the files of the repository -/
example : ¬ C86_statement shLoad.lex := C86_false shLoad_ok

/-- C86: a tree with a call, where nothing is registered -/
example : nCall.eval { wPlain with call := fun _ _ => .err } pAB = .err := by
  have hm : Means { wPlain with call := fun _ _ => .err } pAB nCall (.call "f" [.leaf "a" [97], .str "x", .str "a b"]) := by
    have hnl : NLOf { wPlain with call := fun _ _ => .err } pAB nCall "a b" :=
      ⟨pAB.env.tokens, rfl, fun k hk => by simp only [nCall, Node.value, Nat.zero_add], by decide +kernel⟩
    refine .rule rfl rfl hnl (.call (by decide) (.cons (.child (k := 0) rfl ?_)
      (.cons (.func (.proj .string)) (.cons (.self hnl) .nil))))
    refine .leaf (fun rb h => by simp [Node.value] at h) ⟨[{ text := "a", startByte := 0, endByte := 1 }], rfl, ?_, ?_⟩ ?_
    · intro k hk
      simp only [Node.value] at hk
      have : k = 0 := by omega
      subst this; rfl
    · decide +kernel
    · decide +kernel
  exact C86_eval (known := []) (fun _ _ => .inr rfl) (fun _ _ _ => rfl) hm .here (by simp)

/-- C86: one point five -/
example : ∃ fuel depth ld st, loadFile enLoad fuel depth "number.en.grammar" [] = .ok (some ld, st) ∧
    ∃ N, ∀ fuel ≥ N, ∃ ns, apiParse (wordWorld ["one", "point", "five"]) ld.gram fuel "" (wordDoc ["one", "point", "five"]).text ["number"] = .ok ns ∧
      ns ≠ [] ∧ ∀ node ∈ ns, node.value.stop = (wordDoc ["one", "point", "five"]).words.length ∧
        ∀ p : Parsed, p.text = (wordDoc ["one", "point", "five"]).text → p.env.tokens = (wordDoc ["one", "point", "five"]).words →
          node.eval mathNode p = .err := by
  obtain ⟨fuel, depth, ld, st, h⟩ := en_loads
  have hd : EnDecimal ["one", "point", "five"] :=
    .both (n := 1) (l := ["one"]) (and := []) (.blocks (.less (.less (.less (.hundreds (.tens (.word (by decide)))))))) (by decide) (by decide)
      (by decide)
  exact ⟨fuel, depth, ld, st, h, C86_english (enLoad_ok _) h _ (fun _ _ _ _ _ => .refl _) mathNode mathNode_calls mathNode_only
    (wordWorld_ok (by decide) (by decide)) hd⟩

/-- C86: 一点五 -/
example : ∃ fuel depth ld st, loadFile zhLoad fuel depth "number.zh.grammar" [] = .ok (some ld, st) ∧
    ∃ N, ∀ fuel ≥ N, ∃ ns, apiParse (charWorld ['一', '点', '五']) ld.gram fuel "" (charDoc ['一', '点', '五']).text ["number"] = .ok ns ∧
      ns ≠ [] ∧ ∀ node ∈ ns, node.value.stop = (charDoc ['一', '点', '五']).words.length ∧
        ∀ p : Parsed, p.text = (charDoc ['一', '点', '五']).text → p.env.tokens = (charDoc ['一', '点', '五']).words →
          node.eval mathNode p = .err := by
  obtain ⟨fuel, depth, ld, st, h⟩ := zh_loads
  have hd : ZhDecimal ['一', '点', '五'] :=
    .both (n := 1) (l := ['一']) (by omega) (zhNumber_numeral true 1) (by decide) (by decide)
  exact ⟨fuel, depth, ld, st, h, C86_chinese (zhLoad_ok _) h _ (fun _ _ _ _ _ => .refl _) mathNode mathNode_calls mathNode_only
    (charWorld_ok (by decide) (by decide)) hd⟩

end Fmr
