import Verif.Props.NumberZh
import Verif.Props.Eval

/-!
# C81: a setting in which all assumptions hold, and the refutation
-/

namespace Fmr

/-- the alternatives of the grammar -/
def zhBodies : List RuleBody := zhDefs.flatMap (·.bodies)

/-- ASCII only; the hash of an alternative is its place in the grammar -/
noncomputable def zhLex : LexWorld :=
  open Classical in { asciiLex with isSpace := isSp, hash := fun b => some (zhBodies.idxOf b) }

/-- tokens are characters -/
def charTokens (cs : List Char) : List Token :=
  cs.zipIdx.map fun p => { text := String.singleton p.1, type := .otherTok, startByte := p.2, endByte := p.2 + 1, i := p.2 }

/-- the grammar file is the only one -/
noncomputable def zhLoad : LoadWorld :=
  { noFiles zhLex with
    ref := { annot := fun s => some (charTokens s.toList), ascii := id, hash := fun _ => some 0 }
    read := fun _ => some numberZh
    dir := fun _ => some "." }

theorem zhLex_ok : zhLex.OK := by
  have hs : ∀ {c : Char}, asciiLex.isSpace c = false → isSp c = false := by
    intro c h
    have h : (c == ' ' || c == '\t' || c == '\n' || c == '\r') = false := h
    simp only [Bool.or_eq_false_iff] at h
    simp [isSp, h]
  exact ⟨asciiLex_ok.1, fun c h => hs (asciiLex_ok.2 c h), fun c h => hs (asciiLex_ok.3 c h),
    fun c h => ⟨(asciiLex_ok.4 c h).1, (asciiLex_ok.4 c h).2.1, hs (asciiLex_ok.4 c h).2.2⟩, asciiLex_ok.5, asciiLex_ok.6,
    by decide, ⟨asciiLex_ok.8.1, asciiLex_ok.8.2.1, hs asciiLex_ok.8.2.2⟩⟩

theorem zhLex_plain : PlainLex zhLex [] := by
  refine ⟨zhLex_ok, fun c h1 h2 => ?_, fun n => ?_, fun s q h => by cases h⟩
  · show c.isAlpha = true
    simp only [Char.isAlpha, Char.isUpper, Bool.or_eq_true, decide_eq_true_eq]
    exact .inl ⟨h1, h2⟩
  · show scanDec _ = _
    have hd : ∀ c ∈ Nat.toDigits 10 n, c.isDigit = true := fun c hc => digit_toDigits hc
    unfold scanDec
    rw [String.toList_ofList]
    split
    · rename_i d h
      have := hd '-' (by rw [h]; simp)
      exact absurd this (by decide)
    · rw [if_pos ⟨Nat.toDigits_ne_nil, List.all_eq_true.2 hd⟩, Nat.ofDigitChars_ten_toDigits]

theorem zhLex_spaces : PlainText zhLex numberZh := fun _ _ h => h

theorem zhLex_apart : HashesApart zhLex numberZh := by
  classical
  intro ds ρ h d hd b hb d' hd' b' hb' e
  have hds := (C80_unique zhLex_ok zh_clean h (.defs (zh_syntax zhLex_plain zhLex_spaces))).1
  subst hds
  have hb1 : b ∈ zhBodies := List.mem_flatMap.2 ⟨d, hd, hb⟩
  exact (List.idxOf_inj hb1).1 (Option.some.inj e)

theorem charTokens_text (cs : List Char) : (charTokens cs).map (·.text) = cs.map String.singleton := by
  rw [charTokens, List.map_map, ← List.zipIdx_map_fst 0 cs]
  simp only [List.map_map]
  rw [List.zipIdx_map_fst]
  rfl

theorem charTokens_type {cs : List Char} {t : Token} (h : t ∈ charTokens cs) : t.type = .otherTok := by
  obtain ⟨p, -, rfl⟩ := List.mem_map.1 h
  rfl

theorem charTokens_words (cs : List Char) : (charTokens cs).filter (fun a => a.type ≠ .space) = charTokens cs := by
  refine List.filter_eq_self.2 fun t h => ?_
  rw [charTokens_type h]
  rfl

theorem zhLoad_ok (file : String) : ZhLoader zhLoad file := by
  refine ⟨zhLex_plain, zhLex_spaces, rfl, by simp [zhLoad], fun b => by simp [zhLoad, noFiles, zhLex], zhLex_apart, fun l h1 h2 => ?_⟩
  refine ⟨charTokens l, by simp [zhLoad], ?_⟩
  rw [charTokens_words, charTokens_text]

/-- the document of these characters -/
def charDoc (cs : List Char) : Doc := { text := cs.map fun _ => 65, tokens := charTokens cs, spans := [] }

/-- texts are annotated as this document -/
def charWorld (cs : List Char) : World :=
  { trim := id, annotate := fun _ => some (charDoc cs), ctxTagger := "", annotateCtx := fun _ _ => none, hash := fun _ => some 0,
    find := fun _ _ => none, lower := id, registry := fun _ => none, ord := fun _ _ _ _ l => l }

theorem charDoc_no {cs : List Char} {find : String → Bytes → Option (List (Nat × Nat))} {A : String} {b : RuleBody} :
    ¬ DocAlt find (fun _ _ => False) (charDoc cs) A b := by
  intro h
  cases h with
  | word h1 h2 => rw [charTokens_type h1] at h2; cases h2
  | punct h1 h2 => rw [charTokens_type h1] at h2; cases h2
  | symbol h1 h2 => rw [charTokens_type h1] at h2; cases h2
  | letters h1 h2 => rw [charTokens_type h1] at h2; cases h2
  | tag h1 => cases h1
  | values h1 => cases h1
  | regexp h1 => exact h1

theorem charTokens_get {cs : List Char} {k : Nat} {t : Token} (h : (charTokens cs)[k]? = some t) :
    t.i = k ∧ t.startByte = k ∧ t.endByte = k + 1 ∧ k < cs.length := by
  rw [charTokens, List.getElem?_map, List.getElem?_zipIdx, Option.map_map, Option.map_eq_some_iff] at h
  obtain ⟨c, hc, rfl⟩ := h
  have := (List.getElem?_eq_some_iff.1 hc).1
  exact ⟨by simp, by simp, by simp, this⟩

theorem charTokens_sorted (cs : List Char) : (charTokens cs).Pairwise (fun a b => a.endByte ≤ b.startByte) := by
  rw [List.pairwise_iff_getElem]
  intro i j hi hj hij
  have h1 := charTokens_get (List.getElem?_eq_getElem hi)
  have h2 := charTokens_get (List.getElem?_eq_getElem hj)
  omega

theorem charWorld_ok {cs : List Char} (h : cs ≠ []) (hg : 'ɣ' ∉ cs) :
    ZhText (charWorld cs) "" (charDoc cs).text (charDoc cs) cs := by
  have hw : (charDoc cs).words = charTokens cs := charTokens_words cs
  refine ⟨⟨?_, .plain rfl, ?_⟩, ⟨⟨fun k t h => (charTokens_get h).1, charTokens_sorted cs, fun t h => ?_⟩, ?_, ?_, ?_, ?_, ?_⟩, ?_, ?_, ?_, ?_⟩
  · simpa [charWorld, charDoc] using h
  · obtain ⟨c, l, rfl⟩ := List.exists_cons_of_ne_nil h
    exact ⟨_, List.mem_cons_self, by simp⟩
  · obtain ⟨k, hk⟩ := List.mem_iff_getElem?.1 h
    have := charTokens_get hk
    omega
  · intro sp h; cases h
  · intro sp h; cases h
  · exact fun A rb h => absurd h charDoc_no
  · exact fun A a b h => absurd h charDoc_no
  · exact fun k s s' h => h.elim
  · rw [hw]
    refine ⟨fun t h => ?_, charTokens_sorted cs⟩
    obtain ⟨k, hk⟩ := List.mem_iff_getElem?.1 h
    have := charTokens_get hk
    simp only [charDoc, List.length_map]
    omega
  · rw [hw, charTokens_text]
  · exact fun A b h => absurd h charDoc_no
  · intro t ht e
    obtain ⟨p, hp, rfl⟩ := List.mem_map.1 ht
    have e : String.singleton p.1 = "ɣ" := e
    have : p.1 = 'ɣ' := by
      have := congrArg String.toList e
      simpa using this
    exact hg (this ▸ List.fst_mem_of_mem_zipIdx hp)

/-- the text of some bytes -/
noncomputable def textOf (b : Bytes) : String := open Classical in if h : ∃ s, utf8 s = b then h.choose else ""

theorem utf8_injective {s t : String} (h : utf8 s = utf8 t) : s = t := by
  unfold utf8 at h
  have := Array.toList_inj.1 h
  exact String.toByteArray_inj.1 (ByteArray.ext this)

theorem textOf_utf8 (s : String) : textOf (utf8 s) = s := by
  have h : ∃ t, utf8 t = utf8 s := ⟨s, rfl⟩
  rw [textOf, dif_pos h]
  exact utf8_injective h.choose_spec

/-- only `sum` and `mul` are registered -/
noncomputable def mathNode : NodeWorld :=
  { wPlain with
    call := fun fn vs =>
      match vs with
      | [.str a, .str b] =>
        if fn = "nf.math.sum" then .ok (.str (utf8 (mathSum (fun _ => none) (textOf a) (textOf b))))
        else if fn = "nf.math.mul" then .ok (.str (utf8 (mathMul (fun _ => none) (textOf a) (textOf b))))
        else .err
      | _ => .err }

theorem mathNode_math : HasMath mathNode (fun _ => none) :=
  ⟨fun x y => by simp [mathNode, textOf_utf8], fun x y => by simp [mathNode, textOf_utf8]⟩

theorem mathNode_calls : CallsReturn mathNode := by
  intro fn vs
  simp only [mathNode]
  split
  · split_ifs
    · exact .ok
    · exact .ok
    · exact .err
  · exact .err

theorem zh_loads : ∃ fuel depth ld st, loadFile zhLoad fuel depth "number.zh.grammar" [] = .ok (some ld, st) := by
  obtain ⟨N, ld, st, h⟩ := C81_loads (zhLoad_ok "number.zh.grammar") (fun _ _ => rfl) (fun _ => by simp [zhLoad]) []
  exact ⟨N, N, ld, st, h N N le_rfl le_rfl⟩

/-- one of the characters of numerals -/
def ZhChar (c : Char) : Prop := ∃ v ∈ zhVariants, c ∈ v

instance (c : Char) : Decidable (ZhChar c) := by unfold ZhChar; infer_instance

theorem zhDigit_char (d : Nat) : ZhChar (zhDigit d) := by
  match d with
  | 0 | 1 | 2 | 3 | 4 | 5 | 6 | 7 | 8 | 9 => decide
  | n + 10 => exact (by decide : ZhChar '零')

theorem zhOnes_chars (n : Nat) : (∀ c ∈ zhOnes n, ZhChar c) ∧ (n ≠ 0 → zhOnes n ≠ []) := by
  unfold zhOnes
  split_ifs with h
  · simp [h]
  · simp [zhDigit_char]

theorem zhTens_chars (b : Bool) (n : Nat) : (∀ c ∈ zhTens b n, ZhChar c) ∧ (n ≠ 0 → zhTens b n ≠ []) := by
  have ht : ZhChar '十' := by decide
  unfold zhTens
  split_ifs
  · exact zhOnes_chars n
  · simpa [ht] using (zhOnes_chars _).1
  · simpa [ht, zhDigit_char] using (zhOnes_chars _).1

theorem zhHundreds_chars (b : Bool) (n : Nat) : (∀ c ∈ zhHundreds b n, ZhChar c) ∧ (n ≠ 0 → zhHundreds b n ≠ []) := by
  have ht : ZhChar '百' := by decide
  have hz : ZhChar '零' := by decide
  unfold zhHundreds
  split_ifs
  · exact zhTens_chars b n
  · simp [ht, zhDigit_char]
  · simpa [ht, hz, zhDigit_char] using (zhOnes_chars _).1
  · simpa [ht, zhDigit_char] using (zhTens_chars _ _).1

theorem zhThousands_chars (b : Bool) (n : Nat) : (∀ c ∈ zhThousands b n, ZhChar c) ∧ (n ≠ 0 → zhThousands b n ≠ []) := by
  have ht : ZhChar '千' := by decide
  have hz : ZhChar '零' := by decide
  unfold zhThousands
  split_ifs
  · exact zhHundreds_chars b n
  · simp [ht, zhDigit_char]
  · simpa [ht, hz, zhDigit_char] using (zhTens_chars _ _).1
  · simpa [ht, zhDigit_char] using (zhHundreds_chars _ _).1

theorem zhMyriads_chars (b : Bool) (n : Nat) : (∀ c ∈ zhMyriads b n, ZhChar c) ∧ (n ≠ 0 → zhMyriads b n ≠ []) := by
  have ht : ZhChar '万' := by decide
  have hz : ZhChar '零' := by decide
  unfold zhMyriads
  split_ifs
  · exact zhThousands_chars b n
  all_goals refine ⟨fun c hc => ?_, by simp⟩
  all_goals
    simp only [List.mem_append, List.mem_cons, List.not_mem_nil, or_false] at hc
  · rcases hc with hc | rfl
    · exact (zhThousands_chars _ _).1 c hc
    · exact ht
  · rcases hc with hc | rfl | rfl | hc
    · exact (zhThousands_chars _ _).1 c hc
    · exact ht
    · exact hz
    · exact (zhHundreds_chars _ _).1 c hc
  · rcases hc with hc | rfl | hc
    · exact (zhThousands_chars _ _).1 c hc
    · exact ht
    · exact (zhThousands_chars _ _).1 c hc

theorem zhNumber_chars (b : Bool) (n : Nat) : (∀ c ∈ zhNumber b n, ZhChar c) ∧ zhNumber b n ≠ [] := by
  have ht : ZhChar '亿' := by decide
  have hz : ZhChar '零' := by decide
  unfold zhNumber
  split_ifs with h
  · simp [hz]
  · exact ⟨(zhMyriads_chars b n).1, (zhMyriads_chars b n).2 h⟩
  all_goals refine ⟨fun c hc => ?_, by simp⟩
  all_goals
    simp only [List.mem_append, List.mem_cons, List.not_mem_nil, or_false] at hc
  · rcases hc with hc | rfl
    · exact (zhMyriads_chars _ _).1 c hc
    · exact ht
  · rcases hc with hc | rfl | rfl | hc
    · exact (zhMyriads_chars _ _).1 c hc
    · exact ht
    · exact hz
    · exact (zhMyriads_chars _ _).1 c hc
  · rcases hc with hc | rfl | hc
    · exact (zhMyriads_chars _ _).1 c hc
    · exact ht
    · exact (zhMyriads_chars _ _).1 c hc

theorem zhNumber_numeral (b : Bool) (n : Nat) : ZhNumeral n (zhNumber b n) := by
  refine .mk b (List.forall₂_same.2 fun c hc => ?_)
  obtain ⟨v, h1, h2⟩ := (zhNumber_chars b n).1 c hc
  exact ⟨v, h1, h2, h2⟩

theorem zhNumber_text (b : Bool) (n : Nat) :
    ZhText (charWorld (zhNumber b n)) "" (charDoc (zhNumber b n)).text (charDoc (zhNumber b n)) (zhNumber b n) := by
  refine charWorld_ok (zhNumber_chars b n).2 fun h => ?_
  exact absurd ((zhNumber_chars b n).1 _ h) (by decide)

/-- C81: all assumptions hold together, for every numeral -/
example (n : Nat) (hn : n < 10 ^ 16) (b : Bool) : ∃ fuel depth ld st,
    loadFile zhLoad fuel depth "number.zh.grammar" [] = .ok (some ld, st) ∧
    ∃ s, TenDigitText n s ∧ (s = toString n ↔ n < 10 ^ 10) ∧
    ∃ N, ∀ fuel ≥ N, ∃ ns, apiParse (charWorld (zhNumber b n)) ld.gram fuel "" (charDoc (zhNumber b n)).text ["number"] = .ok ns ∧
      ns ≠ [] ∧ ∀ node ∈ ns, node.value.stop = (charDoc (zhNumber b n)).words.length ∧
        ∀ p : Parsed, p.text = (charDoc (zhNumber b n)).text → p.env.tokens = (charDoc (zhNumber b n)).words →
          node.eval mathNode p = .ok (.str (utf8 s)) := by
  obtain ⟨fuel, depth, ld, st, h⟩ := zh_loads
  exact ⟨fuel, depth, ld, st, h, C81_partial (zhLoad_ok _) h _ (fun _ _ _ _ _ => .refl _) mathNode mathNode_calls mathNode_math
    (zhNumber_text b n) hn (zhNumber_numeral b n)⟩

/-- C81 fails: 一百亿 evaluates to 1e+10. -/
theorem C81_false : ¬ C81_statement := by
  intro hall
  obtain ⟨fuel, depth, ld, st, h⟩ := zh_loads
  have hord : (charWorld (zhNumber true (10 ^ 10))).OrdOK := fun _ _ _ _ _ => .refl _
  obtain ⟨N, h1⟩ := hall _ _ (zhLoad_ok _) _ _ _ _ _ h _ hord mathNode mathNode_calls _ mathNode_math
    _ _ _ _ (zhNumber_text true (10 ^ 10)) (10 ^ 10) (by omega) (zhNumber_numeral true (10 ^ 10))
  obtain ⟨N', h2⟩ := zh_number (zhLoad_ok _) h _ hord mathNode mathNode_calls mathNode_math
    (zhNumber_text true (10 ^ 10)) (n := 10 ^ 10) (by omega) (zhNumber_numeral true (10 ^ 10))
  obtain ⟨ns, e1, hne, h3⟩ := h1 (max N N') (le_max_left _ _)
  obtain ⟨ns', e2, -, h4⟩ := h2 (max N N') (le_max_right _ _)
  obtain rfl := Out.ok.inj (e1.symm.trans e2)
  obtain ⟨node, hn⟩ := List.exists_mem_of_ne_nil _ hne
  have hp : ∃ p : Parsed, p.text = (charDoc (zhNumber true (10 ^ 10))).text ∧
      p.env.tokens = (charDoc (zhNumber true (10 ^ 10))).words :=
    ⟨⟨_, ⟨[], (charDoc (zhNumber true (10 ^ 10))).words, [], fun _ _ => false, fun _ _ _ l => l⟩, ⟨[], []⟩, 0⟩, rfl, rfl⟩
  obtain ⟨p, p1, p2⟩ := hp
  have e := ((h3 node hn).2 p p1 p2).symm.trans ((h4 node hn).2 p p1 p2)
  have := utf8_injective (Value.str.inj (Out.ok.inj e))
  have h5 : numText 10000000000 = "1e+10" := by decide +kernel
  rw [show (10 : Nat) ^ 10 = 10000000000 by norm_num] at this
  rw [h5] at this
  exact absurd this (by decide +kernel)

/-- The grammar gives two meanings to 一百二: 120 and 102. -/
theorem C81_ambiguous : CharLang zhW "number" ['一', '百', '二'] (some 120) ∧ CharLang zhW "number" ['一', '百', '二'] (some 102) := by
  have one : CharLang zhW "cn_unit" ['一'] (some 1) := lang_unit.2 ⟨'一', 1, rfl, by decide, rfl⟩
  have two : CharLang zhW "cn_unit" ['二'] (some 2) := lang_unit.2 ⟨'二', 2, rfl, by decide, rfl⟩
  have hundred : CharLang zhW "cn_e2" ['百'] (some 100) := lang_e2.2 ⟨'百', rfl, by decide, rfl⟩
  have up : ∀ v, CharLang zhW "cn_e2s" ['一', '百', '二'] v → CharLang zhW "number" ['一', '百', '二'] v := fun v h =>
    number_alts.2 ⟨_, .head _, lang_same.2 (lang_e8s.2 (.below (lang_e4s.2 (.below (lang_e3s.2 (.below h))))))⟩
  have e1 : smallOp (· * ·) (some 1) (some 100) = some 100 := by decide +kernel
  refine ⟨up _ (lang_e2s.2 ?_), up _ (lang_e2s.2 ?_)⟩
  · have := UnitLang.short (B := "cn_e1s") (k := 10) one hundred two
    rwa [e1, show smallOp (· * ·) (some 10) (some 2) = some 20 by decide +kernel,
      show smallOp (· + ·) (some 100) (some 20) = some 120 by decide +kernel] at this
  · have := UnitLang.rest (B := "cn_e1s") (k := 10) one hundred (e1s_alts.2 ⟨sameAlt "cn_unit", by simp, lang_same.2 two⟩)
    rwa [e1, show smallOp (· + ·) (some 100) (some 2) = some 102 by decide +kernel] at this

/-- 一百亿 -/
example : String.ofList (zhNumber true 10000000000) = "一百亿" ∧ numText 10000000000 = "1e+10" ∧
    String.ofList (zhNumber true 1234567812345678) = "一千二百三十四万五千六百七十八亿一千二百三十四万五千六百七十八" ∧
    numText 1234567812345678 = "1.234567812e+15" := by decide +kernel

end Fmr
