import Verif.Proofs.BuiltinRead
import Verif.Props.CalcWitness
import Std.Data.String.ToInt

/-!
# C89: the grammar of examples/builtin for English numbers

What `Parse`, `Semantic` and `Eval` give for the numerals of `Spec/English.lean` with examples/builtin/builtin.grammar, from
the text of the grammar file to the value.
-/

namespace Fmr

/-- the text of examples/builtin/builtin.grammar -/
def builtinText : List Char := (builtinParts.map String.toList).flatten

set_option maxRecDepth 100000 in
theorem bi_head : ∃ r, builtinText = '<' :: r := by
  have h : builtinParts = builtinParts.head (by decide) :: builtinParts.tail := rfl
  rw [builtinText, h, List.map_cons, List.flatten_cons]
  have h2 : ∃ r, builtinParts.head (by decide) = String.ofList ('<' :: r) := ⟨_, rfl⟩
  obtain ⟨r, h2⟩ := h2
  rw [h2, String.toList_ofList]
  exact ⟨_, rfl⟩

/-- What is asked of the loader: `file` is the shipped grammar, and the tokens of its literals are the literals. -/
structure BiLoader (lw : LoadWorld) (file : String) : Prop where
  file : HasFile lw file builtinText
  tokens : SplitsAs lw.ref.annot biSplits

/-! ## small numbers -/

/-- all numbers in the expression are positive, and it has only sums and products -/
def Calc.Pos : Calc → Prop
  | .num n => 0 < n
  | .add a b => a.Pos ∧ b.Pos
  | .mul a b => a.Pos ∧ b.Pos
  | _ => False

theorem Calc.Pos.value : ∀ {c : Calc}, c.Pos → 0 < c.value
  | .num _, h => by
    have : 0 < _ := h
    rw [Calc.value]
    exact_mod_cast this
  | .add _ _, h => by
    have h1 := Calc.Pos.value h.1
    have h2 := Calc.Pos.value h.2
    rw [Calc.value]
    omega
  | .mul _ _, h => by
    rw [Calc.value]
    exact Int.mul_pos (Calc.Pos.value h.1) (Calc.Pos.value h.2)

theorem Calc.Pos.fits {c : Calc} (hp : c.Pos) (h : c.value < 10 ^ 10) : c.Fits := by
  induction c with
  | num n =>
    rw [Calc.value] at h
    rw [Calc.Fits]
    exact_mod_cast h
  | add a b ih1 ih2 =>
    have h1 := Calc.Pos.value hp.1
    have h2 := Calc.Pos.value hp.2
    rw [Calc.value] at h
    rw [Calc.Fits]
    exact ⟨ih1 hp.1 (by omega), ih2 hp.2 (by omega), by omega⟩
  | mul a b ih1 ih2 =>
    have h1 := Calc.Pos.value hp.1
    have h2 := Calc.Pos.value hp.2
    rw [Calc.value] at h
    have h3 : a.value ≤ a.value * b.value := le_mul_of_one_le_right (by omega) (by omega)
    have h4 : b.value ≤ a.value * b.value := le_mul_of_one_le_left (by omega) (by omega)
    rw [Calc.Fits]
    exact ⟨ih1 hp.1 (by omega), ih2 hp.2 (by omega), by omega⟩
  | sub a b => exact hp.elim
  | neg a => exact hp.elim

/-- the words for zero -/
def IsZero (x : String) : Prop := x = "zero" ∨ x = "o"

instance (x : String) : Decidable (IsZero x) := by unfold IsZero; infer_instance

theorem num_pos {l : List String} {c : Calc} (h : BiNum l c) : (∀ x ∈ l, ¬ IsZero x) → c.Pos := by
  have t1 : ∀ p ∈ biWords, ¬ IsZero p.1 → 0 < p.2 := by decide +kernel
  have t2 : ∀ p ∈ biMags, 0 < p.2 := by decide +kernel
  have hbase : ∀ {l : List String} {c : Calc}, BiBase l c → (∀ x ∈ l, ¬ IsZero x) → c.Pos := by
    intro l c h hz
    cases h with
    | @word p hp => exact t1 p hp (hz _ (by simp))
    | @both p q sep hp hq hs => exact ⟨t1 p (by simp [biWords, hp]) (hz _ (by simp)), t1 q (by simp [biWords, hq]) (hz _ (by simp))⟩
  have hsec : ∀ {l : List String} {c : Calc}, BiSec l c → (∀ x ∈ l, ¬ IsZero x) → c.Pos := by
    intro l c h hz
    cases h with
    | base h => exact hbase h hz
    | mag h =>
      induction h with
      | one h1 _ hp => exact ⟨hbase h1 fun x hx => hz x (by simp [hx]), t2 _ hp⟩
      | more _ hp ih => exact ⟨ih fun x hx => hz x (by simp [hx]), t2 _ hp⟩
  induction h with
  | last h => exact hsec h
  | more h _ _ ih => exact fun hz => ⟨hsec h fun x hx => hz x (by simp [hx]), ih fun x hx => hz x (by simp [hx])⟩

theorem counted_no_zero {k n : Nat} {l : List String} {cs : List (List String)} (h : EnCounted k n l cs) : ∀ x ∈ l, ¬ IsZero x := by
  have t1 : ∀ p ∈ enDigits ++ enTeens ++ enTens, ¬ IsZero p.1 := by decide +kernel
  have t2 : ∀ x ∈ ["-", "and", "hundred"], ¬ IsZero x := by decide +kernel
  have t3 : ∀ k, ¬ IsZero (enScale k) := by
    intro k
    unfold enScale
    split <;> decide +kernel
  have hand : ∀ {and : List String}, and ∈ [[], ["and"]] → ∀ x ∈ and, ¬ IsZero x := by
    intro and h x hx
    simp only [List.mem_cons, List.not_mem_nil, or_false] at h
    rcases h with rfl | rfl
    · cases hx
    · rw [List.mem_singleton.1 hx]; exact t2 _ (by simp)
  have htens : ∀ {n : Nat} {l : List String}, EnTens n l → ∀ x ∈ l, ¬ IsZero x := by
    intro n l h x hx
    cases h with
    | @word s n h => rw [List.mem_singleton.1 hx]; exact t1 (s, n) h
    | @both s t m n hy hm hn hh =>
      simp only [List.mem_cons, List.mem_append, List.not_mem_nil, or_false] at hx hh
      rcases hx with rfl | hx | rfl
      · exact t1 (x, m) (by simp [hm])
      · rcases hh with rfl | rfl
        · cases hx
        · rw [List.mem_singleton.1 hx]; exact t2 _ (by simp)
      · exact t1 (x, n) (by simp [hn])
  have hhun : ∀ {n : Nat} {l : List String}, EnHundreds n l → ∀ x ∈ l, ¬ IsZero x := by
    intro n l h x hx
    cases h with
    | tens h => exact htens h x hx
    | @hundreds s d h =>
      simp only [List.mem_cons, List.not_mem_nil, or_false] at hx
      rcases hx with rfl | rfl
      · exact t1 (x, d) (by simp [h])
      · exact t2 _ (by simp)
    | @both s d n l and hd h ha =>
      simp only [List.mem_cons, List.mem_append] at hx
      rcases hx with rfl | rfl | hx | hx
      · exact t1 (x, d) (by simp [hd])
      · exact t2 _ (by simp)
      · exact hand ha x hx
      · exact htens h x hx
  induction h with
  | hundreds h => exact hhun h
  | less _ ih => exact ih
  | block h =>
    intro x hx
    rcases List.mem_append.1 hx with hx | hx
    · exact hhun h x hx
    · rw [List.mem_singleton.1 hx]; exact t3 _
  | both h _ ha ih =>
    intro x hx
    simp only [List.mem_cons, List.mem_append] at hx
    rcases hx with hx | rfl | hx | hx
    · exact hhun h x hx
    · exact t3 _
    · exact hand ha x hx
    · exact ih x hx

/-! ## which numerals are read -/

/-- The grammar can read the words as the expression. -/
def BuiltinReads (ws : List String) (c : Calc) : Prop := BiLang "number" ws (some c)

theorem builtinReads_iff {ws : List String} {c : Calc} : BuiltinReads ws c ↔ BiNum ws c := by
  rw [BuiltinReads, bi_number]
  constructor
  · rintro ⟨c', e, h⟩
    rw [Option.some.inj e]
    exact h
  · exact fun h => ⟨c, rfl, h⟩

section
variable {n : Nat} {ws : List String} {cs : List (List String)} (h : EnCounted 3 n ws cs)
include h

/-- C89: Every numeral is read, and never as a greater number. -/
theorem C89_below : (∃ c, BuiltinReads ws c) ∧ ∀ c, BuiltinReads ws c → 0 < c.value ∧ c.value ≤ n := by
  refine ⟨?_, fun c hc => ?_⟩
  · obtain ⟨c, hc⟩ := (counted_reads h le_rfl).1
    exact ⟨c, builtinReads_iff.2 hc⟩
  · obtain ⟨h1, h2, -⟩ := counted_read h le_rfl (builtinReads_iff.1 hc)
    exact ⟨h1, h2⟩

/-- C89: A numeral can be read as its number exactly if no count has hundreds and more. -/
theorem C89_some : (∃ c, BuiltinReads ws c ∧ c.value = n) ↔ ∀ e ∈ cs, ¬ MixedCount e := by
  constructor
  · rintro ⟨c, h1, h2⟩ e he hm
    have := (counted_read h le_rfl (builtinReads_iff.1 h1)).2.2.2 ⟨e, he, hm⟩
    omega
  · intro hm
    obtain ⟨c, h1, h2⟩ := (counted_reads h le_rfl).2.1 hm
    exact ⟨c, builtinReads_iff.2 h1, h2⟩

/-- C89: A numeral can be read as its number only, exactly if in addition all counts of tens and ones are hyphenated. -/
theorem C89_only : (∀ c, BuiltinReads ws c → c.value = n) ↔ ∀ e ∈ cs, ¬ OpenCount e ∧ ¬ MixedCount e := by
  constructor
  · intro hall
    by_contra hcon
    push Not at hcon
    obtain ⟨e, he, hm⟩ := hcon
    obtain ⟨c, h1, h2⟩ := (counted_reads h le_rfl).2.2 ⟨e, he, by tauto⟩
    have := hall c (builtinReads_iff.2 h1)
    omega
  · exact fun hm c hc => (counted_read h le_rfl (builtinReads_iff.1 hc)).2.2.1 hm

end

/-! ## from the texts to the values -/

/-- The tree is for all the words, `Semantic` prints the expression, and `Eval` writes its value if it stays below 10^10. -/
structure CalcNode (nw : NodeWorld) (text : Bytes) (toks : List Token) (c : Calc) (node : Node) : Prop where
  whole : node.value.stop = toks.length
  semantic : ∀ p : Parsed, p.text = text → p.env.tokens = toks → node.semantic nw p = .ok c.js
  eval : c.value < 10 ^ 10 → ∀ p : Parsed, p.text = text → p.env.tokens = toks → node.eval nw p = .ok (.str (utf8 (toString c.value)))

section
variable {lw : LoadWorld} {file : String} (h : BiLoader lw file)
include h

/-- C89: The grammar can be loaded. -/
theorem C89_loads (hu : ∀ t s, lw.idx.update t s = true) (hh : ∀ b, lw.ref.hash b ≠ none) (reg : Registry) :
    ∃ N ld st, ∀ fuel depth, N ≤ fuel → N ≤ depth → loadFile lw fuel depth file reg = .ok (some ld, st) :=
  oneFile_loads bi_parts rfl bi_head bi_check h.file h.tokens hu hh reg

variable {fuel₀ depth : Nat} {reg : Registry} {ld : Loaded} {st : LoadSt}
  (hload : loadFile lw fuel₀ depth file reg = .ok (some ld, st)) (w : World) (ho : w.OrdOK) (nw : NodeWorld)
  (hc : CallsReturn nw) {ext : String → Option BF} (hm : HasCalc nw ext) {context : String} {text : Bytes} {d : Doc}
  {ws : List String} (ht : HasWords w context text d ws biNames) {n : Nat} {cs : List (List String)} (hn : EnCounted 3 n ws cs)
include hload ho hc hm ht hn

/-- C89: `Parse` returns trees for every numeral; they cover the whole text, and are for readings of the grammar. -/
theorem C89_trees : ∃ N, ∀ fuel ≥ N, ∃ ns, apiParse w ld.gram fuel context text ["number"] = .ok ns ∧ ns ≠ [] ∧
    ∀ node ∈ ns, ∃ c, BuiltinReads ws c ∧ CalcNode nw text d.words c node := by
  obtain ⟨N, h1⟩ := oneFile_calls bi_parts rfl bi_head bi_check h.file h.tokens hload w ho nw hc (calcEv_sound hm) ht
    (S := "number") (by decide) rfl rfl
  refine ⟨N, fun fuel hf => ?_⟩
  obtain ⟨ns, h4, h5⟩ := (h1 fuel hf).1
  have hlen : ws.length = d.words.length := by simpa using (congrArg List.length ht.words).symm
  obtain ⟨⟨c, h6⟩, -⟩ := C89_below hn
  have hpos : 0 < ws.length := by
    obtain ⟨x, r, rfl, -⟩ := counted_begin hn
    simp
  obtain ⟨h7, h8⟩ := h5.whole (by omega) ht.words ⟨_, h6⟩
  refine ⟨ns, h4, h7, fun node hnode => ?_⟩
  obtain ⟨h9, v, h10, h11⟩ := h8 node hnode
  obtain ⟨c', rfl, h12⟩ := bi_number.1 h10
  obtain ⟨e, ⟨g1, g2⟩, g3⟩ := h11 c' rfl
  have hp := num_pos h12 (counted_no_zero hn)
  refine ⟨c', h10, h9, fun p p1 p2 => by rw [(g3 p p1 p2).1, g1], fun hlt p p1 p2 => ?_⟩
  obtain ⟨-, s, g4, g5⟩ := g2 (hp.fits hlt)
  rw [(g3 p p1 p2).2, g4]
  rcases g5 with rfl | ⟨g5, -⟩
  · rfl
  · have := hp.value
    omega

/-- C89: if no count in a numeral has hundreds and more, and all counts of tens and ones are hyphenated, then every tree is
for the number. Missing for the full statement: all other numerals. -/
theorem C89_partial (hcs : ∀ e ∈ cs, ¬ OpenCount e ∧ ¬ MixedCount e) :
    ∃ N, ∀ fuel ≥ N, ∃ ns, apiParse w ld.gram fuel context text ["number"] = .ok ns ∧ ns ≠ [] ∧
    ∀ node ∈ ns, ∃ c : Calc, c.value = n ∧ CalcNode nw text d.words c node := by
  obtain ⟨N, h1⟩ := C89_trees h hload w ho nw hc hm ht hn
  refine ⟨N, fun fuel hf => ?_⟩
  obtain ⟨ns, h2, h3, h4⟩ := h1 fuel hf
  refine ⟨ns, h2, h3, fun node hnode => ?_⟩
  obtain ⟨c, h5, h6⟩ := h4 node hnode
  exact ⟨c, (C89_only hn).2 hcs c h5, h6⟩

/-- C89: if a count in a numeral has hundreds and more, then every tree is for a number that is too small; below 10^10 `Eval`
gives its digits. -/
theorem C89_wrong (hcs : ∃ e ∈ cs, MixedCount e) :
    ∃ N, ∀ fuel ≥ N, ∃ ns, apiParse w ld.gram fuel context text ["number"] = .ok ns ∧ ns ≠ [] ∧
    ∀ node ∈ ns, ∃ c : Calc, c.value < n ∧ CalcNode nw text d.words c node := by
  obtain ⟨N, h1⟩ := C89_trees h hload w ho nw hc hm ht hn
  refine ⟨N, fun fuel hf => ?_⟩
  obtain ⟨ns, h2, h3, h4⟩ := h1 fuel hf
  refine ⟨ns, h2, h3, fun node hnode => ?_⟩
  obtain ⟨c, h5, h6⟩ := h4 node hnode
  exact ⟨c, (counted_read hn le_rfl (builtinReads_iff.1 h5)).2.2.2 hcs, h6⟩

end

/-- C89, full statement: with the grammar of examples/builtin, `Parse` of a numeral for `n` returns trees, they cover the whole
text, and each of them is for `n`. -/
def C89_statement : Prop :=
  ∀ (lw : LoadWorld) (file : String), BiLoader lw file → ∀ (fuel₀ depth : Nat) (reg : Registry) (ld : Loaded) (st : LoadSt),
    loadFile lw fuel₀ depth file reg = .ok (some ld, st) → ∀ w : World, w.OrdOK → ∀ nw, CallsReturn nw → ∀ ext, HasCalc nw ext →
    ∀ context text d ws, HasWords w context text d ws biNames → ∀ n cs, EnCounted 3 n ws cs →
    ∃ N, ∀ fuel ≥ N, ∃ ns, apiParse w ld.gram fuel context text ["number"] = .ok ns ∧ ns ≠ [] ∧
      ∀ node ∈ ns, ∃ c : Calc, c.value = n ∧ CalcNode nw text d.words c node

/-! ## a setting in which all assumptions hold, and the refutation -/

open Classical in
/-- the hash of an alternative is its place in the grammar -/
noncomputable def biHash (b : RuleBody) : Option Nat := some ((biDefs.flatMap (·.bodies)).idxOf b)

noncomputable def biLoad : LoadWorld := wordLoad biHash biSplits builtinText

theorem biHash_apart : ∀ b ∈ biDefs.flatMap (·.bodies), ∀ b' ∈ biDefs.flatMap (·.bodies), biHash b = biHash b' → b = b' := by
  intro b hb b' hb' h
  classical exact (List.idxOf_inj hb).1 (Option.some.inj h)

theorem biLoad_ok (file : String) : BiLoader biLoad file :=
  ⟨wordLoad_file bi_parts rfl (fun _ => by simp [biHash]) biHash_apart file, wordLoad_splits (by unfold KeysNodup; decide +kernel)⟩

theorem bi_loads : ∃ fuel depth ld st, loadFile biLoad fuel depth "builtin.grammar" [] = .ok (some ld, st) := by
  obtain ⟨N, ld, st, h⟩ := C89_loads (biLoad_ok "builtin.grammar") (fun _ _ => rfl) (fun _ => by simp [biLoad, wordLoad]) []
  exact ⟨N, N, ld, st, h N N le_rfl le_rfl⟩

theorem counted_text {n : Nat} {ws : List String} {cs : List (List String)} (h : EnCounted 3 n ws cs) :
    HasWords (wordWorld ws) "" (wordDoc ws).text (wordDoc ws) ws biNames := by
  have hn : EnNumeral n ws := .blocks (enCounted_iff.1 ⟨cs, h⟩)
  exact wordWorld_ok (numeral_ne hn) fun hm => absurd (numeral_words hn _ hm) (by decide +kernel)

/-- C89: all assumptions hold together, for every numeral -/
example (n : Nat) (ws : List String) (cs : List (List String)) (hn : EnCounted 3 n ws cs) : ∃ fuel depth ld st,
    loadFile biLoad fuel depth "builtin.grammar" [] = .ok (some ld, st) ∧
    ∃ N, ∀ fuel ≥ N, ∃ ns, apiParse (wordWorld ws) ld.gram fuel "" (wordDoc ws).text ["number"] = .ok ns ∧ ns ≠ [] ∧
      ∀ node ∈ ns, ∃ c, BuiltinReads ws c ∧ CalcNode calcNode (wordDoc ws).text (wordDoc ws).words c node := by
  obtain ⟨fuel, depth, ld, st, h⟩ := bi_loads
  exact ⟨fuel, depth, ld, st, h, C89_trees (biLoad_ok _) h _ (fun _ _ _ _ _ => .refl _) calcNode calcNode_calls calcNode_calc
    (counted_text hn) hn⟩

/-- C89: every number from 1 to below 10^12 has a numeral with counts -/
example (n : Nat) (h0 : 0 < n) (h : n < 10 ^ 12) : ∃ ws cs, EnCounted 3 n ws cs := by
  obtain ⟨ws, hn⟩ := exists_enBlocks 3 h0 (by simpa using h)
  obtain ⟨cs, hc⟩ := enCounted_iff.2 hn
  exact ⟨ws, cs, hc⟩

/-- C89: "twenty-one thousand five hundred sixty nine" has a single count, with a hyphen -/
example : EnCounted 3 21569 ["twenty", "-", "one", "thousand", "five", "hundred", "sixty", "nine"] [["twenty", "-", "one"]] ∧
    ∀ e ∈ [["twenty", "-", "one"]], ¬ OpenCount e ∧ ¬ MixedCount e := by
  refine ⟨.less (.less (.both (k := 0) (m := 21) (n := 569) (l := ["twenty", "-", "one"]) (and := [])
    (.tens (.both (m := 20) (n := 1) (hyphen := ["-"]) (by decide) (by decide : ("one", 1) ∈ enDigits) (by decide)))
    (.hundreds (.both (d := 5) (n := 69) (and := []) (by decide) (.both (m := 60) (n := 9) (hyphen := []) (by decide) (by decide : ("nine", 9) ∈ enDigits)
      (by decide)) (by decide))) (by decide))), ?_⟩
  intro e he
  rw [List.mem_singleton.1 he]
  exact ⟨by unfold OpenCount; decide +kernel, by rintro ⟨s, x, r, e⟩; simp at e⟩

theorem onefifty : EnCounted 3 150000 ["one", "hundred", "fifty", "thousand"] [["one", "hundred", "fifty"]] :=
  .less (.less (.block (k := 0) (m := 150) (l := ["one", "hundred", "fifty"])
    (.both (d := 1) (n := 50) (and := []) (by decide) (.word (by decide)) (by decide))))

/-- C89 fails: "one hundred fifty thousand" is read as 100 + 50 * 1000. -/
theorem C89_false : ¬ C89_statement := by
  intro hall
  obtain ⟨fuel, depth, ld, st, h⟩ := bi_loads
  have hnum := onefifty
  have ht := counted_text hnum
  generalize hws : ["one", "hundred", "fifty", "thousand"] = ws at hnum ht
  have hord : (wordWorld ws).OrdOK := fun _ _ _ _ _ => .refl _
  obtain ⟨N, h1⟩ := hall _ _ (biLoad_ok _) _ _ _ _ _ h _ hord calcNode calcNode_calls _ calcNode_calc _ _ _ _ ht _ _ hnum
  obtain ⟨N', h2⟩ := C89_wrong (biLoad_ok _) h _ hord calcNode calcNode_calls calcNode_calc ht hnum ⟨_, .head _, _, _, _, rfl⟩
  obtain ⟨ns, e1, hne, h3⟩ := h1 (max N N') (le_max_left _ _)
  obtain ⟨ns', e2, -, h4⟩ := h2 (max N N') (le_max_right _ _)
  obtain rfl := Out.ok.inj (e1.symm.trans e2)
  obtain ⟨node, hn⟩ := List.exists_mem_of_ne_nil _ hne
  obtain ⟨c, g1, g2⟩ := h3 node hn
  obtain ⟨c', g3, g4⟩ := h4 node hn
  obtain ⟨p, p1, p2⟩ : ∃ p : Parsed, p.text = (wordDoc ws).text ∧ p.env.tokens = (wordDoc ws).words :=
    ⟨⟨_, ⟨[], (wordDoc ws).words, [], fun _ _ => false, fun _ _ _ l => l⟩, ⟨[], []⟩, 0⟩, rfl, rfl⟩
  have e3 := (g2.eval (by rw [g1]; decide) p p1 p2).symm.trans (g4.eval (by omega) p p1 p2)
  have e4 := utf8_injective (Value.str.inj (Out.ok.inj e3))
  have e5 : c.value = c'.value := Int.repr_injective e4
  omega

/-- C89: "twenty one thousand" can be read as 21000 and as 20 + 1 * 1000. -/
theorem C89_two : (∃ c, BuiltinReads ["twenty", "one", "thousand"] c ∧ c.value = 21000) ∧
    ∃ c, BuiltinReads ["twenty", "one", "thousand"] c ∧ c.value = 1020 := by
  have b1 : BiBase ["twenty", "one"] (.add (.num 20) (.num 1)) :=
    .both (p := ("twenty", 20)) (q := ("one", 1)) (sep := []) (by decide +kernel) (by decide +kernel) (by simp)
  have b2 : BiBase ["twenty"] (.num 20) := .word (p := ("twenty", 20)) (by decide +kernel)
  have b3 : BiBase ["one"] (.num 1) := .word (p := ("one", 1)) (by decide +kernel)
  have m1 := BiMag.one (h := []) (p := ("thousand", 1000)) b1 (by simp) (by decide +kernel)
  have m2 := BiMag.one (h := []) (p := ("thousand", 1000)) b3 (by simp) (by decide +kernel)
  exact ⟨⟨_, builtinReads_iff.2 (.last (.mag m1)), rfl⟩, _, builtinReads_iff.2 (.more (sep := []) (.base b2) (by simp) (.last (.mag m2))), rfl⟩

end Fmr
