import Verif.Proofs.CnNumRead
import Verif.Props.NumberEn
import Verif.Props.NumberZhWitness

/-!
# C90: the grammar of examples/builtin for Chinese numbers

What `Parse` and `Eval` give for the numerals of `Spec/Numerals.lean` with examples/builtin/cn_num.grammar, from the text of
the grammar file to the value.
-/

namespace Fmr

/-- the text of examples/builtin/cn_num.grammar -/
def cnNumText : List Char := (cnNumParts.map String.toList).flatten

set_option maxRecDepth 100000 in
theorem cn_head : ∃ r, cnNumText = '<' :: r := by
  have h : cnNumParts = cnNumParts.head (by decide) :: cnNumParts.tail := rfl
  rw [cnNumText, h, List.map_cons, List.flatten_cons]
  have h2 : ∃ r, cnNumParts.head (by decide) = String.ofList ('<' :: r) := ⟨_, rfl⟩
  obtain ⟨r, h2⟩ := h2
  rw [h2, String.toList_ofList]
  exact ⟨_, rfl⟩

/-- What is asked of the loader: `file` is the shipped grammar, and the tokens of its literals are the literals. -/
structure CnLoader (lw : LoadWorld) (file : String) : Prop where
  file : HasFile lw file cnNumText
  tokens : SplitsAs lw.ref.annot cnSplits

/-! ## which numerals are read -/

/-- The grammar can read the words as the number. -/
def CnReads (ws : List String) (n : Nat) : Prop := CnLang "number" ws (some n)

theorem cnReads_iff {ws : List String} {n : Nat} : CnReads ws n ↔ CnNum ws n := by
  rw [CnReads, cn_number]
  constructor
  · rintro ⟨m, e, h⟩
    rw [Option.some.inj e]
    exact h
  · exact fun h => ⟨n, rfl, h⟩

/-- C90: Every text, numeral or not, has at most one value. -/
theorem C90_unambiguous {ws : List String} {n m : Nat} (h : CnReads ws n) (h' : CnReads ws m) : n = m :=
  cnNum_fun (cnReads_iff.1 h) (cnReads_iff.1 h') rfl

/-- C90: A numeral that is read has the right value. -/
theorem C90_value (short : Bool) {n m : Nat} (h0 : 0 < n) (hn : n < 10 ^ 16) (h : CnReads (chars (zhNumber short n)) m) : m = n := by
  rcases number_short short h0 hn with h1 | h1 | ⟨k, h1⟩
  · exact absurd h1.2 (whole_ok (cnReads_iff.1 h)).1
  · exact cnNum_fun (cnReads_iff.1 h) h1 rfl
  · obtain ⟨s, h2⟩ := h1.myriad
    obtain ⟨r, h3⟩ := h1.gap
    exact absurd ⟨s, r, by rw [h3, h2]; simp⟩ (whole_ok (cnReads_iff.1 h)).2

/-- C90: A numeral is read exactly if it does not begin with 十 and a digit, and has no 零 right after 万. -/
theorem C90_reads (short : Bool) {n : Nat} (h0 : 0 < n) (hn : n < 10 ^ 16) :
    (∃ m, CnReads (chars (zhNumber short n)) m) ↔ ¬ TeenStart (zhNumber short n) ∧ ¬ MyriadGap (zhNumber short n) := by
  constructor
  · rintro ⟨m, h⟩
    exact whole_ok (cnReads_iff.1 h)
  · rintro ⟨h1, h2⟩
    rcases number_short short h0 hn with h3 | h3 | ⟨k, h3⟩
    · exact absurd h3.2 h1
    · exact ⟨n, cnReads_iff.2 h3⟩
    · obtain ⟨s, h4⟩ := h3.myriad
      obtain ⟨r, h5⟩ := h3.gap
      exact absurd ⟨s, r, by rw [h5, h4]; simp⟩ h2

theorem numText_shown (n : Nat) : TenDigitText n (numText n) ∧ (numText n = toString n ↔ n < 10 ^ 10) := by
  refine ⟨printed_shown n, fun e => ?_, printed_small⟩
  by_contra hlt
  have := text_big (neg := false) (q := (n : ℚ)) (by exact_mod_cast Nat.le_of_not_lt hlt)
  rw [show BF.text ⟨false, (n : ℚ)⟩ = toString (n : Int) from e] at this
  exact e_notMem_int n this

/-! ## from the texts to the values -/

/-- The trees are for the first `k` words, and `Eval` of each of them gives the number with ten significant digits, so all its
digits below 10^10. -/
def TreesFor (nw : NodeWorld) (text : Bytes) (toks : List Token) (k n : Nat) (ns : List Node) : Prop :=
  ns ≠ [] ∧ ∃ s, TenDigitText n s ∧ (s = toString n ↔ n < 10 ^ 10) ∧ ∀ node ∈ ns, node.value.stop = k ∧
    ∀ p : Parsed, p.text = text → p.env.tokens = toks → node.eval nw p = .ok (.str (utf8 s))

section
variable {lw : LoadWorld} {file : String} (h : CnLoader lw file)
include h

/-- C90: The grammar can be loaded. -/
theorem C90_loads (hu : ∀ t s, lw.idx.update t s = true) (hh : ∀ b, lw.ref.hash b ≠ none) (reg : Registry) :
    ∃ N ld st, ∀ fuel depth, N ≤ fuel → N ≤ depth → loadFile lw fuel depth file reg = .ok (some ld, st) :=
  oneFile_loads cn_parts rfl cn_head cn_check h.file h.tokens hu hh reg

variable {fuel₀ depth : Nat} {reg : Registry} {ld : Loaded} {st : LoadSt}
  (hload : loadFile lw fuel₀ depth file reg = .ok (some ld, st)) (w : World) (ho : w.OrdOK) (nw : NodeWorld)
  (hc : CallsReturn nw) {ext : String → Option BF} (hm : HasMath nw ext) {context : String} {text : Bytes} {d : Doc}
include hload ho hc hm

/-- the trees for a text of which the first `k` words are read, and no more -/
theorem cn_trees {ws : List String} (ht : HasWords w context text d ws cnNames) {k n : Nat} (hk0 : 0 < k) (hk : k ≤ ws.length)
    (hr : CnNum (ws.take k) n) (hmax : ∀ k' m, CnNum (ws.take k') m → k' ≤ ws.length → k' ≤ k) :
    ∃ N, ∀ fuel ≥ N, ∃ ns, apiParse w ld.gram fuel context text ["number"] = .ok ns ∧ TreesFor nw text d.words k n ns := by
  obtain ⟨N, h1⟩ := oneFile_calls cn_parts rfl cn_head cn_check h.file h.tokens hload w ho nw hc (fmrNum_ev hm) ht
    (S := "number") (by decide) rfl rfl
  refine ⟨N, fun fuel hf => ?_⟩
  obtain ⟨ns, h4, h5⟩ := (h1 fuel hf).1
  obtain ⟨h6, h7⟩ := h5.longest ht.words hk0 hk ⟨some n, cnReads_iff.2 hr⟩ fun k' v hv hk' => by
    obtain ⟨m, rfl, hm⟩ := cn_number.1 hv
    exact hmax k' m hm hk'
  refine ⟨ns, h4, h6, numText n, (numText_shown n).1, (numText_shown n).2, fun node hnode => ?_⟩
  obtain ⟨h8, v, h9, h10⟩ := h7 node hnode
  obtain ⟨m, rfl, h11⟩ := cn_number.1 h9
  obtain rfl := cnNum_fun hr h11 rfl
  obtain ⟨e, g1, g2⟩ := h10 n rfl
  exact ⟨h8, fun p hp1 hp2 => by rw [(g2 p hp1 hp2).2, g1]⟩

/-- C90: if a numeral does not begin with 十 and a digit, and has no 零 right after 万, then `Parse` returns trees, and all of
them are for the whole text and the number. Missing for the full statement: all other numerals. -/
theorem C90_partial (short : Bool) {n : Nat} (h0 : 0 < n) (hn : n < 10 ^ 16) (ht : HasWords w context text d (chars (zhNumber short n)) cnNames)
    (h1 : ¬ TeenStart (zhNumber short n)) (h2 : ¬ MyriadGap (zhNumber short n)) :
    ∃ N, ∀ fuel ≥ N, ∃ ns, apiParse w ld.gram fuel context text ["number"] = .ok ns ∧ TreesFor nw text d.words d.words.length n ns := by
  obtain ⟨m, h3⟩ := (C90_reads short h0 hn).2 ⟨h1, h2⟩
  obtain rfl := C90_value short h0 hn h3
  have hlen : (chars (zhNumber short m)).length = d.words.length := by simpa using (congrArg List.length ht.words).symm
  have hpos : 0 < (chars (zhNumber short m)).length := List.length_pos_iff.2 fun e => by
    rw [e] at h3
    exact absurd rfl (cnNum_ne (cnReads_iff.1 h3))
  rw [← hlen]
  exact cn_trees h hload w ho nw hc hm ht hpos le_rfl (by rw [List.take_length]; exact cnReads_iff.1 h3) fun _ _ _ h => h

/-- C90: every other numeral is cut off: all trees are for the numeral of a smaller number in front, and `Eval` gives that
number. -/
theorem C90_wrong (short : Bool) {n : Nat} (h0 : 0 < n) (hn : n < 10 ^ 16) (ht : HasWords w context text d (chars (zhNumber short n)) cnNames)
    (h1 : TeenStart (zhNumber short n) ∨ MyriadGap (zhNumber short n)) :
    ∃ m r, m < n ∧ r ≠ [] ∧ zhNumber short n = zhNumber short m ++ r ∧ ∃ N, ∀ fuel ≥ N, ∃ ns,
      apiParse w ld.gram fuel context text ["number"] = .ok ns ∧ TreesFor nw text d.words (zhNumber short m).length m ns := by
  have key : ∀ m r, 0 < (zhNumber short m).length → zhNumber short n = zhNumber short m ++ r → CnNum (chars (zhNumber short m)) m →
      (∀ k' m', CnNum ((chars (zhNumber short n)).take k') m' → k' ≤ (zhNumber short m).length) → ∃ N, ∀ fuel ≥ N, ∃ ns,
      apiParse w ld.gram fuel context text ["number"] = .ok ns ∧ TreesFor nw text d.words (zhNumber short m).length m ns := by
    intro m r g1 g2 g3 g4
    refine cn_trees h hload w ho nw hc hm ht g1 (by simp [chars, g2]) ?_ fun k' m' hk' _ => g4 k' m' hk'
    rw [← chars_take, g2, List.take_left]
    exact g3
  rcases number_short short h0 hn with ⟨rfl, h2⟩ | h2 | ⟨m, h2⟩
  · have e : zhNumber true 10 = ['十'] := by decide
    obtain ⟨x, hx, r, h3⟩ := id h2
    have h10 : 10 < n := by
      by_contra hlt
      have : ∀ k ∈ List.range 11, (zhNumber true k).length = 1 := by decide
      have := this n (List.mem_range.2 (by omega))
      rw [h3] at this
      simp at this
    refine ⟨10, x :: r, h10, by simp, by rw [h3, e]; rfl, key 10 (x :: r) (by simp [e]) (by rw [h3, e]; rfl) ?_ ?_⟩
    · rw [e]
      exact .less (.less (.less (.less .ten)))
    · intro k' m' hk'
      rw [e]
      exact teen_prefix h2 hk'
  · have := whole_ok h2
    tauto
  · obtain ⟨s, h3⟩ := h2.myriad
    obtain ⟨r, h4⟩ := h2.gap
    refine ⟨m, '零' :: r, h2.less, by simp, h4, key m ('零' :: r) (by simp [h3]) h4 h2.read ?_⟩
    intro k' m' hk'
    rw [h4, h3, List.append_assoc] at hk'
    have := gap_prefix hk'
    simpa [h3] using this

/-- C90: `Parse` finds nothing in 零. -/
theorem C90_zero (short : Bool) (ht : HasWords w context text d (chars (zhNumber short 0)) cnNames) :
    ∃ N, ∀ fuel ≥ N, apiParse w ld.gram fuel context text ["number"] = .ok [] := by
  obtain ⟨N, h1⟩ := oneFile_calls cn_parts rfl cn_head cn_check h.file h.tokens hload w ho nw hc (fmrNum_ev hm) ht
    (S := "number") (by decide) rfl rfl
  refine ⟨N, fun fuel hf => ?_⟩
  obtain ⟨ns, h4, h5⟩ := (h1 fuel hf).1
  have : ns = [] := by
    by_contra hne
    obtain ⟨k, -, -, S, hS, v, hv⟩ := h5.found.1 hne
    obtain rfl := List.mem_singleton.1 hS
    obtain ⟨m, rfl, hm⟩ := cn_number.1 hv
    rw [List.drop_zero] at hm
    obtain ⟨x, r, e⟩ := List.exists_cons_of_ne_nil (cnNum_ne hm)
    have e0 : chars (zhNumber short 0) = ["零"] := by
      rw [zhNumber, if_pos rfl]
      decide
    rw [e0] at e hm
    match k with
    | 0 => simp at e
    | k + 1 =>
      rw [List.take_of_length_le (by simp)] at hm
      exact cnNum_begin hm rfl rfl
  rw [h4, this]

end

/-- C90, full statement: with the shipped grammar for Chinese numbers of examples/builtin, `Parse` of a numeral returns trees,
and all of them are for the whole text and the number. -/
def C90_statement : Prop :=
  ∀ (lw : LoadWorld) (file : String), CnLoader lw file → ∀ (fuel₀ depth : Nat) (reg : Registry) (ld : Loaded) (st : LoadSt),
    loadFile lw fuel₀ depth file reg = .ok (some ld, st) → ∀ w : World, w.OrdOK → ∀ nw, CallsReturn nw → ∀ ext, HasMath nw ext →
    ∀ (context : String) (text : Bytes) (d : Doc) (short : Bool) (n : Nat), n < 10 ^ 16 →
    HasWords w context text d (chars (zhNumber short n)) cnNames →
    ∃ N, ∀ fuel ≥ N, ∃ ns, apiParse w ld.gram fuel context text ["number"] = .ok ns ∧ TreesFor nw text d.words d.words.length n ns

/-! ## a setting in which all assumptions hold, and the refutation -/

open Classical in
/-- the hash of an alternative is its place in the grammar -/
noncomputable def cnHash (b : RuleBody) : Option Nat := some ((cnDefs.flatMap (·.bodies)).idxOf b)

noncomputable def cnLoad : LoadWorld := wordLoad cnHash cnSplits cnNumText

theorem cnHash_apart : ∀ b ∈ cnDefs.flatMap (·.bodies), ∀ b' ∈ cnDefs.flatMap (·.bodies), cnHash b = cnHash b' → b = b' := by
  intro b hb b' hb' h
  classical exact (List.idxOf_inj hb).1 (Option.some.inj h)

theorem cnLoad_ok (file : String) : CnLoader cnLoad file :=
  ⟨wordLoad_file cn_parts rfl (fun _ => by simp [cnHash]) cnHash_apart file, wordLoad_splits (by unfold KeysNodup; decide +kernel)⟩

theorem cn_loads : ∃ fuel depth ld st, loadFile cnLoad fuel depth "cn_num.grammar" [] = .ok (some ld, st) := by
  obtain ⟨N, ld, st, h⟩ := C90_loads (cnLoad_ok "cn_num.grammar") (fun _ _ => rfl) (fun _ => by simp [cnLoad, wordLoad]) []
  exact ⟨N, N, ld, st, h N N le_rfl le_rfl⟩

theorem chars_text (short : Bool) (n : Nat) :
    HasWords (wordWorld (chars (zhNumber short n))) "" (wordDoc (chars (zhNumber short n))).text (wordDoc (chars (zhNumber short n)))
      (chars (zhNumber short n)) cnNames := by
  obtain ⟨h1, h2⟩ := zhNumber_chars short n
  refine wordWorld_ok (by simpa [chars] using h2) fun hm => ?_
  obtain ⟨c, hc, e⟩ := List.mem_map.1 hm
  refine zh_no_gamma c (.inr (h1 c hc)) ?_
  have := congrArg String.toList e
  simpa using this

/-- C90: all assumptions hold together, for every numeral that is read -/
example (short : Bool) (n : Nat) (h0 : 0 < n) (hn : n < 10 ^ 16) (h1 : ¬ TeenStart (zhNumber short n)) (h2 : ¬ MyriadGap (zhNumber short n)) :
    ∃ fuel depth ld st, loadFile cnLoad fuel depth "cn_num.grammar" [] = .ok (some ld, st) ∧
    ∃ N, ∀ fuel ≥ N, ∃ ns, apiParse (wordWorld (chars (zhNumber short n))) ld.gram fuel "" (wordDoc (chars (zhNumber short n))).text
      ["number"] = .ok ns ∧ TreesFor mathNode (wordDoc (chars (zhNumber short n))).text (wordDoc (chars (zhNumber short n))).words
        (wordDoc (chars (zhNumber short n))).words.length n ns := by
  obtain ⟨fuel, depth, ld, st, h⟩ := cn_loads
  exact ⟨fuel, depth, ld, st, h, C90_partial (cnLoad_ok _) h _ (fun _ _ _ _ _ => .refl _) mathNode mathNode_calls mathNode_math
    short h0 hn (chars_text short n) h1 h2⟩

/-- C90: 一亿二千三百四十五万六千七百八十九 is read; 十五 and 一万零五 are not -/
example : CnReads (chars (zhNumber true 123456789)) 123456789 ∧ TeenStart (zhNumber true 15) ∧ MyriadGap (zhNumber false 10005) := by
  refine ⟨?_, ⟨'五', by decide, [], by decide⟩, ['一'], ['五'], by decide⟩
  rcases number_short true (n := 123456789) (by decide) (by decide) with ⟨-, d, -, r, e⟩ | h | ⟨m, h⟩
  · simp [show zhNumber true 123456789 = "一亿二千三百四十五万六千七百八十九".toList by decide +kernel] at e
  · exact cnReads_iff.2 h
  · obtain ⟨r, e⟩ := h.gap
    have : '零' ∈ zhNumber true 123456789 := by rw [e]; simp
    exact absurd this (by decide +kernel)

/-- C90 fails: of 十五 only 十 is read. -/
theorem C90_false : ¬ C90_statement := by
  intro hall
  obtain ⟨fuel, depth, ld, st, h⟩ := cn_loads
  have ht := chars_text true 15
  have hord : (wordWorld (chars (zhNumber true 15))).OrdOK := fun _ _ _ _ _ => .refl _
  obtain ⟨N, h1⟩ := hall _ _ (cnLoad_ok _) _ _ _ _ _ h _ hord mathNode mathNode_calls _ mathNode_math _ _ _ true 15 (by decide) ht
  obtain ⟨m, r, -, hr, e, N', h2⟩ := C90_wrong (cnLoad_ok _) h _ hord mathNode mathNode_calls mathNode_math true (n := 15) (by decide)
    (by decide) ht (.inl ⟨'五', by decide, [], by decide⟩)
  obtain ⟨ns, e1, hne, s, -, -, h3⟩ := h1 (max N N') (le_max_left _ _)
  obtain ⟨ns', e2, -, s', -, -, h4⟩ := h2 (max N N') (le_max_right _ _)
  obtain rfl := Out.ok.inj (e1.symm.trans e2)
  obtain ⟨node, hn⟩ := List.exists_mem_of_ne_nil _ hne
  have hlen : (chars (zhNumber true 15)).length = (wordDoc (chars (zhNumber true 15))).words.length := by
    simpa using (congrArg List.length ht.words).symm
  have h5 := (h3 node hn).1.symm.trans (h4 node hn).1
  rw [← hlen, e] at h5
  have := List.length_pos_iff.2 hr
  simp [chars] at h5
  exact hr h5

end Fmr
