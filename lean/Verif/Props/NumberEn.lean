import Verif.Proofs.NumberEnLang
import Verif.Proofs.Printed
import Verif.Proofs.WordWitness

/-!
# C85: the shipped grammar for English numbers

What `Parse` and `Eval` give for the numerals of `Spec/English.lean` with examples/math/grammars/number.en.grammar, from the
text of the grammar file to the value.
-/

namespace Fmr

/-- the text of examples/math/grammars/number.en.grammar -/
def numberEnText : List Char := (numberEnParts.map String.toList).flatten

set_option maxRecDepth 100000 in
theorem en_head : ∃ r, numberEnText = '<' :: r := by
  have h : numberEnParts = numberEnParts.head (by decide) :: numberEnParts.tail := rfl
  rw [numberEnText, h, List.map_cons, List.flatten_cons]
  have h2 : ∃ r, numberEnParts.head (by decide) = String.ofList ('<' :: r) := ⟨_, rfl⟩
  obtain ⟨r, h2⟩ := h2
  rw [h2, String.toList_ofList]
  exact ⟨_, rfl⟩

/-- What is asked of the loader: `file` is the shipped grammar, and the tokens of its literals are the literals. -/
structure EnLoader (lw : LoadWorld) (file : String) : Prop where
  file : HasFile lw file numberEnText
  tokens : SplitsAs lw.ref.annot enSplits

section
variable {lw : LoadWorld} {file : String} (h : EnLoader lw file)
include h

/-- C85: The grammar can be loaded. -/
theorem C85_loads (hu : ∀ t s, lw.idx.update t s = true) (hh : ∀ b, lw.ref.hash b ≠ none) (reg : Registry) :
    ∃ N ld st, ∀ fuel depth, N ≤ fuel → N ≤ depth → loadFile lw fuel depth file reg = .ok (some ld, st) :=
  oneFile_loads en_parts rfl en_head en_check h.file h.tokens hu hh reg

variable {fuel₀ depth : Nat} {reg : Registry} {ld : Loaded} {st : LoadSt}
  (hload : loadFile lw fuel₀ depth file reg = .ok (some ld, st)) (w : World) (ho : w.OrdOK) (nw : NodeWorld)
  (hc : CallsReturn nw) {ext : String → Option BF} (hm : HasMath nw ext) {context : String} {text : Bytes} {d : Doc}
  {ws : List String} (ht : HasWords w context text d ws enNames)
include hload ho hc hm ht

theorem en_number {n : Nat} (hn : EnNumeral n ws) :
    ∃ N, ∀ fuel ≥ N, ∃ ns, apiParse w ld.gram fuel context text ["number"] = .ok ns ∧ ns ≠ [] ∧
      ∀ node ∈ ns, node.value.stop = d.words.length ∧ ∀ p : Parsed, p.text = text → p.env.tokens = d.words →
        node.eval nw p = .ok (.str (utf8 (numText n))) := by
  obtain ⟨N, h1⟩ := oneFile_calls en_parts rfl en_head en_check h.file h.tokens hload w ho nw hc (fmrNum_ev hm) ht
    (S := "number") (by decide) rfl rfl
  refine ⟨N, fun fuel hf => ?_⟩
  obtain ⟨ns, h4, h5⟩ := (h1 fuel hf).1
  have hlen : ws.length = d.words.length := by simpa using (congrArg List.length ht.words).symm
  have hs := numeral_sure hn
  have hpos : 0 < ws.length := List.length_pos_iff.2 (numeral_ne hn)
  have hfull : SpanMatch (WordSpan (Written enDefs false) (splitIn enSplits) fmrNum ws) ["number"] d.words.length 0 d.words.length := by
    refine ⟨by omega, by omega, _, List.mem_singleton.2 rfl, some n, ?_⟩
    rw [List.drop_zero, ← hlen, List.take_length]
    exact hs.lang
  refine ⟨ns, h4, h5.found.2 ⟨_, hfull⟩, fun node hn => ?_⟩
  obtain ⟨S, hS, k, ⟨h6, v, h7, h8⟩, h9, h10⟩ := h5.trees node hn
  obtain rfl := List.mem_singleton.1 hS
  have hk : k = d.words.length := by
    have := h10 _ hfull
    have := h9.2.1
    omega
  subst hk
  rw [List.drop_zero, ← hlen, List.take_length] at h7
  obtain ⟨e, g1, g2⟩ := h8 n (hs.2 v h7)
  exact ⟨h6, fun p hp1 hp2 => by rw [(g2 p hp1 (by rw [hp2, List.drop_zero])).2, g1]⟩

/-- C85: the trees give the number with ten significant digits, so all its digits below 10^10. Missing for the full
statement: from 10^10 on the value has an exponent. -/
theorem C85_partial {n : Nat} (hn : EnNumeral n ws) :
    ∃ s, TenDigitText n s ∧ (s = toString n ↔ n < 10 ^ 10) ∧
    ∃ N, ∀ fuel ≥ N, ∃ ns, apiParse w ld.gram fuel context text ["number"] = .ok ns ∧ ns ≠ [] ∧
      ∀ node ∈ ns, node.value.stop = d.words.length ∧ ∀ p : Parsed, p.text = text → p.env.tokens = d.words →
        node.eval nw p = .ok (.str (utf8 s)) := by
  refine ⟨_, printed_shown n, ⟨fun e => ?_, printed_small⟩, en_number h hload w ho nw hc hm ht hn⟩
  by_contra hlt
  have := text_big (neg := false) (q := (n : ℚ)) (by exact_mod_cast Nat.le_of_not_lt hlt)
  rw [show BF.text ⟨false, (n : ℚ)⟩ = toString (n : Int) from e] at this
  exact e_notMem_int n this

end

/-- C85, full statement: with the shipped grammar for English numbers, `Parse` of a numeral for `n` returns trees, they cover
the whole text, and `Eval` of each of them gives the decimal digits of `n`. -/
def C85_statement : Prop :=
  ∀ (lw : LoadWorld) (file : String), EnLoader lw file → ∀ (fuel₀ depth : Nat) (reg : Registry) (ld : Loaded) (st : LoadSt),
    loadFile lw fuel₀ depth file reg = .ok (some ld, st) → ∀ w : World, w.OrdOK → ∀ nw, CallsReturn nw → ∀ ext, HasMath nw ext →
    ∀ context text d ws, HasWords w context text d ws enNames → ∀ n, EnNumeral n ws →
    ∃ N, ∀ fuel ≥ N, ∃ ns, apiParse w ld.gram fuel context text ["number"] = .ok ns ∧ ns ≠ [] ∧
      ∀ node ∈ ns, node.value.stop = d.words.length ∧ ∀ p : Parsed, p.text = text → p.env.tokens = d.words →
        node.eval nw p = .ok (.str (utf8 (toString n)))

/-! ## a setting in which all assumptions hold, and the refutation -/

open Classical in
/-- the hash of an alternative is its place in the grammar -/
noncomputable def enHash (b : RuleBody) : Option Nat := some ((enDefs.flatMap (·.bodies)).idxOf b)

noncomputable def enLoad : LoadWorld := wordLoad enHash enSplits numberEnText

theorem enHash_apart : ∀ b ∈ enDefs.flatMap (·.bodies), ∀ b' ∈ enDefs.flatMap (·.bodies), enHash b = enHash b' → b = b' := by
  intro b hb b' hb' h
  classical exact (List.idxOf_inj hb).1 (Option.some.inj h)

theorem enLoad_ok (file : String) : EnLoader enLoad file :=
  ⟨wordLoad_file en_parts rfl (fun _ => by simp [enHash]) enHash_apart file, wordLoad_splits (by unfold KeysNodup; decide +kernel)⟩

theorem en_loads : ∃ fuel depth ld st, loadFile enLoad fuel depth "number.en.grammar" [] = .ok (some ld, st) := by
  obtain ⟨N, ld, st, h⟩ := C85_loads (enLoad_ok "number.en.grammar") (fun _ _ => rfl) (fun _ => by simp [enLoad, wordLoad]) []
  exact ⟨N, N, ld, st, h N N le_rfl le_rfl⟩

theorem numeral_text {n : Nat} {ws : List String} (h : EnNumeral n ws) :
    HasWords (wordWorld ws) "" (wordDoc ws).text (wordDoc ws) ws enNames :=
  wordWorld_ok (numeral_ne h) fun hm => absurd (numeral_words h _ hm) (by decide +kernel)

/-- C85: all assumptions hold together, for every numeral -/
example (n : Nat) (ws : List String) (hn : EnNumeral n ws) : ∃ fuel depth ld st,
    loadFile enLoad fuel depth "number.en.grammar" [] = .ok (some ld, st) ∧
    ∃ s, TenDigitText n s ∧ (s = toString n ↔ n < 10 ^ 10) ∧
    ∃ N, ∀ fuel ≥ N, ∃ ns, apiParse (wordWorld ws) ld.gram fuel "" (wordDoc ws).text ["number"] = .ok ns ∧
      ns ≠ [] ∧ ∀ node ∈ ns, node.value.stop = (wordDoc ws).words.length ∧
        ∀ p : Parsed, p.text = (wordDoc ws).text → p.env.tokens = (wordDoc ws).words → node.eval mathNode p = .ok (.str (utf8 s)) := by
  obtain ⟨fuel, depth, ld, st, h⟩ := en_loads
  exact ⟨fuel, depth, ld, st, h, C85_partial (enLoad_ok _) h _ (fun _ _ _ _ _ => .refl _) mathNode mathNode_calls mathNode_math
    (numeral_text hn) hn⟩

/-- C85: every number below 10^12 has a numeral -/
example (n : Nat) (h : n < 10 ^ 12) : ∃ ws, EnNumeral n ws := exists_enNumeral h

/-- C85 fails: ten billion evaluates to 1e+10. -/
theorem C85_false : ¬ C85_statement := by
  intro hall
  obtain ⟨fuel, depth, ld, st, h⟩ := en_loads
  have hnum : EnNumeral 10000000000 ["ten", "billion"] := .blocks (.block (k := 2) (m := 10) (l := ["ten"]) (.tens (.word (by decide))))
  have ht := numeral_text hnum
  generalize hws : ["ten", "billion"] = ws at hnum ht
  have hord : (wordWorld ws).OrdOK := fun _ _ _ _ _ => .refl _
  obtain ⟨N, h1⟩ := hall _ _ (enLoad_ok _) _ _ _ _ _ h _ hord mathNode mathNode_calls _ mathNode_math _ _ _ _ ht _ hnum
  obtain ⟨N', h2⟩ := en_number (enLoad_ok _) h _ hord mathNode mathNode_calls mathNode_math ht hnum
  obtain ⟨ns, e1, hne, h3⟩ := h1 (max N N') (le_max_left _ _)
  obtain ⟨ns', e2, -, h4⟩ := h2 (max N N') (le_max_right _ _)
  obtain rfl := Out.ok.inj (e1.symm.trans e2)
  obtain ⟨node, hn⟩ := List.exists_mem_of_ne_nil _ hne
  have hp : ∃ p : Parsed, p.text = (wordDoc ws).text ∧ p.env.tokens = (wordDoc ws).words :=
    ⟨⟨_, ⟨[], (wordDoc ws).words, [], fun _ _ => false, fun _ _ _ l => l⟩, ⟨[], []⟩, 0⟩, rfl, rfl⟩
  obtain ⟨p, p1, p2⟩ := hp
  have e := ((h3 node hn).2 p p1 p2).symm.trans ((h4 node hn).2 p p1 p2)
  have := utf8_injective (Value.str.inj (Out.ok.inj e))
  have h5 : numText 10000000000 = "1e+10" := by decide +kernel
  rw [h5] at this
  exact absurd this (by decide +kernel)

theorem tens_head {n : Nat} {l : List String} (h : EnTens n l) : ∃ x r, l = x :: r ∧ x ∈ enSmallWords := by
  have h1 : ∀ p ∈ enDigits ++ enTeens ++ enTens, p.1 ∈ enSmallWords := by decide +kernel
  cases h with
  | word h => exact ⟨_, _, rfl, h1 _ h⟩
  | both h => exact ⟨_, _, rfl, h1 _ (by simp only [List.mem_append]; exact .inr h)⟩

theorem hundreds_head {n : Nat} {l : List String} (h : EnHundreds n l) : ∃ x r, l = x :: r ∧ x ∈ enSmallWords := by
  have h1 : ∀ p ∈ enDigits, p.1 ∈ enSmallWords := by decide +kernel
  cases h with
  | tens h => exact tens_head h
  | hundreds h => exact ⟨_, _, rfl, h1 _ h⟩
  | both h => exact ⟨_, _, rfl, h1 _ h⟩

theorem blocks_head {k n : Nat} {l : List String} (h : EnBlocks k n l) : ∃ x r, l = x :: r ∧ x ∈ enSmallWords := by
  induction h with
  | hundreds h => exact hundreds_head h
  | less _ ih => exact ih
  | block h =>
    obtain ⟨x, r, rfl, hx⟩ := hundreds_head h
    exact ⟨x, _, rfl, hx⟩
  | both h =>
    obtain ⟨x, r, rfl, hx⟩ := hundreds_head h
    exact ⟨x, _, rfl, hx⟩

/-- The grammar also takes texts for numbers that are not numerals: "hundred thousand and zero" is 100000. -/
theorem C85_loose : EnLang "number" ["hundred", "thousand", "and", "zero"] (some 100000) ∧
    ∀ n, ¬ EnNumeral n ["hundred", "thousand", "and", "zero"] := by
  constructor
  · have h1 : EnLang "e2s" ["hundred"] (some 100) := e2s_iff.2 .unit
    have h2 : EnLang "e2s" ["zero"] (some 0) := e2s_iff.2 (.less (e1_sure (p := ("zero", 0)) (by decide +kernel)).lang)
    have h3 := Scaled.gap (u := "thousand") (c := some 1000) h1 h2
    rw [show smallOp (· + ·) (smallOp (· * ·) (some 100) (some 1000)) (some 0) = some 100000 by decide +kernel] at h3
    have h4 : EnLang "e3s" ["hundred", "thousand", "and", "zero"] (some 100000) := (en_level (k := 0) (by omega)).2 h3
    have h5 : EnLang "e6s" ["hundred", "thousand", "and", "zero"] (some 100000) := (en_level (k := 1) (by omega)).2 (.less h4)
    have h6 : EnLang "e9s" ["hundred", "thousand", "and", "zero"] (some 100000) := (en_level (k := 2) (by omega)).2 (.less h5)
    have h7 := e12s_iff.2 (.less h6)
    have h8 : EnLang "en_number" ["hundred", "thousand", "and", "zero"] (some 100000) :=
      (enLang_alts [sameAlt "e12s"] rfl).2 ⟨_, .head _, enSeq_same.2 h7⟩
    exact (enLang_alts _ rfl).2 ⟨sameAlt "en_number", .head _, enSeq_same.2 h8⟩
  · intro n h
    generalize e : ["hundred", "thousand", "and", "zero"] = l at h
    cases h with
    | zero => exact absurd (List.cons.inj e).1 (by decide)
    | blocks h =>
      obtain ⟨x, r, rfl, hx⟩ := blocks_head h
      obtain ⟨rfl, -⟩ := List.cons.inj e
      exact absurd hx (by decide +kernel)

end Fmr
