import Verif.Proofs.CalcLang

/-!
# C84: the shipped grammar for arithmetic

What the parse calls and `Eval` give for the expressions of `Spec/Calc.lean` with examples/arithmetic/arithmetic.grammar,
from the text of the grammar file to the value.
-/

namespace Fmr

/-- the text of examples/arithmetic/arithmetic.grammar -/
def arithmeticText : List Char := (arithmeticParts.map String.toList).flatten

set_option maxRecDepth 100000 in
theorem ar_head : ∃ r, arithmeticText = '<' :: r := by
  have h : arithmeticParts = arithmeticParts.head (by decide) :: arithmeticParts.tail := rfl
  rw [arithmeticText, h, List.map_cons, List.flatten_cons]
  have h2 : ∃ r, arithmeticParts.head (by decide) = String.ofList ('<' :: r) := ⟨_, rfl⟩
  obtain ⟨r, h2⟩ := h2
  rw [h2, String.toList_ofList]
  exact ⟨_, rfl⟩

/-- What is asked of the loader: `file` is the shipped grammar, and the tokens of its literals are their words. -/
structure ArLoader (lw : LoadWorld) (file : String) : Prop where
  file : HasFile lw file arithmeticText
  tokens : SplitsAs lw.ref.annot arSplits

/-- `k` words from word `i` on can be read as an expression -/
def CalcSpan (ws : List String) (_S : String) (i k : Nat) : Prop := ∃ c, ReadsAs ((ws.drop i).take k) c

/-- The tree is for these words, `Semantic` prints one of their readings, and `Eval` writes its value (if it stays below
10^10). -/
def CalcTree (ws : List String) (nw : NodeWorld) (text : Bytes) (toks : List Token) (i : Nat) (_S : String) (k : Nat) (n : Node) : Prop :=
  n.value.stop = k ∧ ∃ c, ReadsAs ((ws.drop i).take k) c ∧
    (∀ p : Parsed, p.text = text → p.env.tokens = toks.drop i → n.semantic nw p = .ok c.js) ∧ (c.Fits → ∃ s, WritesInt s c.value ∧
    ∀ p : Parsed, p.text = text → p.env.tokens = toks.drop i → n.eval nw p = .ok (.str (utf8 s)))

theorem reads_pos {ws : List String} {c : Calc} (h : ReadsAs ws c) : 0 < ws.length := by
  induction h with
  | num _ => simp
  | add _ _ _ h1 _ => simp only [List.length_append]; omega
  | sub _ _ _ h1 _ => simp only [List.length_append]; omega
  | mul _ _ _ h1 _ => simp only [List.length_append]; omega
  | neg _ _ h1 => simp only [List.length_append]; omega

theorem calcSpan_iff {ws : List String} {i k : Nat} :
    WordSpan (Written arDefs false) (splitIn arSplits) calcEv ws "number" i k ↔ CalcSpan ws "number" i k := by
  refine ⟨fun ⟨v, h⟩ => ?_, fun ⟨c, h⟩ => reads_lang h⟩
  obtain ⟨c, h1, -⟩ := lang_reads _ le_rfl h
  exact ⟨c, h1⟩

theorem calcTree_of {ws : List String} {nw : NodeWorld} {text : Bytes} {toks : List Token} {i k : Nat} {n : Node}
    (h : WordTree (Written arDefs false) (splitIn arSplits) calcEv ws (CalcIs nw) nw text toks i "number" k n) :
    CalcTree ws nw text toks i "number" k n := by
  obtain ⟨h1, v, h2, h3⟩ := h
  obtain ⟨c, h4, h5⟩ := lang_reads _ le_rfl h2
  obtain ⟨e, ⟨h6, h7⟩, h8⟩ := h3 _ h5
  refine ⟨h1, c, h4, fun p hp1 hp2 => by rw [(h8 p hp1 hp2).1, h6], fun hf => ?_⟩
  obtain ⟨-, s, h9, h10⟩ := h7 hf
  exact ⟨s, h10, fun p hp1 hp2 => by rw [(h8 p hp1 hp2).2, h9]⟩

section
variable {lw : LoadWorld} {file : String} (h : ArLoader lw file)
include h

/-- C84: The grammar can be loaded. -/
theorem C84_loads (hu : ∀ t s, lw.idx.update t s = true) (hh : ∀ b, lw.ref.hash b ≠ none) (reg : Registry) :
    ∃ N ld st, ∀ fuel depth, N ≤ fuel → N ≤ depth → loadFile lw fuel depth file reg = .ok (some ld, st) :=
  oneFile_loads ar_parts rfl ar_head ar_check h.file h.tokens hu hh reg

variable {fuel₀ depth : Nat} {reg : Registry} {ld : Loaded} {st : LoadSt}
  (hload : loadFile lw fuel₀ depth file reg = .ok (some ld, st)) (w : World) (ho : w.OrdOK) (nw : NodeWorld)
  (hc : CallsReturn nw) {ext : String → Option BF} (hm : HasCalc nw ext) {context : String} {text : Bytes} {d : Doc}
  {ws : List String} (ht : HasWords w context text d ws ["number"])
include hload ho hc hm ht

/-- C84: the parse calls find the expressions that the words of a text contain, as far as each of them is meant to, and
every tree has the value of a reading of its words. Missing for a full statement: there need not be a tree for each
reading. -/
theorem C84_calls_partial : ∃ N, ∀ fuel ≥ N,
    (∃ ns, apiParse w ld.gram fuel context text ["number"] = .ok ns ∧
      PrefixMatches (CalcSpan ws) (CalcTree ws nw text d.words) ["number"] d.words.length ns) ∧
    (∃ ns, apiParseAny w ld.gram fuel context text ["number"] = .ok ns ∧
      FirstMatches (CalcSpan ws) (CalcTree ws nw text d.words) ["number"] d.words.length ns) ∧
    (∃ groups : List (Nat × List Node), apiExtractAll w ld.gram fuel context text ["number"] = .ok (groups.map (·.2)).flatten ∧
      AllMatches (CalcSpan ws) (CalcTree ws nw text d.words) ["number"] d.words.length groups) ∧
    (∃ groups : List ((Nat × Nat) × List Node),
      apiExtractMaxAll w ld.gram fuel context text ["number"] = .ok (groups.map (·.2)).flatten ∧
      GreedyMatches (CalcSpan ws) (CalcTree ws nw text d.words) ["number"] d.words.length groups ∧
      ParseGroups w ld.gram fuel context text ["number"] d.words groups) := by
  obtain ⟨N, h1⟩ := oneFile_calls ar_parts rfl ar_head ar_check h.file h.tokens hload w ho nw hc (calcEv_sound hm) ht
    (S := "number") (by decide) rfl rfl
  have hsp : ∀ S ∈ ["number"], ∀ i k, WordSpan (Written arDefs false) (splitIn arSplits) calcEv ws S i k ↔ CalcSpan ws S i k := by
    intro S hS i k
    obtain rfl := List.mem_singleton.1 hS
    exact calcSpan_iff
  have htree : ∀ S ∈ ["number"], ∀ i k n, i < d.words.length → i + k ≤ d.words.length →
      WordTree (Written arDefs false) (splitIn arSplits) calcEv ws (CalcIs nw) nw text d.words i S k n →
      CalcTree ws nw text d.words i S k n := by
    intro S hS i k n _ _ h
    obtain rfl := List.mem_singleton.1 hS
    exact calcTree_of h
  refine ⟨N, fun fuel hf => ?_⟩
  obtain ⟨⟨ns, g1, g2⟩, ⟨ns1, g3, g4⟩, ⟨ns2, g5, g6⟩, g7⟩ := h1 fuel hf
  obtain ⟨ns3, g8, g9, g10⟩ := g7 fun v hv => by
    obtain ⟨c, h1, -⟩ := lang_reads _ le_rfl hv
    exact absurd (reads_pos h1) (by simp)
  exact ⟨⟨ns, g1, (g2.congr hsp).trees_congr htree⟩, ⟨ns1, g3, (g4.congr hsp).trees_congr htree⟩,
    ⟨ns2, g5, (g6.congr hsp).trees_congr htree⟩, ⟨ns3, g8, (g9.congr hsp).trees_congr htree, g10⟩⟩

/-- C84: if all readings of the words of a text have the value `x`, then `Parse` returns trees, they cover the whole text,
and `Eval` of each of them writes `x`. -/
theorem C84_sure {x : Int} (h1 : ∃ c, ReadsAs ws c) (h2 : ∀ c, ReadsAs ws c → c.Fits ∧ c.value = x) :
    ∃ N, ∀ fuel ≥ N, ∃ ns, apiParse w ld.gram fuel context text ["number"] = .ok ns ∧ ns ≠ [] ∧
      ∀ n ∈ ns, n.value.stop = d.words.length ∧ ∃ s, WritesInt s x ∧
        ∀ p : Parsed, p.text = text → p.env.tokens = d.words → n.eval nw p = .ok (.str (utf8 s)) := by
  obtain ⟨N, h3⟩ := C84_calls_partial h hload w ho nw hc hm ht
  refine ⟨N, fun fuel hf => ?_⟩
  obtain ⟨ns, h4, h5⟩ := (h3 fuel hf).1
  have hlen : ws.length = d.words.length := by simpa using (congrArg List.length ht.words).symm
  obtain ⟨c, h1⟩ := h1
  have hpos := reads_pos h1
  have hfull : SpanMatch (CalcSpan ws) ["number"] d.words.length 0 d.words.length := by
    refine ⟨by omega, by omega, _, List.mem_singleton.2 rfl, c, ?_⟩
    rw [List.drop_zero, ← hlen, List.take_length]
    exact h1
  refine ⟨ns, h4, h5.found.2 ⟨_, hfull⟩, fun n hn => ?_⟩
  obtain ⟨S, -, k, ⟨h6, c', h7, -, h8⟩, h9, h10⟩ := h5.trees n hn
  have hk : k = d.words.length := by
    have := h10 _ hfull
    have := h9.2.1
    omega
  subst hk
  rw [List.drop_zero, ← hlen, List.take_length] at h7
  obtain ⟨g1, g2⟩ := h2 c' h7
  obtain ⟨s, g3, g4⟩ := h8 g1
  exact ⟨h6, s, g2 ▸ g3, fun p hp1 hp2 => g4 p hp1 (by rw [hp2, List.drop_zero])⟩

end

/-- C84, full statement: if the words of a text can be read as an expression, then `Parse` returns trees, `Eval` of each of
them writes the value of a reading, and there is a tree for the value of each reading. -/
def C84_statement : Prop :=
  ∀ (lw : LoadWorld) (file : String), ArLoader lw file → ∀ (fuel₀ depth : Nat) (reg : Registry) (ld : Loaded) (st : LoadSt),
    loadFile lw fuel₀ depth file reg = .ok (some ld, st) → ∀ w : World, w.OrdOK → ∀ nw, CallsReturn nw → ∀ ext, HasCalc nw ext →
    ∀ context text d ws, HasWords w context text d ws ["number"] → (∀ c, ReadsAs ws c → c.Fits) →
    ∃ N, ∀ fuel ≥ N, ∃ ns, apiParse w ld.gram fuel context text ["number"] = .ok ns ∧
      ∀ x, (∃ c, ReadsAs ws c ∧ c.value = x) ↔ ∃ n ∈ ns, n.value.stop = d.words.length ∧ ∃ s, WritesInt s x ∧
        ∀ p : Parsed, p.text = text → p.env.tokens = d.words → n.eval nw p = .ok (.str (utf8 s))

end Fmr
