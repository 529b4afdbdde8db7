import Verif.Proofs.WordLang
import Verif.Props.TextTrees
import Verif.Props.TextMeaning

/-!
# Parsing with grammars over words
-/

namespace Fmr

/-- nothing is optional, so optional parts are placed safely -/
theorem WholeSolid.safe {ds : List Def} {F : Files} {I : String → Prop} {annot : String → Option (List Token)} {doc : Source}
    (h : WholeSolid ds F I annot doc) (hne : ∀ A b, wholeWritten ds F I A b → b.terms ≠ []) (starts : List String) :
    WholeSafe ds F I annot doc starts := by
  have key : ∀ t, TextNull ds F I annot doc t → ∀ A b, wholeWritten ds F I A b →
      (t ∈ b.terms ∨ t.type = .nonterminal) → False := by
    intro t ht
    induction ht with
    | literal h1 h2 =>
      rintro A b hb (h3 | h3)
      · exact h.literal _ ⟨h1, A, b, hb, h3⟩ h2
      · rw [h1] at h3; cases h3
    | rule h1 h2 h3 ih =>
      intro A b hb _
      obtain ⟨u, hu⟩ := List.exists_mem_of_ne_nil _ (hne _ _ h2)
      exact ih u hu _ _ h2 (.inl hu)
    | document h1 h2 => intro A b _ _; exact h.document _ h2
    | any h1 h2 h3 h4 h5 => intro A b _ _; exact h.range _ _ h2 _ h3 (.inl h4) h5
    | list h1 h2 h3 h4 h5 h6 h7 ih =>
      rename_i n
      intro A b hb _
      by_cases e : n = 0
      · subst e; exact h.range _ _ h2 _ h3 (.inr h4) h6
      · exact ih e _ _ h2 (.inr rfl)
  exact ⟨fun A b t hb ht hn => (key t hn A b hb (.inl ht)).elim, fun A b t hb ht htt hn => key _ hn A b hb (.inr rfl)⟩

theorem Reserved.of_dec {A : String} (h : (A == "ɣ" || "g_t".toList.isPrefixOf A.toList) = false) : ¬ Reserved A := by
  intro hr
  rw [Bool.or_eq_false_iff] at h
  rcases hr with rfl | hr
  · simp at h
  · rw [List.isPrefixOf_iff_prefix.2 hr] at h; simp at h

theorem spanText_inside {text : Bytes} {toks : List Token} {a b : Nat} {pos : Pos} {o : Bytes} (h : SpanText text toks a b pos o) :
    b ≤ toks.length := by
  cases h with
  | some h1 h2 h3 => have := (List.getElem?_eq_some_iff.1 h3).1; omega
  | none h1 h2 => exact Nat.le_of_lt (List.getElem?_eq_some_iff.1 h2).1

theorem SymMeans.inside {G : TextGrammar} {names : String → String → Prop} {w : NodeWorld} {text : Bytes} {toks : List Token}
    {s : Sym} {a b : Nat} {ph : Phrase} (h : SymMeans G names w text toks s a b ph) : b ≤ toks.length := by
  cases h with
  | token _ _ h => exact spanText_inside h
  | literal _ _ h => exact spanText_inside h
  | any _ _ _ h => exact spanText_inside h
  | plain _ _ _ h => exact spanText_inside h
  | func _ _ _ h => exact spanText_inside h
  | list _ _ _ h => exact spanText_inside h

/-- the words from word `i` on, `k` of them, form an `S` -/
def WordSpan {V : Type} (W : String → RuleBody → Prop) (split : String → List String) (ev : List (Option V) → FMR → Option V)
    (cs : List String) (S : String) (i k : Nat) : Prop :=
  ∃ v, WordLang W split ev S ((cs.drop i).take k) v

/-- The tree is for these words, and its value and the text that `Semantic` prints are ones that they have. -/
def WordTree {V : Type} (W : String → RuleBody → Prop) (split : String → List String) (ev : List (Option V) → FMR → Option V)
    (cs : List String) (is : Expr → V → Prop) (nw : NodeWorld) (text : Bytes) (toks : List Token) (i : Nat) (S : String) (k : Nat)
    (n : Node) : Prop :=
  n.value.stop = k ∧ ∃ v, WordLang W split ev S ((cs.drop i).take k) v ∧
    ∀ x, v = some x → ∃ e, is e x ∧ ∀ p : Parsed, p.text = text → p.env.tokens = toks.drop i →
      n.semantic nw p = .ok (e.print nw) ∧ n.eval nw p = e.value nw

theorem PrefixMatches.whole {V : Type} {W : String → RuleBody → Prop} {split : String → List String}
    {ev : List (Option V) → FMR → Option V} {cs : List String} {is : Expr → V → Prop} {nw : NodeWorld} {text : Bytes}
    {toks : List Token} {S : String} {ns : List Node}
    (h : PrefixMatches (WordSpan W split ev cs) (WordTree W split ev cs is nw text toks) [S] toks.length ns)
    (hpos : 0 < toks.length) (hcs : toks.map (·.text) = cs) (h1 : ∃ v, WordLang W split ev S cs v) :
    ns ≠ [] ∧ ∀ node ∈ ns, node.value.stop = toks.length ∧ ∃ v, WordLang W split ev S cs v ∧
        ∀ x, v = some x → ∃ e, is e x ∧ ∀ p : Parsed, p.text = text → p.env.tokens = toks →
          node.semantic nw p = .ok (e.print nw) ∧ node.eval nw p = e.value nw := by
  have hlen : cs.length = toks.length := by simpa using (congrArg List.length hcs).symm
  have hfull : SpanMatch (WordSpan W split ev cs) [S] toks.length 0 toks.length := by
    refine ⟨hpos, by omega, S, List.mem_singleton.2 rfl, ?_⟩
    rw [WordSpan, List.drop_zero, ← hlen, List.take_length]
    exact h1
  refine ⟨h.found.2 ⟨_, hfull⟩, fun node hn => ?_⟩
  obtain ⟨S', hS', k, ⟨h2, h3⟩, h4, h5⟩ := h.trees node hn
  obtain rfl := List.mem_singleton.1 hS'
  have hk : k = toks.length := by
    have := h5 _ hfull
    have := h4.2.1
    omega
  subst hk
  rw [List.drop_zero, List.drop_zero, ← hlen, List.take_length] at h3
  exact ⟨h2, h3⟩

section
variable {lw : LoadWorld} (hlw : lw.lex.OK) {F : Files} {ds : List Def} {ρ : List (String × String)} {I : String → Prop}
  {ld : Loaded} (hload : LoadedFrom lw F ds ρ I ld) (w : World) (context : String) (text : Bytes)
  (d : Doc) (ht : TextRead w context text d) (hd : DocFit w (wholeRegexps F I ρ) d) (hord : TokensOrdered text d.words)
  (ho : w.OrdOK) (nw : NodeWorld) (hc : CallsReturn nw) {V : Type} {split : String → List String}
  {ev : List (Option V) → FMR → Option V} {is : Expr → V → Prop} (hev : EvSound ev is)
  {rules : List String} (hch : WordTerms lw.ref.annot split (wholeWritten ds F I) rules)
  (hne : ∀ A b, wholeWritten ds F I A b → b.terms ≠ [] ∧ A ∈ rules ∧
    ∀ t ∈ b.terms, t.type = .terminal → split t.value ≠ [] ∧ "ɣ" ∉ split t.value)
  (hrules : ∀ A ∈ rules, ¬ Reserved A)
  (hone : (∃ p, I p) → ∀ t t', wholeLiteral ds F I t → wholeLiteral ds F I t' →
    literalName lw.ref "g" t.value = literalName lw.ref "g" t'.value → t.value = t'.value)
  (hdoc : ∀ A b, DocAlt w.find (wholeRegexps F I ρ) d A b → A ∉ rules ∧ ¬ Reserved A ∧ b.terms ≠ [])
  (htoks : ∀ t ∈ d.tokens, t.text ≠ "ɣ")
  {S : String} (hS : S ∈ rules) {cs : List String} (hcs : d.words.map (·.text) = cs)
include hlw hload ht hd hord ho hc hev hch hne hrules hone hdoc htoks hS hcs

/-- With a grammar of literals and of functions that are understood, the parse calls find the words that form an `S`, and
the value of each tree is one that these words have. -/
theorem words_calls : ∃ N, ∀ fuel ≥ N,
    (∃ ns, apiParse w ld.gram fuel context text [S] = .ok ns ∧
      PrefixMatches (WordSpan (wholeWritten ds F I) split ev cs) (WordTree (wholeWritten ds F I) split ev cs is nw text d.words) [S]
        d.words.length ns) ∧
    (∃ ns, apiParseAny w ld.gram fuel context text [S] = .ok ns ∧
      FirstMatches (WordSpan (wholeWritten ds F I) split ev cs) (WordTree (wholeWritten ds F I) split ev cs is nw text d.words) [S]
        d.words.length ns) ∧
    (∃ groups : List (Nat × List Node), apiExtractAll w ld.gram fuel context text [S] = .ok (groups.map (·.2)).flatten ∧
      AllMatches (WordSpan (wholeWritten ds F I) split ev cs) (WordTree (wholeWritten ds F I) split ev cs is nw text d.words) [S]
        d.words.length groups) ∧
    ((∀ v, ¬ WordLang (wholeWritten ds F I) split ev S [] v) → ∃ groups : List ((Nat × Nat) × List Node),
      apiExtractMaxAll w ld.gram fuel context text [S] = .ok (groups.map (·.2)).flatten ∧
      GreedyMatches (WordSpan (wholeWritten ds F I) split ev cs) (WordTree (wholeWritten ds F I) split ev cs is nw text d.words) [S]
        d.words.length groups ∧
      ParseGroups w ld.gram fuel context text [S] d.words groups) := by
  have hlit : ∀ t, wholeLiteral ds F I t → t.meta = .nil ∧ readTerm lw.ref.annot t = (split t.value).map wordTerm ∧
      split t.value ≠ [] ∧ "ɣ" ∉ split t.value := by
    rintro t ⟨h3, A, b, hb, h4⟩
    obtain ⟨h5, h6⟩ := (hne A b hb).2.2 t h4 h3
    rcases hch A b hb t h4 with ⟨h7, -⟩ | ⟨-, h7⟩
    · rw [h3] at h7; cases h7
    · refine ⟨?_, h7, h5, h6⟩
      obtain ⟨c, hc'⟩ := List.exists_mem_of_ne_nil _ h5
      have : wordTerm c ∈ readTerm lw.ref.annot t := by rw [h7]; exact List.mem_map_of_mem hc'
      rw [readTerm, if_pos h3] at this
      obtain ⟨a, -, e⟩ := List.mem_map.1 this
      exact congrArg Term.meta e
  have hsrcdoc : ∀ A ts, docSource w.find (wholeRegexps F I ρ) d A ts → ∃ b, DocAlt w.find (wholeRegexps F I ρ) d A b ∧ b.terms = ts ∧
      ∀ t ∈ ts, ∃ k ∈ d.tokens, t = tokenTerm k := by
    have hsp : ∀ (sp : Span) t, t ∈ (spanTokens d sp).map tokenTerm → ∃ k ∈ d.tokens, t = tokenTerm k := by
      intro sp t h
      obtain ⟨k, hk, rfl⟩ := List.mem_map.1 h
      exact ⟨k, List.mem_of_mem_drop (List.mem_of_mem_take hk), rfl⟩
    intro A ts h
    cases h with
    | word g1 g2 => exact ⟨_, .word g1 g2, rfl, fun t h => ⟨_, g1, List.mem_singleton.1 h⟩⟩
    | punct g1 g2 => exact ⟨_, .punct g1 g2, rfl, fun t h => ⟨_, g1, List.mem_singleton.1 h⟩⟩
    | symbol g1 g2 => exact ⟨_, .symbol g1 g2, rfl, fun t h => ⟨_, g1, List.mem_singleton.1 h⟩⟩
    | letters g1 g2 => exact ⟨_, .letters g1 g2, rfl, fun t h => ⟨_, g1, List.mem_singleton.1 h⟩⟩
    | @tag sp m _ vs g1 g2 g3 =>
      cases vs with
      | scalar => exact ⟨_, .tag g1 g2 g3, rfl, hsp _⟩
      | items vs => exact ⟨_, .values g1 g2 g3, rfl, hsp _⟩
    | regexp g1 g2 g3 g4 => exact ⟨_, .regexp g1 g2 g3 g4, rfl, hsp _⟩
  have hwrt : ∀ A b, wholeWritten ds F I A b → wholeSource ds F I lw.ref.annot (docSource w.find (wholeRegexps F I ρ) d) A
      (b.terms.flatMap (readTerm lw.ref.annot)) := by
    rintro A b (h | ⟨p, hp, h⟩)
    · exact .main ⟨b, h, rfl⟩
    · exact .included hp ⟨b, h, rfl⟩
  have hsplit : ∀ A ts, wholeSource ds F I lw.ref.annot (docSource w.find (wholeRegexps F I ρ) d) A ts →
      (∃ b, wholeWritten ds F I A b ∧ ts = b.terms.flatMap (readTerm lw.ref.annot)) ∨
      docSource w.find (wholeRegexps F I ρ) d A ts := by
    intro A ts h
    cases h with
    | main h => obtain ⟨b, hb, rfl⟩ := h; exact .inl ⟨b, .inl hb, rfl⟩
    | included hp h => obtain ⟨b, hb, rfl⟩ := h; exact .inl ⟨b, .inr ⟨_, hp, hb⟩, rfl⟩
    | document h => exact .inr h
  have hterms : ∀ A b, wholeWritten ds F I A b → ∀ t ∈ b.terms.flatMap (readTerm lw.ref.annot),
      (t.type = .nonterminal ∧ t.value ∈ rules) ∨ (∃ c, c ≠ "ɣ" ∧ t = wordTerm c) := by
    intro A b hb t ht'
    obtain ⟨u, hu, h3⟩ := List.mem_flatMap.1 ht'
    rcases hch A b hb u hu with ⟨h4, h5⟩ | ⟨h4, h5⟩
    · rw [readTerm, if_neg (by rw [h4]; decide), List.mem_singleton] at h3
      subst h3
      exact .inl ⟨h4, h5⟩
    · rw [h5] at h3
      obtain ⟨c, hc', rfl⟩ := List.mem_map.1 h3
      exact .inr ⟨c, fun e => (hlit u ⟨h4, A, b, hb, hu⟩).2.2.2 (e ▸ hc'), rfl⟩
  have hfit : WholeFit ds F I lw.ref (wholeSource ds F I lw.ref.annot (docSource w.find (wholeRegexps F I ρ) d)) [S] := by
    refine ⟨fun t t' h h' _ => (hlit t h).1.trans (hlit t' h').1.symm, hone, ?_⟩
    rintro A ((⟨ts, h⟩ | ⟨B, ts, h, t, htm, htt, rfl⟩) | h)
    · rcases hsplit A ts h with ⟨b, hb, -⟩ | h
      · exact hrules A (hne A b hb).2.1
      · obtain ⟨b, hb, -⟩ := hsrcdoc A ts h
        exact (hdoc A b hb).2.1
    · rcases hsplit B ts h with ⟨b, hb, rfl⟩ | h
      · rcases hterms B b hb t htm with ⟨-, h4⟩ | ⟨c, -, rfl⟩
        · exact hrules _ h4
        · rcases htt with e | e <;> cases e
      · obtain ⟨b, -, -, h3⟩ := hsrcdoc B ts h
        obtain ⟨k, -, rfl⟩ := h3 t htm
        rcases htt with e | e <;> cases e
    · rw [List.mem_singleton.1 h]; exact hrules S hS
  have hγ : ∀ A ts, wholeSource ds F I lw.ref.annot (docSource w.find (wholeRegexps F I ρ) d) A ts → ∀ t ∈ ts,
      t.type = .terminal → t.value ≠ "ɣ" := by
    intro A ts h t htm htt
    rcases hsplit A ts h with ⟨b, hb, rfl⟩ | h
    · rcases hterms A b hb t htm with ⟨h4, -⟩ | ⟨c, h4, rfl⟩
      · rw [htt] at h4; cases h4
      · exact h4
    · obtain ⟨b, -, -, h3⟩ := hsrcdoc A ts h
      obtain ⟨k, hk, rfl⟩ := h3 t htm
      exact htoks k hk
  have hrange : ∀ A b, wholeWritten ds F I A b → ∀ t ∈ b.terms, t.type ≠ .any ∧ t.type ≠ .list := by
    intro A b hb t htm
    rcases hch A b hb t htm with ⟨h4, -⟩ | ⟨h4, -⟩ <;> rw [h4] <;> decide
  have hu : WholeUniform ds F I := by
    intro A b A' b' hb hb' t htm t' htm' h
    obtain ⟨h3, h4⟩ := hrange A b hb t htm
    rcases h with ⟨h, -⟩ | ⟨h, -⟩
    · exact absurd h h3
    · exact absurd h h4
  have hs : WholeSolid ds F I lw.ref.annot (docSource w.find (wholeRegexps F I ρ) d) := by
    refine ⟨fun t h => ?_, fun A b hb t htm h => ?_, fun A h => ?_⟩
    · obtain ⟨-, h3, h4, -⟩ := hlit t h
      rw [h3]
      intro e
      exact h4 (List.map_eq_nil_iff.1 e)
    · obtain ⟨h3, h4⟩ := hrange A b hb t htm
      rcases h with h | h
      · exact absurd h h3
      · exact absurd h h4
    · obtain ⟨b, hb, e, -⟩ := hsrcdoc A [] h
      exact (hdoc A b hb).2.2 e
  have hsp : ∀ S' ∈ [S], ∀ i k, TextSpan w (wholeSource ds F I lw.ref.annot (docSource w.find (wholeRegexps F I ρ) d)) d.words S' i k ↔
      WordSpan (wholeWritten ds F I) split ev cs S' i k := by
    intro S' hS' i k
    obtain rfl := List.mem_singleton.1 hS'
    have hcut : ((d.words.drop i).take k).map (·.text) = (cs.drop i).take k := by
      rw [List.map_take, List.map_drop, hcs]
    refine ⟨fun h => ?_, fun ⟨v, h⟩ => ?_⟩
    · have := derives_words (V := V) (ev := ev) hch (fun A hA ts h => ?_) hS h
      · rwa [hcut] at this
      · rcases hsplit A ts h with h | h
        · exact h
        · obtain ⟨b, hb, -⟩ := hsrcdoc A ts h
          exact absurd hA (hdoc A b hb).1
    · exact h.derives hch hwrt hcut
  obtain ⟨l, hp, N, hcall⟩ := calls_of hlw hload w context text [S] d ht hd _ rfl hfit hu
    (hs.safe (fun A b h => (hne A b h).1) [S]) (by simp) ho
  obtain ⟨l', names, hp', -, hmean⟩ := call_means hlw hload w context text [S] d ht hd hord _ rfl hfit hγ _ rfl ho nw hc
  obtain rfl : l' = l := by
    rw [hp'] at hp
    exact (Prod.mk.inj (Out.ok.inj hp)).2
  have htree : ∀ S' ∈ [S], ∀ i k n, i < d.words.length → i + k ≤ d.words.length → callTree w ld.gram [S] d.words l' i S' k n →
      WordTree (wholeWritten ds F I) split ev cs is nw text d.words i S' k n := by
    intro S' hS' i k n hi hik hr
    obtain rfl := List.mem_singleton.1 hS'
    refine ⟨hr.2.2.2.1, ?_⟩
    have h1 := hmean i 0 S' k n hS' (by rw [List.length_drop]; omega) hr.relax
    obtain ⟨S1, hS1, k1, m, hr1, ⟨ph, hph, rfl⟩, heval⟩ := (h1.1 (h1.2 hs)).2 hu
    obtain rfl := List.mem_singleton.1 hS1
    have hk1 : k1 = k := by rw [← hr1.2.2.2.1, hr.2.2.2.1]
    subst hk1
    have halts : ∀ A ∈ rules, ∀ syms f, (wholeGrammar ds ρ F I lw.ref w d).alts A syms f →
        ∃ b, wholeWritten ds F I A b ∧ syms = b.terms.map writtenSym ∧ f = b.f := by
      intro A hA syms f h
      cases h with
      | written h => exact ⟨_, h, rfl, rfl⟩
      | document h => exact absurd hA (hdoc _ _ h).1
    have hcs' : (d.words.drop i).map (·.text) = cs.drop i := by rw [List.map_drop, hcs]
    obtain ⟨v, hv, hval⟩ := hph.wordLang (lower := w.lower) (reg := w.registry) rfl rfl halts hch hcs' hev hS rfl
    rw [cut, List.drop_zero, Nat.sub_zero] at hv
    refine ⟨v, hv, fun x hx => ?_⟩
    obtain ⟨e, he, h3⟩ := hval x hx
    exact ⟨e, h3, fun p' hp1 hp2 => (heval p' hp1 hp2).1 e he⟩
  have hpos : 0 < d.words.length := by
    obtain ⟨t, h3, h4⟩ := ht.word
    exact List.length_pos_of_mem (List.mem_filter.2 ⟨h3, by simpa using h4⟩)
  have hmatch : ∀ k, TextMatch w (wholeSource ds F I lw.ref.annot (docSource w.find (wholeRegexps F I ρ) d)) [S] d.words k ↔
      SpanMatch (WordSpan (wholeWritten ds F I) split ev cs) [S] d.words.length 0 k := by
    intro k
    rw [← spanMatch_congr hsp]
    refine ⟨fun ⟨h1, S', h2, h3⟩ => ⟨hpos, by omega, S', h2, h3⟩, fun ⟨_, h1, S', h2, h3⟩ => ⟨by omega, S', h2, h3⟩⟩
  refine ⟨N, fun fuel hf => ?_⟩
  obtain ⟨⟨ns, g1, g2, g3⟩, ⟨ns1, h1, h1'⟩, ⟨ns2, h2, h2'⟩, h3⟩ := hcall fuel hf
  refine ⟨⟨ns, g1, g2.trans (exists_congr hmatch), fun n hn => ?_⟩, ⟨ns1, h1, (h1'.congr hsp).trees_congr htree⟩,
    ⟨ns2, h2, (h2'.congr hsp).trees_congr htree⟩, fun hno => ?_⟩
  · obtain ⟨S', hS', k, g4, g5, g6⟩ := g3 n hn
    have g7 := (hmatch k).1 g5
    exact ⟨S', hS', k, htree S' hS' 0 k n g7.1 g7.2.1 g4, g7, fun k' h => g6 k' ((hmatch k').2 h)⟩
  · obtain ⟨ns3, k1, k2, k3⟩ := h3 fun S' hS' h => by
      obtain ⟨v, hv⟩ := (hsp S' hS' 0 0).1 (by rw [TextSpan, List.take_zero]; exact h)
      rw [List.take_zero] at hv
      obtain rfl := List.mem_singleton.1 hS'
      exact hno v hv
    exact ⟨ns3, k1, (k2.congr hsp).trees_congr htree, k3⟩

/-- If all the words of a text form an `S`, then `Parse` returns trees, and the value of each of them is one that the words
have. -/
theorem words_parse (h1 : ∃ v, WordLang (wholeWritten ds F I) split ev S cs v) :
    ∃ N, ∀ fuel ≥ N, ∃ ns, apiParse w ld.gram fuel context text [S] = .ok ns ∧ ns ≠ [] ∧
      ∀ node ∈ ns, node.value.stop = d.words.length ∧ ∃ v, WordLang (wholeWritten ds F I) split ev S cs v ∧
        ∀ x, v = some x → ∃ e, is e x ∧ ∀ p : Parsed, p.text = text → p.env.tokens = d.words →
          node.semantic nw p = .ok (e.print nw) ∧ node.eval nw p = e.value nw := by
  obtain ⟨N, h⟩ := words_calls hlw hload w context text d ht hd hord ho nw hc hev hch hne hrules hone hdoc htoks hS hcs
  refine ⟨N, fun fuel hf => ?_⟩
  obtain ⟨ns, h2, h3⟩ := (h fuel hf).1
  exact ⟨ns, h2, h3.whole (by
    obtain ⟨t, h3, h4⟩ := ht.word
    exact List.length_pos_of_mem (List.mem_filter.2 ⟨h3, by simpa using h4⟩)) hcs h1⟩

end

end Fmr
