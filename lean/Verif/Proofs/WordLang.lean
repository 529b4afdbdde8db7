import Verif.Proofs.Reader
import Verif.Props.TextMeaning

/-!
# Grammars over words

For grammars whose terms are references and literals, over documents of words: the texts of a rule together with the
value that its functions give. Values can be anything for which the functions are understood.
-/

namespace Fmr

set_option linter.unusedSectionVars false

/-- the token for a word -/
def wordTerm (s : String) : Term := ⟨s, .terminal, .nil⟩

section
variable {V : Type} (W : String → RuleBody → Prop) (split : String → List String) (ev : List (Option V) → FMR → Option V)

mutual
/-- the rule derives the words, and its function gives the value -/
inductive WordLang : String → List String → Option V → Prop
  | mk {A : String} {b : RuleBody} {l : List String} {vs : List (Option V)} : W A b → WordSeq b.terms l vs →
      WordLang A l (b.f.bind (ev vs))
/-- the terms derive the words -/
inductive WordSeq : List Term → List String → List (Option V) → Prop
  | nil : WordSeq [] [] []
  | lit {t : Term} {ts : List Term} {l : List String} {vs : List (Option V)} : t.type = .terminal → WordSeq ts l vs →
      WordSeq (t :: ts) (split t.value ++ l) (none :: vs)
  | ref {t : Term} {ts : List Term} {l l' : List String} {v : Option V} {vs : List (Option V)} : t.type = .nonterminal →
      WordLang t.value l v → WordSeq ts l' vs → WordSeq (t :: ts) (l ++ l') (v :: vs)
end

end

/-- `is` says which expressions have which value: the functions give these values. -/
def EvSound {V : Type} (ev : List (Option V) → FMR → Option V) (is : Expr → V → Prop) : Prop :=
  ∀ (nl : String) (record : Value) (ms : List (Option Expr)) (vs : List (Option V)),
    (∀ (i : Nat) (x : V), vs[i]? = some (some x) → ∃ e, ms[i]? = some (some e) ∧ is e x) →
    ∀ f x, ev vs f = some x → ∃ e, funcSays nl record ms f = some e ∧ is e x

/-- References, and literals without flags whose tokens are their words. -/
def WordTerms (annot : String → Option (List Token)) (split : String → List String) (W : String → RuleBody → Prop)
    (names : List String) : Prop :=
  ∀ A b, W A b → ∀ t ∈ b.terms, (t.type = .nonterminal ∧ t.value ∈ names) ∨
    (t.type = .terminal ∧ readTerm annot t = (split t.value).map wordTerm)

theorem wordTerm_match {lower : String → String} {reg : String → Option Token} {s : String} {tok : Token} :
    terminalMatch lower reg (wordTerm s) tok = true ↔ tok.text = s := by
  unfold terminalMatch wordTerm
  simp only [ne_eq, not_true_eq_false, if_false, beq_iff_eq]
  exact eq_comm

/-- the words from `a` to `b` -/
def cut (cs : List String) (a b : Nat) : List String := (cs.drop a).take (b - a)

theorem cut_append {cs : List String} {a m b : Nat} (h1 : a ≤ m) (h2 : m ≤ b) : cut cs a m ++ cut cs m b = cut cs a b := by
  unfold cut
  rw [show b - a = (m - a) + (b - m) by omega, List.take_add, List.drop_drop, show a + (m - a) = m by omega]

theorem cut_cons {cs : List String} {a b : Nat} {c : String} (h : cs[a]? = some c) (h2 : a < b) :
    cut cs a b = c :: cut cs (a + 1) b := by
  unfold cut
  obtain ⟨ha, h⟩ := List.getElem?_eq_some_iff.1 h
  rw [List.drop_eq_getElem_cons ha, show b - a = (b - (a + 1)) + 1 by omega, List.take_succ_cons, h]

section
variable {V : Type} {G : TextGrammar} {lower : String → String} {reg : String → Option Token}
  {annot : String → Option (List Token)} {W : String → RuleBody → Prop} {split : String → List String}
  {ev : List (Option V) → FMR → Option V} {is : Expr → V → Prop} {rules : List String} {names : String → String → Prop}
  {w : NodeWorld} {text : Bytes} {toks : List Token} {cs : List String}
  (hmatch : G.tmatch = terminalMatch lower reg) (hread : G.read = readTerm annot)
  (halts : ∀ A ∈ rules, ∀ syms f, G.alts A syms f → ∃ b, W A b ∧ syms = b.terms.map writtenSym ∧ f = b.f)
  (hch : WordTerms annot split W rules) (htok : toks.map (·.text) = cs) (hev : EvSound ev is)

include hmatch htok in
theorem token_word {c : String} {a b : Nat} {ph : Phrase} (h : SymMeans G names w text toks (.token (wordTerm c)) a b ph) :
    b = a + 1 ∧ cs[a]? = some c := by
  cases h with
  | token h1 h2 h3 =>
    refine ⟨rfl, ?_⟩
    rw [hmatch, wordTerm_match] at h2
    rw [← htok, List.getElem?_map, h1, Option.map_some, h2]

include hmatch htok in
theorem tokens_words : ∀ {l : List String} {a b : Nat} {phs : List Phrase},
    SymsMean G names w text toks (l.map fun c => .token (wordTerm c)) a b phs → a ≤ b ∧ cut cs a b = l
  | [], _, _, _, h => by
    cases h
    simp [cut]
  | c :: l, a, b, _, h => by
    cases h with
    | cons h1 h2 =>
      obtain ⟨rfl, h3⟩ := token_word hmatch htok h1
      obtain ⟨h4, h5⟩ := tokens_words h2
      exact ⟨by omega, by rw [cut_cons h3 (by omega), h5]⟩

include hmatch hread htok in
theorem literal_words {t : Term} {a b : Nat} {ph : Phrase} (ht : readTerm annot t = (split t.value).map wordTerm)
    (h : SymMeans G names w text toks (.literal t) a b ph) : cut cs a b = split t.value := by
  cases h with
  | literal g1 g2 g3 =>
    rw [hread, ht, List.map_map] at g2
    exact (tokens_words hmatch htok g2).2

theorem spanText_le {a b : Nat} {pos : Pos} {o : Bytes} (h : SpanText text toks a b pos o) : a ≤ b := by
  cases h <;> omega

theorem SymMeans.le : ∀ {s : Sym} {a b : Nat} {ph : Phrase}, SymMeans G names w text toks s a b ph → a ≤ b
  | _, _, _, _, .token _ _ _ => by omega
  | _, _, _, _, .literal _ _ h => spanText_le h
  | _, _, _, _, .any _ _ _ h => spanText_le h
  | _, _, _, _, .plain _ _ _ h => spanText_le h
  | _, _, _, _, .func _ _ _ h => spanText_le h
  | _, _, _, _, .list _ _ _ h => spanText_le h

theorem SymsMean.le : ∀ {ss : List Sym} {a b : Nat} {phs : List Phrase}, SymsMean G names w text toks ss a b phs → a ≤ b
  | _, _, _, _, .nil => by omega
  | _, _, _, _, .cons h1 h2 => h1.le.trans h2.le

/-- the values are those of the meanings -/
def ValuesAre (is : Expr → V → Prop) (vs : List (Option V)) (phs : List Phrase) : Prop :=
  ∀ (i : Nat) (x : V), vs[i]? = some (some x) → ∃ e, (phs.map (·.meaning))[i]? = some (some e) ∧ is e x

include hmatch hread halts hch htok hev

mutual
theorem SymMeans.wordLang : ∀ {s : Sym} {a b : Nat} {ph : Phrase}, SymMeans G names w text toks s a b ph →
    ∀ {A : String} {mt : Meta}, A ∈ rules → s = .other ⟨A, .nonterminal, mt⟩ →
    ∃ v, WordLang W split ev A (cut cs a b) v ∧ ∀ x, v = some x → ∃ e, ph.meaning = some e ∧ is e x
  | _, _, _, _, .token _ _ _, _, _, _, e => by cases e
  | _, _, _, _, .literal _ _ _, _, _, _, e => by cases e
  | _, _, _, _, .any h1 _ _ _, _, _, _, e => by cases e; cases h1
  | _, _, _, _, .list h1 _ _ _, _, _, _, e => by cases e; cases h1
  | _, _, _, _, .plain h1 h2 h3 h4, A, _, hA, e => by
    obtain ⟨b, hW, e', hf⟩ := halts A hA _ _ (by cases e; exact h2)
    obtain ⟨vs, h5, -⟩ := h3.wordSeq (hch A b hW) e'
    refine ⟨_, .mk hW h5, fun n hn => ?_⟩
    rw [← hf] at hn
    cases hn
  | _, _, _, _, .func h1 h2 h3 h4, A, _, hA, e => by
    obtain ⟨b, hW, e', hf⟩ := halts A hA _ _ (by cases e; exact h2)
    obtain ⟨vs, h5, h6⟩ := h3.wordSeq (hch A b hW) e'
    refine ⟨_, .mk hW h5, fun n hn => ?_⟩
    rw [← hf] at hn
    exact hev _ _ _ _ h6 _ n hn
theorem SymsMean.wordSeq : ∀ {ss : List Sym} {a b : Nat} {phs : List Phrase}, SymsMean G names w text toks ss a b phs →
    ∀ {ts : List Term}, (∀ t ∈ ts, (t.type = .nonterminal ∧ t.value ∈ rules) ∨
      (t.type = .terminal ∧ readTerm annot t = (split t.value).map wordTerm)) → ss = ts.map writtenSym →
    ∃ vs, WordSeq W split ev ts (cut cs a b) vs ∧ ValuesAre is vs phs
  | _, _, _, _, .nil, ts, ht, e => by
    cases ts with
    | cons t ts => cases e
    | nil =>
      refine ⟨[], ?_, fun i n hi => by cases hi⟩
      simp only [cut, Nat.sub_self, List.take_zero]
      exact .nil
  | _, a, _, _, .cons (s := s) (m := m) h1 h2, ts, ht, e => by
    cases ts with
    | nil => cases e
    | cons t ts =>
      simp only [List.map_cons, List.cons.injEq] at e
      obtain ⟨vs, h3, h4⟩ := h2.wordSeq (fun t h => ht t (List.mem_cons_of_mem _ h)) e.2
      rw [← cut_append h1.le h2.le]
      rcases ht t (by simp) with ⟨h5, h6⟩ | ⟨h5, h6⟩
      · have hs : s = .other ⟨t.value, .nonterminal, t.meta⟩ := by
          rw [e.1, writtenSym, if_neg (by rw [h5]; decide), ← h5]
        obtain ⟨v, h7, h8⟩ := h1.wordLang h6 hs
        refine ⟨v :: vs, .ref h5 h7 h3, fun i n hi => ?_⟩
        cases i with
        | zero =>
          obtain ⟨e, he, h9⟩ := h8 n (by simpa using hi)
          exact ⟨e, by rw [← he]; rfl, h9⟩
        | succ i => exact h4 i n hi
      · have hs : s = .literal t := by rw [e.1, writtenSym, if_pos h5]
        have hc : cut cs a m = split t.value := literal_words hmatch hread htok h6 (hs ▸ h1)
        rw [hc]
        refine ⟨none :: vs, .lit h5 h3, fun i n hi => ?_⟩
        cases i with
        | zero => cases hi
        | succ i => exact h4 i n hi
end

end

section
variable {V : Type} {lower : String → String} {reg : String → Option Token} {annot : String → Option (List Token)}
  {W : String → RuleBody → Prop} {split : String → List String} {ev : List (Option V) → FMR → Option V}
  {rules : List String} {src : Source}
  (hch : WordTerms annot split W rules) (hsrc : ∀ A b, W A b → src A (b.terms.flatMap (readTerm annot)))

theorem words_yield {L : Lang} (hL : L.tmatch = terminalMatch lower reg) : ∀ {l : List String} {toks toks' : List Token} {ts : List Term},
    toks.map (·.text) = l → Yields L ts toks' → Yields L (l.map wordTerm ++ ts) (toks ++ toks')
  | [], toks, _, _, h, hy => by
    have : toks = [] := by simpa using h
    rw [this]
    exact hy
  | c :: l, [], _, _, h, hy => by cases h
  | c :: l, k :: toks, _, _, h, hy => by
    simp only [List.map_cons, List.cons.injEq] at h
    exact .terminal rfl (by rw [hL]; exact wordTerm_match.2 h.1) (words_yield hL h.2 hy)

include hch hsrc

mutual
theorem WordLang.yields : ∀ {A : String} {l : List String} {v : Option V}, WordLang W split ev A l v → ∀ {toks : List Token},
    toks.map (·.text) = l →
    ∃ body, (sourcesLang (terminalMatch lower reg) [src]).prods A body ∧
      Yields (sourcesLang (terminalMatch lower reg) [src]) body toks
  | A, _, _, .mk (b := b) hW hs, toks, h => by
    exact ⟨_, ⟨src, by simp, hsrc A b hW⟩, hs.yields (hch A b hW) h⟩
theorem WordSeq.yields : ∀ {ts : List Term} {l : List String} {vs : List (Option V)}, WordSeq W split ev ts l vs →
    (∀ t ∈ ts, (t.type = .nonterminal ∧ t.value ∈ rules) ∨
      (t.type = .terminal ∧ readTerm annot t = (split t.value).map wordTerm)) → ∀ {toks : List Token},
    toks.map (·.text) = l →
    Yields (sourcesLang (terminalMatch lower reg) [src]) (ts.flatMap (readTerm annot)) toks
  | _, _, _, .nil, _, toks, h => by
    have : toks = [] := by simpa using h
    rw [this]
    exact .nil
  | _, _, _, .lit (t := t) h1 h2, ht, toks, h => by
    obtain ⟨u, v, rfl, h3, h4⟩ := List.map_eq_append_iff.1 h
    have h5 := h2.yields (fun t h => ht t (List.mem_cons_of_mem _ h)) h4
    rw [List.flatMap_cons]
    rcases ht t (by simp) with h6 | h6
    · rw [h1] at h6; cases h6.1
    · rw [h6.2]
      exact words_yield rfl h3 h5
  | _, _, _, .ref (t := t) h1 h2 h3, ht, toks, h => by
    obtain ⟨u, v, rfl, h4, h5⟩ := List.map_eq_append_iff.1 h
    have h6 := h3.yields (fun t h => ht t (List.mem_cons_of_mem _ h)) h5
    obtain ⟨body, h7, h8⟩ := h2.yields h4
    rw [List.flatMap_cons, readTerm, if_neg (by rw [h1]; decide)]
    exact .nonterminal h1 h7 h8 h6
end

theorem WordLang.derives {A : String} {l : List String} {v : Option V} (h : WordLang W split ev A l v) {toks : List Token}
    (ht : toks.map (·.text) = l) : SourcesDerive (terminalMatch lower reg) [src] A toks := by
  obtain ⟨body, h1, h2⟩ := h.yields (lower := lower) (reg := reg) hch hsrc ht
  have := Yields.nonterminal (t := ⟨A, .nonterminal, .nil⟩) rfl h1 h2 .nil
  rwa [List.append_nil] at this

end

/-! ## the words of what is derived -/

section
variable {V : Type} {annot : String → Option (List Token)}
  {W : String → RuleBody → Prop} {split : String → List String} {ev : List (Option V) → FMR → Option V}
  {rules : List String}

/-- terms as in `WordTerms` -/
def TermsFit (annot : String → Option (List Token)) (split : String → List String) (rules : List String) (ts : List Term) : Prop :=
  ∀ t ∈ ts, (t.type = .nonterminal ∧ t.value ∈ rules) ∨ (t.type = .terminal ∧ readTerm annot t = (split t.value).map wordTerm)

/-- words, and then terms -/
def SplitSeq (W : String → RuleBody → Prop) (split : String → List String) (ev : List (Option V) → FMR → Option V)
    (ws : List String) (ts : List Term) (L : List String) : Prop :=
  ∃ l vs, L = ws ++ l ∧ WordSeq W split ev ts l vs

theorem splitSeq_cases : ∀ {ts : List Term} {ws : List String} {body : List Term}, TermsFit annot split rules ts →
    body = ws.map wordTerm ++ ts.flatMap (readTerm annot) →
    (body = [] ∧ SplitSeq W split ev ws ts []) ∨
    (∃ c ws' ts', TermsFit annot split rules ts' ∧ body = wordTerm c :: (ws'.map wordTerm ++ ts'.flatMap (readTerm annot)) ∧
      ∀ L, SplitSeq W split ev ws' ts' L → SplitSeq W split ev ws ts (c :: L)) ∨
    (∃ t ts', t.type = .nonterminal ∧ t.value ∈ rules ∧ TermsFit annot split rules ts' ∧ body = t :: ts'.flatMap (readTerm annot) ∧
      ∀ l v L, WordLang W split ev t.value l v → SplitSeq W split ev [] ts' L → SplitSeq W split ev ws ts (l ++ L))
  | ts, c :: ws, body, ht, e => by
    refine .inr (.inl ⟨c, ws, ts, ht, e, fun L h => ?_⟩)
    obtain ⟨l, vs, rfl, h⟩ := h
    exact ⟨l, vs, rfl, h⟩
  | [], [], body, ht, e => .inl ⟨e, [], [], rfl, .nil⟩
  | t :: ts, [], body, ht, e => by
    have ht' : TermsFit annot split rules ts := fun u h => ht u (List.mem_cons_of_mem _ h)
    rcases ht t List.mem_cons_self with ⟨h1, h2⟩ | ⟨h1, h2⟩
    · refine .inr (.inr ⟨t, ts, h1, h2, ht', ?_, fun l v L hl h => ?_⟩)
      · rw [e, List.map_nil, List.nil_append, List.flatMap_cons, readTerm, if_neg (by rw [h1]; decide)]
        rfl
      · obtain ⟨l', vs, rfl, h⟩ := h
        exact ⟨_, _, rfl, .ref h1 hl h⟩
    · have key : ∀ L, SplitSeq W split ev (split t.value) ts L → SplitSeq W split ev [] (t :: ts) L := by
        rintro L ⟨l, vs, rfl, h⟩
        exact ⟨_, _, rfl, .lit h1 h⟩
      rw [List.map_nil, List.nil_append, List.flatMap_cons, h2] at e
      rcases splitSeq_cases ht' e with ⟨h3, h4⟩ | ⟨c, ws', ts', h3, h4, h5⟩ | ⟨u, ts', h3, h4, h5, h6, h7⟩
      · exact .inl ⟨h3, key _ h4⟩
      · exact .inr (.inl ⟨c, ws', ts', h3, h4, fun L h => key _ (h5 L h)⟩)
      · exact .inr (.inr ⟨u, ts', h3, h4, h5, h6, fun l v L hl h => key _ (h7 l v L hl h)⟩)

variable {lower : String → String} {reg : String → Option Token} {src : Source} (hch : WordTerms annot split W rules)
  (hsrc : ∀ A ∈ rules, ∀ ts, src A ts → ∃ b, W A b ∧ ts = b.terms.flatMap (readTerm annot))
include hch hsrc

theorem yields_words {body : List Term} {toks : List Token}
    (h : Yields (sourcesLang (terminalMatch lower reg) [src]) body toks) :
    ∀ {ts : List Term} {ws : List String}, TermsFit annot split rules ts →
      body = ws.map wordTerm ++ ts.flatMap (readTerm annot) → SplitSeq W split ev ws ts (toks.map (·.text)) := by
  induction h with
  | nil =>
    intro ts ws ht e
    rcases splitSeq_cases (W := W) (ev := ev) ht e with ⟨-, h⟩ | ⟨c, ws', ts', -, h, -⟩ | ⟨u, ts', -, -, -, h, -⟩
    · exact h
    · cases h
    · cases h
  | terminal h1 h2 h3 ih =>
    intro ts ws ht e
    rcases splitSeq_cases (W := W) (ev := ev) ht e with ⟨h, -⟩ | ⟨c, ws', ts', h4, h, h5⟩ | ⟨u, ts', h4, -, -, h, -⟩
    · cases h
    · obtain ⟨rfl, rfl⟩ := List.cons.inj h
      rw [List.map_cons, (wordTerm_match (lower := lower) (reg := reg)).1 h2]
      exact h5 _ (ih h4 rfl)
    · obtain ⟨rfl, -⟩ := List.cons.inj h
      rw [h1] at h4; cases h4
  | nonterminal h1 h2 h3 h4 ih1 ih2 =>
    intro ts ws ht e
    rcases splitSeq_cases (W := W) (ev := ev) ht e with ⟨h, -⟩ | ⟨c, ws', ts', -, h, -⟩ | ⟨u, ts', h5, h6, h7, h, h8⟩
    · cases h
    · obtain ⟨rfl, -⟩ := List.cons.inj h
      cases h1
    · obtain ⟨rfl, rfl⟩ := List.cons.inj h
      obtain ⟨s, hs, h2⟩ := h2
      rw [List.mem_singleton] at hs
      subst hs
      obtain ⟨b, hb, rfl⟩ := hsrc _ h6 _ h2
      obtain ⟨l, vs, e1, h9⟩ := ih1 (ts := b.terms) (ws := []) (hch _ b hb) rfl
      rw [List.map_append]
      rw [List.nil_append] at e1
      refine h8 _ (b.f.bind (ev vs)) _ ?_ (ih2 h7 rfl)
      rw [e1]
      exact .mk hb h9
  | any h1 =>
    intro ts ws ht e
    rcases splitSeq_cases (W := W) (ev := ev) ht e with ⟨h, -⟩ | ⟨c, ws', ts', -, h, -⟩ | ⟨u, ts', h4, -, -, h, -⟩
    · cases h
    · obtain ⟨rfl, -⟩ := List.cons.inj h
      cases h1
    · obtain ⟨rfl, -⟩ := List.cons.inj h
      rw [h1] at h4; cases h4
  | list h1 =>
    intro ts ws ht e
    rcases splitSeq_cases (W := W) (ev := ev) ht e with ⟨h, -⟩ | ⟨c, ws', ts', -, h, -⟩ | ⟨u, ts', h4, -, -, h, -⟩
    · cases h
    · obtain ⟨rfl, -⟩ := List.cons.inj h
      cases h1
    · obtain ⟨rfl, -⟩ := List.cons.inj h
      rw [h1] at h4; cases h4

theorem derives_words {A : String} (hA : A ∈ rules) {toks : List Token}
    (h : SourcesDerive (terminalMatch lower reg) [src] A toks) : ∃ v, WordLang W split ev A (toks.map (·.text)) v := by
  obtain ⟨l, vs, e, h1⟩ := yields_words (V := V) (W := W) (split := split) (ev := ev) hch hsrc h
    (ts := [⟨A, .nonterminal, .nil⟩]) (ws := []) (fun t ht => by
      rw [List.mem_singleton] at ht
      subst ht
      exact .inl ⟨rfl, hA⟩) rfl
  cases h1 with
  | lit h => cases h
  | ref _ h2 h3 =>
    cases h3
    rw [e, List.nil_append, List.append_nil]
    exact ⟨_, h2⟩

end

end Fmr
