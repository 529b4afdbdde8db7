import Verif.Proofs.RefineLang

/-!
# Properties of refine (C24, C25, C26)
-/

namespace Fmr

/-! ## C24: the language is preserved -/

/-- C24: after refinement a rule derives what it did before, a literal being read as the sequence of its
non-space tokens with its own flags. False of the code, see `C24_false` and `C24_capture_false`. -/
def C24_statement : Prop :=
  ∀ (w : RefineWorld) (pre : String) (fuel : Nat) (reg reg' : Registry) (g g' : Grammar)
    (lower : String → String) (gtok : String → Option Token) (S : String) (toks : List Token),
    g.refined = false → refine w pre fuel reg g = .ok (reg', g') → g.rules.lookup S ≠ none →
    (SourcesDerive (terminalMatch lower gtok) [g'.source] S toks ↔
      SourcesDerive (terminalMatch lower gtok) [g.readSource w.annot] S toks)

/-- C24 for grammars in which equal literals have equal flags and in which nobody refers to an
introduced name; together with any other grammars in force (`before`, `after`), and for every matching of
terminals. Missing for the full statement: it is false there. -/
theorem C24_partial {w : RefineWorld} {pre : String} {fuel : Nat} {reg reg' : Registry} {g g' : Grammar}
    {tmatch : Term → Token → Bool} {before after : List Source} {S : String} (toks : List Token)
    (hg : g.refined = false) (h : refine w pre fuel reg g = .ok (reg', g'))
    (hflags : SameFlags g) (hclash : NoClash g g' (before ++ after)) (hS : ¬ Introduced g g' S) :
    SourcesDerive tmatch (before ++ g'.source :: after) S toks ↔
      SourcesDerive tmatch (before ++ g.readSource w.annot :: after) S toks := by
  obtain ⟨es, rules, hr, _⟩ := refine_spec hg h
  exact hr.derive_iff hflags hclash hS toks

/-- C24 without the condition on flags: each literal is read with the flags of *some* occurrence of the
same literal (the first one in the iteration order). -/
theorem C24_flags_partial {w : RefineWorld} {pre : String} {fuel : Nat} {reg reg' : Registry} {g g' : Grammar}
    (hg : g.refined = false) (h : refine w pre fuel reg g = .ok (reg', g')) :
    ∃ fl : String → Meta,
      (∀ A ts t, g.source A ts → t ∈ ts → t.type = .terminal →
        g.Literal { value := t.value, type := .terminal, «meta» := fl t.value }) ∧
      ∀ (tmatch : Term → Token → Bool) (before after : List Source) (S : String) (toks : List Token),
        NoClash g g' (before ++ after) → ¬ Introduced g g' S →
        (SourcesDerive tmatch (before ++ g'.source :: after) S toks ↔
          SourcesDerive tmatch (before ++ g.readSourceWith w.annot fl :: after) S toks) := by
  obtain ⟨es, rules, hr, _⟩ := refine_spec hg h
  refine ⟨entryFlags es, ?_, fun tmatch before after S toks hc hS =>
    hr.derive_iff_with (entryFlags_eq hr.litsNodup) hc hS toks⟩
  intro A ts t hs ht htt
  obtain ⟨e, he, hlit⟩ := hr.entry_of hs ht htt
  have := hr.occurs e he
  rw [← entryFlags_eq hr.litsNodup e he, hlit] at this
  exact this

/-- The language used by the parser (`Derives`) is the one given by the sources of its grammars. -/
theorem derives_iff_sources (env : Env) (S : String) (toks : List Token) :
    Derives env S toks ↔ SourcesDerive env.tmatch (env.grammars.map Grammar.source) S toks := by
  have : env.lang = sourcesLang env.tmatch (env.grammars.map Grammar.source) := by
    unfold Env.lang sourcesLang
    congr 1
    funext A ts
    apply propext
    constructor
    · rintro ⟨rb, ⟨g, hg, r, hr, hrb⟩, rfl⟩
      exact ⟨g.source, List.mem_map_of_mem hg, r, hr, rb, hrb, rfl⟩
    · rintro ⟨s, hs, hp⟩
      obtain ⟨g, hg, rfl⟩ := List.mem_map.1 hs
      obtain ⟨r, hr, rb, hrb, rfl⟩ := hp
      exact ⟨rb, ⟨g, hg, r, hr, hrb⟩, rfl⟩
  unfold Derives SourcesDerive
  rw [this]

/-! ### witnesses -/

theorem yields_nt_iff {L : Lang} {t : Term} (ht : t.type = .nonterminal) {w : List Token} :
    Yields L [t] w ↔ ∃ body, L.prods t.value body ∧ Yields L body w := by
  constructor
  · intro h
    generalize hts : [t] = ts at h
    cases h with
    | nil => simp at hts
    | terminal h1 =>
      simp at hts; obtain ⟨rfl, rfl⟩ := hts; rw [h1] at ht; simp at ht
    | nonterminal h1 h2 h3 h4 =>
      simp at hts; obtain ⟨rfl, rfl⟩ := hts; cases h4; simpa using ⟨_, h2, h3⟩
    | any h1 =>
      simp at hts; obtain ⟨rfl, rfl⟩ := hts; rw [h1] at ht; simp at ht
    | list h1 =>
      simp at hts; obtain ⟨rfl, rfl⟩ := hts; rw [h1] at ht; simp at ht
  · rintro ⟨body, h1, h2⟩
    exact Yields.nonterminal_one ht h1 h2

theorem yields_terminal_iff {L : Lang} {t : Term} {ts : List Term} (ht : t.type = .terminal)
    {w : List Token} :
    Yields L (t :: ts) w ↔ ∃ a w', w = a :: w' ∧ L.tmatch t a = true ∧ Yields L ts w' := by
  constructor
  · intro h
    cases h with
    | terminal h1 h2 h3 => exact ⟨_, _, rfl, h2, h3⟩
    | nonterminal h1 => rw [h1] at ht; simp at ht
    | any h1 => rw [h1] at ht; simp at ht
    | list h1 => rw [h1] at ht; simp at ht
  · rintro ⟨a, w', rfl, h2, h3⟩
    exact .terminal ht h2 h3

theorem yields_nil_iff {L : Lang} {w : List Token} : Yields L [] w ↔ w = [] :=
  ⟨fun h => by cases h; rfl, fun h => h ▸ .nil⟩

/-- a tokenizer: "foo!" has two tokens, everything else is one word -/
def exAnnot (s : String) : Option (List Token) :=
  if s = "foo!" then some [{ text := "foo" }, { text := "!", type := .punct }]
  else some [{ text := s, lemma_ := "foo" }]

def exW : RefineWorld := { annot := exAnnot, ascii := id, hash := fun _ => some 0 }

def litT (s : String) (m : Meta := .nil) : Term := { value := s, type := .terminal, «meta» := m }
def ntT (s : String) (m : Meta := .nil) : Term := { value := s, type := .nonterminal, «meta» := m }
def rule1 (name : String) (ts : List Term) : String × Rule :=
  (name, { name := name, body := [(0, { terms := ts, f := none })] })

/-- sources of a grammar with one body per rule -/
theorem source_rule1 {g : Grammar} {A : String} {ts0 : List Term}
    (h : g.rules.lookup A = some (rule1 A ts0).2) (ts : List Term) : g.source A ts ↔ ts = ts0 := by
  unfold Grammar.source; rw [h]; simp [rule1, Rule.bodies]

theorem readSource_rule1 {annot} {g : Grammar} {A : String} {ts0 : List Term}
    (h : g.rules.lookup A = some (rule1 A ts0).2) (ts : List Term) :
    g.readSource annot A ts ↔ ts = ts0.flatMap (readTerm annot) := by
  unfold Grammar.readSource; rw [h]; simp [rule1, Rule.bodies]

/-- `<a> = "foo"; <b> = "(?l)foo";` -/
def gFlags : Grammar := { name := "g", rules := [rule1 "a" [litT "foo"], rule1 "b" [litT "foo" (.flags "l")]] }

def gFlags' : Grammar :=
  { name := "g", refined := true,
    rules := [rule1 "a" [ntT "g_t_foo"], rule1 "b" [ntT "g_t_foo" (.flags "l")],
      rule1 "g_t_foo" [litT "foo"]] }

theorem gFlags_refines : refine exW "g" 5 [] gFlags =
    .ok ([("foo", { text := "foo", lemma_ := "foo" })], gFlags') := by
  rfl

/-- a word form with lemma "foo" -/
def foos : Token := { text := "foos", lemma_ := "foo" }

theorem C24_false : ¬ C24_statement := by
  intro h
  have := (h exW "g" 5 [] _ gFlags gFlags' id (fun _ => some { text := "foo", lemma_ := "foo" }) "b"
    [foos] rfl gFlags_refines (by simp [gFlags, rule1, List.lookup_cons])).2 (by
      unfold SourcesDerive
      rw [yields_nt_iff rfl]
      refine ⟨[litT "foo" (.flags "l")], ⟨_, List.mem_cons_self, (readSource_rule1 rfl _).2 rfl⟩, ?_⟩
      exact .terminal rfl (by decide +kernel) .nil)
  unfold SourcesDerive at this
  rw [yields_nt_iff rfl] at this
  obtain ⟨body, ⟨s, hs, hp⟩, hy⟩ := this
  simp only [List.mem_singleton] at hs; subst hs
  have := (source_rule1 (ts0 := [ntT "g_t_foo" (.flags "l")]) rfl _).1 hp
  subst this
  rw [yields_nt_iff rfl] at hy
  obtain ⟨body, ⟨s, hs, hp⟩, hy⟩ := hy
  simp only [List.mem_singleton] at hs; subst hs
  have := (source_rule1 (g := gFlags') (A := "g_t_foo") (ts0 := [litT "foo"]) rfl _).1 hp
  subst this
  rw [yields_terminal_iff rfl] at hy
  obtain ⟨a, w', hw, hm, _⟩ := hy
  simp only [List.cons.injEq] at hw
  obtain ⟨rfl, _⟩ := hw
  exact absurd hm (by decide +kernel)

/-- `<a> = "foo"; <b> = <g_t_foo>;`, where `<g_t_foo>` is not defined -/
def gCapture : Grammar := { name := "g", rules := [rule1 "a" [litT "foo"], rule1 "b" [ntT "g_t_foo"]] }

def gCapture' : Grammar :=
  { name := "g", refined := true,
    rules := [rule1 "a" [ntT "g_t_foo"], rule1 "b" [ntT "g_t_foo"], rule1 "g_t_foo" [litT "foo"]] }

theorem gCapture_refines : refine exW "g" 5 [] gCapture =
    .ok ([("foo", { text := "foo", lemma_ := "foo" })], gCapture') := by
  rfl

/-- A second way in which C24 fails: a reference to an undefined rule is captured by a generated name.
(All literals have the same flags here.) -/
theorem C24_capture_false : SameFlags gCapture ∧
    SourcesDerive (terminalMatch id (fun _ => none)) [gCapture'.source] "b" [{ text := "foo" }] ∧
    ¬ SourcesDerive (terminalMatch id (fun _ => none)) [gCapture.readSource exAnnot] "b" [{ text := "foo" }] := by
  refine ⟨?_, ?_, ?_⟩
  · rintro t t' ⟨e, he, rb, hrb, ht, htt⟩ ⟨e', he', rb', hrb', ht', htt'⟩ _
    have key : ∀ e ∈ gCapture.rules, ∀ rb ∈ e.2.bodies, ∀ t ∈ rb.terms, t.meta = .nil := by
      simp [gCapture, rule1, Rule.bodies, litT, ntT]
    rw [key e he rb hrb t ht, key e' he' rb' hrb' t' ht']
  · unfold SourcesDerive
    rw [yields_nt_iff rfl]
    refine ⟨[ntT "g_t_foo"], ⟨_, List.mem_cons_self, (source_rule1 rfl _).2 rfl⟩, ?_⟩
    rw [yields_nt_iff rfl]
    refine ⟨[litT "foo"], ⟨_, List.mem_cons_self, (source_rule1 rfl _).2 rfl⟩, ?_⟩
    exact .terminal rfl (by decide +kernel) .nil
  · intro h
    unfold SourcesDerive at h
    rw [yields_nt_iff rfl] at h
    obtain ⟨body, ⟨s, hs, hp⟩, hy⟩ := h
    simp only [List.mem_singleton] at hs; subst hs
    have := (readSource_rule1 (ts0 := [ntT "g_t_foo"]) rfl _).1 hp
    subst this
    rw [show [ntT "g_t_foo"].flatMap (readTerm exAnnot) = [ntT "g_t_foo"] from rfl] at hy
    rw [yields_nt_iff rfl] at hy
    obtain ⟨body, ⟨s, hs, hp⟩, hy⟩ := hy
    simp only [List.mem_singleton] at hs; subst hs
    obtain ⟨r, hr, _⟩ := hp
    simp [gCapture, rule1, List.lookup_cons, ntT] at hr

/-- `<a> = "foo!";` -/
def gOne : Grammar := { name := "one", rules := [rule1 "a" [litT "foo!"]] }
def gOne' : Grammar :=
  { name := "one", refined := true,
    rules := [rule1 "a" [ntT "g_t_foo"], rule1 "g_t_foo" [litT "foo", litT "!"]] }
def regOne : Registry := [("foo", { text := "foo" }), ("!", { text := "!", type := .punct })]
theorem gOne_refines : refine exW "g" 5 [] gOne = .ok (regOne, gOne') := by rfl

/-- C24_partial is not vacuous: the hypotheses hold for `<a> = "foo!";`, and both sides derive
`foo !`. -/
example : SourcesDerive (terminalMatch id (fun _ => none)) ([] ++ gOne'.source :: []) "a"
    [{ text := "foo" }, { text := "!" }] := by
  have hclash : NoClash gOne gOne' ([] ++ []) := by
    rintro A ⟨h1, h2⟩
    refine ⟨?_, by simp⟩
    rintro ⟨B, ts, ⟨r, hr, rb, hrb, rfl⟩, t, ht, htt, _⟩
    have := lookup_mem hr
    simp [gOne, rule1] at this
    obtain ⟨rfl, rfl⟩ := this
    simp [Rule.bodies] at hrb
    subst hrb
    simp [litT] at ht
    subst ht
    simp at htt
  have hflags : SameFlags gOne := by
    have key : ∀ e ∈ gOne.rules, ∀ rb ∈ e.2.bodies, ∀ t ∈ rb.terms, t.meta = .nil := by
      simp [gOne, rule1, Rule.bodies, litT]
    rintro t t' ⟨e, he, rb, hrb, ht, htt⟩ ⟨e', he', rb', hrb', ht', htt'⟩ _
    rw [key e he rb hrb t ht, key e' he' rb' hrb' t' ht']
  refine (C24_partial (w := exW) _ rfl gOne_refines hflags hclash ?_).2 ?_
  · rintro ⟨h, _⟩; simp [gOne, rule1, List.lookup_cons] at h
  · unfold SourcesDerive
    rw [yields_nt_iff rfl]
    refine ⟨[litT "foo", litT "!"], ⟨_, List.mem_cons_self, (readSource_rule1 rfl _).2 rfl⟩, ?_⟩
    exact .terminal rfl (by decide +kernel) (.terminal rfl (by decide +kernel) .nil)

/-! ## C25: structure of the result -/

/-- C25: there is a naming `ν` of the literals, injective, outside the user's rules, such that
* the rules of the result are the user's rules and the rules `ν v` for the literals `v`,
* each user rule keeps its name, alternatives, their keys and semantic functions, and every term except that
  a literal `v` becomes a reference to `ν v`,
* the rule `ν v` has exactly one alternative: the tokens of `v`, with the flags of some occurrence of `v`. -/
theorem C25_structure {w : RefineWorld} {pre : String} {fuel : Nat} {reg reg' : Registry} {g g' : Grammar}
    (hg : g.refined = false) (h : refine w pre fuel reg g = .ok (reg', g')) :
    g'.refined = true ∧ g'.name = g.name ∧ g'.frames = g.frames ∧ g'.regexps = g.regexps ∧
    ∃ (lits : List String) (ν : String → String),
      (∀ t, g.Literal t → t.value ∈ lits) ∧
      (∀ v ∈ lits, g.rules.lookup (ν v) = none) ∧
      (∀ v ∈ lits, ∀ v' ∈ lits, ν v = ν v' → v = v') ∧
      (∀ A r, g.rules.lookup A = some r → ∃ r', g'.rules.lookup A = some r' ∧ r'.name = r.name ∧
        r'.body = r.body.map (replaceLits ν)) ∧
      (∀ v ∈ lits, ∃ h t, g.Literal t ∧ t.value = v ∧
        g'.rules.lookup (ν v) = some
          { name := ν v, body := [(h, { terms := readTerm w.annot t, f := none })] }) ∧
      (∀ A, g.rules.lookup A = none → (∀ v ∈ lits, A ≠ ν v) → g'.rules.lookup A = none) := by
  obtain ⟨es, rules, hr, _⟩ := refine_spec hg h
  have hres := hr.result
  refine ⟨by rw [hres], by rw [hres], by rw [hres], by rw [hres], es.map Entry.lit,
    fun v => match es.find? (fun e => e.lit == v) with | some e => e.name | none => "", ?_⟩
  have hν : ∀ e ∈ es, es.find? (fun x => x.lit == e.lit) = some e := by
    have := hr.litsNodup
    clear hr hres h; rename_i hreg; clear hreg
    induction es with
    | nil => simp
    | cons e0 es ih =>
      intro e he
      simp only [List.map_cons, List.nodup_cons] at this
      rcases List.mem_cons.1 he with rfl | he
      · simp
      · have hne : (e0.lit == e.lit) = false := by
          simp only [beq_eq_false_iff_ne]
          intro h; exact this.1 (h ▸ List.mem_map_of_mem he)
        simp only [List.find?_cons, hne]
        exact ih this.2 e he
  have hmem : ∀ {v}, v ∈ es.map Entry.lit → ∃ e ∈ es, e.lit = v ∧
      es.find? (fun x => x.lit == v) = some e := by
    intro v hv
    obtain ⟨e, he, rfl⟩ := List.mem_map.1 hv
    exact ⟨e, he, rfl, hν e he⟩
  refine ⟨?_, ?_, ?_, ?_, ?_, ?_⟩
  · rintro t ⟨e, he, rb, hrb, ht, htt⟩
    obtain ⟨e', _, hrel⟩ := forall₂_mem_left hr.rel he
    obtain ⟨⟨k, b⟩, hb, rfl⟩ := List.mem_map.1 hrb
    obtain ⟨b', _, hb'⟩ := forall₂_mem_left hrel.2.2 hb
    obtain ⟨t', _, ht'⟩ := forall₂_mem_left hb'.2.2 ht
    rcases ht' with ⟨h1, _⟩ | ⟨_, x, hx, h2, _⟩
    · exact absurd htt h1
    · exact h2 ▸ List.mem_map_of_mem hx
  · intro v hv
    obtain ⟨e, he, rfl, hf⟩ := hmem hv
    simp only [hf]
    exact hr.fresh e he
  · intro v hv v' hv' heq
    obtain ⟨e, he, rfl, hf⟩ := hmem hv
    obtain ⟨e', he', rfl, hf'⟩ := hmem hv'
    simp only [hf, hf'] at heq
    rw [List.inj_on_of_nodup_map hr.namesNodup he he' heq]
  · intro A r hA
    rcases ruleRel_lookup (A := A) hr.rel with ⟨h3, _⟩ | ⟨r0, r', h3, h4, _, hname, hrel⟩
    · rw [hA] at h3; simp at h3
    · rw [hA] at h3; simp at h3; subst h3
      have hAn : A ∉ es.map Entry.name := by
        intro hc
        obtain ⟨e, he, rfl⟩ := List.mem_map.1 hc
        rw [hr.fresh e he] at hA; simp at hA
      refine ⟨r', by rw [hr.lookup_old hAn]; exact h4, hname, ?_⟩
      have key : ∀ (l l' : List Term), List.Forall₂ (TermRel es) l l' →
          l' = l.map (replaceLit (fun v =>
            match es.find? (fun e => e.lit == v) with | some e => e.name | none => "")) := by
        intro l l' h
        induction h with
        | nil => rfl
        | cons h1 _ ih =>
          rw [List.map_cons, ← ih]
          rcases h1 with ⟨h1, rfl⟩ | ⟨h1, e, he, h2, rfl⟩
          · simp [replaceLit, h1]
          · simp only [replaceLit, h1, if_true]
            rw [← h2, hν e he]
      simp only at hrel
      generalize r.body = l at hrel
      generalize r'.body = l' at hrel
      induction hrel with
      | nil => rfl
      | @cons a b l l' h1 _ ih =>
        rw [List.map_cons, ← ih]
        obtain ⟨k, rb⟩ := a
        obtain ⟨k', ⟨ts', f'⟩⟩ := b
        obtain ⟨rfl, h2, h3⟩ := h1
        simp only at h2 h3
        subst h2
        simp only [replaceLits, key _ _ h3]
  · intro v hv
    obtain ⟨e, he, rfl, hf⟩ := hmem hv
    simp only [hf]
    refine ⟨e.hash, _, hr.occurs e he, rfl, ?_⟩
    rw [hr.lookup_new he, hr.body e he]
  · intro A hA hν'
    have hAn : A ∉ es.map Entry.name := by
      intro hc
      obtain ⟨e, he, rfl⟩ := List.mem_map.1 hc
      have := hν' e.lit (List.mem_map_of_mem he)
      simp only [hν e he] at this
      exact this rfl
    rw [hr.lookup_old hAn]
    rcases ruleRel_lookup (A := A) hr.rel with ⟨_, h3⟩ | ⟨r0, r', h3, _⟩
    · exact h3
    · rw [hA] at h3; simp at h3

/-- C25: every alternative of the result consists only of terminals or contains none. -/
theorem C25_unmixed {w : RefineWorld} {pre : String} {fuel : Nat} {reg reg' : Registry} {g g' : Grammar}
    (hg : g.refined = false) (h : refine w pre fuel reg g = .ok (reg', g')) {A : String} {ts : List Term}
    (hs : g'.source A ts) : Unmixed1 ts := by
  obtain ⟨es, rules, hr, _⟩ := refine_spec hg h
  by_cases hA : A ∈ es.map Entry.name
  · obtain ⟨e, he, rfl⟩ := List.mem_map.1 hA
    have := (hr.source_new he ts).1 hs
    subst this
    left
    rw [hr.body e he]
    exact readTerm_terminal (t := ⟨e.lit, .terminal, e.meta⟩) rfl
  · obtain ⟨ts0, _, hrel⟩ := hr.source_down hA hs
    right
    intro t ht
    obtain ⟨t0, _, h0⟩ := forall₂_mem_right hrel ht
    rcases h0 with ⟨h1, rfl⟩ | ⟨_, e, _, _, rfl⟩
    · exact h1
    · simp

/-- C25: the names of all introduced rules start with the prefix and `_t`. -/
theorem C25_prefix {w : RefineWorld} {pre : String} {fuel : Nat} {reg reg' : Registry} {g g' : Grammar}
    (hg : g.refined = false) (h : refine w pre fuel reg g = .ok (reg', g')) {A : String} (hA : Introduced g g' A) :
    (pre ++ "_t").toList <+: A.toList := by
  obtain ⟨es, rules, hr, -, -, -, -, h1⟩ := refine_spec hg h
  obtain ⟨e, he, rfl⟩ := List.mem_map.1 ((hr.introduced A).1 hA)
  exact h1 e he

/-- C25: where the names made from the words of the literals tell these apart, they are the names of the
introduced rules, and each of these rules has the tokens of its literal, with the flags of some occurrence. -/
theorem C25_names {w : RefineWorld} {pre : String} {fuel : Nat} {reg reg' : Registry} {g g' : Grammar}
    (hg : g.refined = false) (h : refine w pre fuel reg g = .ok (reg', g')) (hap : NamesApart w pre g) (A : String) :
    Introduced g g' A ↔ ∃ t, g.Literal t ∧ A = literalName w pre t.value ∧
      ∀ ts, g'.source A ts ↔ ts = readTerm w.annot t := by
  obtain ⟨es, rules, hr, -, -, -, h1, -⟩ := refine_spec hg h
  rw [hr.introduced]
  constructor
  · intro hA
    obtain ⟨e, he, rfl⟩ := List.mem_map.1 hA
    refine ⟨_, hr.occurs e he, h1 hap e he, fun ts => ?_⟩
    rw [hr.source_new he, hr.body e he]
  · rintro ⟨t, ⟨e0, he0, rb, hrb, ht, htt⟩, rfl, hts⟩
    obtain ⟨e', _, hrel⟩ := forall₂_mem_left hr.rel he0
    obtain ⟨⟨k, b⟩, hb, rfl⟩ := List.mem_map.1 hrb
    obtain ⟨b', _, hb'⟩ := forall₂_mem_left hrel.2.2 hb
    obtain ⟨t', _, ht'⟩ := forall₂_mem_left hb'.2.2 ht
    rcases ht' with ⟨h1, _⟩ | ⟨_, x, hx, h2, _⟩
    · exact absurd htt h1
    · rw [← h2, ← h1 hap x hx]
      exact List.mem_map_of_mem hx

/-- the names of `"foo!"` in the example -/
example : NamesApart exW "g" gOne ∧ literalName exW "g" "foo!" = "g_t_foo" := by
  have hl : ∀ t, gOne.Literal t → t.value = "foo!" := by
    rintro t ⟨e, he, rb, hrb, ht, -⟩
    simp only [gOne, rule1, List.mem_singleton] at he
    subst he
    simp only [Rule.bodies, List.map_cons, List.map_nil, List.mem_singleton] at hrb
    subst hrb
    simp only [List.mem_singleton] at ht
    subst ht
    rfl
  exact ⟨⟨fun t t' h h' _ => (hl t h).trans (hl t' h').symm, fun t h => by rw [hl t h]; decide +kernel⟩, by decide +kernel⟩

/-- C25: refining again, with any prefix, registry and fuel, changes nothing. -/
theorem C25_idempotent {w : RefineWorld} {pre : String} {fuel : Nat} {reg reg' : Registry} {g g' : Grammar}
    (h : refine w pre fuel reg g = .ok (reg', g')) (w' : RefineWorld) (pre' : String) (fuel' : Nat)
    (reg'' : Registry) : refine w' pre' fuel' reg'' g' = .ok (reg'', g') := by
  have : g'.refined = true := by
    by_cases hg : g.refined = true
    · unfold refine at h; simp [hg] at h; rw [← h.2]; exact hg
    · exact (C25_structure (by simpa using hg) h).1
  unfold refine
  simp [this]

theorem mapState_no_div {σ α : Type} {f : σ → α → Out (σ × α)} {I : σ → List Entry → Prop} :
    ∀ {l : List α} {st es},
    (∀ a ∈ l, ∀ st es st' a', I st es → f st a = .ok (st', a') → ∃ es', I st' es') →
    (∀ a ∈ l, ∀ st es, I st es → f st a ≠ .div) → I st es → mapState f st l ≠ .div
  | [], _, _, _, _, _ => by simp [mapState]
  | a :: l, st, es, hf, hd, hi => by
    intro h
    rw [mapState] at h
    rcases h1 : f st a with ⟨st1, a1⟩ | _ | _ | _
    · rw [h1] at h
      obtain ⟨es1, hi1⟩ := hf a (by simp) _ _ _ _ hi h1
      have := mapState_no_div (l := l) (f := f) (fun a ha => hf a (by simp [ha])) (fun a ha => hd a (by simp [ha])) hi1
      simp only [Out.bind_ok] at h
      rcases h2 : mapState f st1 l with ⟨st2, l2⟩ | _ | _ | _
      · rw [h2] at h; simp at h
      · rw [h2] at h; simp at h
      · rw [h2] at h; simp at h
      · exact this h2
    · rw [h1] at h; simp at h
    · rw [h1] at h; simp at h
    · exact hd a (by simp) _ _ hi h1

/-- the texts of all terms of the grammar -/
def allTexts (g : Grammar) : List String :=
  g.rules.flatMap (fun e => e.2.bodies.flatMap (fun rb => rb.terms.map Term.value))

theorem refineTerm_no_div {reg : Registry} {w : RefineWorld} {pre : String} {g : Grammar} {fuel : Nat}
    (hf : g.rules.length + (allTexts g).length < fuel) {st : RefineSt} {es : List Entry} {t : Term}
    (hi : RInv w pre g reg st es) : refineTerm w pre g.rules fuel st t ≠ .div := by
  intro h
  unfold refineTerm at h
  split at h
  · simp at h
  · split at h
    · simp at h
    · rcases ha : w.annot t.value with _ | toks
      · rw [ha] at h; simp [Out.ofErr] at h
      · rw [ha] at h
        simp only [Out.ofErr, Out.bind_ok] at h
        rcases hl : literalLoop w t.meta toks (pre ++ "_t") [] st.reg with ⟨tname, terms, reg⟩
        rw [hl] at h
        simp only at h
        have hsub : es.map Entry.lit ⊆ allTexts g := by
          intro v hv
          obtain ⟨e, he, rfl⟩ := List.mem_map.1 hv
          obtain ⟨x, hx, rb, hrb, ht, _⟩ := hi.occurs e he
          exact List.mem_flatMap.2 ⟨x, hx, List.mem_flatMap.2 ⟨rb, hrb, List.mem_map.2 ⟨_, ht, rfl⟩⟩⟩
        have hlen := (List.subperm_of_subset hi.litsNodup hsub).length_le
        obtain ⟨name, hname⟩ := freshName_terminates
          (used := fun name => (g.rules.lookup name).isSome || st.names.contains name)
          (l := g.rules.map Prod.fst ++ st.names) (by
            intro s hs
            simp only [Bool.or_eq_true, Option.isSome_iff_exists] at hs
            rcases hs with ⟨r, hr⟩ | hs
            · exact List.mem_append_left _ (List.mem_map.2 ⟨_, lookup_mem hr, rfl⟩)
            · exact List.mem_append_right _ (by simpa using hs)) tname (fuel := fuel) (by
              rw [hi.names]; simp at hlen ⊢; omega)
        rw [hname] at h
        simp only [Out.ofFuel, Out.bind_ok] at h
        rcases hh : w.hash { terms := terms, f := none } with _ | hh'
        · rw [hh] at h; simp [Out.ofErr] at h
        · rw [hh] at h; simp [Out.ofErr] at h

/-- C25: the search for fresh names, and with it `refine`, terminates. -/
theorem C25_terminates (w : RefineWorld) (pre : String) (reg : Registry) (g : Grammar) :
    ∃ n, ∀ fuel, n ≤ fuel → refine w pre fuel reg g ≠ .div := by
  refine ⟨g.rules.length + (allTexts g).length + 1, fun fuel hf h => ?_⟩
  unfold refine at h
  split at h
  · simp at h
  · have hbody : ∀ (e : Nat × RuleBody) (st : RefineSt) (es : List Entry), RInv w pre g reg st es →
        (∀ t ∈ e.2.terms, t.type = .terminal → g.Literal t) →
        refineBody w pre g.rules fuel st e ≠ .div := by
      intro e st es hi hlit hd
      unfold refineBody at hd
      have := mapState_no_div (l := e.2.terms) (I := RInv w pre g reg)
        (f := refineTerm w pre g.rules fuel)
        (fun a ha st es st' a' hi h => by
          obtain ⟨es', _, h', _⟩ := refineTerm_spec hi (hlit a ha) h
          exact ⟨es', h'⟩)
        (fun a ha st es hi => refineTerm_no_div (by omega) hi) hi
      rcases hm : mapState (refineTerm w pre g.rules fuel) st e.2.terms with ⟨a, b⟩ | _ | _ | _
      · rw [hm] at hd; simp at hd
      · rw [hm] at hd; simp at hd
      · rw [hm] at hd; simp at hd
      · exact this hm
    have hrule : ∀ (e : String × Rule) (st : RefineSt) (es : List Entry), RInv w pre g reg st es →
        (∀ rb ∈ e.2.bodies, ∀ t ∈ rb.terms, t.type = .terminal → g.Literal t) →
        refineRule w pre g.rules fuel st e ≠ .div := by
      intro e st es hi hlit hd
      unfold refineRule at hd
      have hin : ∀ a ∈ e.2.body, a.2 ∈ e.2.bodies := fun a ha => by
        simp only [Rule.bodies]; exact List.mem_map_of_mem ha
      have := mapState_no_div (l := e.2.body) (I := RInv w pre g reg)
        (f := refineBody w pre g.rules fuel)
        (fun a ha st es st' a' hi h => by
          obtain ⟨es', _, h', _⟩ := refineBody_spec hi (hlit a.2 (hin a ha)) h
          exact ⟨es', h'⟩)
        (fun a ha st es hi => hbody a st es hi (hlit a.2 (hin a ha))) hi
      rcases hm : mapState (refineBody w pre g.rules fuel) st e.2.body with ⟨a, b⟩ | _ | _ | _
      · rw [hm] at hd; simp at hd
      · rw [hm] at hd; simp at hd
      · rw [hm] at hd; simp at hd
      · exact this hm
    have := mapState_no_div (l := g.rules) (I := RInv w pre g reg)
      (f := refineRule w pre g.rules fuel)
      (fun a ha st es st' a' hi h => by
        obtain ⟨es', _, h', _⟩ := refineRule_spec hi (fun rb hrb t ht htt => ⟨a, ha, rb, hrb, ht, htt⟩) h
        exact ⟨es', h'⟩)
      (fun a ha st es hi => hrule a st es hi (fun rb hrb t ht htt => ⟨a, ha, rb, hrb, ht, htt⟩))
      (rinv_start w pre g reg)
    rcases hm : mapState (refineRule w pre g.rules fuel) { reg := reg } g.rules with ⟨a, b⟩ | _ | _ | _
    · rw [hm] at h; simp at h
    · rw [hm] at h; simp at h
    · rw [hm] at h; simp at h
    · exact this hm

/-! ### the fuel does not matter -/

theorem mapState_mono {σ α : Type} {f f' : σ → α → Out (σ × α)}
    (hf : ∀ st a, f st a ≠ .div → f' st a = f st a) : ∀ {l : List α} {st},
    mapState f st l ≠ .div → mapState f' st l = mapState f st l
  | [], _, _ => rfl
  | a :: l, st, h => by
    rw [mapState, mapState]
    rw [mapState] at h
    have h1 : f st a ≠ .div := by intro e; rw [e] at h; simp at h
    rw [hf st a h1]
    rcases he : f st a with ⟨st1, a1⟩ | _ | _ | _
    · rw [he] at h
      simp only [Out.bind_ok] at h ⊢
      have h2 : mapState f st1 l ≠ .div := by intro e; rw [e] at h; simp at h
      rw [mapState_mono hf h2]
    · rfl
    · rfl
    · rfl

theorem refineTerm_mono {w : RefineWorld} {pre : String} {rules : List (String × Rule)} {fuel : Nat} (k : Nat)
    {st : RefineSt} {t : Term} (h : refineTerm w pre rules fuel st t ≠ .div) :
    refineTerm w pre rules (fuel + k) st t = refineTerm w pre rules fuel st t := by
  unfold refineTerm at h ⊢
  split
  · rfl
  · rename_i ht
    rw [if_neg ht] at h
    split
    · rfl
    · rename_i hn
      rw [hn] at h
      simp only at h
      rcases ha : w.annot t.value with _ | toks
      · rfl
      · rw [ha] at h
        simp only [Out.ofErr, Out.bind_ok] at h ⊢
        rcases hl : literalLoop w t.meta toks (pre ++ "_t") [] st.reg with ⟨tname, terms, reg⟩
        rw [hl] at h
        simp only at h ⊢
        generalize hu : (fun name => (List.lookup name rules).isSome || st.names.contains name) = used at h ⊢
        rcases hname : freshName used tname fuel 0 tname with _ | name
        · rw [hname] at h; simp [Out.ofFuel] at h
        · rw [freshName_mono hname k]

/-- C25: more fuel gives the same result. -/
theorem C25_mono {w : RefineWorld} {pre : String} {fuel : Nat} {reg : Registry} {g : Grammar} (k : Nat)
    (h : refine w pre fuel reg g ≠ .div) : refine w pre (fuel + k) reg g = refine w pre fuel reg g := by
  have hbody : ∀ st e, refineBody w pre g.rules fuel st e ≠ .div →
      refineBody w pre g.rules (fuel + k) st e = refineBody w pre g.rules fuel st e := by
    intro st e h
    unfold refineBody at h ⊢
    rw [mapState_mono (fun st a => refineTerm_mono k)]
    intro e; rw [e] at h; simp at h
  have hrule : ∀ st e, refineRule w pre g.rules fuel st e ≠ .div →
      refineRule w pre g.rules (fuel + k) st e = refineRule w pre g.rules fuel st e := by
    intro st e h
    unfold refineRule at h ⊢
    rw [mapState_mono (fun st a => hbody st a)]
    intro e; rw [e] at h; simp at h
  unfold refine at h ⊢
  split
  · rfl
  · rename_i hg
    rw [if_neg hg] at h
    rw [mapState_mono (fun st a => hrule st a)]
    intro e; rw [e] at h; simp at h

/-- the result for a concrete grammar, for every larger fuel -/
example (k : Nat) : refine exW "g" (5 + k) [] gOne = .ok (regOne, gOne') :=
  (C25_mono k (by rw [gOne_refines]; simp)).trans gOne_refines

/-- C25 on a clash: `<g_t_foo> = "foo!"; <a> = "foo" "foo";` gets `g_t_foo_0` and `g_t_foo_1`. -/
example : refine exW "g" 5 []
    { name := "g", rules := [rule1 "g_t_foo" [litT "foo!"], rule1 "a" [litT "foo", litT "foo"]] } =
    .ok (regOne,
      { name := "g", refined := true,
        rules := [rule1 "g_t_foo" [ntT "g_t_foo_0"], rule1 "a" [ntT "g_t_foo_1", ntT "g_t_foo_1"],
          rule1 "g_t_foo_0" [litT "foo", litT "!"], rule1 "g_t_foo_1" [litT "foo"]] }) := by
  rfl

/-! ## C55: the token registry -/

/-- C55: entries of the registry are never replaced; after refinement every token of every literal has an
entry; an entry under `k` that was not there before is a token with text `k` of some literal. -/
theorem C55_registry {w : RefineWorld} {pre : String} {fuel : Nat} {reg reg' : Registry} {g g' : Grammar}
    (hg : g.refined = false) (h : refine w pre fuel reg g = .ok (reg', g')) :
    (∀ k v, reg.lookup k = some v → reg'.lookup k = some v) ∧
    (∀ A ts, g'.source A ts → ∀ t ∈ ts, t.type = .terminal → ∃ v, reg'.lookup t.value = some v) ∧
    (∀ k v, reg'.lookup k = some v → reg.lookup k = some v ∨
      (v.text = k ∧ ∃ t, g.Literal t ∧ ∃ toks, w.annot t.value = some toks ∧ v ∈ toks)) := by
  obtain ⟨es, rules, hr, h1, h2, h3, -⟩ := refine_spec hg h
  refine ⟨h1, ?_, ?_⟩
  · intro A ts hs t ht htt
    by_cases hA : A ∈ es.map Entry.name
    · obtain ⟨e, he, rfl⟩ := List.mem_map.1 hA
      have := (hr.source_new he ts).1 hs
      subst this
      rw [hr.body e he] at ht
      obtain ⟨toks, htoks⟩ := hr.annot e he
      simp only [readTerm, if_true, htoks, Option.getD_some, List.mem_map, List.mem_filter] at ht
      obtain ⟨a, ⟨ha, hsp⟩, rfl⟩ := ht
      exact h2 e he toks htoks a ha (by simpa using hsp)
    · obtain ⟨ts0, _, hrel⟩ := hr.source_down hA hs
      obtain ⟨t0, _, h0⟩ := forall₂_mem_right hrel ht
      rcases h0 with ⟨h1, rfl⟩ | ⟨_, e, _, _, rfl⟩
      · exact absurd htt h1
      · simp at htt
  · intro k v hv
    rcases h3 k v hv with hv | ⟨h4, e, he, toks, htoks, hm⟩
    · exact .inl hv
    · exact .inr ⟨h4, _, hr.occurs e he, toks, htoks, hm⟩

/-- C55 is not vacuous: a terminal of the result and its entry. -/
example : gOne'.source "g_t_foo" [litT "foo", litT "!"] ∧
    regOne.lookup "!" = some { text := "!", type := .punct } :=
  ⟨(source_rule1 rfl _).2 rfl, rfl⟩

/-! ## C26: several files -/

/-- C26: with several files in force (each refined on its own), rules derive what they derive when all
literals are read in place. False of the code, see `C26_false`. -/
def C26_statement : Prop :=
  ∀ (w : RefineWorld) (fs : List (Grammar × Grammar)) (lower : String → String)
    (gtok : String → Option Token) (S : String) (toks : List Token),
    (∀ f ∈ fs, f.1.refined = false ∧ SameFlags f.1 ∧ ∃ fuel reg reg', refine w "g" fuel reg f.1 = .ok (reg', f.2)) →
    (∀ f ∈ fs, ∀ A ts, f.1.source A ts → ∀ t ∈ ts, t.type = .nonterminal ∨ t.type = .list →
      ∃ f' ∈ fs, f'.1.rules.lookup t.value ≠ none) →
    (∃ f ∈ fs, f.1.rules.lookup S ≠ none) →
    (SourcesDerive (terminalMatch lower gtok) (fs.map (fun f => f.2.source)) S toks ↔
      SourcesDerive (terminalMatch lower gtok) (fs.map (fun f => f.1.readSource w.annot)) S toks)

/-- The names introduced in a file are neither defined nor referred to by the user in any file, nor in
another source. Where two files introduce the same name, they give it the same reading; so it is when both
introduce it for the same literal with the same flags. -/
structure FilesOK (fs : List (Grammar × Grammar)) (others : List Source) : Prop where
  agree : ∀ f ∈ fs, ∀ f' ∈ fs, ∀ A, Introduced f.1 f.2 A → Introduced f'.1 f'.2 A →
    ∀ ts, f.2.source A ts → f'.2.source A ts
  user : ∀ f ∈ fs, ∀ f' ∈ fs, ∀ A, Introduced f.1 f.2 A →
    f'.1.rules.lookup A = none ∧ ¬ f'.1.source.Refers A
  others : ∀ f ∈ fs, ∀ A, Introduced f.1 f.2 A → ∀ s ∈ others, ¬ s.Names A ∧ ¬ s.Refers A

theorem readSource_refers {annot} {g : Grammar} {A : String} (h : (g.readSource annot).Refers A) :
    g.source.Refers A := by
  obtain ⟨B, ts, ⟨r, hr, rb, hrb, rfl⟩, t, ht, htt, rfl⟩ := h
  obtain ⟨t0, ht0, ht⟩ := List.mem_flatMap.1 ht
  by_cases h0 : t0.type = .terminal
  · have := readTerm_terminal h0 t ht
    rw [this] at htt; simp at htt
  · simp only [readTerm, h0, if_false, List.mem_singleton] at ht
    subst ht
    exact ⟨B, rb.terms, ⟨r, hr, rb, hrb, rfl⟩, t, ht0, htt, rfl⟩

theorem Refined.refers {w : RefineWorld} {g g' : Grammar} {es rules} (h : Refined w g g' es rules) {A : String}
    (hr : g'.source.Refers A) : g.source.Refers A ∨ Introduced g g' A := by
  obtain ⟨B, ts, hs, t, ht, htt, rfl⟩ := hr
  by_cases hB : B ∈ es.map Entry.name
  · obtain ⟨e, he, rfl⟩ := List.mem_map.1 hB
    have := (h.source_new he ts).1 hs
    subst this
    rw [h.body e he] at ht
    have := readTerm_terminal (t := ⟨e.lit, .terminal, e.meta⟩) rfl t ht
    rw [this] at htt; simp at htt
  · obtain ⟨ts0, h0, hrel⟩ := h.source_down hB hs
    obtain ⟨t0, ht0, hx⟩ := forall₂_mem_right hrel ht
    rcases hx with ⟨_, rfl⟩ | ⟨_, e, he, _, rfl⟩
    · exact .inl ⟨B, ts0, h0, t, ht0, htt, rfl⟩
    · exact .inr ((h.introduced _).2 (List.mem_map_of_mem he))

theorem Tr.mono {N : String → Prop} {E E' : String → List Term → Prop} (h : ∀ n ls, E n ls → E' n ls) {a b : List Term}
    (ht : Tr N E a b) : Tr N E' a b := by
  induction ht with
  | nil => exact .nil
  | same h1 _ ih => exact .same h1 ih
  | lit h1 h2 h3 _ ih => exact .lit (h _ _ h1) h2 h3 ih

/-- C26 when the introduced names do not clash, next to any other sources of rules. Missing for the full
statement: it is false there. -/
theorem C26_partial {w : RefineWorld} {pre : String} (fs : List (Grammar × Grammar)) (others : List Source)
    {tmatch : Term → Token → Bool} {S : String} (toks : List Token)
    (hfs : ∀ f ∈ fs, f.1.refined = false ∧ SameFlags f.1 ∧
      ∃ fuel reg reg', refine w pre fuel reg f.1 = .ok (reg', f.2))
    (hok : FilesOK fs others) (hS : ∀ f ∈ fs, ¬ Introduced f.1 f.2 S) :
    SourcesDerive tmatch (fs.map (fun f => f.2.source) ++ others) S toks ↔
      SourcesDerive tmatch (fs.map (fun f => f.1.readSource w.annot) ++ others) S toks := by
  have hR : ∀ f ∈ fs, ∃ es rules, Refined w f.1 f.2 es rules ∧
      f.1.readSourceWith w.annot (entryFlags es) = f.1.readSource w.annot := by
    intro f hf
    obtain ⟨hg, hflags, fuel, reg, reg', h⟩ := hfs f hf
    obtain ⟨es, rules, hr, _⟩ := refine_spec hg h
    exact ⟨es, rules, hr, hr.read_eq hflags⟩
  -- introduced names have one reading, of terminals
  have hnew : ∀ f ∈ fs, ∀ A, Introduced f.1 f.2 A → ∃ ls, f.2.source A ls ∧ (∀ ts, f.2.source A ts → ts = ls) ∧
      ∀ t ∈ ls, t.type = .terminal := by
    intro f hf A hA
    obtain ⟨es, rules, hr, -⟩ := hR f hf
    obtain ⟨e, he, rfl⟩ := List.mem_map.1 ((hr.introduced A).1 hA)
    refine ⟨e.body.terms, (hr.source_new he _).2 rfl, fun ts hts => (hr.source_new he _).1 hts, fun t ht => ?_⟩
    rw [hr.body e he] at ht
    exact readTerm_terminal (t := ⟨e.lit, .terminal, e.meta⟩) rfl t ht
  let N : String → Prop := fun A => ∃ f ∈ fs, Introduced f.1 f.2 A
  let E : String → List Term → Prop := fun A ls => ∃ f ∈ fs, Introduced f.1 f.2 A ∧ f.2.source A ls
  have hEnt : ∀ f ∈ fs, ∀ es rules, Refined w f.1 f.2 es rules → ∀ n ls, entryRel es n ls → E n ls := by
    rintro f hf es rules hr n ls ⟨e, he, rfl, rfl⟩
    exact ⟨f, hf, (hr.introduced _).2 (List.mem_map_of_mem he), (hr.source_new he _).2 rfl⟩
  have ok : TrOK N E (sourcesLang tmatch (fs.map (fun f => f.2.source) ++ others))
      (sourcesLang tmatch (fs.map (fun f => f.1.readSource w.annot) ++ others)) := by
    refine ⟨rfl, rfl, rfl, ?_, ?_, ?_, ?_, ?_, ?_⟩
    · rintro n ls ts ⟨f, hf, hi, hls⟩ ⟨s, hs, hp⟩
      obtain ⟨ls', -, honly, -⟩ := hnew f hf n hi
      rcases List.mem_append.1 hs with hs | hs
      · obtain ⟨f', hf', rfl⟩ := List.mem_map.1 hs
        have hi' : Introduced f'.1 f'.2 n := by
          obtain ⟨r, hr, _⟩ := hp
          exact ⟨(hok.user f hf f' hf' n hi).1, by rw [hr]; simp⟩
        exact (honly ts (hok.agree f' hf' f hf n hi' hi ts hp)).trans (honly ls hls).symm
      · exact absurd ⟨ts, hp⟩ (hok.others f hf n hi s hs).1
    · rintro n ls ⟨f, hf, -, hls⟩
      exact ⟨f.2.source, by simp only [List.mem_append, List.mem_map]; exact .inl ⟨f, hf, rfl⟩, hls⟩
    · rintro n ls ⟨f, hf, hi, hls⟩
      obtain ⟨ls', -, honly, ht⟩ := hnew f hf n hi
      rw [honly ls hls]
      exact ht
    · rintro n ls ⟨f, hf, hi, -⟩
      exact ⟨f, hf, hi⟩
    · rintro A ts hA ⟨s, hs, hp⟩
      rcases List.mem_append.1 hs with hs | hs
      · obtain ⟨f, hf, rfl⟩ := List.mem_map.1 hs
        obtain ⟨es, rules, hr, hread⟩ := hR f hf
        have hA' : A ∉ es.map Entry.name := fun h => hA ⟨f, hf, (hr.introduced A).2 h⟩
        obtain ⟨ts0, h0, hrel⟩ := hr.source_down hA' hp
        refine ⟨_, ⟨f.1.readSource w.annot, ?_, ?_⟩, (hr.tr (entryFlags_eq hr.litsNodup) (N := N) ?_ hrel).mono
          (hEnt f hf es rules hr)⟩
        · simp only [List.mem_append, List.mem_map]; exact .inl ⟨f, hf, rfl⟩
        · rw [← hread]
          obtain ⟨r, h1, rb, hrb, rfl⟩ := h0
          exact ⟨r, h1, rb, hrb, rfl⟩
        · rintro t ht htt ⟨f', hf', hn⟩
          exact (hok.user f' hf' f hf _ hn).2 ⟨A, ts0, h0, t, ht, htt, rfl⟩
      · refine ⟨ts, ⟨s, List.mem_append_right _ hs, hp⟩, tr_same ?_⟩
        rintro t ht htt ⟨f, hf, hn⟩
        exact (hok.others f hf _ hn s hs).2 ⟨A, ts, hp, t, ht, htt, rfl⟩
    · rintro A ts0 hA ⟨s, hs, hp⟩
      rcases List.mem_append.1 hs with hs | hs
      · obtain ⟨f, hf, rfl⟩ := List.mem_map.1 hs
        obtain ⟨es, rules, hr, hread⟩ := hR f hf
        have hA' : A ∉ es.map Entry.name := fun h => hA ⟨f, hf, (hr.introduced A).2 h⟩
        have hp' : f.1.readSourceWith w.annot (entryFlags es) A ts0 := by rw [hread]; exact hp
        obtain ⟨r, hr1, rb, hrb, rfl⟩ := hp'
        have h0 : f.1.source A rb.terms := ⟨r, hr1, rb, hrb, rfl⟩
        obtain ⟨ts, h1, hrel⟩ := hr.source_up hA' h0
        refine ⟨ts, ⟨f.2.source, ?_, h1⟩, (hr.tr (entryFlags_eq hr.litsNodup) (N := N) ?_ hrel).mono
          (hEnt f hf es rules hr)⟩
        · simp only [List.mem_append, List.mem_map]; exact .inl ⟨f, hf, rfl⟩
        · rintro t ht htt ⟨f', hf', hn⟩
          exact (hok.user f' hf' f hf _ hn).2 ⟨A, _, h0, t, ht, htt, rfl⟩
      · refine ⟨ts0, ⟨s, List.mem_append_right _ hs, hp⟩, tr_same ?_⟩
        rintro t ht htt ⟨f, hf, hn⟩
        exact (hok.others f hf _ hn s hs).2 ⟨A, ts0, hp, t, ht, htt, rfl⟩
  exact Tr.iff ok (.same (fun _ => by rintro ⟨f, hf, hi⟩; exact hS f hf hi) .nil) toks

/-- `<b> = "foo";`, to be used together with `gOne`. -/
def gTwo : Grammar := { name := "two", rules := [rule1 "b" [litT "foo"]] }
def gTwo' : Grammar :=
  { name := "two", refined := true, rules := [rule1 "b" [ntT "g_t_foo"], rule1 "g_t_foo" [litT "foo"]] }
theorem gTwo_refines : refine exW "g" 5 regOne gTwo = .ok (regOne, gTwo') := by rfl

theorem sameFlags_of_nil {g : Grammar} (key : ∀ e ∈ g.rules, ∀ rb ∈ e.2.bodies, ∀ t ∈ rb.terms, t.meta = .nil) :
    SameFlags g := by
  rintro t t' ⟨e, he, rb, hrb, ht, htt⟩ ⟨e', he', rb', hrb', ht', htt'⟩ _
  rw [key e he rb hrb t ht, key e' he' rb' hrb' t' ht']

theorem noRefs_of_terminal {g : Grammar} (key : ∀ e ∈ g.rules, ∀ rb ∈ e.2.bodies, ∀ t ∈ rb.terms, t.type = .terminal)
    {A ts t} (hs : g.source A ts) (ht : t ∈ ts) : t.type = .terminal := by
  obtain ⟨e, he, rb, hrb, rfl⟩ := source_mem_rules hs
  exact key e he rb hrb t ht

/-- `"foo!"` in one file matches the single token `foo` because another file contains `"foo"`: both
literals get the generated name `g_t_foo`. -/
theorem C26_false : ¬ C26_statement := by
  intro h
  have := (h exW [(gOne, gOne'), (gTwo, gTwo')] id (fun _ => none) "a" [{ text := "foo" }] (by
      intro f hf
      simp only [List.mem_cons, List.not_mem_nil, or_false] at hf
      rcases hf with rfl | rfl
      · exact ⟨rfl, sameFlags_of_nil (by simp [gOne, rule1, Rule.bodies, litT]), 5, [], _, gOne_refines⟩
      · exact ⟨rfl, sameFlags_of_nil (by simp [gTwo, rule1, Rule.bodies, litT]), 5, _, _, gTwo_refines⟩)
    (by
      intro f hf A ts hs t ht htt
      simp only [List.mem_cons, List.not_mem_nil, or_false] at hf
      have : t.type = .terminal := by
        rcases hf with rfl | rfl
        · exact noRefs_of_terminal (by simp [gOne, rule1, Rule.bodies, litT]) hs ht
        · exact noRefs_of_terminal (by simp [gTwo, rule1, Rule.bodies, litT]) hs ht
      rw [this] at htt; simp at htt)
    ⟨_, List.mem_cons_self, by simp [gOne, rule1]⟩).1 (by
      unfold SourcesDerive
      rw [yields_nt_iff rfl]
      refine ⟨[ntT "g_t_foo"], ⟨_, List.mem_cons_self, (source_rule1 rfl _).2 rfl⟩, ?_⟩
      rw [yields_nt_iff rfl]
      refine ⟨[litT "foo"], ⟨gTwo'.source, by simp, (source_rule1 rfl _).2 rfl⟩, ?_⟩
      exact .terminal rfl (by decide +kernel) .nil)
  unfold SourcesDerive at this
  rw [yields_nt_iff rfl] at this
  obtain ⟨body, ⟨s, hs, hp⟩, hy⟩ := this
  simp only [List.map_cons, List.map_nil, List.mem_cons, List.not_mem_nil, or_false] at hs
  rcases hs with rfl | rfl
  · have := (readSource_rule1 (ts0 := [litT "foo!"]) rfl _).1 hp
    subst this
    rw [show [litT "foo!"].flatMap (readTerm exW.annot) = [litT "foo", litT "!"] from rfl] at hy
    rw [yields_terminal_iff rfl] at hy
    obtain ⟨a, w', hw, _, hy⟩ := hy
    simp only [List.cons.injEq] at hw
    obtain ⟨_, rfl⟩ := hw
    rw [yields_terminal_iff rfl] at hy
    obtain ⟨a, w', hw, _⟩ := hy
    simp at hw
  · obtain ⟨r, hr, _⟩ := hp
    simp [gTwo, rule1, List.lookup_cons] at hr

/-- `<c> = "bar";` -/
def gThree : Grammar := { name := "three", rules := [rule1 "c" [litT "bar"]] }
def gThree' : Grammar :=
  { name := "three", refined := true, rules := [rule1 "c" [ntT "g_t_bar"], rule1 "g_t_bar" [litT "bar"]] }
theorem gThree_refines : refine exW "g" 5 [] gThree = .ok ([("bar", { text := "bar", lemma_ := "foo" })], gThree') := by
  rfl

/-- `<c> = <b> "foo";` -/
def gFour : Grammar := { name := "four", rules := [rule1 "c" [ntT "b", litT "foo"]] }
def gFour' : Grammar :=
  { name := "four", refined := true, rules := [rule1 "c" [ntT "b", ntT "g_t_foo"], rule1 "g_t_foo" [litT "foo"]] }
theorem gFour_refines : refine exW "g" 5 [] gFour = .ok ([("foo", { text := "foo", lemma_ := "foo" })], gFour') := by
  rfl

/-- the rules of a grammar, for checking examples -/
theorem introduced_of {g g' : Grammar} {A : String} (h : Introduced g g' A) :
    A ∈ g'.rules.map Prod.fst ∧ A ∉ g.rules.map Prod.fst := by
  obtain ⟨h1, h2⟩ := h
  obtain ⟨r, hr⟩ := Option.ne_none_iff_exists'.1 h2
  refine ⟨List.mem_map_of_mem (lookup_mem hr), fun h => ?_⟩
  obtain ⟨e, he, rfl⟩ := List.mem_map.1 h
  exact List.lookup_eq_none_iff.1 h1 e he |> fun h => by simp at h

/-- C26_partial is not vacuous: two files with the literal `"foo"` in both. -/
example : FilesOK [(gTwo, gTwo'), (gFour, gFour')] [] := by
  have i1 : ∀ A, Introduced gTwo gTwo' A → A = "g_t_foo" := by
    intro A h
    obtain ⟨h1, h2⟩ := introduced_of h
    simp only [gTwo, gTwo', rule1, List.map_cons, List.map_nil, List.mem_cons, List.not_mem_nil, or_false] at h1 h2
    exact h1.resolve_left h2
  have i2 : ∀ A, Introduced gFour gFour' A → A = "g_t_foo" := by
    intro A h
    obtain ⟨h1, h2⟩ := introduced_of h
    simp only [gFour, gFour', rule1, List.map_cons, List.map_nil, List.mem_cons, List.not_mem_nil, or_false] at h1 h2
    exact h1.resolve_left h2
  have s1 : ∀ ts, gTwo'.source "g_t_foo" ts ↔ ts = [litT "foo"] := source_rule1 rfl
  have s2 : ∀ ts, gFour'.source "g_t_foo" ts ↔ ts = [litT "foo"] := source_rule1 rfl
  have n1 : ¬ gTwo.source.Refers "g_t_foo" := by
    rintro ⟨B, ts, hs, t, ht, htt, _⟩
    have := noRefs_of_terminal (by simp [gTwo, rule1, Rule.bodies, litT]) hs ht
    rw [this] at htt; simp at htt
  have n2 : ¬ gFour.source.Refers "g_t_foo" := by
    rintro ⟨B, ts, hs, t, ht, htt, hv⟩
    obtain ⟨e, he, rb, hrb, rfl⟩ := source_mem_rules hs
    simp only [gFour, rule1, List.mem_singleton] at he
    subst he
    simp only [Rule.bodies, List.map_cons, List.map_nil, List.mem_singleton] at hrb
    subst hrb
    simp only [List.mem_cons, List.not_mem_nil, or_false] at ht
    rcases ht with rfl | rfl
    · simp [ntT] at hv
    · simp [litT] at htt
  have hi : ∀ f ∈ [(gTwo, gTwo'), (gFour, gFour')], ∀ A, Introduced f.1 f.2 A → A = "g_t_foo" := by
    intro f hf A hA
    simp only [List.mem_cons, List.not_mem_nil, or_false] at hf
    rcases hf with rfl | rfl
    · exact i1 A hA
    · exact i2 A hA
  have hs : ∀ f ∈ [(gTwo, gTwo'), (gFour, gFour')], ∀ ts, f.2.source "g_t_foo" ts ↔ ts = [litT "foo"] := by
    intro f hf
    simp only [List.mem_cons, List.not_mem_nil, or_false] at hf
    rcases hf with rfl | rfl
    · exact s1
    · exact s2
  refine ⟨fun f hf f' hf' A h1 _ ts hts => ?_, fun f hf f' hf' A hA => ?_, by simp⟩
  · rw [hi f hf A h1] at hts ⊢
    exact (hs f' hf' ts).2 ((hs f hf ts).1 hts)
  · rw [hi f hf A hA]
    simp only [List.mem_cons, List.not_mem_nil, or_false] at hf'
    rcases hf' with rfl | rfl
    · exact ⟨rfl, n1⟩
    · exact ⟨rfl, n2⟩

end Fmr
