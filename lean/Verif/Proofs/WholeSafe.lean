import Verif.Proofs.WholeHeld

/-!
# Optional parts, from the texts to the parser (for C73)
-/

namespace Fmr

/-- a piece with the literals found by refinement and their names -/
structure Entries (lw : LoadWorld) (f : Grammar × Grammar) (es : List Entry) : Prop where
  refined : ∃ rules, Refined lw.ref f.1 f.2 es rules
  names : NamesApart lw.ref "g" f.1 → ∀ e ∈ es, e.name = literalName lw.ref "g" e.lit
  pre : ∀ e ∈ es, "g_t".toList <+: e.name.toList

theorem Piece.entries {lw : LoadWorld} {ds : List Def} {f : Grammar × Grammar} (h : Piece lw ds f) :
    ∃ es, Entries lw f es := by
  obtain ⟨fuel, reg, reg', hr⟩ := h.refines
  obtain ⟨es, rules, hR, -, -, -, h1, h2⟩ := refine_spec h.wf.unrefined hr
  exact ⟨es, ⟨rules, hR⟩, h1, h2⟩

theorem Piece.body {lw : LoadWorld} {ds : List Def} {f : Grammar × Grammar} (h : Piece lw ds f) {A : String} {b : RuleBody}
    (hb : ∃ r, f.1.rules.lookup A = some r ∧ b ∈ r.bodies) : Written ds false A b := by
  obtain ⟨r, hr, hb⟩ := hb
  obtain ⟨e, he, rfl⟩ := List.mem_map.1 hb
  exact ((h.holds.bodies A r e.1 e.2 hr).1 he).2

/-- alternatives after refinement and before -/
theorem Refined.body_down {w : RefineWorld} {g g' : Grammar} {es : List Entry} {rules : List (String × Rule)}
    (h : Refined w g g' es rules) {A : String} (hA : A ∉ es.map Entry.name)
    {r' : Rule} (hr' : g'.rules.lookup A = some r') {rb : RuleBody} (hrb : rb ∈ r'.bodies) :
    ∃ b, (∃ r, g.rules.lookup A = some r ∧ b ∈ r.bodies) ∧ rb.f = b.f ∧ List.Forall₂ (TermRel es) b.terms rb.terms := by
  rw [h.lookup_old hA] at hr'
  rcases ruleRel_lookup (A := A) h.rel with ⟨_, h3⟩ | ⟨r, r'', h3, h4, _, _, hrel⟩
  · rw [hr'] at h3; simp at h3
  · rw [hr'] at h4; simp at h4; subst h4
    obtain ⟨⟨k, b'⟩, he', rfl⟩ := List.mem_map.1 hrb
    obtain ⟨⟨k0, b0⟩, he0, hb⟩ := forall₂_mem_right hrel he'
    exact ⟨b0, ⟨r, h3, List.mem_map.2 ⟨_, he0, rfl⟩⟩, hb.2.1, hb.2.2⟩

theorem Piece.body_of {lw : LoadWorld} {ds : List Def} {f : Grammar × Grammar} (h : Piece lw ds f) {A : String} {b : RuleBody}
    (hb : Written ds false A b) : ∃ r, f.1.rules.lookup A = some r ∧ b ∈ r.bodies := by
  have hb' := hb
  obtain ⟨d, hd, hf, hn, hbd⟩ := hb'
  obtain ⟨r, hr⟩ := (h.holds.names A).2 ⟨d, hd, hf, hn⟩
  obtain ⟨k, hk⟩ := Option.ne_none_iff_exists'.1 (h.noCollision.1 d hd b hbd)
  exact ⟨r, hr, List.mem_map_of_mem ((h.holds.bodies A r k b hr).2 ⟨hk, hb⟩)⟩

theorem Refined.body_up {w : RefineWorld} {g g' : Grammar} {es : List Entry} {rules : List (String × Rule)}
    (h : Refined w g g' es rules) {A : String} (hA : A ∉ es.map Entry.name) {b : RuleBody}
    (hb : ∃ r, g.rules.lookup A = some r ∧ b ∈ r.bodies) :
    ∃ r', g'.rules.lookup A = some r' ∧ ∃ rb ∈ r'.bodies, rb.f = b.f ∧ List.Forall₂ (TermRel es) b.terms rb.terms := by
  obtain ⟨r, hr, hb⟩ := hb
  rw [h.lookup_old hA]
  rcases ruleRel_lookup (A := A) h.rel with ⟨h3, _⟩ | ⟨r0, r', h3, h4, _, _, hrel⟩
  · rw [hr] at h3; simp at h3
  · rw [hr] at h3; simp at h3; subst h3
    obtain ⟨⟨k, b⟩, he, rfl⟩ := List.mem_map.1 hb
    obtain ⟨⟨k', b'⟩, he', hb⟩ := forall₂_mem_left hrel he
    exact ⟨r', h4, b', List.mem_map.2 ⟨_, he', rfl⟩, hb.2.1, hb.2.2⟩

/-- how a written term appears in the parser; `N` gives the names of literals -/
def Appears (N : String → String → Prop) (t0 t : Term) : Prop :=
  (t0.type ≠ .terminal ∧ t = t0 ∧ ¬ Reserved t0.value) ∨ (t0.type = .terminal ∧ t.type = .nonterminal ∧ N t0.value t.value ∧ t.meta = t0.meta)

theorem readTerm_nil {annot} {t t' : Term} (h : t.type = .terminal) (h' : t'.type = .terminal) (hv : t.value = t'.value) :
    readTerm annot t = [] ↔ readTerm annot t' = [] := by
  simp [readTerm, h, h', hv]

theorem yields_no_terminal {L : Lang} {ts : List Term} (h : Yields L ts []) (ht : ∀ t ∈ ts, t.type = .terminal) : ts = [] := by
  generalize hw : ([] : List Token) = w at h
  cases h with
  | nil => rfl
  | terminal => cases hw
  | nonterminal h1 => rw [ht _ List.mem_cons_self] at h1; cases h1
  | any h1 => rw [ht _ List.mem_cons_self] at h1; cases h1
  | list h1 => rw [ht _ List.mem_cons_self] at h1; cases h1

theorem forall₂_imp_left {α β : Type} {R S : α → β → Prop} : ∀ {l : List α} {l' : List β},
    (∀ a ∈ l, ∀ b, R a b → S a b) → List.Forall₂ R l l' → List.Forall₂ S l l'
  | _, _, _, .nil => .nil
  | _, _, h, .cons h1 h2 => .cons (h _ List.mem_cons_self _ h1) (forall₂_imp_left (fun a ha => h a (List.mem_cons_of_mem _ ha)) h2)

theorem forall₂_getElem {α β : Type} {R : α → β → Prop} : ∀ {l : List α} {l' : List β}, List.Forall₂ R l l' →
    ∀ {p : Nat} {b : β}, l'[p]? = some b → ∃ a, l[p]? = some a ∧ R a b
  | _, _, .nil, _, _, h => by simp at h
  | _, _, .cons h1 h2, 0, _, h => by cases h; exact ⟨_, rfl, h1⟩
  | _, _, .cons h1 h2, p + 1, _, h => by
    obtain ⟨a, h3, h4⟩ := forall₂_getElem h2 (p := p) (by simpa using h)
    exact ⟨a, by simpa using h3, h4⟩

theorem forall₂_getElem' {α β : Type} {R : α → β → Prop} : ∀ {l : List α} {l' : List β}, List.Forall₂ R l l' →
    ∀ {p : Nat} {a : α}, l[p]? = some a → ∃ b, l'[p]? = some b ∧ R a b
  | _, _, .nil, _, _, h => by simp at h
  | _, _, .cons h1 h2, 0, _, h => by cases h; exact ⟨_, rfl, h1⟩
  | _, _, .cons h1 h2, p + 1, _, h => by
    obtain ⟨a, h3, h4⟩ := forall₂_getElem' h2 (p := p) (by simpa using h)
    exact ⟨a, by simpa using h3, h4⟩

theorem forall₂_getLast {α β : Type} {R : α → β → Prop} {l : List α} {l' : List β} (h : List.Forall₂ R l l') {a : α}
    (ha : l.getLast? = some a) : ∃ b, l'.getLast? = some b ∧ R a b := by
  have hlen : l.length = l'.length := h.length_eq
  rw [List.getLast?_eq_getElem?] at ha
  obtain ⟨b, h1, h2⟩ := forall₂_getElem' h ha
  refine ⟨b, ?_, h2⟩
  rw [List.getLast?_eq_getElem?, ← hlen]
  exact h1

section
variable {lw : LoadWorld} {ds : List Def} {ρ : List (String × String)} {F : Files} {I : String → Prop} {ld : Loaded}
variable {w : World} {context : String} {text : Bytes} {tokens : List Token} {l : Option Grammar} {d : Doc} {starts : List String}

/-- the document of a load -/
abbrev docOf (w : World) (F : Files) (I : String → Prop) (ρ : List (String × String)) (d : Doc) : Source :=
  docSource w.find (wholeRegexps F I ρ) d

/-- the alternatives in the parser, with the names of literals -/
theorem HeldBy.named (h : HeldBy lw ds ρ F I ld) (hp : process w ld.gram context text = .ok (tokens, l))
    (ha : annotateText w context (w.trim text) = some d)
    (hd : DocFit w (wholeRegexps F I ρ) d)
    (hfit : WholeFit ds F I lw.ref (wholeSource ds F I lw.ref.annot (docOf w F I ρ d)) starts) (c : Nat) :
    ∃ N : String → String → Prop, (∀ v v' A, N v A → N v' A → v = v') ∧ (∀ v A, N v A → Reserved A) ∧
      (∀ v A A', N v A → N v A' → A = A') ∧
      (∀ A rb, (envFor w ld.gram l tokens starts c).Defines A rb →
        (∃ v m, N v A ∧ wholeLiteral ds F I ⟨v, .terminal, m⟩ ∧ rb = ⟨readTerm lw.ref.annot ⟨v, .terminal, m⟩, none⟩) ∨
        (¬ Reserved A ∧ ∃ b, wholeWritten ds F I A b ∧ rb.f = b.f ∧ List.Forall₂ (Appears N) b.terms rb.terms) ∨
        (¬ Reserved A ∧ DocAlt w.find (wholeRegexps F I ρ) d A rb ∧ docOf w F I ρ d A rb.terms ∧
          ∀ t ∈ rb.terms, t.type = .terminal)) ∧
      (∀ v A, N v A → ∃ m, wholeLiteral ds F I ⟨v, .terminal, m⟩ ∧
        (envFor w ld.gram l tokens starts c).Defines A ⟨readTerm lw.ref.annot ⟨v, .terminal, m⟩, none⟩) ∧
      (∀ A b, wholeWritten ds F I A b → ∃ rb, (envFor w ld.gram l tokens starts c).Defines A rb ∧ rb.f = b.f ∧
        List.Forall₂ (Appears N) b.terms rb.terms) ∧
      (∀ A rb, DocAlt w.find (wholeRegexps F I ρ) d A rb → (envFor w ld.gram l tokens starts c).Defines A rb) := by
  obtain ⟨fs, he, hfs, ⟨fm, hfm, hm⟩, hinc, hone⟩ := h.pieces
  have hwhole := fun f hf => Piece.whole (hfs f hf)
  have hgs : ∀ f ∈ fs, f.2 ∈ (envFor w ld.gram l tokens starts c).grammars := by
    intro f hf
    have : f.2 ∈ ld.gram.main :: ld.gram.includes := he ▸ List.mem_map_of_mem hf
    have h2 : f.2 = ld.gram.main ∨ f.2 ∈ ld.gram.includes := by simpa using this
    rcases h2 with h2 | h2 <;> simp [envFor, h2]
  have hex : ∀ f ∈ fs, ∃ es, Entries lw f es := by
    intro f hf
    obtain ⟨ds', hp, -⟩ := hwhole f hf
    exact hp.entries
  let E : Grammar × Grammar → List Entry := fun f => Classical.epsilon (Entries lw f)
  have hE : ∀ f ∈ fs, Entries lw f (E f) := fun f hf => Classical.epsilon_spec (hex f hf)
  have hlit : ∀ f ∈ fs, ∀ t, f.1.Literal t → wholeLiteral ds F I t := by
    intro f hf t ht
    obtain ⟨ds', hp, hw⟩ := hwhole f hf
    obtain ⟨h1, A, b, hb, h2⟩ := hp.literal ht
    exact ⟨h1, A, b, hw A b hb, h2⟩
  have hfree : ∀ A, (wholeSource ds F I lw.ref.annot (docOf w F I ρ d)).Uses A → ¬ Reserved A :=
    fun A hu => hfit.free A (.inl hu)
  have happ : ∀ f ∈ fs, ∀ {A b ts}, wholeWritten ds F I A b → List.Forall₂ (TermRel (E f)) b.terms ts →
      List.Forall₂ (Appears fun v A => ∃ f ∈ fs, ∃ e ∈ E f, e.lit = v ∧ e.name = A) b.terms ts := by
    intro f hf A b ts hb' hrel
    refine forall₂_imp_left (fun t0 h0 t ht => ?_) hrel
    rcases ht with ⟨h1, rfl⟩ | ⟨h1, e, he1, h2, rfl⟩
    · refine .inl ⟨h1, rfl, ?_⟩
      have hu := hb'.uses (annot := lw.ref.annot) (doc := docOf w F I ρ d)
      cases (h.body hb').2 t h0 with
      | any =>
        show ¬ Reserved "any"
        rintro (e | e) <;> revert e <;> decide
      | list => exact hfree _ (hu.2 _ h0 (.inr rfl))
      | literal => exact absurd rfl h1
      | flagged => exact absurd rfl h1
      | _ => exact hfree _ (hu.2 _ h0 (.inl rfl))
    · exact .inr ⟨h1, rfl, ⟨f, hf, e, he1, h2, rfl⟩, rfl⟩
  have hnew : ∀ f ∈ fs, ∀ {A b}, wholeWritten ds F I A b → A ∉ (E f).map Entry.name := by
    intro f hf A b hb hA
    obtain ⟨e, he1, rfl⟩ := List.mem_map.1 hA
    exact hfree _ hb.uses.1 (.inr ((hE f hf).pre e he1))
  have hn : (∃ p, I p) → ∀ f ∈ fs, ∀ e ∈ E f, e.name = literalName lw.ref "g" e.lit := by
    intro hI f hf
    obtain ⟨ds', hp, hw⟩ := hwhole f hf
    refine (hE f hf).names ⟨?_, ?_⟩
    · exact fun t t' ht ht' => hfit.apart hI t t' (hlit f hf t ht) (hlit f hf t' ht')
    · intro t ht
      cases hl : f.1.rules.lookup (literalName lw.ref "g" t.value) with
      | none => rfl
      | some r =>
        obtain ⟨b, hb⟩ := hp.names hl
        exact absurd (.inr (literalName_prefix lw.ref "g" t.value)) (hfree _ (hw _ _ hb).uses.1)
  refine ⟨fun v A => ∃ f ∈ fs, ∃ e ∈ E f, e.lit = v ∧ e.name = A, ?_, ?_, ?_, ?_, ?_, ?_, ?_⟩
  · rintro v v' A ⟨f, hf, e, he1, rfl, rfl⟩ ⟨f', hf', e', he1', rfl, en⟩
    rcases hone f hf f' hf' with rfl | hI
    · obtain ⟨rules, hR⟩ := (hE f hf).refined
      have : e = e' := List.inj_on_of_nodup_map hR.namesNodup he1 he1' en.symm
      rw [this]
    · have hn := hn hI
      have key : ∀ f ∈ fs, ∀ e ∈ E f, wholeLiteral ds F I ⟨e.lit, .terminal, e.meta⟩ := by
        intro f hf e he
        obtain ⟨rules, hR⟩ := (hE f hf).refined
        exact hlit f hf _ (hR.occurs e he)
      have := hfit.apart hI _ _ (key f hf e he1) (key f' hf' e' he1')
      apply this
      show literalName lw.ref "g" e.lit = literalName lw.ref "g" e'.lit
      rw [← hn f hf e he1, ← hn f' hf' e' he1', en]
  · rintro v A ⟨f, hf, e, he1, -, rfl⟩
    exact .inr ((hE f hf).pre e he1)
  · rintro v A A' ⟨f, hf, e, he1, rfl, rfl⟩ ⟨f', hf', e', he1', ev, rfl⟩
    rcases hone f hf f' hf' with rfl | hI
    · obtain ⟨rules, hR⟩ := (hE f hf).refined
      rw [List.inj_on_of_nodup_map hR.litsNodup he1 he1' ev.symm]
    · rw [hn hI f hf e he1, hn hI f' hf' e' he1', ev]
  · intro A rb hA
    obtain ⟨g, hg, r, hr, hrb⟩ := hA
    have hsrc : g.source A rb.terms := ⟨r, hr, rb, hrb, rfl⟩
    have hg' : g ∈ ld.gram.main :: ld.gram.includes ∨ l = some g := by
      cases l with
      | none => left; simpa [envFor] using hg
      | some l' =>
        have : g = ld.gram.main ∨ g ∈ ld.gram.includes ∨ g = l' := by simpa [envFor] using hg
        rcases this with h | h | h
        · left; simp [h]
        · left; simp [h]
        · right; rw [h]
    rcases hg' with hg | rfl
    · rw [← he] at hg
      obtain ⟨f, hf, rfl⟩ := List.mem_map.1 hg
      obtain ⟨ds', hpc, hw⟩ := hwhole f hf
      obtain ⟨rules, hR⟩ := (hE f hf).refined
      by_cases hA : A ∈ (E f).map Entry.name
      · obtain ⟨e, he1, rfl⟩ := List.mem_map.1 hA
        rw [hR.lookup_new he1] at hr
        cases hr
        obtain rfl : rb = e.body := by simpa [Rule.bodies] using hrb
        exact .inl ⟨e.lit, e.meta, ⟨f, hf, e, he1, rfl, rfl⟩, hlit f hf _ (hR.occurs e he1), hR.body e he1⟩
      · obtain ⟨b, hb0, hfb, hrel⟩ := hR.body_down hA hr hrb
        have hb := hpc.body hb0
        have hb' := hw A b hb
        exact .inr (.inl ⟨hfree A hb'.uses.1, b, hb', hfb, happ f hf hb' hrel⟩)
    · obtain ⟨-, d', ha', -, -, hl⟩ := process_ok hp
      have hdoc := (h.document hp ha hd A rb.terms).1 ⟨g.source, by simp [localSources], hsrc⟩
      have halt : DocAlt w.find (wholeRegexps F I ρ) d A rb := by
        rw [ha] at ha'
        cases ha'
        have hR : wholeRegexps F I ρ = fun k s => (k, s) ∈ ld.gram.main.regexps :=
          funext fun k => funext fun s => propext (h.regexps hd.named k s).symm
        rw [hR, ← docBody_iff hd.inside (fun _ => hd.doc), ← localGrammar_rules (hd.noDocCollision (h.regexps hd.named)) hl]
        exact ⟨r, hr, hrb⟩
      refine .inr (.inr ⟨hfree A (.inl ⟨_, .document hdoc⟩), halt, hdoc, fun t ht => ?_⟩)
      obtain ⟨e, he, rfl⟩ := List.mem_map.1 hrb
      exact (((local_rules hl A r hr).2 e he).1 t ht).1
  · rintro v A ⟨f, hf, e, he1, rfl, rfl⟩
    obtain ⟨rules, hR⟩ := (hE f hf).refined
    refine ⟨e.meta, hlit f hf _ (hR.occurs e he1), f.2, hgs f hf, _, hR.lookup_new he1, ?_⟩
    rw [← hR.body e he1]
    simp [Rule.bodies]
  · intro A b hb
    have key : ∀ f ∈ fs, ∀ ds', Piece lw ds' f → Written ds' false A b →
        ∃ rb, (envFor w ld.gram l tokens starts c).Defines A rb ∧ rb.f = b.f ∧
          List.Forall₂ (Appears fun v A => ∃ f ∈ fs, ∃ e ∈ E f, e.lit = v ∧ e.name = A) b.terms rb.terms := by
      intro f hf ds' hpc hw
      obtain ⟨rules, hR⟩ := (hE f hf).refined
      obtain ⟨r, hr, rb, hrb, h1, h2⟩ := hR.body_up (hnew f hf hb) (hpc.body_of hw)
      exact ⟨rb, ⟨f.2, hgs f hf, r, hr, hrb⟩, h1, happ f hf hb h2⟩
    have hb' := hb
    rcases hb' with hw | ⟨p, hI, hw⟩
    · exact key fm hfm ds hm hw
    · obtain ⟨f, hf, hpc⟩ := hinc p hI
      exact key f hf _ hpc hw
  · intro A rb halt
    obtain ⟨-, d', ha', -, -, hl⟩ := process_ok hp
    rw [ha] at ha'
    cases ha'
    have hR : wholeRegexps F I ρ = fun k s => (k, s) ∈ ld.gram.main.regexps :=
      funext fun k => funext fun s => propext (h.regexps hd.named k s).symm
    rw [hR, ← docBody_iff hd.inside (fun _ => hd.doc), ← localGrammar_rules (hd.noDocCollision (h.regexps hd.named)) hl] at halt
    obtain ⟨r, hr, hrb⟩ := halt
    cases l with
    | none => simp at hr
    | some l => exact ⟨l, by simp [envFor], r, hr, hrb⟩

variable (h : HeldBy lw ds ρ F I ld) (hp : process w ld.gram context text = .ok (tokens, l))
  (ha : annotateText w context (w.trim text) = some d)
  (hd : DocFit w (wholeRegexps F I ρ) d)
  (hfit : WholeFit ds F I lw.ref (wholeSource ds F I lw.ref.annot (docOf w F I ρ d)) starts)
include h hp ha hd hfit

/-- safe texts give a safe grammar -/
theorem HeldBy.nullSafe (hsafe : WholeSafe ds F I lw.ref.annot (docOf w F I ρ d) starts) (c : Nat) :
    NullSafe (envFor w ld.gram l tokens starts c) := by
  obtain ⟨N, hN1, hN2, -, hdef, -⟩ := h.named hp ha hd hfit c
  -- a name of a literal is defined by its tokens only
  have hnew : ∀ v A, N v A → ∀ rb, (envFor w ld.gram l tokens starts c).Defines A rb →
      ∃ m, rb.terms = readTerm lw.ref.annot ⟨v, .terminal, m⟩ := by
    intro v A hv rb hA
    rcases hdef A rb hA with ⟨v', m, hv', -, rfl⟩ | ⟨h1, -⟩ | ⟨h1, -⟩
    · rw [hN1 v v' A hv hv']
      exact ⟨m, rfl⟩
    · exact absurd (hN2 v A hv) h1
    · exact absurd (hN2 v A hv) h1
  have hread : ∀ {v m t}, t ∈ readTerm lw.ref.annot ⟨v, .terminal, m⟩ → t.type = .terminal := by
    intro v m t ht
    rw [readTerm_terminal (t := ⟨v, .terminal, m⟩) rfl t ht]
  have hocc : ∀ {t}, (envFor w ld.gram l tokens starts c).Occurs t → t.type = .any ∨ t.type = .list →
      ∃ A b, wholeWritten ds F I A b ∧ t ∈ b.terms := by
    intro t ht htt
    rcases h.occurs hp ha hd ht (by rcases htt with e | e <;> simp [e]) with h1 | ⟨h1, -⟩
    · exact h1
    · rw [h1] at htt
      simp at htt
  -- what is empty in the parser is empty in the texts
  have hnull : ∀ {ts u}, Yields (envFor w ld.gram l tokens starts c).relaxedLang ts u → u = [] →
      ∀ ts0, List.Forall₂ (Appears N) ts0 ts → ∀ t0 ∈ ts0, TextNull ds F I lw.ref.annot (docOf w F I ρ d) t0 := by
    intro ts u hy
    induction hy with
    | nil =>
      rintro - _ (_ | _) t0 ht0
      cases ht0
    | terminal => intro e; cases e
    | @nonterminal t ts body u u' htt hprod hbody hrest ih1 ih2 =>
      intro e ts0 hts0 t0 ht0
      obtain ⟨rfl, rfl⟩ := List.append_eq_nil_iff.1 e
      cases hts0 with
      | @cons a _ as _ hrel hrels =>
      rcases List.mem_cons.1 ht0 with rfl | ht0
      · obtain ⟨rb, hrb, rfl⟩ := hprod
        rcases hrel with ⟨h1, rfl, hres⟩ | ⟨h1, -, hv⟩
        · rcases hdef _ _ hrb with ⟨v, m, hv, -⟩ | ⟨-, b, hb, -, hfor⟩ | ⟨-, -, hdoc, hterm⟩
          · exact absurd (hN2 _ _ hv) hres
          · exact .rule htt hb (ih1 rfl _ hfor)
          · have := yields_no_terminal hbody hterm
            rw [this] at hdoc
            exact .document htt hdoc
        · obtain ⟨m, e2⟩ := hnew _ _ hv.1 _ hrb
          have := yields_no_terminal hbody (by rw [e2]; exact fun t ht => hread ht)
          rw [e2] at this
          exact .literal h1 ((readTerm_nil h1 (t' := ⟨t0.value, .terminal, m⟩) rfl rfl).2 this)
      · exact ih2 rfl _ hrels t0 ht0
    | @any t ts u u' htt hok hrest ih2 =>
      intro e ts0 hts0 t0 ht0
      obtain ⟨rfl, rfl⟩ := List.append_eq_nil_iff.1 e
      cases hts0 with
      | @cons a _ as _ hrel hrels =>
      rcases List.mem_cons.1 ht0 with rfl | ht0
      · rcases hrel with ⟨h1, rfl, hres⟩ | ⟨h1, h2, -⟩
        · obtain ⟨t', ho, ht', hc⟩ := hok
          obtain ⟨A, b, hb, hm⟩ := hocc ho (.inl ht')
          exact .any htt hb hm ht' hc
        · rw [htt] at h2
          cases h2
      · exact ih2 rfl _ hrels t0 ht0
    | @list t ts n u u' htt hok hitems hrest ih1 ih2 =>
      intro e ts0 hts0 t0 ht0
      obtain ⟨rfl, rfl⟩ := List.append_eq_nil_iff.1 e
      cases hts0 with
      | @cons a _ as _ hrel hrels =>
      rcases List.mem_cons.1 ht0 with rfl | ht0
      · rcases hrel with ⟨h1, rfl, hres⟩ | ⟨h1, h2, -⟩
        · obtain ⟨t', ho, ht', hv, hc⟩ := hok
          obtain ⟨A, b, hb, hm⟩ := hocc ho (.inr ht')
          refine .list htt hb hm ht' hv hc fun hn => ?_
          have hfor : ∀ n, List.Forall₂ (Appears N) (List.replicate n ⟨t.value, .nonterminal, .nil⟩)
              (List.replicate n ⟨t.value, .nonterminal, .nil⟩) := by
            intro n
            induction n with
            | zero => exact .nil
            | succ n ih => exact .cons (.inl ⟨by simp, rfl, hres⟩) ih
          exact ih1 rfl _ (hfor n) _ (List.mem_replicate.2 ⟨hn, rfl⟩)
        · rw [htt] at h2
          cases h2
      · exact ih2 rfl _ hrels t0 ht0
  have hnull1 : ∀ {t0 t}, Appears N t0 t → (envFor w ld.gram l tokens starts c).Nullable t →
      TextNull ds F I lw.ref.annot (docOf w F I ρ d) t0 := fun hrel hn =>
    hnull hn rfl _ (.cons hrel .nil) _ List.mem_cons_self
  -- what ends with a token in the texts does so in the parser
  have hends : ∀ n {t0 t}, Appears N t0 t → TextEnds ds F I lw.ref.annot (docOf w F I ρ d) n t0 →
      EndsAt (envFor w ld.gram l tokens starts c) n t := by
    intro n
    induction n with
    | zero => intro t0 t _ hx; cases hx
    | succ n ih =>
      intro t0 t hrel hx
      rcases hx with ⟨h1, h2, rfl⟩ | ⟨h1, h2, h3⟩ | ⟨h1, h2, h3⟩
      · rcases hrel with ⟨h4, -⟩ | ⟨-, h5, hv⟩
        · exact absurd h1 h4
        · refine .inl ⟨h5, fun rb hrb => ?_⟩
          obtain ⟨m, e⟩ := hnew _ _ hv.1 _ hrb
          have hne : rb.terms ≠ [] := by
            rw [e]
            exact fun h => h2 ((readTerm_nil h1 (t' := ⟨t0.value, .terminal, m⟩) rfl rfl).2 h)
          refine ⟨_, List.getLast?_eq_some_getLast hne, ?_⟩
          have : ∀ t ∈ rb.terms, t.type = .terminal := by
            rw [e]
            exact fun t ht => hread ht
          exact this _ (List.getLast_mem hne)
      · rcases hrel with ⟨h4, rfl, hres⟩ | ⟨h4, -⟩
        · refine .inl ⟨h1, fun rb hrb => ?_⟩
          rcases hdef _ _ hrb with ⟨v, m, hv, -⟩ | ⟨-, b, hb, -, hfor⟩ | ⟨-, -, hdoc, hterm⟩
          · exact absurd (hN2 _ _ hv) hres
          · obtain ⟨v, hv, hve⟩ := h2 b hb
            obtain ⟨v', hv', hrel⟩ := forall₂_getLast hfor hv
            exact ⟨v', hv', ih hrel hve⟩
          · obtain ⟨hne, rfl⟩ := h3 _ hdoc
            exact ⟨_, List.getLast?_eq_some_getLast hne, hterm _ (List.getLast_mem hne)⟩
        · rw [h1] at h4
          cases h4
      · rcases hrel with ⟨h4, rfl, hres⟩ | ⟨h4, -⟩
        · refine .inr ⟨h1, fun hn => h2 (hnull1 (.inl ⟨h4, rfl, hres⟩) hn), ?_⟩
          exact ih (.inl ⟨by simp, rfl, hres⟩) h3
        · rw [h1] at h4
          cases h4
  -- terms in the parser come from written ones at the same place
  have hplace : ∀ {A rb p t}, (envFor w ld.gram l tokens starts c).OccursAt A rb p t → t.type ≠ .terminal →
      ∃ b t0, wholeWritten ds F I A b ∧ List.Forall₂ (Appears N) b.terms rb.terms ∧ b.terms[p]? = some t0 ∧ Appears N t0 t := by
    rintro A rb p t ⟨hA, hpt⟩ htt
    have hmem : t ∈ rb.terms := List.mem_of_getElem? hpt
    rcases hdef A rb hA with ⟨v, m, -, -, e⟩ | ⟨-, b, hb, -, hfor⟩ | ⟨-, -, -, hterm⟩
    · rw [e] at hmem
      exact absurd (hread hmem) htt
    · obtain ⟨t0, h1, h2⟩ := forall₂_getElem hfor hpt
      exact ⟨b, t0, hb, hfor, h1, h2⟩
    · exact absurd (hterm t hmem) htt
  have hslot : ∀ {t0 t t0' t'}, Appears N t0 t → Appears N t0' t' → t.SameSlot t' → t0.SameSlot t0' := by
    intro t0 t t0' t' h1 h2 hs
    rcases h1 with ⟨h3, rfl, h4⟩ | ⟨h3, h4, h5, -⟩ <;> rcases h2 with ⟨h3', rfl, h4'⟩ | ⟨h3', h4', h5', -⟩
    · exact hs
    · rcases hs with ⟨-, h6⟩ | ⟨h6, h7⟩
      · rw [h4'] at h6; cases h6
      · rw [h7] at h4
        exact absurd (hN2 _ _ h5') h4
    · rcases hs with ⟨h6, -⟩ | ⟨h6, h7⟩
      · rw [h4] at h6; cases h6
      · rw [← h7] at h4'
        exact absurd (hN2 _ _ h5) h4'
    · rcases hs with ⟨h6, -⟩ | ⟨h6, h7⟩
      · rw [h4] at h6; cases h6
      · rw [← h7] at h5'
        exact .inr ⟨by rw [h3, h3'], hN1 _ _ _ h5 h5'⟩
  have hnt : ∀ {t}, (envFor w ld.gram l tokens starts c).Nullable t → t.type ≠ .terminal := by
    intro t hn htt
    have := yields_no_terminal hn (by simpa using htt)
    cases this
  constructor
  · intro t ho hn
    obtain ⟨A, rb, hA, hmem⟩ := ho
    obtain ⟨p, hpl, hpt⟩ := List.getElem_of_mem hmem
    have hpt' : rb.terms[p]? = some t := by rw [List.getElem?_eq_getElem hpl, hpt]
    obtain ⟨b, t0, hb, -, h0, hrel⟩ := hplace ⟨hA, hpt'⟩ (hnt hn)
    have hty : ∀ {t'}, t.SameSlot t' → t'.type ≠ .terminal := by
      intro t' hs e
      rcases hs with ⟨-, h6⟩ | ⟨h6, -⟩
      · rw [e] at h6; cases h6
      · exact hnt hn (h6.trans e)
    rcases hsafe.slots A b t0 hb (List.mem_of_getElem? h0) (hnull1 hrel hn) with ⟨n, hall⟩ | ⟨⟨B, hall⟩, hst⟩
    · refine .inl ⟨n, fun A' rb' p' t' ho' hs => ?_⟩
      obtain ⟨b', t0', hb', hfor', h0', hrel'⟩ := hplace ho' (hty hs)
      rcases hall A' b' p' t0' hb' h0' (hslot hrel hrel' hs) with ⟨q, u, rfl, hu, he⟩ | ⟨htop, rfl⟩
      · obtain ⟨u', hu', hrelu⟩ := forall₂_getElem' hfor' hu
        exact .inl ⟨q, u', rfl, hu', he.imp (hends _ hrelu) (hends _ hrelu)⟩
      · refine .inr ⟨fun t2 ho2 htt2 => ?_, rfl⟩
        obtain ⟨A2, rb2, hA2, hm2⟩ := ho2
        obtain ⟨p2, hpl2, hpt2⟩ := List.getElem_of_mem hm2
        have hpt2' : rb2.terms[p2]? = some t2 := by rw [List.getElem?_eq_getElem hpl2, hpt2]
        obtain ⟨b2, t20, hb2, -, h20, hrel2⟩ := hplace ⟨hA2, hpt2'⟩ (by rcases htt2 with e | e <;> simp [e])
        rcases hrel2 with ⟨h3, rfl, -⟩ | ⟨h3, h4, h5⟩
        · exact htop A2 b2 _ hb2 (List.mem_of_getElem? h20) htt2
        · rintro rfl
          exact hfit.free _ (.inl (hb'.uses).1) (hN2 _ _ h5.1)
    · refine .inr ⟨⟨B, fun A' rb' p' t' ho' hs => ?_⟩, ?_⟩
      · obtain ⟨b', t0', hb', hfor', h0', hrel'⟩ := hplace ho' (hty hs)
        exact hall A' b' p' t0' hb' h0' (hslot hrel hrel' hs)
      · rintro ⟨h1, h2⟩
        have h2 : t.value ∈ starts := h2
        rcases hrel with ⟨-, rfl, -⟩ | ⟨-, -, h5⟩
        · exact hst ⟨h1, h2⟩
        · exact hfit.free _ (.inr h2) (hN2 _ _ h5.1)
  · intro t ho htt hn
    obtain ⟨A, b, hb, hm⟩ := hocc ho (.inr htt)
    refine hsafe.items A b t hb hm htt (hnull1 (.inl ⟨by simp, rfl, ?_⟩) hn)
    exact hfit.free _ (.inl (hb.uses.2 t hm (.inr htt)))

end

section
variable {lw : LoadWorld} {ds : List Def} {ρ : List (String × String)} {F : Files} {I : String → Prop} {ld : Loaded}

/-- where nothing is optional, nothing is placed wrongly -/
theorem HeldBy.safe (h : HeldBy lw ds ρ F I ld) {doc : Source} {starts : List String}
    (hs : WholeSolid ds F I lw.ref.annot doc) : WholeSafe ds F I lw.ref.annot doc starts := by
  have key : ∀ t, TextNull ds F I lw.ref.annot doc t → (t.type = .terminal → wholeLiteral ds F I t) → False := by
    intro t ht
    induction ht with
    | literal h1 h2 => exact fun hl => hs.literal _ (hl h1) h2
    | @rule t b h1 hb _ ih =>
      intro _
      obtain ⟨u, hu⟩ := List.exists_mem_of_ne_nil _ (h.body hb).1
      exact ih u hu fun e => ⟨e, _, _, hb, hu⟩
    | document h1 h2 => exact fun _ => hs.document _ h2
    | any h1 hb hm h2 h3 => exact fun _ => hs.range _ _ hb _ hm (.inl h2) h3
    | @list t t' A b n h1 hb hm h2 h3 h4 _ ih =>
      intro _
      by_cases hn : n = 0
      · subst hn
        exact hs.range _ _ hb _ hm (.inr h2) h4
      · exact ih hn (by simp)
  constructor
  · intro A b t hb ht hn
    exact (key t hn fun e => ⟨e, _, _, hb, ht⟩).elim
  · intro A b t hb ht _ hn
    exact key _ hn (by simp)

end

end Fmr
