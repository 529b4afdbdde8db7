import Verif.Props.Local

/-!
# The rules of the local grammar are the alternatives of the document
-/

namespace Fmr

theorem spanTerms_eq {d : Doc} : ∀ (n : Nat) (start : Int) (terms : List Term), spanTerms d start n = .ok terms →
    terms = ((d.tokens.drop start.toNat).take n).map tokenTerm
  | 0, start, terms, h => by
    simp only [spanTerms, Out.ok.injEq] at h
    simp [← h]
  | n + 1, start, terms, h => by
    rw [spanTerms] at h
    split at h
    · cases h
    rename_i h0
    split at h
    · cases h
    rename_i t ht
    obtain ⟨rest, h1, h2⟩ := Out.bind_eq_ok.1 h
    cases h2
    obtain ⟨hlt, rfl⟩ := List.getElem?_eq_some_iff.1 ht
    have := spanTerms_eq n _ _ h1
    have hs : (start + 1).toNat = start.toNat + 1 := by omega
    rw [hs] at this
    rw [List.drop_eq_getElem_cons hlt, List.take_succ_cons, List.map_cons, ← this]
    rfl

/-- where the local grammar exists, the tagged spans lie in the document -/
theorem localSpans_terms {hash} {d : Doc} : ∀ {sps : List Span} {rules r1 : List (String × Rule)},
    localSpans hash d sps rules = .ok r1 → ∀ sp ∈ sps, ∀ m, sp.ann = .map m →
      ∃ terms, spanTerms d sp.start (sp.stop - sp.start).toNat = .ok terms
  | [], _, _, _, sp, hsp, _, _ => by simp at hsp
  | s :: sps, rules, r1, h, sp, hsp, m, hm => by
    rw [localSpans] at h
    rcases List.mem_cons.1 hsp with rfl | hsp
    · rw [hm] at h
      obtain ⟨terms, ht, -⟩ := Out.bind_eq_ok.1 h
      exact ⟨terms, ht⟩
    · split at h
      · exact localSpans_terms h sp hsp m hm
      · exact localSpans_terms h sp hsp m hm
      · obtain ⟨terms, ht, h⟩ := Out.bind_eq_ok.1 h
        obtain ⟨r0, -, h⟩ := Out.bind_eq_ok.1 h
        exact localSpans_terms h sp hsp m hm

theorem spanTerms_tag {find regexps} {d : Doc} : ∀ (n : Nat) (s : Int),
    spanTerms (regexpTag find regexps d) s n = spanTerms d s n
  | 0, _ => rfl
  | n + 1, s => by simp only [spanTerms, spanTerms_tag n]; rfl

theorem localGrammar_terms {hash find regexps d l} (h : localGrammar hash find regexps d = .ok l) :
    ∀ sp ∈ (regexpTag find regexps d).spans, ∀ m, sp.ann = .map m →
      ∃ terms, spanTerms d sp.start (sp.stop - sp.start).toNat = .ok terms := by
  unfold localGrammar at h
  simp only at h
  split at h
  · rename_i he
    rw [List.length_eq_zero_iff.1 he.1]
    simp
  · obtain ⟨r1, -, h⟩ := Out.bind_eq_ok.1 h
    obtain ⟨r2, h2, h⟩ := Out.bind_eq_ok.1 h
    intro sp hsp m hm
    obtain ⟨terms, ht⟩ := localSpans_terms h2 sp hsp m hm
    exact ⟨terms, (spanTerms_tag _ _).symm.trans ht⟩

theorem DocOK.start_inj {d : Doc} (h : DocOK d) {i j : Nat} {a b : Token} (ha : d.tokens[i]? = some a)
    (hb : d.tokens[j]? = some b) (he : a.startByte = b.startByte) : i = j := by
  have key : ∀ {i j : Nat} {a b : Token}, d.tokens[i]? = some a → d.tokens[j]? = some b →
      a.startByte = b.startByte → ¬ i < j := by
    intro i j a b ha hb he hlt
    obtain ⟨hi, rfl⟩ := List.getElem?_eq_some_iff.1 ha
    obtain ⟨hj, rfl⟩ := List.getElem?_eq_some_iff.1 hb
    have h1 := List.pairwise_iff_getElem.1 h.sorted i j hi hj hlt
    have h2 := h.nonempty _ (List.getElem_mem hi)
    omega
  have h1 := key ha hb he
  have h2 := key hb ha he.symm
  omega

theorem DocOK.stop_inj {d : Doc} (h : DocOK d) {i j : Nat} {a b : Token} (ha : d.tokens[i]? = some a)
    (hb : d.tokens[j]? = some b) (he : a.endByte = b.endByte) : i = j := by
  have key : ∀ {i j : Nat} {a b : Token}, d.tokens[i]? = some a → d.tokens[j]? = some b →
      a.endByte = b.endByte → ¬ i < j := by
    intro i j a b ha hb he hlt
    obtain ⟨hi, rfl⟩ := List.getElem?_eq_some_iff.1 ha
    obtain ⟨hj, rfl⟩ := List.getElem?_eq_some_iff.1 hb
    have h1 := List.pairwise_iff_getElem.1 h.sorted i j hi hj hlt
    have h2 := h.nonempty _ (List.getElem_mem hj)
    omega
  have h1 := key ha hb he
  have h2 := key hb ha he.symm
  omega

theorem SpanCovers.unique {d : Doc} (hd : DocOK d) {sp sp' : Span} {m : Nat × Nat} (h : SpanCovers d sp m)
    (h' : SpanCovers d sp' m) : spanTokens d sp = spanTokens d sp' := by
  obtain ⟨i, j, a, b, h1, h2, h3, h4, h5, h6⟩ := h
  obtain ⟨i', j', a', b', h1', h2', h3', h4', h5', h6'⟩ := h'
  have e1 := hd.start_inj h3 h3' (h5.trans h5'.symm)
  have e2 := hd.stop_inj h4 h4' (h6.trans h6'.symm)
  unfold spanTokens
  rw [h1, h2, h1', h2', e1, e2]


theorem regexpSpans_cover' {find} {regexps : List (String × String)} {d : Doc} (hd : regexps ≠ [] → DocOK d) :
    (∀ sp ∈ regexpSpans find regexps d, ∃ typ s ms m, (typ, s) ∈ regexps ∧
      find s d.text = some ms ∧ m ∈ ms ∧ sp.ann = .map [(typ, .scalar)] ∧ SpanCovers d sp m) ∧
    (∀ typ s ms m, (typ, s) ∈ regexps → find s d.text = some ms → m ∈ ms →
      (∃ a ∈ d.tokens, a.startByte = m.1) → (∃ b ∈ d.tokens, b.endByte = m.2) →
      ∃ sp ∈ regexpSpans find regexps d, sp.ann = .map [(typ, .scalar)] ∧ SpanCovers d sp m) := by
  by_cases h : regexps = []
  · subst h
    simp [regexpSpans]
  · exact regexpSpans_cover find regexps d (hd h)

theorem SpanCovers.inside {d : Doc} {sp : Span} {m : Nat × Nat} (h : SpanCovers d sp m) :
    0 ≤ sp.start ∧ sp.stop ≤ d.tokens.length := by
  obtain ⟨i, j, a, b, h1, h2, h3, h4, -, -⟩ := h
  obtain ⟨hj, -⟩ := List.getElem?_eq_some_iff.1 h4
  omega

/-- the terms of a span inside the document -/
theorem spanTerms_inside {d : Doc} {sp : Span} (h : sp.start < sp.stop → 0 ≤ sp.start ∧ sp.stop ≤ d.tokens.length) :
    spanTerms d sp.start (sp.stop - sp.start).toNat = .ok ((spanTokens d sp).map tokenTerm) := by
  by_cases hlt : sp.start < sp.stop
  · obtain ⟨h0, h1⟩ := h hlt
    obtain ⟨s, hs⟩ := Int.eq_ofNat_of_zero_le h0
    have ht := spanTerms_ok (d := d) (sp.stop - sp.start).toNat s (by omega)
    rw [← hs] at ht
    rw [ht]
    unfold spanTokens
    rw [hs, Int.toNat_natCast]
    rfl
  · have : (sp.stop - sp.start).toNat = 0 := by omega
    simp [this, spanTerms, spanTokens]

/-- all spans that become rules lie inside the document -/
theorem spans_inside {find} {regexps : List (String × String)} {d : Doc} (ht : TagsInside d)
    (hd : regexps ≠ [] → DocOK d) : ∀ sp ∈ (regexpTag find regexps d).spans, ∀ m, sp.ann = .map m →
      sp.start < sp.stop → 0 ≤ sp.start ∧ sp.stop ≤ d.tokens.length := by
  intro sp hsp m hm hlt
  rcases List.mem_append.1 (show sp ∈ d.spans ++ regexpSpans find regexps d from hsp) with hsp | hsp
  · exact ht sp hsp m hm hlt
  · obtain ⟨_, _, _, _, _, _, _, _, hc⟩ := (regexpSpans_cover' hd).1 sp hsp
    exact hc.inside

/-- the alternatives of the document, in the words of the specification -/
theorem docBody_iff {find} {regexps : List (String × String)} {d : Doc} (ht : TagsInside d)
    (hd : regexps ≠ [] → DocOK d) (A : String) (rb : RuleBody) :
    DocBody find regexps d A rb ↔ DocAlt find (fun k s => (k, s) ∈ regexps) d A rb := by
  have hterms : ∀ sp ∈ (regexpTag find regexps d).spans, ∀ m, sp.ann = .map m →
      spanTerms d sp.start (sp.stop - sp.start).toNat = .ok ((spanTokens d sp).map tokenTerm) :=
    fun sp hsp m hm => spanTerms_inside (spans_inside ht hd sp hsp m hm)
  constructor
  · rintro (⟨t, ht, hcl, hne, rfl⟩ | ⟨sp, hsp, m, hm, vs, hvs, terms, hts, rfl⟩)
    · subst hcl
      show DocAlt find _ d (className t.type) ⟨[tokenTerm t], none⟩
      cases htt : t.type with
      | word => exact .word ht htt
      | punct => exact .punct ht htt
      | symbol => exact .symbol ht htt
      | letters => exact .letters ht htt
      | _ => rw [htt] at hne; simp [className] at hne
    · rw [hterms sp hsp m hm, Out.ok.injEq] at hts
      subst hts
      rcases List.mem_append.1 (show sp ∈ d.spans ++ regexpSpans find regexps d from hsp) with hsp | hsp
      · cases vs with
        | scalar => exact .tag hsp hm hvs
        | items vs => exact .values hsp hm hvs
      · obtain ⟨typ, s, ms, m', h1, h2, h3, h4, h5⟩ := (regexpSpans_cover' hd).1 sp hsp
        rw [h4] at hm
        cases hm
        simp only [List.mem_singleton, Prod.mk.injEq] at hvs
        obtain ⟨rfl, rfl⟩ := hvs
        exact .regexp h1 h2 h3 h5
  · intro hs
    cases hs with
    | word ht htt => exact .inl ⟨_, ht, by rw [htt]; rfl, by simp, rfl⟩
    | punct ht htt => exact .inl ⟨_, ht, by rw [htt]; rfl, by simp, rfl⟩
    | symbol ht htt => exact .inl ⟨_, ht, by rw [htt]; rfl, by simp, rfl⟩
    | letters ht htt => exact .inl ⟨_, ht, by rw [htt]; rfl, by simp, rfl⟩
    | @tag sp m A hsp hm hvs =>
      have hsp' : sp ∈ (regexpTag find regexps d).spans := List.mem_append_left _ hsp
      exact .inr ⟨sp, hsp', m, hm, .scalar, hvs, _, hterms sp hsp' m hm, rfl⟩
    | @values sp m A vs hsp hm hvs =>
      have hsp' : sp ∈ (regexpTag find regexps d).spans := List.mem_append_left _ hsp
      exact .inr ⟨sp, hsp', m, hm, .items vs, hvs, _, hterms sp hsp' m hm, rfl⟩
    | @regexp A s ms m sp hr hf hm hcov =>
      have hcov' := hcov
      obtain ⟨i, j, a, b, -, -, h3, h4, h5, h6⟩ := hcov'
      obtain ⟨sp', hsp, hann, hcov'⟩ := (regexpSpans_cover' hd).2 A s ms m hr hf hm
        ⟨a, List.mem_of_getElem? h3, h5⟩ ⟨b, List.mem_of_getElem? h4, h6⟩
      have hsp' : sp' ∈ (regexpTag find regexps d).spans := List.mem_append_right _ hsp
      rw [hcov.unique (hd (List.ne_nil_of_mem hr)) hcov']
      exact .inr ⟨sp', hsp', _, hann, .scalar, List.mem_singleton.2 rfl, _, hterms sp' hsp' _ hann, rfl⟩

/-! ## when the local grammar fails -/

theorem localTokens_err {hash : RuleBody → Option Nat} : ∀ (ts : List Token) (rules : List (String × Rule)),
    localTokens hash ts rules ≠ .panic ∧ localTokens hash ts rules ≠ .div ∧
    (localTokens hash ts rules = .err ↔ ∃ t ∈ ts, className t.type ≠ "" ∧ hash (tokenBody t) = none)
  | [], rules => by simp [localTokens]
  | t :: ts, rules => by
    rw [localTokens]
    simp only
    by_cases hk : className t.type ≠ ""
    · rw [if_pos hk]
      cases hh : hash (tokenBody t) with
      | none =>
        have hh' : hash { terms := [{ value := t.text, type := .terminal }], f := none } = none := hh
        rw [hh']
        simp [hk, hh]
      | some n =>
        have hh' : hash { terms := [{ value := t.text, type := .terminal }], f := none } = some n := hh
        rw [hh']
        obtain ⟨h1, h2, h3⟩ := localTokens_err ts (addBody rules (className t.type) n (tokenBody t))
        refine ⟨h1, h2, h3.trans ?_⟩
        simp [hh]
    · rw [if_neg hk]
      obtain ⟨h1, h2, h3⟩ := localTokens_err (hash := hash) ts rules
      refine ⟨h1, h2, h3.trans ?_⟩
      simp only [ne_eq, Decidable.not_not] at hk
      simp [hk]

theorem spanRules_err {hash : RuleBody → Option Nat} {sp : Span} {terms : List Term} :
    ∀ (m : List (String × SpanVals)) (rules : List (String × Rule)),
    spanRules hash sp terms m rules ≠ .panic ∧ spanRules hash sp terms m rules ≠ .div ∧
    (spanRules hash sp terms m rules = .err ↔ ∃ k vs, (k, vs) ∈ m ∧ hash ⟨terms, spanFmr sp k vs⟩ = none)
  | [], rules => by simp [spanRules]
  | (k, vs) :: m, rules => by
    rw [spanRules]
    cases hh : hash ⟨terms, spanFmr sp k vs⟩ with
    | none =>
      simp only
      exact ⟨by simp, by simp, by simp only [true_iff]; exact ⟨k, vs, List.mem_cons_self, hh⟩⟩
    | some n =>
      simp only
      obtain ⟨h1, h2, h3⟩ := spanRules_err m (addBody rules k n ⟨terms, spanFmr sp k vs⟩)
      refine ⟨h1, h2, h3.trans ⟨fun ⟨k', vs', h, e⟩ => ⟨k', vs', List.mem_cons_of_mem _ h, e⟩, ?_⟩⟩
      rintro ⟨k', vs', h, e⟩
      rcases List.mem_cons.1 h with h | h
      · cases h; rw [hh] at e; cases e
      · exact ⟨k', vs', h, e⟩

theorem localSpans_err {hash : RuleBody → Option Nat} {d : Doc} : ∀ (sps : List Span) (rules : List (String × Rule)),
    (∀ sp ∈ sps, ∀ m, sp.ann = .map m → ∃ terms, spanTerms d sp.start (sp.stop - sp.start).toNat = .ok terms) →
    localSpans hash d sps rules ≠ .panic ∧ localSpans hash d sps rules ≠ .div ∧
    (localSpans hash d sps rules = .err ↔ ∃ sp ∈ sps, ∃ m, sp.ann = .map m ∧ ∃ k vs, (k, vs) ∈ m ∧
      ∃ terms, spanTerms d sp.start (sp.stop - sp.start).toNat = .ok terms ∧ hash ⟨terms, spanFmr sp k vs⟩ = none)
  | [], rules, _ => by simp [localSpans]
  | sp :: sps, rules, hin => by
    have hin' := fun s hs => hin s (List.mem_cons_of_mem _ hs)
    have skip : (∀ m, sp.ann ≠ .map m) → localSpans hash d sps rules ≠ .panic ∧
        localSpans hash d sps rules ≠ .div ∧
        (localSpans hash d sps rules = .err ↔ ∃ s ∈ sp :: sps, ∃ m, s.ann = .map m ∧ ∃ k vs, (k, vs) ∈ m ∧
          ∃ terms, spanTerms d s.start (s.stop - s.start).toNat = .ok terms ∧ hash ⟨terms, spanFmr s k vs⟩ = none) := by
      intro hno
      obtain ⟨h1, h0, h2⟩ := localSpans_err (hash := hash) sps rules hin'
      refine ⟨h1, h0, h2.trans ⟨fun ⟨s, hs, h⟩ => ⟨s, List.mem_cons_of_mem _ hs, h⟩, ?_⟩⟩
      rintro ⟨s, hs, m, hm, h⟩
      rcases List.mem_cons.1 hs with rfl | hs
      · exact absurd hm (hno m)
      · exact ⟨s, hs, m, hm, h⟩
    rw [localSpans]
    split
    · rename_i ha; exact skip (by simp [ha])
    · rename_i ha; exact skip (by simp [ha])
    · rename_i m ha
      obtain ⟨terms, ht⟩ := hin sp List.mem_cons_self m ha
      rw [ht, Out.bind_ok]
      obtain ⟨g1, g2, g3⟩ := spanRules_err (hash := hash) (sp := sp) (terms := terms) m rules
      cases hr : spanRules hash sp terms m rules with
      | panic => exact absurd hr g1
      | div => exact absurd hr g2
      | err =>
        obtain ⟨k, vs, h1, h2⟩ := g3.1 hr
        refine ⟨by simp, by simp, ?_⟩
        simp only [Out.bind_err, true_iff]
        exact ⟨sp, List.mem_cons_self, m, ha, k, vs, h1, terms, ht, h2⟩
      | ok r =>
        rw [Out.bind_ok]
        obtain ⟨h1, h0, h2⟩ := localSpans_err (hash := hash) sps r hin'
        refine ⟨h1, h0, h2.trans ⟨fun ⟨s, hs, h⟩ => ⟨s, List.mem_cons_of_mem _ hs, h⟩, ?_⟩⟩
        rintro ⟨s, hs, m', hm, k, vs, hk, terms', ht', hh⟩
        rcases List.mem_cons.1 hs with rfl | hs
        · rw [ha] at hm; cases hm
          rw [ht] at ht'; cases ht'
          rw [g3.2 ⟨k, vs, hk, hh⟩] at hr
          cases hr
        · exact ⟨s, hs, m', hm, k, vs, hk, terms', ht', hh⟩

/-- With tagged spans inside the document, the local grammar fails exactly if an alternative has no hash. -/
theorem localGrammar_err {hash find} {regexps : List (String × String)} {d : Doc} (ht : TagsInside d)
    (hd : regexps ≠ [] → DocOK d) :
    localGrammar hash find regexps d ≠ .panic ∧ localGrammar hash find regexps d ≠ .div ∧
    (localGrammar hash find regexps d = .err ↔
      ∃ A rb, DocAlt find (fun k s => (k, s) ∈ regexps) d A rb ∧ hash rb = none) := by
  simp only [← docBody_iff ht hd]
  unfold localGrammar
  simp only
  split
  · rename_i he
    have h1 : d.tokens = [] := List.length_eq_zero_iff.1 he.2
    have h2 := List.length_eq_zero_iff.1 he.1
    refine ⟨by simp, by simp, ?_⟩
    simp only [reduceCtorEq, false_iff]
    rintro ⟨A, rb, ⟨t, ht, _⟩ | ⟨sp, hsp, _⟩, -⟩
    · rw [h1] at ht; simp at ht
    · rw [h2] at hsp; simp at hsp
  · have hin : ∀ sp ∈ (regexpTag find regexps d).spans, ∀ m, sp.ann = .map m → ∃ terms,
        spanTerms (regexpTag find regexps d) sp.start (sp.stop - sp.start).toNat = .ok terms := by
      intro sp hsp m hm
      rw [spanTerms_tag]
      exact ⟨_, spanTerms_inside (spans_inside ht hd sp hsp m hm)⟩
    obtain ⟨a1, a2, a3⟩ := localTokens_err (hash := hash) (regexpTag find regexps d).tokens []
    cases h1 : localTokens hash (regexpTag find regexps d).tokens [] with
    | panic => exact absurd h1 a1
    | div => exact absurd h1 a2
    | err =>
      refine ⟨by simp, by simp, ?_⟩
      simp only [Out.bind_err, true_iff]
      obtain ⟨t, ht, hc, hh⟩ := a3.1 h1
      exact ⟨_, _, .inl ⟨t, ht, rfl, hc, rfl⟩, hh⟩
    | ok r1 =>
      have hno : ¬ ∃ t ∈ d.tokens, className t.type ≠ "" ∧ hash (tokenBody t) = none := by
        intro h
        rw [a3.2 h] at h1
        cases h1
      obtain ⟨b1, b0, b2⟩ := localSpans_err (hash := hash) _ r1 hin
      rw [Out.bind_ok]
      cases h2 : localSpans hash (regexpTag find regexps d) (regexpTag find regexps d).spans r1 with
      | panic => exact absurd h2 b1
      | div => exact absurd h2 b0
      | err =>
        refine ⟨by simp, by simp, ?_⟩
        simp only [Out.bind_err, true_iff]
        obtain ⟨sp, hsp, m, hm, k, vs, hk, terms, hts, hh⟩ := b2.1 h2
        rw [spanTerms_tag] at hts
        exact ⟨k, _, .inr ⟨sp, hsp, m, hm, vs, hk, terms, hts, rfl⟩, hh⟩
      | ok r2 =>
        refine ⟨by simp, by simp, ?_⟩
        simp only [Out.bind_ok, Out.pure_eq, reduceCtorEq, false_iff]
        rintro ⟨A, rb, ⟨t, ht, hc, hne, rfl⟩ | ⟨sp, hsp, m, hm, vs, hk, terms, hts, rfl⟩, hh⟩
        · exact hno ⟨t, ht, by rw [hc]; exact hne, hh⟩
        · rw [← spanTerms_tag (find := find) (regexps := regexps)] at hts
          rw [b2.2 ⟨sp, hsp, m, hm, A, vs, hk, terms, hts, hh⟩] at h2
          cases h2

end Fmr
