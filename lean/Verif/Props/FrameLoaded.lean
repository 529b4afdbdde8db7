import Verif.Props.Frames

/-!
# The assumptions of C39, C40, C41 and C45 hold for loaded grammars
-/

namespace Fmr

theorem mapState_inv {σ α : Type} {f : σ → α → Out (σ × α)} {I : σ → Prop}
    (hf : ∀ s a s' a', I s → f s a = .ok (s', a') → I s') : ∀ {l l' : List α} {s s' : σ},
    mapState f s l = .ok (s', l') → I s → I s'
  | [], l', s, s', h, hs => by
    rw [mapState] at h
    cases h
    exact hs
  | a :: l, l', s, s', h, hs => by
    rw [mapState] at h
    obtain ⟨⟨s1, a1⟩, h1, h⟩ := Out.bind_eq_ok.1 h
    obtain ⟨⟨s2, l2⟩, h2, h⟩ := Out.bind_eq_ok.1 h
    cases h
    exact mapState_inv hf (l := l) h2 (hf _ _ _ _ hs h1)

/-- strings that start with the given one -/
def StartsWith (pre s : String) : Prop := ∃ t, s = pre ++ t

theorem StartsWith.app {pre s : String} (h : StartsWith pre s) (t : String) : StartsWith pre (s ++ t) := by
  obtain ⟨u, rfl⟩ := h
  exact ⟨u ++ t, by rw [String.append_assoc]⟩

theorem literalLoop_name (w : RefineWorld) (m : Meta) {pre : String} : ∀ (toks : List Token) (tname : String)
    (terms : List Term) (reg : Registry), StartsWith pre tname → StartsWith pre (literalLoop w m toks tname terms reg).1
  | [], tname, terms, reg, h => h
  | token :: ts, tname, terms, reg, h => by
    rw [literalLoop]
    split
    · exact literalLoop_name w m ts _ _ _ h
    · refine literalLoop_name w m ts _ _ _ ?_
      split
      · exact (h.app _).app _
      · exact h

theorem freshName_name {used : String → Bool} {pre tname : String} (ht : StartsWith pre tname) : ∀ {fuel n : Nat}
    {name r : String}, freshName used tname fuel n name = some r → StartsWith pre name → StartsWith pre r
  | 0, n, name, r, h, _ => by simp [freshName] at h
  | fuel + 1, n, name, r, h, hn => by
    rw [freshName] at h
    split at h
    · exact freshName_name ht h ((ht.app _).app _)
    · cases h; exact hn

/-- the rules made for literals have names starting with the prefix -/
theorem refine_names {w : RefineWorld} {pre : String} {fuel : Nat} {reg reg' : Registry} {g g' : Grammar}
    (hg : g.refined = false) (h : refine w pre fuel reg g = .ok (reg', g')) :
    ∀ e ∈ g'.rules, (∃ e0 ∈ g.rules, e.2.name = e0.2.name) ∨ StartsWith (pre ++ "_t") e.2.name := by
  have hnames : ∀ {st : RefineSt} {rules : List (String × Rule)},
      mapState (refineRule w pre g.rules fuel) { reg := reg } g.rules = .ok (st, rules) →
      ∀ r ∈ st.terminalRules, StartsWith (pre ++ "_t") r.name := by
    intro st rules h1
    refine mapState_inv (I := fun st => ∀ r ∈ st.terminalRules, StartsWith (pre ++ "_t") r.name) ?_ h1 (by simp)
    intro s e s' e' hs h2
    obtain ⟨⟨s1, body⟩, h3, h2⟩ := Out.bind_eq_ok.1 (show (mapState _ s e.2.body >>= _) = _ from h2)
    cases h2
    refine mapState_inv (I := fun st => ∀ r ∈ st.terminalRules, StartsWith (pre ++ "_t") r.name) ?_ h3 hs
    intro s b s' b' hs h2
    obtain ⟨⟨s1, body⟩, h3, h2⟩ := Out.bind_eq_ok.1 (show (mapState _ s b.2.terms >>= _) = _ from h2)
    cases h2
    refine mapState_inv (I := fun st => ∀ r ∈ st.terminalRules, StartsWith (pre ++ "_t") r.name) ?_ h3 hs
    intro s t s' t' hs h2
    unfold refineTerm at h2
    split at h2
    · cases h2; exact hs
    split at h2
    · cases h2; exact hs
    obtain ⟨tokens, -, h2⟩ := Out.bind_eq_ok.1 h2
    simp only at h2
    obtain ⟨name, h4, h2⟩ := Out.bind_eq_ok.1 h2
    obtain ⟨hh, -, h2⟩ := Out.bind_eq_ok.1 h2
    cases h2
    intro r hr
    rcases List.mem_append.1 hr with hr | hr
    · exact hs r hr
    · rw [List.mem_singleton] at hr
      subst hr
      have hl := literalLoop_name w t.meta (pre := pre ++ "_t") tokens (pre ++ "_t") [] s.reg ⟨"", by simp⟩
      exact freshName_name hl (Out.ofFuel_eq_ok.1 h4) hl
  obtain ⟨es, rules, hr, -⟩ := refine_spec hg h
  have h' := h
  unfold refine at h'
  rw [hg] at h'
  obtain ⟨⟨st, rules'⟩, h1, h2⟩ := Out.bind_eq_ok.1 (show (mapState _ _ g.rules >>= _) = _ from h')
  have hrel := hr.rel
  have hn := hnames h1
  obtain ⟨es', -, i, r⟩ := mapState_spec (R := RuleRel) (fun h _ _ => RuleRel.mono h)
    (fun a ha st es st' a' hi h =>
      refineRule_spec hi (fun rb hrb t ht htt => ⟨a, ha, rb, hrb, ht, htt⟩) h) (rinv_start w pre g reg) h1
  cases h2
  intro e he
  have hfold : ∀ (rs : List Rule) (m : List (String × Rule)), e ∈ rs.foldl (fun m r => mapSet m r.name r) m →
      e ∈ m ∨ e.2 ∈ rs := by
    intro rs
    induction rs with
    | nil => intro m h; exact .inl h
    | cons a rs ih =>
      intro m h
      rcases ih _ h with h | h
      · rcases mem_mapSet_val (show e ∈ mapSet m a.name a from h) with h | h
        · exact .inr (by simp [h])
        · exact .inl h
      · exact .inr (by simp [h])
  rcases hfold _ _ he with he | he
  · obtain ⟨e0, he0, hrel⟩ := forall₂_mem_right r he
    exact .inl ⟨e0, he0, hrel.2.1⟩
  · exact .inr (hn _ he)

theorem StartsWith.ne {s : String} (h : StartsWith ("g" ++ "_t") s) : s ≠ "" := by
  obtain ⟨t, rfl⟩ := h
  intro e
  have := congrArg String.length e
  simp [String.length_append] at this

theorem RuleWF.named {w : LexWorld} {x : String} {r : Rule} (h : RuleWF w x r) : r.name ≠ "" := by
  obtain ⟨l, rfl, hl⟩ := h.ident
  rw [h.name]
  intro e
  have := congrArg String.toList e
  simp at this
  subst this
  obtain ⟨_, _, h, -⟩ := hl

/-- every rule of a loaded grammar has a name -/
theorem named_loaded {lw : LoadWorld} (hlw : lw.lex.OK) {fuel depth : Nat} {text : List Char} {name : String}
    {reg : Registry} {ld : Loaded} {st : LoadSt} (h : loadString lw fuel depth text name reg = .ok (some ld, st))
    {main : Grammar} (hm : ld.From lw main) : NamedRules ⟨main, ld.gram.includes⟩ := by
  rintro k rb ⟨ig, hig, e, he, hk, -⟩
  rw [hk]
  rcases List.mem_cons.1 hig with rfl | hig
  · exact (hm.1.rules e he).named
  · obtain ⟨fuel', r1, r2, g0, hwf, hr⟩ :=
      (origin_fromString hlw (origin_fromFile hlw depth) h).2 ig (List.mem_cons_of_mem _ hig)
    rcases refine_names hwf.unrefined hr e he with ⟨e0, he0, hn⟩ | hn
    · rw [hn]; exact (hwf.rules e0 he0).named
    · exact hn.ne

/-- no candidate has a name that no rule has -/
theorem starts_avoid {iw : IndexWorld} {g0 : Gram} {ld : Loaded} {w : FrameWorld} {text : Bytes}
    (hi : buildIndex iw g0 = .ok ld.index) (hw : w.OK) {x : String} (hx : ∀ k rb, g0.Body .rule k rb → k.ruleName ≠ x)
    {fuel : Nat} {fr : List (RbKey × Frame)} {starts : List String}
    (h : getCandidates w ld.gram.main ld.index fuel text = .ok (fr, starts)) : x ∉ starts := by
  obtain ⟨ms, -, -, -, h4⟩ := getCandidates_spec hi hw h
  intro hm
  obtain ⟨B, ⟨m, -, k, hk, -, rb, hb, -⟩, hab⟩ := (h4 x).1 hm
  cases hab with
  | refl => exact hx _ _ hb hk
  | step hR _ =>
    obtain ⟨k', rfl, -, rb', hb', -⟩ := hR
    exact hx _ _ hb' rfl

/-- The assumptions of this file for a loaded grammar: no included file defines a frame, nothing is nullable, the
internal start symbol is not used, and the annotator returns tokens and spans in the text. -/
theorem frameCase_loaded {lw : LoadWorld} (hlw : lw.lex.OK) {fuel depth : Nat} {gtext : List Char} {name : String}
    {reg : Registry} {ld : Loaded} {st : LoadSt} (hload : loadString lw fuel depth gtext name reg = .ok (some ld, st))
    {main : Grammar} (hm : ld.From lw main) (hinc : ∀ ig ∈ ld.gram.includes, ig.frames = [])
    {w : FrameWorld} (hw : w.OK) {ew : World} (ho : ew.OrdOK) {context : String} {text : Bytes}
    (hsp : ∀ d, annotateText ew context (ew.trim text) = some d → SpansOK d.spans)
    (hin : SpansInside ew ld.gram context text)
    (hγ : ∀ g ∈ ld.gram.main :: ld.gram.includes, ∀ e ∈ g.rules, e.1 ≠ gammaRule ∧ e.2.name ≠ gammaRule)
    (hp : ∀ tokens l, process ew ld.gram context text = .ok (tokens, l) → TokensOrdered text tokens ∧
      NoEmpty (envFor ew ld.gram l tokens [] 0) ∧
      (∀ A rb, (envFor ew ld.gram l tokens [] 0).Defines A rb → A ≠ gammaRule) ∧
      (∀ t, (envFor ew ld.gram l tokens [] 0).Occurs t → t.value ≠ gammaRule)) :
    FrameCase lw.idx ⟨main, ld.gram.includes⟩ ld w ew context text where
  index := hm.2.1
  frames := hm.frames
  own := ownFrames hm.1 hinc
  named := named_loaded hlw hload hm
  world := hw
  setting := by
    intro fuel fr starts h
    have hγ' : ∀ k rb, Gram.Body ⟨main, ld.gram.includes⟩ .rule k rb → k.ruleName ≠ gammaRule := by
      rintro k rb ⟨ig, hig, e, he, hk, -⟩
      rw [hk]
      rcases List.mem_cons.1 hig with rfl | hig
      · obtain ⟨hwf, -, _, _, _, hr⟩ := hm
        obtain ⟨-, -, -, -, lits, ν, -, -, -, hrules, -⟩ := C25_structure hwf.unrefined hr
        obtain ⟨r', hr', -⟩ := hrules e.1 e.2 ((KeysNodup.lookup hwf.ruleKeys).2 he)
        rw [(hwf.rules e he).name]
        exact (hγ _ (by simp) _ (mem_of_lookup hr')).1
      · exact (hγ ig (List.mem_cons_of_mem _ hig) e he).2
    refine ⟨ho, hin, fun tokens l hproc => ?_, fun tokens l hproc t ht _ => (hp tokens l hproc).2.2.2 t ht⟩
    obtain ⟨h1, h2, h3, h4⟩ := hp tokens l hproc
    obtain ⟨g1, g2, g3⟩ := loaded_env (C30_string_partial hlw hload) hproc hsp starts 0
      ⟨h3, fun t ht _ => h4 t ht, starts_avoid hm.2.1 hw hγ' h⟩
    exact ⟨g1, h2, g2, g3, h1⟩

end Fmr
