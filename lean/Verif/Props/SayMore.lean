import Verif.Spec.SayMore
import Verif.Props.Unused

/-!
# C117: whoever writes more finds more
-/

namespace Fmr

section
variable {ds ds' : List Def} {F F' : Files} {I I' : String → Prop} {ρ ρ' : List (String × String)}

/-- what can be derived can be derived with more rules -/
theorem derive_more (h : MoreText ds F I ρ ds' F' I' ρ') {annot : String → Option (List Token)} {w : World} {d : Doc} {S : String}
    {ws : List Token}
    (hd : SourcesDerive (terminalMatch w.lower w.registry) [wholeSource ds F I annot (docSource w.find (wholeRegexps F I ρ) d)] S ws) :
    SourcesDerive (terminalMatch w.lower w.registry) [wholeSource ds' F' I' annot (docSource w.find (wholeRegexps F' I' ρ') d)] S ws := by
  refine Yields.used (R := fun _ => True) (L := sourcesLang _ [wholeSource ds F I annot (docSource w.find (wholeRegexps F I ρ) d)])
    (L' := sourcesLang _ [wholeSource ds' F' I' annot (docSource w.find (wholeRegexps F' I' ρ') d)]) rfl rfl rfl ?_
    (fun _ _ _ _ _ _ _ => trivial) hd fun _ _ _ => trivial
  rintro A - ts ⟨s, hs, h1⟩
  rw [List.mem_singleton.1 hs, wholeSource_iff] at h1
  refine ⟨_, List.mem_singleton.2 rfl, wholeSource_iff.2 ?_⟩
  rcases h1 with ⟨b, hb, e⟩ | h1
  · exact .inl ⟨b, h.alternatives A b hb, e⟩
  · exact .inr (docSource_used (h.regexps A) h1)

/-! ### the conditions on the smaller set follow from those on the larger one -/

theorem TextNull.more (h : ∀ A b, wholeWritten ds F I A b → wholeWritten ds' F' I' A b) {annot : String → Option (List Token)}
    {doc doc' : Source} (hdoc : ∀ A ts, doc A ts → doc' A ts) {t : Term} (hn : TextNull ds F I annot doc t) :
    TextNull ds' F' I' annot doc' t := by
  induction hn with
  | literal h1 h2 => exact .literal h1 h2
  | rule h1 h2 _ ih => exact .rule h1 (h _ _ h2) ih
  | document h1 h2 => exact .document h1 (hdoc _ _ h2)
  | any h1 h2 h3 h4 h5 => exact .any h1 (h _ _ h2) h3 h4 h5
  | list h1 h2 h3 h4 h5 h6 _ ih => exact .list h1 (h _ _ h2) h3 h4 h5 h6 ih

theorem textEnds_less (h : ∀ A b, wholeWritten ds F I A b → wholeWritten ds' F' I' A b) {annot : String → Option (List Token)}
    {doc doc' : Source} (hdoc : ∀ A ts, doc A ts → doc' A ts) : ∀ (n : Nat) (u : Term), TextEnds ds' F' I' annot doc' n u →
    TextEnds ds F I annot doc n u
  | 0, _, hu => hu.elim
  | n + 1, u, hu => by
    rcases hu with h1 | ⟨h1, h2, h3⟩ | ⟨h1, h2, h3⟩
    · exact .inl h1
    · refine .inr (.inl ⟨h1, fun b hb => ?_, fun ts hts => h3 ts (hdoc _ _ hts)⟩)
      obtain ⟨v, hv, hv'⟩ := h2 b (h _ _ hb)
      exact ⟨v, hv, textEnds_less h hdoc n v hv'⟩
    · exact .inr (.inr ⟨h1, fun hn => h2 (hn.more h hdoc), textEnds_less h hdoc n _ h3⟩)

theorem WholeSafe.less (h : ∀ A b, wholeWritten ds F I A b → wholeWritten ds' F' I' A b) {annot : String → Option (List Token)}
    {doc doc' : Source} (hdoc : ∀ A ts, doc A ts → doc' A ts) {starts starts' : List String} (hst : ∀ S ∈ starts, S ∈ starts')
    (hs : WholeSafe ds' F' I' annot doc' starts') : WholeSafe ds F I annot doc starts := by
  refine ⟨fun A b t hb ht hn => ?_, fun A b t hb ht htt hn => hs.items A b t (h _ _ hb) ht htt (hn.more h hdoc)⟩
  rcases hs.slots A b t (h _ _ hb) ht (hn.more h hdoc) with ⟨n, h1⟩ | ⟨⟨B, h1⟩, h2⟩
  · refine .inl ⟨n, fun A' b' p t' hb' hp hsl => ?_⟩
    rcases h1 A' b' p t' (h _ _ hb') hp hsl with ⟨q, u, e, hu, h2⟩ | ⟨h2, e⟩
    · exact .inl ⟨q, u, e, hu, h2.imp (textEnds_less h hdoc _ _) (textEnds_less h hdoc _ _)⟩
    · exact .inr ⟨fun B c u hc => h2 B c u (h _ _ hc), e⟩
  · exact .inr ⟨⟨B, fun A' b' p t' hb' => h1 A' b' p t' (h _ _ hb')⟩, fun hx => h2 ⟨hx.1, hst _ hx.2⟩⟩

theorem WholeUniform.less (h : ∀ A b, wholeWritten ds F I A b → wholeWritten ds' F' I' A b) (hu : WholeUniform ds' F' I') :
    WholeUniform ds F I :=
  fun A b A' b' h1 h2 => hu A b A' b' (h _ _ h1) (h _ _ h2)

theorem DocFit.less {w : World} {Q Q' : String → String → Prop} (h : ∀ k s, Q k s → Q' k s) {d : Doc} (hd : DocFit w Q' d) :
    DocFit w Q d :=
  ⟨hd.doc, hd.inside, hd.spans, fun A b hb => hd.hashed A b (docAlt_used (h A) hb),
    fun A a b ha hb => hd.hash A a b (docAlt_used (h A) ha) (docAlt_used (h A) hb),
    fun k s s' h1 h2 => hd.named k s s' (h k s h1) (h k s' h2)⟩

theorem WholeFit.less (h : ∀ A b, wholeWritten ds F I A b → wholeWritten ds' F' I' A b) {w : RefineWorld} {src src' : Source}
    (hsrc : ∀ A ts, src A ts → src' A ts) {starts starts' : List String} (hst : ∀ S ∈ starts, S ∈ starts')
    (hap : (∃ p, I p) → LiteralsApart ds F I w) (hf : WholeFit ds' F' I' w src' starts') : WholeFit ds F I w src starts := by
  have hl : ∀ t, wholeLiteral ds F I t → wholeLiteral ds' F' I' t := by
    rintro t ⟨h1, A, b, hb, ht⟩
    exact ⟨h1, A, b, h _ _ hb, ht⟩
  refine ⟨fun t t' h1 h2 => hf.flags t t' (hl t h1) (hl t' h2), hap, fun A hA => hf.free A ?_⟩
  rcases hA with (⟨ts, h1⟩ | ⟨B, ts, h1, h2⟩) | h1
  · exact .inl (.inl ⟨ts, hsrc _ _ h1⟩)
  · exact .inl (.inr ⟨B, ts, hsrc _ _ h1, h2⟩)
  · exact .inr (hst A h1)

theorem wholeSource_more (h : MoreText ds F I ρ ds' F' I' ρ') {annot : String → Option (List Token)} {w : World} {d : Doc} (A : String)
    (ts : List Term) (h1 : wholeSource ds F I annot (docSource w.find (wholeRegexps F I ρ) d) A ts) :
    wholeSource ds' F' I' annot (docSource w.find (wholeRegexps F' I' ρ') d) A ts := by
  rw [wholeSource_iff] at h1 ⊢
  rcases h1 with ⟨b, hb, e⟩ | h1
  · exact .inl ⟨b, h.alternatives A b hb, e⟩
  · exact .inr (docSource_used (h.regexps A) h1)

end

/-- two grammars, where the second has all productions and start rules of the first -/
theorem callsFind_more {w : World} {src src' : Source} {G G' : TextGrammar} {N N' : String → String → Prop} {context : String}
    {text : Bytes} {starts starts' : List String} (hst : ∀ S ∈ starts, S ∈ starts') {d : Doc} {fuel : Nat} {g g' : Gram}
    (hder : ∀ S ws, SourcesDerive (terminalMatch w.lower w.registry) [src] S ws →
      SourcesDerive (terminalMatch w.lower w.registry) [src'] S ws)
    (h1 : CallsFind w src G N context text starts d fuel g) (h2 : CallsFind w src' G' N' context text starts' d fuel g') :
    (∃ ns ns', apiParse w g fuel context text starts = .ok ns ∧ apiParse w g' fuel context text starts' = .ok ns' ∧
      (ns ≠ [] → ns' ≠ [] ∧ ∃ k k', k ≤ k' ∧ (∀ t ∈ ns, ∃ S ∈ starts, TextRoot G N d.words S k t) ∧
        ∀ t ∈ ns', ∃ S ∈ starts', TextRoot G' N' d.words S k' t)) ∧
    (∃ ns ns', apiParseAny w g fuel context text starts = .ok ns ∧ apiParseAny w g' fuel context text starts' = .ok ns' ∧
      (ns ≠ [] → ns' ≠ [] ∧ ∃ i k i' k', i' ≤ i ∧ (i' = i → k ≤ k') ∧
        (∀ t ∈ ns, ∃ S ∈ starts, TextRoot G N (d.words.drop i) S k t) ∧
        ∀ t ∈ ns', ∃ S ∈ starts', TextRoot G' N' (d.words.drop i') S k' t)) ∧
    (∃ gs gs' : List (Nat × List Node), apiExtractAll w g fuel context text starts = .ok (gs.map (·.2)).flatten ∧
      apiExtractAll w g' fuel context text starts' = .ok (gs'.map (·.2)).flatten ∧
      ∀ a ∈ gs, a.2 ≠ [] ∧ ∀ t ∈ a.2, ∃ S ∈ starts, ∃ k, TextRoot G N (d.words.drop a.1) S k t ∧
        ∃ a' ∈ gs', a'.1 = a.1 ∧ ∃ t' ∈ a'.2, TextRoot G' N' (d.words.drop a.1) S k t') ∧
    ((∀ S ∈ starts', ¬ SourcesDerive (terminalMatch w.lower w.registry) [src'] S []) →
      ∃ gs gs' : List ((Nat × Nat) × List Node), apiExtractMaxAll w g fuel context text starts = .ok (gs.map (·.2)).flatten ∧
        apiExtractMaxAll w g' fuel context text starts' = .ok (gs'.map (·.2)).flatten ∧
        (∀ a ∈ gs, a.2 ≠ [] ∧ ∀ t ∈ a.2, ∃ S ∈ starts, TextRoot G N (d.words.drop a.1.1) S a.1.2 t) ∧
        (∀ a ∈ gs', a.2 ≠ [] ∧ ∀ t ∈ a.2, ∃ S ∈ starts', TextRoot G' N' (d.words.drop a.1.1) S a.1.2 t) ∧
        ∀ a ∈ gs, ∃ a' ∈ gs', a'.1.1 ≤ a.1.1 ∧ a.1.1 < a'.1.1 + a'.1.2 ∧ (a'.1.1 = a.1.1 → a.1.2 ≤ a'.1.2)) := by
  obtain ⟨⟨p, p1, p2, p3⟩, ⟨q, q1, q2⟩, ⟨gs, r1, r2⟩, m⟩ := h1
  obtain ⟨⟨p', p1', p2', p3'⟩, ⟨q', q1', q2'⟩, ⟨gs', r1', r2'⟩, m'⟩ := h2
  have hm : ∀ k, TextMatch w src starts d.words k → TextMatch w src' starts' d.words k := by
    rintro k ⟨h, S, hS, hk⟩
    exact ⟨h, S, hst S hS, hder S _ hk⟩
  have hsp : ∀ i k, SpanMatch (TextSpan w src d.words) starts d.words.length i k →
      SpanMatch (TextSpan w src' d.words) starts' d.words.length i k := by
    rintro i k ⟨h, h', S, hS, hk⟩
    exact ⟨h, h', S, hst S hS, hder S _ hk⟩
  refine ⟨⟨p, p', p1, p1', fun hne => ?_⟩, ⟨q, q', q1, q1', fun hne => ?_⟩, ⟨gs, gs', r1, r1', fun a ha => ⟨r2.nonempty a ha, fun t ht => ?_⟩⟩,
    fun hne => ?_⟩
  · obtain ⟨k0, hk0⟩ := p2.1 hne
    have hne' := p2'.2 ⟨k0, hm k0 hk0⟩
    obtain ⟨t0, ht0⟩ := List.exists_mem_of_ne_nil _ hne
    obtain ⟨_, _, k, -, hk, hmax⟩ := p3 t0 ht0
    obtain ⟨t1, ht1⟩ := List.exists_mem_of_ne_nil _ hne'
    obtain ⟨_, _, k', -, hk', hmax'⟩ := p3' t1 ht1
    refine ⟨hne', k, k', hmax' _ (hm k hk), fun t ht => ?_, fun t ht => ?_⟩
    · obtain ⟨S, hS, k2, g1, g2, g3⟩ := p3 t ht
      obtain rfl : k = k2 := Nat.le_antisymm (g3 _ hk) (hmax _ g2)
      exact ⟨S, hS, g1⟩
    · obtain ⟨S, hS, k2, g1, g2, g3⟩ := p3' t ht
      obtain rfl : k' = k2 := Nat.le_antisymm (g3 _ hk') (hmax' _ g2)
      exact ⟨S, hS, g1⟩
  · obtain ⟨i0, k0, hk0⟩ := q2.found.1 hne
    have hne' := q2'.found.2 ⟨i0, k0, hsp i0 k0 hk0⟩
    obtain ⟨t0, ht0⟩ := List.exists_mem_of_ne_nil _ hne
    obtain ⟨_, _, i, k, -, -, hk, hmax⟩ := q2.trees t0 ht0
    obtain ⟨t1, ht1⟩ := List.exists_mem_of_ne_nil _ hne'
    obtain ⟨_, _, i', k', -, -, hk', hmax'⟩ := q2'.trees t1 ht1
    obtain ⟨e1, e2⟩ := hmax' _ _ (hsp i k hk)
    refine ⟨hne', i, k, i', k', e1, fun e => e2 e.symm, fun t ht => ?_, fun t ht => ?_⟩
    · obtain ⟨S, hS, i2, k2, g1, -, g2, g3⟩ := q2.trees t ht
      obtain rfl : i = i2 := Nat.le_antisymm (hmax _ _ g2).1 (g3 _ _ hk).1
      obtain rfl : k = k2 := Nat.le_antisymm ((g3 _ _ hk).2 rfl) ((hmax _ _ g2).2 rfl)
      exact ⟨S, hS, g1⟩
    · obtain ⟨S, hS, i2, k2, g1, -, g2, g3⟩ := q2'.trees t ht
      obtain rfl : i' = i2 := Nat.le_antisymm (hmax' _ _ g2).1 (g3 _ _ hk').1
      obtain rfl : k' = k2 := Nat.le_antisymm ((g3 _ _ hk').2 rfl) ((hmax' _ _ g2).2 rfl)
      exact ⟨S, hS, g1⟩
  · obtain ⟨S, hS, k, g1, g2, g3, g4, -⟩ := r2.trees a ha t ht
    exact ⟨S, hS, k, g1, r2'.complete S (hst S hS) a.1 k g3 g4 (hder S _ g2)⟩
  · obtain ⟨gs, m1, m2⟩ := m fun S hS h => hne S (hst S hS) (hder S _ h)
    obtain ⟨gs', m1', m2'⟩ := m' hne
    refine ⟨gs, gs', m1, m1', fun a ha => ⟨(m2.nonempty a ha).2, fun t ht => ?_⟩, fun a ha => ⟨(m2'.nonempty a ha).2, fun t ht => ?_⟩,
      fun a ha => ?_⟩
    · obtain ⟨S, hS, g, -⟩ := m2.trees a ha t ht
      exact ⟨S, hS, g⟩
    · obtain ⟨S, hS, g, -⟩ := m2'.trees a ha t ht
      exact ⟨S, hS, g⟩
    · have hk := hsp _ _ (m2.longest a ha).1
      by_contra hc
      refine m2'.rest a.1.1 a.1.2 (fun a' ha' ⟨e1, e2⟩ => hc ⟨a', ha', e1, e2, fun e => ?_⟩) hk
      exact (m2'.longest a' ha').2 _ (e ▸ hk)

section
variable {lw lw' : LoadWorld} (hlw : lw.lex.OK) (hlw' : lw'.lex.OK) (href : lw.ref = lw'.ref)
  {F F' : Files} {ds ds' : List Def} {ρ ρ' : List (String × String)} {I I' : String → Prop} {ld ld' : Loaded}
  (hload : LoadedFrom lw F ds ρ I ld) (hload' : LoadedFrom lw' F' ds' ρ' I' ld') (hmore : MoreText ds F I ρ ds' F' I' ρ')
  (w : World) (ho : w.OrdOK) (context : String) (text : Bytes) (starts starts' : List String) (hs : starts ≠ [])
  (hst : ∀ S ∈ starts, S ∈ starts') (d : Doc) (ht : TextRead w context text d)
  (hd' : DocFit w (wholeRegexps F' I' ρ') d)
  (src' : Source) (hsrc' : src' = wholeSource ds' F' I' lw'.ref.annot (docSource w.find (wholeRegexps F' I' ρ') d))
  (hap : (∃ p, I p) → LiteralsApart ds F I lw.ref) (hfit' : WholeFit ds' F' I' lw'.ref src' starts')
  (G : TextGrammar) (hG : G = wholeGrammar ds ρ F I lw.ref w d) (G' : TextGrammar) (hG' : G' = wholeGrammar ds' ρ' F' I' lw'.ref w d)
  (hu' : WholeUniform ds' F' I')
  (hsafe' : WholeSafe ds' F' I' lw'.ref.annot (docSource w.find (wholeRegexps F' I' ρ') d) starts')
include hlw hlw' href hload hload' hmore ho hs hst ht hd' hsrc' hap hfit' hG hG' hu' hsafe'

/-- C117: with more alternatives, regexps and start rules, in whatever files,
* `Parse` finds a match if it did, which is not shorter,
* `ParseAny` finds a match if it did, which begins further left, or at the same token and is not shorter,
* `ExtractAll` finds every match it found, and
* `ExtractMaxAll` finds a match around every token where it found one, which is not shorter if it begins there.
Missing for a full statement: the conditions of C76 on the larger set of files, and that the words of a literal identify it
in the smaller set, if it has several files; without the latter C117 is false, see `C117_false`. -/
theorem C117_calls_partial : ∃ names names', LiteralNames names ∧ LiteralNames names' ∧ ∃ n, ∀ fuel ≥ n,
    (∃ ns ns', apiParse w ld.gram fuel context text starts = .ok ns ∧ apiParse w ld'.gram fuel context text starts' = .ok ns' ∧
      (ns ≠ [] → ns' ≠ [] ∧ ∃ k k', k ≤ k' ∧ (∀ t ∈ ns, ∃ S ∈ starts, TextRoot G names d.words S k t) ∧
        ∀ t ∈ ns', ∃ S ∈ starts', TextRoot G' names' d.words S k' t)) ∧
    (∃ ns ns', apiParseAny w ld.gram fuel context text starts = .ok ns ∧ apiParseAny w ld'.gram fuel context text starts' = .ok ns' ∧
      (ns ≠ [] → ns' ≠ [] ∧ ∃ i k i' k', i' ≤ i ∧ (i' = i → k ≤ k') ∧
        (∀ t ∈ ns, ∃ S ∈ starts, TextRoot G names (d.words.drop i) S k t) ∧
        ∀ t ∈ ns', ∃ S ∈ starts', TextRoot G' names' (d.words.drop i') S k' t)) ∧
    (∃ gs gs' : List (Nat × List Node), apiExtractAll w ld.gram fuel context text starts = .ok (gs.map (·.2)).flatten ∧
      apiExtractAll w ld'.gram fuel context text starts' = .ok (gs'.map (·.2)).flatten ∧
      ∀ a ∈ gs, a.2 ≠ [] ∧ ∀ t ∈ a.2, ∃ S ∈ starts, ∃ k, TextRoot G names (d.words.drop a.1) S k t ∧
        ∃ a' ∈ gs', a'.1 = a.1 ∧ ∃ t' ∈ a'.2, TextRoot G' names' (d.words.drop a.1) S k t') ∧
    ((∀ S ∈ starts', ¬ SourcesDerive (terminalMatch w.lower w.registry) [src'] S []) →
      ∃ gs gs' : List ((Nat × Nat) × List Node), apiExtractMaxAll w ld.gram fuel context text starts = .ok (gs.map (·.2)).flatten ∧
        apiExtractMaxAll w ld'.gram fuel context text starts' = .ok (gs'.map (·.2)).flatten ∧
        (∀ a ∈ gs, a.2 ≠ [] ∧ ∀ t ∈ a.2, ∃ S ∈ starts, TextRoot G names (d.words.drop a.1.1) S a.1.2 t) ∧
        (∀ a ∈ gs', a.2 ≠ [] ∧ ∀ t ∈ a.2, ∃ S ∈ starts', TextRoot G' names' (d.words.drop a.1.1) S a.1.2 t) ∧
        ∀ a ∈ gs, ∃ a' ∈ gs', a'.1.1 ≤ a.1.1 ∧ a.1.1 < a'.1.1 + a'.1.2 ∧ (a'.1.1 = a.1.1 → a.1.2 ≤ a'.1.2)) := by
  have hs' : starts' ≠ [] := by
    obtain ⟨S, hS⟩ := List.exists_mem_of_ne_nil _ hs
    exact List.ne_nil_of_mem (hst S hS)
  have hsafe := hsafe'
  have hfit := hfit'
  rw [hsrc', ← href] at hfit
  rw [← href] at hsafe
  obtain ⟨N, hN, n1, h1⟩ := C76_calls_partial hlw hload w context text starts d ht (hd'.less hmore.regexps) _ rfl
    (hfit.less hmore.alternatives (wholeSource_more hmore) hst hap) G hG (hu'.less hmore.alternatives)
    (hsafe.less hmore.alternatives (fun A _ => docSource_used (hmore.regexps A)) hst) hs ho
  obtain ⟨N', hN', n2, h2⟩ := C76_calls_partial hlw' hload' w context text starts' d ht hd' src' hsrc' hfit' G' hG' hu' hsafe' hs' ho
  refine ⟨N, N', hN, hN', max n1 n2, fun fuel hf => callsFind_more hst (fun S ws h => ?_) (h1 fuel (by omega)) (h2 fuel (by omega))⟩
  rw [hsrc', ← href]
  exact derive_more hmore h

end

end Fmr
