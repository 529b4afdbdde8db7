import Verif.Props.Greedy

/-!
# C54, C21: extraction of trees, positions in the text
-/

namespace Fmr

/-! ## C54 -/

/-- `ns` are the trees of the matches of `p`, in order: each reported final state is found at its own
place in the chart, and `ns` is the concatenation of what `GetTrees` returns there. -/
def TreesOf (fuel : Nat) (p : Parsed) (ns : List Node) : Prop :=
  ∃ addrs : List (Nat × Nat), addrs.Nodup ∧
    addrs.map (fun a => chartGet p.res.chart a.1 a.2) = p.res.finals.map some ∧
    ∃ tss, Rel2 (fun a ts => getTrees p.res.chart fuel a.1 a.2 = some ts) addrs tss ∧ ns = tss.flatten

theorem outFlat_ok {α β : Type} {f : α → Out (List β)} : ∀ {l : List α} {bs : List β},
    outFlat f l = .ok bs ↔ ∃ bss, Rel2 (fun a b => f a = .ok b) l bss ∧ bs = bss.flatten := by
  intro l
  induction l with
  | nil =>
    intro bs
    simp only [outFlat, Out.ok.injEq]
    constructor
    · rintro rfl; exact ⟨[], .nil, rfl⟩
    · rintro ⟨bss, h, rfl⟩; cases h; rfl
  | cons a l ih =>
    intro bs
    rw [outFlat]
    constructor
    · intro h
      obtain ⟨x, h1, h2⟩ := Out.bind_eq_ok.1 h
      obtain ⟨y, h3, h4⟩ := Out.bind_eq_ok.1 h2
      simp only [Out.pure_eq, Out.ok.injEq] at h4
      obtain ⟨bss, h5, rfl⟩ := ih.1 h3
      exact ⟨x :: bss, .cons h1 h5, by simp [← h4]⟩
    · rintro ⟨bss, h, rfl⟩
      cases h with
      | cons h1 h2 =>
        rw [h1]
        simp only [Out.bind_ok]
        rw [ih.2 ⟨_, h2, rfl⟩]
        simp

theorem outFlat_noerr {α β : Type} {f : α → Out (List β)} {l : List α}
    (h : ∀ a ∈ l, f a ≠ .err ∧ f a ≠ .panic) : outFlat f l ≠ .err ∧ outFlat f l ≠ .panic := by
  induction l with
  | nil => simp [outFlat]
  | cons a l ih =>
    have i1 := ih (fun b hb => h b (List.mem_cons_of_mem _ hb))
    have i2 := h a List.mem_cons_self
    rw [outFlat]
    constructor
    · intro e
      rcases Out.bind_eq_err.1 e with e | ⟨x, _, e⟩
      · exact i2.1 e
      · rcases Out.bind_eq_err.1 e with e | ⟨x, _, e⟩
        · exact i1.1 e
        · simp at e
    · intro e
      rcases Out.bind_eq_panic.1 e with e | ⟨x, _, e⟩
      · exact i2.2 e
      · rcases Out.bind_eq_panic.1 e with e | ⟨x, _, e⟩
        · exact i1.2 e
        · simp at e

theorem finalPtrsAll_get (chart : List (List TState)) :
    (finalPtrsAll chart).map (fun a => chartGet chart a.1 a.2) = (finalsAll chart).map some := by
  unfold finalPtrsAll finalsAll
  rw [List.map_flatMap, List.map_flatMap]
  have h1 : ∀ p ∈ chart.zipIdx.reverse,
      ((p.1.zipIdx.filter (fun q => q.1.isFinal)).map (fun q => (p.2, q.2))).map
        (fun a => chartGet chart a.1 a.2) = (p.1.filter TState.isFinal).map some := by
    intro p hp
    rw [List.mem_reverse, List.mem_zipIdx_iff_getElem?] at hp
    rw [List.map_map]
    have h2 : ∀ q ∈ p.1.zipIdx.filter (fun q => q.1.isFinal),
        ((fun a : Nat × Nat => chartGet chart a.1 a.2) ∘ fun q : TState × Nat => (p.2, q.2)) q
          = some q.1 := by
      intro q hq
      have hq := (List.mem_filter.1 hq).1
      rw [List.mem_zipIdx_iff_getElem?] at hq
      simp only [Function.comp, chartGet, hp, hq]
    rw [List.map_congr_left h2]
    have h3 : ((p.1.zipIdx.filter (fun q => q.1.isFinal)).map Prod.fst) = p.1.filter TState.isFinal := by
      have : (fun q : TState × Nat => q.1.isFinal) = TState.isFinal ∘ Prod.fst := rfl
      rw [this, ← List.filter_map, List.zipIdx_map_fst]
    rw [← h3, List.map_map]; rfl
  have h4 : ∀ (l : List ((List TState) × Nat)) (F : List TState × Nat → List (Option TState))
      (G : List TState → List (Option TState)), (∀ p ∈ l, F p = G p.1) →
      l.flatMap F = (l.map Prod.fst).flatMap G := by
    intro l F G h
    induction l with
    | nil => rfl
    | cons a l ih =>
      rw [List.flatMap_cons, List.map_cons, List.flatMap_cons, h a List.mem_cons_self,
        ih (fun p hp => h p (List.mem_cons_of_mem _ hp))]
  rw [h4 _ _ (fun col => (col.filter TState.isFinal).map some) h1, List.map_reverse,
    List.zipIdx_map_fst]

theorem zipIdx_pairwise {α : Type} (l : List α) : l.zipIdx.Pairwise (fun a b => a.2 ≠ b.2) := by
  have : (l.zipIdx.map Prod.snd).Nodup := by
    rw [List.zipIdx_map_snd]; exact List.nodup_range' 1
  exact List.pairwise_map.1 this

theorem finalPtrsAll_nodup (chart : List (List TState)) : (finalPtrsAll chart).Nodup := by
  unfold finalPtrsAll List.Nodup
  rw [List.pairwise_flatMap]
  refine ⟨?_, ?_⟩
  · intro p _
    rw [List.pairwise_map]
    refine List.Pairwise.filter _ ((zipIdx_pairwise p.1).imp ?_)
    intro a b h e
    exact h (Prod.mk.inj e).2
  · rw [List.pairwise_reverse]
    refine (zipIdx_pairwise chart).imp ?_
    intro a b h x hx y hy e
    obtain ⟨_, _, rfl⟩ := List.mem_map.1 hx
    obtain ⟨_, _, rfl⟩ := List.mem_map.1 hy
    exact h (Prod.mk.inj e).1.symm

theorem finalPtrs_get (flag : Bool) (chart : List (List TState)) :
    (finalPtrs flag chart).map (fun a => chartGet chart a.1 a.2) = (finalsOf flag chart).map some := by
  unfold finalPtrs finalsOf
  cases flag with
  | false => exact finalPtrsAll_get chart
  | true => simp only [if_true, List.map_take]; rw [finalPtrsAll_get]

theorem finalPtrs_nodup (flag : Bool) (chart : List (List TState)) : (finalPtrs flag chart).Nodup := by
  unfold finalPtrs
  split
  · exact (finalPtrsAll_nodup chart).sublist (List.take_sublist _ _)
  · exact finalPtrsAll_nodup chart

theorem Rel2.imp {α β : Type} {R S : α → β → Prop} (h : ∀ a b, R a b → S a b) :
    ∀ {l l'}, Rel2 R l l' → Rel2 S l l' := by
  intro l l' hr
  induction hr with
  | nil => exact .nil
  | cons h1 _ ih => exact .cons (h _ _ h1) ih

theorem Rel2.imp_mem {α β : Type} {R S : α → β → Prop} {l l'} (h : ∀ a ∈ l, ∀ b, R a b → S a b)
    (hr : Rel2 R l l') : Rel2 S l l' := by
  induction hr with
  | nil => exact .nil
  | cons h1 _ ih =>
    exact .cons (h _ List.mem_cons_self _ h1) (ih (fun a ha => h a (List.mem_cons_of_mem _ ha)))

theorem treesOf_noerr (fuel flag p) : treesOf fuel flag p ≠ .err ∧ treesOf fuel flag p ≠ .panic := by
  unfold treesOf
  split
  · simp
  · refine outFlat_noerr (fun a _ => ?_)
    cases getTrees p.res.chart fuel a.1 a.2 <;> simp [Out.ofFuel]

theorem treesOf_ok {fuel flag p ns f} (hst : p.env.starts ≠ []) (hpar : parse p.env flag f = some p.res)
    (h : treesOf fuel flag p = .ok ns) : TreesOf fuel p ns := by
  unfold treesOf at h
  rw [if_neg hst] at h
  obtain ⟨tss, h1, h2⟩ := outFlat_ok.1 h
  refine ⟨finalPtrs flag p.res.chart, finalPtrs_nodup _ _, ?_, tss, ?_, h2⟩
  · rw [finalPtrs_get, (parse_chart hst hpar).2]
  · exact h1.imp (fun a b h => Out.ofFuel_eq_ok.1 h)

/-- `extract` over the parses of any of the drivers -/
theorem extract_spec {fuel flag} {X : Out (List Parsed)}
    (hX : ∀ ps, X = .ok ps → ∀ p ∈ ps, p.env.starts ≠ [] ∧ parse p.env flag fuel = some p.res) :
    (extract fuel flag X = .err ↔ X = .err) ∧ (extract fuel flag X = .panic ↔ X = .panic) ∧
    ∀ ns, extract fuel flag X = .ok ns →
      ∃ ps nss, X = .ok ps ∧ Rel2 (TreesOf fuel) ps nss ∧ ns = nss.flatten := by
  unfold extract
  refine ⟨?_, ?_, ?_⟩
  · rw [Out.bind_eq_err]
    constructor
    · rintro (h | ⟨ps, _, h⟩)
      · exact h
      · exact absurd h (outFlat_noerr (fun p _ => treesOf_noerr fuel flag p)).1
    · intro h; exact .inl h
  · rw [Out.bind_eq_panic]
    constructor
    · rintro (h | ⟨ps, _, h⟩)
      · exact h
      · exact absurd h (outFlat_noerr (fun p _ => treesOf_noerr fuel flag p)).2
    · intro h; exact .inl h
  · intro ns h
    obtain ⟨ps, h1, h2⟩ := Out.bind_eq_ok.1 h
    obtain ⟨nss, h3, h4⟩ := outFlat_ok.1 h2
    refine ⟨ps, nss, h1, ?_, h4⟩
    exact h3.imp_mem (fun p hp ns hns => treesOf_ok (hX ps h1 p hp).1 (hX ps h1 p hp).2 hns)

/-- what every driver guarantees of the parses it returns -/
theorem ctx_parsed {w : World} {g fuel context text starts p}
    (h : earleyParseCtx w g fuel context text starts = .ok p) :
    p.env.starts ≠ [] ∧ parse p.env true fuel = some p.res ∧ p.text = text := by
  unfold earleyParseCtx at h
  obtain ⟨⟨tokens, l⟩, h1, h2⟩ := Out.bind_eq_ok.1 h
  obtain ⟨hs, _, h3, _, henv, hpar⟩ := earleyParse_ok h2
  rw [henv]
  exact ⟨hs, hpar, h3⟩

theorem any_parsed {w : World} {g fuel context text starts p}
    (h : earleyParseAny w g fuel context text starts = .ok (some p)) :
    p.env.starts ≠ [] ∧ parse p.env true fuel = some p.res := by
  unfold earleyParseAny at h
  obtain ⟨⟨tokens, l⟩, h1, h2⟩ := Out.bind_eq_ok.1 h
  rcases parseAnyLoop_spec (tokens := tokens) tokens 0 none _ (by simp) h2 with
    ⟨_, h3⟩ | ⟨q, h3, _, _, _, h5, h6, h7, _⟩
  · simp at h3
  · cases h3
    exact ⟨by rw [h5]; exact h7, h6⟩

theorem maxAll_parsed {w : World} {g fuel context text starts ps}
    (h : earleyParseMaxAll w g fuel context text starts = .ok ps) :
    ∀ p ∈ ps, p.env.starts ≠ [] ∧ parse p.env true fuel = some p.res := by
  unfold earleyParseMaxAll at h
  obtain ⟨⟨tokens, l⟩, h1, h2⟩ := Out.bind_eq_ok.1 h
  obtain ⟨a, _, _, b⟩ := maxAllLoop_spec _ _ _ _ h2
  intro p hp
  obtain ⟨_, hlt, _, ⟨c, he⟩, hpar, _⟩ := a p hp
  exact ⟨by rw [he]; exact b (by omega), hpar⟩

theorem all_parsed {w : World} {g fuel context text starts ps}
    (h : earleyParseAll w g fuel context text starts = .ok ps) :
    ∀ p ∈ ps, p.env.starts ≠ [] ∧ parse p.env false fuel = some p.res := by
  unfold earleyParseAll at h
  obtain ⟨⟨tokens, l⟩, h1, h2⟩ := Out.bind_eq_ok.1 h
  obtain ⟨_, a, _, b⟩ := parseAllLoop_spec (tokens := tokens) tokens 0 ps (by simp) h2
  intro p hp
  obtain ⟨_, hlt, _, he, hpar, _⟩ := a p hp
  exact ⟨by rw [he]; exact b (process_ok h1).1, hpar⟩

/-- C54: `Parse`. -/
theorem C54_parse (w : World) (g : Gram) (fuel : Nat) (context : String) (text : Bytes)
    (starts : List String) :
    (apiParse w g fuel context text starts = .err ↔
      earleyParseCtx w g fuel context text starts = .err) ∧
    (∀ ns, apiParse w g fuel context text starts = .ok ns →
      ∃ p, earleyParseCtx w g fuel context text starts = .ok p ∧ TreesOf fuel p ns) := by
  obtain ⟨h1, _, h3⟩ := extract_spec (fuel := fuel) (flag := true)
    (X := do let p ← earleyParseCtx w g fuel context text starts; pure [p]) (by
      intro ps hps p hp
      obtain ⟨q, hq, hq'⟩ := Out.bind_eq_ok.1 hps
      simp only [Out.pure_eq, Out.ok.injEq] at hq'
      subst hq'
      rw [List.mem_singleton.1 hp]
      exact ⟨(ctx_parsed hq).1, (ctx_parsed hq).2.1⟩)
  refine ⟨?_, ?_⟩
  · unfold apiParse
    rw [h1, Out.bind_eq_err]
    simp
  · intro ns hns
    obtain ⟨ps, nss, hX, hr, rfl⟩ := h3 ns hns
    obtain ⟨q, hq, hq'⟩ := Out.bind_eq_ok.1 hX
    simp only [Out.pure_eq, Out.ok.injEq] at hq'
    subst hq'
    cases hr with
    | cons a b =>
      cases b
      exact ⟨q, hq, by simpa using a⟩

/-- C54: `ParseAny`. -/
theorem C54_parseAny (w : World) (g : Gram) (fuel : Nat) (context : String) (text : Bytes)
    (starts : List String) :
    (apiParseAny w g fuel context text starts = .err ↔
      earleyParseAny w g fuel context text starts = .err) ∧
    (∀ ns, apiParseAny w g fuel context text starts = .ok ns →
      ∃ p, earleyParseAny w g fuel context text starts = .ok (some p) ∧ TreesOf fuel p ns) := by
  have hX : ∀ {ps}, (do
      let p ← earleyParseAny w g fuel context text starts
      match p with
      | some p => pure [p]
      | none => Out.panic) = .ok ps →
      ∃ q, earleyParseAny w g fuel context text starts = .ok (some q) ∧ ps = [q] := by
    intro ps hps
    obtain ⟨q, hq, hq'⟩ := Out.bind_eq_ok.1 hps
    cases q with
    | none => simp at hq'
    | some q =>
      simp only [Out.pure_eq, Out.ok.injEq] at hq'
      exact ⟨q, hq, hq'.symm⟩
  obtain ⟨h1, _, h3⟩ := extract_spec (fuel := fuel) (flag := true) (X := do
      let p ← earleyParseAny w g fuel context text starts
      match p with
      | some p => pure [p]
      | none => .panic) (by
      intro ps hps p hp
      obtain ⟨q, hq, rfl⟩ := hX hps
      rw [List.mem_singleton.1 hp]
      exact any_parsed hq)
  refine ⟨?_, ?_⟩
  · refine Iff.trans h1 ?_
    rw [Out.bind_eq_err]
    constructor
    · rintro (h | ⟨q, _, h⟩)
      · exact h
      · cases q <;> simp at h
    · intro h; exact .inl h
  · intro ns hns
    obtain ⟨ps, nss, hps, hr, rfl⟩ := h3 ns hns
    obtain ⟨q, hq, rfl⟩ := hX hps
    cases hr with
    | cons a b =>
      cases b
      exact ⟨q, hq, by simpa using a⟩

/-- C54: `ExtractMaxAll`. -/
theorem C54_extractMaxAll (w : World) (g : Gram) (fuel : Nat) (context : String) (text : Bytes)
    (starts : List String) :
    (apiExtractMaxAll w g fuel context text starts = .err ↔
      earleyParseMaxAll w g fuel context text starts = .err) ∧
    (∀ ns, apiExtractMaxAll w g fuel context text starts = .ok ns →
      ∃ ps nss, earleyParseMaxAll w g fuel context text starts = .ok ps ∧
        Rel2 (TreesOf fuel) ps nss ∧ ns = nss.flatten) := by
  obtain ⟨h1, _, h3⟩ := extract_spec (fuel := fuel) (flag := true)
    (X := earleyParseMaxAll w g fuel context text starts) (fun ps hps => maxAll_parsed hps)
  exact ⟨h1, h3⟩

/-- C54: `ExtractAll`. -/
theorem C54_extractAll (w : World) (g : Gram) (fuel : Nat) (context : String) (text : Bytes)
    (starts : List String) :
    (apiExtractAll w g fuel context text starts = .err ↔
      earleyParseAll w g fuel context text starts = .err) ∧
    (∀ ns, apiExtractAll w g fuel context text starts = .ok ns →
      ∃ ps nss, earleyParseAll w g fuel context text starts = .ok ps ∧
        Rel2 (TreesOf fuel) ps nss ∧ ns = nss.flatten) := by
  obtain ⟨h1, _, h3⟩ := extract_spec (fuel := fuel) (flag := false)
    (X := earleyParseAll w g fuel context text starts) (fun ps hps => all_parsed hps)
  exact ⟨h1, h3⟩

theorem Rel2.mem_right {α β : Type} {R : α → β → Prop} {l l'} (h : Rel2 R l l') {b} (hb : b ∈ l') :
    ∃ a ∈ l, R a b := by
  induction h with
  | nil => simp at hb
  | cons h1 _ ih =>
    rcases List.mem_cons.1 hb with rfl | hb
    · exact ⟨_, List.mem_cons_self, h1⟩
    · obtain ⟨a, ha, hr⟩ := ih hb
      exact ⟨a, List.mem_cons_of_mem _ ha, hr⟩

theorem Rel2.mem_left {α β : Type} {R : α → β → Prop} {l l'} (h : Rel2 R l l') {a} (ha : a ∈ l) :
    ∃ b ∈ l', R a b := by
  induction h with
  | nil => simp at ha
  | cons h1 _ ih =>
    rcases List.mem_cons.1 ha with rfl | ha
    · exact ⟨_, List.mem_cons_self, h1⟩
    · obtain ⟨b, hb, hr⟩ := ih ha
      exact ⟨b, List.mem_cons_of_mem _ hb, hr⟩

/-- C54 with C10 and C12: the trees of a parse are derivation trees of its matches, and every match
has one. -/
theorem C54_trees (p : Parsed) (flag : Bool) (f fuel : Nat) (ns : List Node)
    (hwf : p.env.WF) (ho : p.env.OrdOK) (hun : Unmixed p.env) (hany : AnyNamed p.env)
    (hpar : parse p.env flag f = some p.res) (h : TreesOf fuel p ns) :
    (∀ n ∈ ns, ∃ S ∈ p.env.starts, ∃ s ∈ p.res.finals, MatchFor S s.stop s ∧
      RootOK p.env p.env.relaxedLang S s.stop n) ∧
    (∀ s ∈ p.res.finals, ∃ n ∈ ns, ∃ S ∈ p.env.starts, MatchFor S s.stop s ∧
      RootOK p.env p.env.relaxedLang S s.stop n) := by
  obtain ⟨addrs, _, haddr, tss, hr, rfl⟩ := h
  have key : ∀ (a : Nat × Nat) s ts, chartGet p.res.chart a.1 a.2 = some s → s ∈ p.res.finals →
      getTrees p.res.chart fuel a.1 a.2 = some ts →
      ∃ S ∈ p.env.starts, MatchFor S s.stop s ∧ (∀ n ∈ ts, RootOK p.env p.env.relaxedLang S s.stop n) ∧
        ts ≠ [] := by
    intro a s ts hg hs ht
    obtain ⟨S, hS, j, hm, _, _⟩ := C01_relaxed_partial p.env flag f p.res hwf ho hpar s hs
    have hj : j = s.stop := hm.2.2.2.2.symm
    subst hj
    exact ⟨S, hS, hm,
      C10_trees_valid p.env flag f fuel p.res hwf ho hun hpar a.1 a.2 s hg S hS _ hm ts ht,
      C12_match_has_tree p.env flag f fuel p.res hwf ho hun hany hpar a.1 a.2 s hg S hS _ hm ts ht⟩
  refine ⟨?_, ?_⟩
  · intro n hn
    obtain ⟨ts, hts, hn⟩ := List.mem_flatten.1 hn
    obtain ⟨a, ha, hget⟩ := hr.mem_right hts
    have : chartGet p.res.chart a.1 a.2 ∈ p.res.finals.map some := by
      rw [← haddr]; exact List.mem_map.2 ⟨a, ha, rfl⟩
    obtain ⟨s, hs, hs'⟩ := List.mem_map.1 this
    obtain ⟨S, hS, hm, hroot, _⟩ := key a s ts hs'.symm hs hget
    exact ⟨S, hS, s, hs, hm, hroot n hn⟩
  · intro s hs
    have : some s ∈ addrs.map (fun a => chartGet p.res.chart a.1 a.2) := by
      rw [haddr]; exact List.mem_map.2 ⟨s, hs, rfl⟩
    obtain ⟨a, ha, hget⟩ := List.mem_map.1 this
    obtain ⟨ts, hts, ht⟩ := hr.mem_left ha
    obtain ⟨S, hS, hm, hroot, hne⟩ := key a s ts hget hs ht
    obtain ⟨n, hn⟩ := List.exists_mem_of_ne_nil _ hne
    exact ⟨n, List.mem_flatten.2 ⟨ts, hts, hn⟩, S, hS, hm, hroot n hn⟩

/-- C54, end to end for `Parse`: it returns, and it returns trees iff a start rule matches a prefix
of the tokens; every tree spells a longest derivable prefix. (Grammars with safely placed empty
derivations and uniform bounds; see C01, C02 for what is missing.) -/
theorem C54_end_to_end_partial (w : World) (g : Gram) (context : String) (text : Bytes)
    (starts : List String) (tokens : List Token) (l : Option Grammar)
    (hp : process w g context text = .ok (tokens, l)) (hs : starts ≠ []) (ho : w.OrdOK)
    (hwf : (envFor w g l tokens starts 0).WF)
    (hsafe : NullSafe (envFor w g l tokens starts 0)) (hu : UniformBounds (envFor w g l tokens starts 0))
    (hun : Unmixed (envFor w g l tokens starts 0)) (hany : AnyNamed (envFor w g l tokens starts 0)) :
    ∃ n, ∀ fuel ≥ n, ∃ ns, apiParse w g fuel context text starts = .ok ns ∧
      (ns ≠ [] ↔ ∃ k, MatchAt (envFor w g l tokens starts 0) 0 k) ∧
      ∀ t ∈ ns, ∃ S ∈ starts, ∃ k, RootOK (envFor w g l tokens starts 0)
          (envFor w g l tokens starts 0).lang S k t ∧
        MatchAt (envFor w g l tokens starts 0) 0 k ∧
        ∀ k', MatchAt (envFor w g l tokens starts 0) 0 k' → k' ≤ k := by
  have ho' := ord_envFor ho g l tokens starts 0
  obtain ⟨n1, r, hn1⟩ := C05_terminates (envFor w g l tokens starts 0) true hwf ho'
  have hr1 := hn1 n1 (Nat.le_refl _)
  have htf : ∃ n2, ∀ f ≥ n2, ∀ a ∈ finalPtrs true r.chart, ∃ ts, getTrees r.chart f a.1 a.2 = some ts := by
    have hall : ∀ a ∈ finalPtrs true r.chart, ∃ n ts, ∀ f ≥ n, getTrees r.chart f a.1 a.2 = some ts := by
      intro a ha
      have : chartGet r.chart a.1 a.2 ∈ r.finals.map some := by
        rw [(parse_chart (env := envFor w g l tokens starts 0) hs hr1).2, ← finalPtrs_get]; exact List.mem_map.2 ⟨a, ha, rfl⟩
      obtain ⟨s, hs', hs''⟩ := List.mem_map.1 this
      obtain ⟨S, hS, j, hm, _, _⟩ := C01_relaxed_partial _ true n1 r hwf ho' hr1 s hs'
      exact C11_getTrees_returns _ true n1 r hwf ho' hun hr1 a.1 a.2 s hs''.symm S hS j hm
    generalize finalPtrs true r.chart = L at hall
    induction L with
    | nil => exact ⟨0, fun _ _ a ha => by simp at ha⟩
    | cons a L ih =>
      obtain ⟨m, hm⟩ := ih (fun b hb => hall b (List.mem_cons_of_mem _ hb))
      obtain ⟨m', ts, hm'⟩ := hall a List.mem_cons_self
      refine ⟨max m m', fun f hf b hb => ?_⟩
      rcases List.mem_cons.1 hb with rfl | hb
      · exact ⟨ts, hm' f (by omega)⟩
      · exact hm f (by omega) b hb
  obtain ⟨n2, hn2⟩ := htf
  refine ⟨max n1 n2, fun fuel hf => ?_⟩
  have hpar := hn1 fuel (by omega)
  have hctx : earleyParseCtx w g fuel context text starts = .ok
      { text := text, env := envFor w g l tokens starts 0, res := r, off := 0 } := by
    unfold earleyParseCtx
    rw [hp]
    simp only [Out.bind_ok]
    exact earleyParse_eq hs (process_ok hp).1 hpar
  have hok : ∃ ns, apiParse w g fuel context text starts = .ok ns := by
    have : ∀ (L : List (Nat × Nat)), (∀ a ∈ L, ∃ ts, getTrees r.chart fuel a.1 a.2 = some ts) →
        ∃ ns, outFlat (fun a : Nat × Nat => Out.ofFuel (getTrees r.chart fuel a.1 a.2)) L = .ok ns := by
      intro L
      induction L with
      | nil => intro _; exact ⟨[], rfl⟩
      | cons a L ih =>
        intro h
        obtain ⟨ts, hts⟩ := h a List.mem_cons_self
        obtain ⟨ns, hns⟩ := ih (fun b hb => h b (List.mem_cons_of_mem _ hb))
        refine ⟨ts ++ ns, ?_⟩
        rw [outFlat, hts, hns]
        rfl
    obtain ⟨ns, hns⟩ := this _ (hn2 fuel (by omega))
    refine ⟨ns ++ [], ?_⟩
    unfold apiParse extract
    rw [hctx]
    simp only [Out.bind_ok, Out.pure_eq]
    have ht : treesOf fuel true { text := text, env := envFor w g l tokens starts 0, res := r, off := 0 }
        = .ok ns := by
      unfold treesOf
      rw [if_neg (show ¬ (envFor w g l tokens starts 0).starts = [] from hs)]
      exact hns
    rw [outFlat, ht]
    rfl
  obtain ⟨ns, hns⟩ := hok
  obtain ⟨p, hp1, hp2⟩ := (C54_parse w g fuel context text starts).2 ns hns
  rw [hctx] at hp1
  cases hp1
  have hT := C54_trees _ true fuel fuel ns hwf ho' hun hany hpar hp2
  have hfacts := offset_facts (i := 0) (call := 0) hwf ho hsafe hu hs (by omega)
    (by rw [List.drop_zero]; exact hpar)
  refine ⟨ns, hns, ?_, ?_⟩
  · constructor
    · intro hns'
      obtain ⟨t, ht⟩ := List.exists_mem_of_ne_nil _ hns'
      obtain ⟨_, _, s, hs', _⟩ := hT.1 t ht
      exact ⟨s.stop, (hfacts.1 s hs').1⟩
    · rintro ⟨k, hk⟩ hnil
      have : r.finals ≠ [] := fun e => hfacts.2.1 e k hk
      obtain ⟨s, hs'⟩ := List.exists_mem_of_ne_nil _ this
      obtain ⟨t, ht, _⟩ := hT.2 s hs'
      rw [hnil] at ht; simp at ht
  · intro t ht
    obtain ⟨S, hS, s, hs', hm, hroot⟩ := hT.1 t ht
    obtain ⟨h0, h1, h2, h3, h4, c0, h5, h6⟩ := hroot
    exact ⟨S, hS, s.stop, ⟨h0, h1, h2, h3, h4, c0, h5, h6.strict hu (by simp)⟩, hfacts.1 s hs'⟩

/-- non-vacuity -/
example : Unmixed (envFor (wWorld wGood.tokens) gGood (some lGood) wGood.tokens ["s"] 0) ∧
    AnyNamed (envFor (wWorld wGood.tokens) gGood (some lGood) wGood.tokens ["s"] 0) ∧
    (match apiParse (wWorld wGood.tokens) gGood 60 "" [97] ["s"] with
      | .ok ns => ns.map (fun n => (n.labels, n.value.stop))
      | _ => []) = [(["ɣ", "s", "s", "n", "n", "1", "p", "+", "s", "n", "n", "2", "n", "2"], 4)] :=
  ⟨Env.checkUnmixed_ok (by decide +kernel), Env.checkAnyNamed_ok (by decide +kernel), by decide +kernel⟩

/-! ## C21 -/

/-- Contract of the annotator: tokens are in textual order, each inside the annotated text. -/
structure TokensOrdered (text : Bytes) (tokens : List Token) : Prop where
  inside : ∀ t ∈ tokens, t.startByte ≤ t.endByte ∧ t.endByte ≤ text.length
  sorted : tokens.Pairwise (fun a b => a.endByte ≤ b.startByte)

/-- The bytes of `text` from the first byte of token `a` to the last byte of token `b`. -/
def textBetween (text : Bytes) (a b : Token) : Bytes := (text.take b.endByte).drop a.startByte

theorem ordered_le {text tokens} (h : TokensOrdered text tokens) {i j : Nat} {a b : Token} (hij : i ≤ j)
    (ha : tokens[i]? = some a) (hb : tokens[j]? = some b) : a.startByte ≤ b.endByte := by
  have hia := h.inside a (List.mem_of_getElem? ha)
  rcases Nat.eq_or_lt_of_le hij with e | e
  · subst e; rw [ha] at hb; cases hb; exact hia.1
  · have hib := h.inside b (List.mem_of_getElem? hb)
    obtain ⟨hi, rfl⟩ := List.getElem?_eq_some_iff.1 ha
    obtain ⟨hj, rfl⟩ := List.getElem?_eq_some_iff.1 hb
    have := List.pairwise_iff_getElem.1 h.sorted i j hi hj e
    omega

/-- C21 as claimed: for every node of every tree returned by `Parse`, `OriginalText` is the part of
the (trimmed) text its tokens cover; `textBetween` is taken in the text the tokens were found in. -/
def C21_statement : Prop :=
  ∀ (w : World) (g : Gram) (fuel : Nat) (context : String) (text : Bytes) (starts : List String)
    (tokens : List Token) (l : Option Grammar) (p : Parsed) (ns : List Node) (n m : Node),
    process w g context text = .ok (tokens, l) → TokensOrdered (w.trim text) tokens →
    w.OrdOK → (envFor w g l tokens starts 0).WF →
    earleyParseCtx w g fuel context text starts = .ok p →
    apiParse w g fuel context text starts = .ok ns → n ∈ ns → Node.Sub m n →
    (∃ a b, tokens[m.value.start]? = some a ∧ tokens[m.value.stop - 1]? = some b ∧
      m.value.start < m.value.stop ∧ p.originalText m = .ok (textBetween (w.trim text) a b)) ∨
    (m.value.start = m.value.stop ∧ p.originalText m = .ok [])

/-- What `Pos` and `OriginalText` compute for a node over at least one token: the offsets of its first and last
token, and the bytes between them in the text given by the caller. -/
theorem C21_read (p : Parsed) (text : Bytes) (m : Node)
    (hord : TokensOrdered text p.env.tokens)
    (hlen : text.length ≤ p.text.length) (hpos : m.value.start < m.value.stop)
    (hle : m.value.stop ≤ p.env.tokens.length) :
    ∃ a b, p.env.tokens[m.value.start]? = some a ∧ p.env.tokens[m.value.stop - 1]? = some b ∧
      p.pos m = .ok ⟨a.startByte, b.endByte⟩ ∧
      p.originalText m = .ok (textBetween p.text a b) := by
  have h1 : m.value.start < p.env.tokens.length := by omega
  have h2 : m.value.stop - 1 < p.env.tokens.length := by omega
  obtain ⟨k, hk⟩ : ∃ k, m.value.stop = k + 1 := ⟨m.value.stop - 1, by omega⟩
  refine ⟨p.env.tokens[m.value.start], p.env.tokens[m.value.stop - 1], by simp [h1], by simp [h2], ?_⟩
  have hab := ordered_le hord (i := m.value.start) (j := m.value.stop - 1) (by omega)
    (List.getElem?_eq_getElem h1) (List.getElem?_eq_getElem h2)
  have hpos : p.pos m = .ok ⟨p.env.tokens[m.value.start].startByte, p.env.tokens[m.value.stop - 1].endByte⟩ := by
    have hc : columnToken p.env.tokens m.value.stop = .ok p.env.tokens[m.value.stop - 1] := by
      have hk' : k < p.env.tokens.length := by omega
      simp only [hk, columnToken, List.getElem?_eq_getElem hk', Out.ofIndex, Nat.add_sub_cancel]
    unfold Parsed.pos boundary
    rw [hc]
    simp only [columnToken, List.getElem?_eq_getElem h1, Out.ofIndex, Out.bind_ok, Out.pure_eq]
    rw [if_neg (by omega)]
  refine ⟨hpos, ?_⟩
  unfold Parsed.originalText
  rw [hpos]
  simp only [Out.bind_ok, sliceBytes]
  have hin := (hord.inside _ (List.getElem_mem h2)).2
  rw [if_pos ⟨hab, by omega⟩]
  rfl

theorem textBetween_prefix {text text' : Bytes} (hpre : text <+: text') {a b : Token} (hb : b.endByte ≤ text.length) :
    textBetween text' a b = textBetween text a b := by
  obtain ⟨l, rfl⟩ := hpre
  unfold textBetween
  rw [List.take_append_of_le_length hb]

/-- C21 for a node over at least one token: `OriginalText` is the matched text, if the text has no white space in
front. (Missing: texts with white space in front and nodes over zero tokens at the ends of the token list, for
which the claim is false.) -/
theorem C21_partial (p : Parsed) (text : Bytes) (m : Node)
    (hord : TokensOrdered text p.env.tokens)
    (hpre : text <+: p.text) (hpos : m.value.start < m.value.stop)
    (hle : m.value.stop ≤ p.env.tokens.length) :
    ∃ a b, p.env.tokens[m.value.start]? = some a ∧ p.env.tokens[m.value.stop - 1]? = some b ∧
      p.pos m = .ok ⟨a.startByte, b.endByte⟩ ∧
      p.originalText m = .ok (textBetween text a b) := by
  obtain ⟨a, b, ha, hb, hp, ho⟩ := C21_read p text m hord hpre.length_le hpos hle
  rw [textBetween_prefix hpre (hord.inside b (List.mem_of_getElem? hb)).2] at ho
  exact ⟨a, b, ha, hb, hp, ho⟩

theorem ForestOK.mem_le {env : Env} {L : Lang} : ∀ {ts : List Term} {a b ns},
    ForestOK env L ts a b ns → ∀ n ∈ ns, ∃ t a' b', TreeOK env L t a' b' n ∧ a ≤ a' ∧ b' ≤ b
  | _, _, _, [], _ => by simp
  | _, _, _, _ :: _, .cons h1 h2 => by
    intro n hn
    have l1 := h1.leaves.1
    have l2 := h2.leaves.1
    rcases List.mem_cons.1 hn with rfl | hn
    · exact ⟨_, _, _, h1, Nat.le_refl _, l2⟩
    · obtain ⟨t, a', b', h, h3, h4⟩ := h2.mem_le n hn
      exact ⟨t, a', b', h, by omega, h4⟩

theorem TreeOK.sub_le {env : Env} {L : Lang} {m n : Node} (hs : Node.Sub m n) :
    ∀ {t a b}, TreeOK env L t a b n → ∃ t a' b', TreeOK env L t a' b' m ∧ a ≤ a' ∧ b' ≤ b := by
  induction hs with
  | refl => intro t a b h; exact ⟨t, a, b, h, Nat.le_refl _, Nat.le_refl _⟩
  | @child n k hk _ ih =>
    intro t a b h
    cases h with
    | terminal h1 h2 h3 h4 h5 h6 h7 h8 => rw [h8] at hk; simp at hk
    | any h1 h2 h3 h4 h5 h6 h7 h8 h9 => rw [h9] at hk; simp at hk
    | nonterminal h1 h2 h3 h4 h5 h6 h7 h8 =>
      obtain ⟨_, _, _, h, h9, h10⟩ := h8.mem_le k hk
      obtain ⟨t', a', b', h', h11, h12⟩ := ih h
      exact ⟨t', a', b', h', by omega, by omega⟩
    | list h1 h2 h3 h4 h5 h6 h7 h8 =>
      obtain ⟨_, _, _, h, h9, h10⟩ := h8.mem_le k hk
      obtain ⟨t', a', b', h', h11, h12⟩ := ih h
      exact ⟨t', a', b', h', by omega, by omega⟩

/-- every node of a tree of a match over the first `j` tokens lies inside the token list -/
theorem RootOK.inside {p : Parsed} {S : String} {j : Nat} {n : Node}
    (hroot : RootOK p.env p.env.relaxedLang S j n) (hj : j ≤ p.env.tokens.length) :
    ∀ m, Node.Sub m n → m.value.start ≤ m.value.stop ∧ m.value.stop ≤ p.env.tokens.length := by
  intro m hsub
  obtain ⟨_, _, h2, h3, _, c0, h5, h6⟩ := hroot
  cases hsub with
  | refl => rw [h2, h3]; exact ⟨h6.leaves.1, hj⟩
  | child hk hs' =>
    rw [h5] at hk
    simp at hk
    subst hk
    obtain ⟨t, a, b, hok, _, h8⟩ := TreeOK.sub_le hs' h6
    rw [hok.span.1, hok.span.2]
    exact ⟨hok.leaves.1, by omega⟩

/-- without nullables every node of a tree covers at least one token -/
theorem RootOK.spans {p : Parsed} {S : String} {j : Nat} {n : Node} (hne : NoEmpty p.env)
    (hroot : RootOK p.env p.env.relaxedLang S j n) (hj : j ≤ p.env.tokens.length) :
    ∀ m, Node.Sub m n → m.value.start < m.value.stop ∧ m.value.stop ≤ p.env.tokens.length := by
  intro m hsub
  obtain ⟨_, _, h2, h3, _, c0, h5, h6⟩ := hroot
  have key : ∀ {t a b k}, TreeOK p.env p.env.relaxedLang t a b k → b ≤ p.env.tokens.length →
      k.value.start < k.value.stop ∧ k.value.stop ≤ p.env.tokens.length := by
    intro t a b k hk hb
    rw [hk.span.1, hk.span.2]
    obtain ⟨l1, l2⟩ := TreeOK.yields (L := p.env.relaxedLang) (fun A rb hd => ⟨rb, hd, rfl⟩) hk hb
    refine ⟨?_, hb⟩
    rcases Nat.lt_or_ge a b with hlt | hge
    · exact hlt
    · have : p.env.slice a b = [] := by
        rw [← List.length_eq_zero_iff, slice_length p.env hb]; omega
      rw [this] at l2
      have := hne.yields l2 rfl
      simp at this
  cases hsub with
  | refl =>
    have := key h6 hj
    rw [h6.span.1, h6.span.2] at this
    rw [h2, h3]
    exact this
  | child hk hs' =>
    rw [h5] at hk
    simp at hk
    subst hk
    obtain ⟨t, a, b, hok, _, h8⟩ := TreeOK.sub_le hs' h6
    exact key hok (by omega)

/-- C21 for nodes over zero tokens at token `i`: `Pos` panics at the beginning and at the end of the
token list, otherwise it is the empty range before token `i`. -/
theorem C21_empty_node (p : Parsed) (text : Bytes) (m : Node)
    (hord : TokensOrdered text p.env.tokens) (hz : m.value.start = m.value.stop) :
    (p.pos m = .panic ↔ m.value.start = 0 ∨ p.env.tokens.length ≤ m.value.start) ∧
    ∀ a, 0 < m.value.start → p.env.tokens[m.value.start]? = some a →
      p.pos m = .ok ⟨a.startByte, a.startByte⟩ := by
  unfold Parsed.pos boundary
  rw [← hz]
  cases hs : m.value.start with
  | zero =>
    refine ⟨?_, fun a h => by omega⟩
    simp only [columnToken, true_or, iff_true]
    cases h0 : p.env.tokens[0]? <;> simp [Out.ofIndex]
  | succ k =>
    simp only [columnToken]
    cases h1 : p.env.tokens[k+1]? with
    | none =>
      rw [List.getElem?_eq_none_iff] at h1
      simp [Out.ofIndex, h1]
    | some a =>
      have hlt : k + 1 < p.env.tokens.length := by
        rcases Nat.lt_or_ge (k+1) p.env.tokens.length with h | h
        · exact h
        · rw [List.getElem?_eq_none h] at h1; simp at h1
      have hk : k < p.env.tokens.length := by omega
      obtain ⟨_, ha⟩ := List.getElem?_eq_some_iff.1 h1
      have hsort := List.pairwise_iff_getElem.1 hord.sorted k (k+1) hk hlt (by omega)
      rw [ha] at hsort
      simp only [Out.ofIndex, Out.bind_ok, List.getElem?_eq_getElem hk, Out.pure_eq]
      constructor
      · simp; omega
      · intro a' _ ha'
        cases ha'
        congr 2
        split <;> omega

/-- the node covers no token, at the beginning or at the end of the token list -/
def Parsed.AtEdge (p : Parsed) (m : Node) : Prop :=
  m.value.start = m.value.stop ∧ (m.value.start = 0 ∨ p.env.tokens.length ≤ m.value.start)

/-- C21 for every node inside the token list: what `Pos` and `OriginalText` return, and when they panic. -/
theorem C21_node (p : Parsed) (text : Bytes) (m : Node) (hord : TokensOrdered text p.env.tokens)
    (hlen : text.length ≤ p.text.length)
    (hin : m.value.start ≤ m.value.stop ∧ m.value.stop ≤ p.env.tokens.length) :
    (m.value.start < m.value.stop ∧ ∃ a b, p.env.tokens[m.value.start]? = some a ∧
      p.env.tokens[m.value.stop - 1]? = some b ∧ p.pos m = .ok ⟨a.startByte, b.endByte⟩ ∧
      p.originalText m = .ok (textBetween p.text a b)) ∨
    (m.value.start = m.value.stop ∧ ¬ p.AtEdge m ∧ ∃ a, p.env.tokens[m.value.start]? = some a ∧
      p.pos m = .ok ⟨a.startByte, a.startByte⟩ ∧ p.originalText m = .ok []) ∨
    (p.AtEdge m ∧ p.pos m = .panic ∧ p.originalText m = .panic) := by
  rcases Nat.lt_or_ge m.value.start m.value.stop with hlt | hge
  · exact .inl ⟨hlt, C21_read p text m hord hlen hlt hin.2⟩
  · have hz : m.value.start = m.value.stop := by omega
    obtain ⟨h1, h2⟩ := C21_empty_node p text m hord hz
    by_cases he : m.value.start = 0 ∨ p.env.tokens.length ≤ m.value.start
    · have hp := h1.2 he
      refine .inr (.inr ⟨⟨hz, he⟩, hp, ?_⟩)
      unfold Parsed.originalText
      rw [hp]
      rfl
    · rw [not_or] at he
      have hlt : m.value.start < p.env.tokens.length := by omega
      have ha := List.getElem?_eq_getElem hlt
      have hp := h2 _ (by omega) ha
      refine .inr (.inl ⟨hz, fun h => h.2.elim he.1 he.2, _, ha, hp, ?_⟩)
      have hi := hord.inside _ (List.mem_of_getElem? ha)
      unfold Parsed.originalText
      rw [hp]
      simp only [Out.bind_ok, sliceBytes]
      rw [if_pos ⟨Nat.le_refl _, by omega⟩]
      simp

theorem tree_inside {p : Parsed} {flag : Bool} {f fuel : Nat} {ns : List Node}
    (hwf : p.env.WF) (ho : p.env.OrdOK) (hun : Unmixed p.env) (hany : AnyNamed p.env)
    (hpar : parse p.env flag f = some p.res) (h : TreesOf fuel p ns) :
    ∀ n ∈ ns, ∃ S ∈ p.env.starts, ∃ j ≤ p.env.tokens.length, RootOK p.env p.env.relaxedLang S j n := by
  intro n hn
  obtain ⟨S, hS, s, hs, hm, hroot⟩ := (C54_trees p flag f fuel ns hwf ho hun hany hpar h).1 n hn
  obtain ⟨S', _, j, hm', hj, _⟩ := C01_relaxed_partial p.env flag f p.res hwf ho hpar s hs
  rw [← hm'.2.2.2.2] at hj
  exact ⟨S, hS, _, hj, hroot⟩

/-- C21 for every node of every tree of a parse, for all grammars and all texts: a node over tokens has the bytes
at the offsets of its tokens, in the text given by the caller; a node over no token has the empty text, except at
the ends of the token list, where `Pos` and `OriginalText` panic. The tokens are those of the trimmed text `text`. -/
theorem C21_exact (p : Parsed) (flag : Bool) (f fuel : Nat) (ns : List Node) (text : Bytes)
    (hwf : p.env.WF) (ho : p.env.OrdOK) (hun : Unmixed p.env) (hany : AnyNamed p.env)
    (hpar : parse p.env flag f = some p.res) (h : TreesOf fuel p ns)
    (hord : TokensOrdered text p.env.tokens) (hlen : text.length ≤ p.text.length) :
    ∀ n ∈ ns, ∀ m, Node.Sub m n →
    (m.value.start < m.value.stop ∧ ∃ a b, p.env.tokens[m.value.start]? = some a ∧
      p.env.tokens[m.value.stop - 1]? = some b ∧ p.pos m = .ok ⟨a.startByte, b.endByte⟩ ∧
      p.originalText m = .ok (textBetween p.text a b)) ∨
    (m.value.start = m.value.stop ∧ ¬ p.AtEdge m ∧ ∃ a, p.env.tokens[m.value.start]? = some a ∧
      p.pos m = .ok ⟨a.startByte, a.startByte⟩ ∧ p.originalText m = .ok []) ∨
    (p.AtEdge m ∧ p.pos m = .panic ∧ p.originalText m = .panic) := by
  intro n hn m hm
  obtain ⟨S, hS, j, hj, hroot⟩ := tree_inside hwf ho hun hany hpar h n hn
  exact C21_node p text m hord hlen (hroot.inside hj m hm)

/-- C21 for every node of every tree of a parse that is not an empty node at an end of the token list, for texts
without white space in front. -/
theorem C21_trees_partial (p : Parsed) (flag : Bool) (f fuel : Nat) (ns : List Node) (text : Bytes)
    (hwf : p.env.WF) (ho : p.env.OrdOK) (hun : Unmixed p.env) (hany : AnyNamed p.env)
    (hpar : parse p.env flag f = some p.res) (h : TreesOf fuel p ns)
    (hord : TokensOrdered text p.env.tokens) (hpre : text <+: p.text) :
    ∀ n ∈ ns, ∀ m, Node.Sub m n → ¬ p.AtEdge m →
    (∃ a b, p.env.tokens[m.value.start]? = some a ∧ p.env.tokens[m.value.stop - 1]? = some b ∧
      m.value.start < m.value.stop ∧ p.originalText m = .ok (textBetween text a b)) ∨
    (m.value.start = m.value.stop ∧ p.originalText m = .ok []) := by
  intro n hn m hm he
  rcases C21_exact p flag f fuel ns text hwf ho hun hany hpar h hord hpre.length_le n hn m hm with
    ⟨h1, a, b, ha, hb, _, h2⟩ | ⟨h1, _, _, _, _, h2⟩ | ⟨h1, _⟩
  · rw [textBetween_prefix hpre (hord.inside b (List.mem_of_getElem? hb)).2] at h2
    exact .inl ⟨a, b, ha, hb, h1, h2⟩
  · exact .inr ⟨h1, h2⟩
  · exact absurd h1 he

/-- without nullables no node is at an edge -/
theorem RootOK.noEdge {p : Parsed} {S : String} {j : Nat} {n : Node} (hne : NoEmpty p.env)
    (hroot : RootOK p.env p.env.relaxedLang S j n) (hj : j ≤ p.env.tokens.length) :
    ∀ m, Node.Sub m n → ¬ p.AtEdge m := fun m hm he => by
  have := (hroot.spans hne hj m hm).1
  have := he.1
  omega

/-- `<s> = "a"` -/
def gA : Gram := { main := { name := "g", rules := [rl "s" [[tt "a"]]] }, includes := [] }

/-- the text " a" (space, a): trimming removes the space, the token `a` is at byte 0 of the trimmed text -/
def wSpace : World :=
  { wWorld [{ text := "a", type := .word, startByte := 0, endByte := 1 }] with
    trim := fun b => b.filter (· ≠ 32) }

/-- C21 fails: for the text " a" the text of the match is reported as " ". -/
theorem C21_false : ¬ C21_statement := by
  intro hall
  let toks : List Token := [{ text := "a", type := .word, startByte := 0, endByte := 1 }]
  have hwf : (envFor wSpace gA (some lA) toks ["s"] 0).WF := Env.checkWF_wf (by decide +kernel)
  have hproc : process wSpace gA "" [32, 97] = .ok (toks, some lA) := rfl
  have hord : TokensOrdered (wSpace.trim [32, 97]) toks :=
    ⟨by decide +kernel, by decide +kernel⟩
  have hOrd : wSpace.OrdOK := fun _ _ _ _ _ => List.Perm.refl _
  have hc : (match earleyParseCtx wSpace gA 20 "" [32, 97] ["s"], apiParse wSpace gA 20 "" [32, 97] ["s"] with
      | .ok p, .ok ns => ns.map (fun n => ((n.value.start, n.value.stop), p.originalText n))
      | _, _ => []) = [((0, 1), .ok [32])] := by decide +kernel
  cases hp : earleyParseCtx wSpace gA 20 "" [32, 97] ["s"] with
  | ok p =>
    cases hn : apiParse wSpace gA 20 "" [32, 97] ["s"] with
    | ok ns =>
      rw [hp, hn] at hc
      cases ns with
      | nil => simp at hc
      | cons n t =>
        simp only [List.map_cons, List.cons.injEq, Prod.mk.injEq] at hc
        have := hall wSpace gA 20 "" [32, 97] ["s"] toks (some lA) p (n :: t) n n hproc hord hOrd hwf hp hn
          List.mem_cons_self Node.Sub.refl
        rcases this with ⟨a, b, ha, hb, _, hot⟩ | ⟨h1, _⟩
        · rw [hc.1.2] at hot
          rw [hc.1.1.1] at ha
          rw [hc.1.1.2] at hb
          simp [toks] at ha hb
          subst ha; subst hb
          simp [textBetween, wSpace] at hot
        · rw [hc.1.1.1, hc.1.1.2] at h1; simp at h1
    | err => rw [hp, hn] at hc; simp at hc
    | panic => rw [hp, hn] at hc; simp at hc
    | div => rw [hp, hn] at hc; simp at hc
  | err => rw [hp] at hc; simp at hc
  | panic => rw [hp] at hc; simp at hc
  | div => rw [hp] at hc; simp at hc

/-- C21 fails for empty nodes too: `Pos` of the tree returned for `<s> = (list<n>{0,2})` on the text
`a` panics. -/
theorem C21_pos_panics :
    (match earleyParseCtx (wWorld [tk "a"]) gEmptyList 20 "" [97] ["s"],
      apiParse (wWorld [tk "a"]) gEmptyList 20 "" [97] ["s"] with
      | .ok p, .ok ns => ns.map (fun n => p.pos n)
      | _, _ => []) = [.panic] := by decide +kernel

/-- non-vacuity of `C21_partial`, on the text "a" -/
example : TokensOrdered [97] [{ text := "a", type := .word, startByte := 0, endByte := 1 }] ∧
    (match earleyParseCtx wSpace gA 20 "" [97] ["s"], apiParse wSpace gA 20 "" [97] ["s"] with
      | .ok p, .ok ns => ns.map (fun n => ((n.value.start, n.value.stop), p.originalText n))
      | _, _ => []) = [((0, 1), .ok [97])] :=
  ⟨⟨by decide +kernel, by decide +kernel⟩, by decide +kernel⟩

end Fmr
