import Verif.Spec.Moved
import Verif.Props.TextTrees

/-!
# C96: rules can be moved between files

What the parse calls find depends on the alternatives that are written, and not on how they are spread over files, their order
or repetitions.
-/

namespace Fmr

section
variable {ds ds' : List Def} {F F' : Files} {I I' : String → Prop}

theorem TextNull.moved {annot : String → Option (List Token)} {doc : Source}
    (h : ∀ A b, wholeWritten ds F I A b → wholeWritten ds' F' I' A b) {t : Term} (ht : TextNull ds F I annot doc t) :
    TextNull ds' F' I' annot doc t := by
  induction ht with
  | literal h1 h2 => exact .literal h1 h2
  | rule h1 h2 _ ih => exact .rule h1 (h _ _ h2) ih
  | document h1 h2 => exact .document h1 h2
  | any h1 h2 h3 h4 h5 => exact .any h1 (h _ _ h2) h3 h4 h5
  | list h1 h2 h3 h4 h5 h6 _ ih => exact .list h1 (h _ _ h2) h3 h4 h5 h6 ih

theorem textNull_same {annot : String → Option (List Token)} {doc : Source}
    (h : ∀ A b, wholeWritten ds F I A b ↔ wholeWritten ds' F' I' A b) (t : Term) :
    TextNull ds F I annot doc t ↔ TextNull ds' F' I' annot doc t :=
  ⟨TextNull.moved fun A b => (h A b).1, TextNull.moved fun A b => (h A b).2⟩

theorem textEnds_same {annot : String → Option (List Token)} {doc : Source}
    (h : ∀ A b, wholeWritten ds F I A b ↔ wholeWritten ds' F' I' A b) (d : Nat) (t : Term) :
    TextEnds ds F I annot doc d t ↔ TextEnds ds' F' I' annot doc d t := by
  induction d generalizing t with
  | zero => exact Iff.rfl
  | succ d ih => simp only [TextEnds, ih, h, textNull_same h]

theorem WholeSafe.moved {annot : String → Option (List Token)} {doc : Source} {starts : List String}
    (h : ∀ A b, wholeWritten ds F I A b ↔ wholeWritten ds' F' I' A b) (hs : WholeSafe ds F I annot doc starts) :
    WholeSafe ds' F' I' annot doc starts := by
  obtain ⟨h1, h2⟩ := hs
  simp only [h, textNull_same h, textEnds_same h] at h1 h2
  exact ⟨h1, h2⟩

theorem WholeUniform.moved (h : ∀ A b, wholeWritten ds F I A b ↔ wholeWritten ds' F' I' A b) (hu : WholeUniform ds F I) :
    WholeUniform ds' F' I' :=
  fun A b A' b' h1 h2 => hu A b A' b' ((h _ _).2 h1) ((h _ _).2 h2)

theorem wholeLiteral_same (h : ∀ A b, wholeWritten ds F I A b ↔ wholeWritten ds' F' I' A b) (t : Term) :
    wholeLiteral ds F I t ↔ wholeLiteral ds' F' I' t := by
  simp only [wholeLiteral, h]

theorem wholeSource_iff {annot : String → Option (List Token)} {doc : Source} {A : String} {ts : List Term} :
    wholeSource ds F I annot doc A ts ↔ (∃ b, wholeWritten ds F I A b ∧ ts = b.terms.flatMap (readTerm annot)) ∨ doc A ts := by
  constructor
  · rintro (⟨b, hb, e⟩ | ⟨hi, b, hb, e⟩ | h)
    · exact .inl ⟨b, .inl hb, e⟩
    · exact .inl ⟨b, .inr ⟨_, hi, hb⟩, e⟩
    · exact .inr h
  · rintro (⟨b, hb | ⟨p, hi, hb⟩, e⟩ | h)
    · exact .main ⟨b, hb, e⟩
    · exact .included hi ⟨b, hb, e⟩
    · exact .document h

theorem wholeSource_same {annot : String → Option (List Token)} {doc : Source}
    (h : ∀ A b, wholeWritten ds F I A b ↔ wholeWritten ds' F' I' A b) : wholeSource ds F I annot doc = wholeSource ds' F' I' annot doc := by
  funext A ts
  rw [propext wholeSource_iff, propext wholeSource_iff]
  simp only [h]

theorem wholeAlts_iff {doc : String → RuleBody → Prop} {A : String} {syms : List Sym} {f : Option FMR} :
    wholeAlts ds F I doc A syms f ↔ (∃ b, wholeWritten ds F I A b ∧ syms = b.terms.map writtenSym ∧ f = b.f) ∨
      ∃ b, doc A b ∧ syms = b.terms.map .token ∧ f = b.f := by
  constructor
  · rintro (h | h)
    · exact .inl ⟨_, h, rfl, rfl⟩
    · exact .inr ⟨_, h, rfl, rfl⟩
  · rintro (⟨b, h, rfl, rfl⟩ | ⟨b, h, rfl, rfl⟩)
    · exact .written h
    · exact .document h

theorem WholeFit.moved {w : RefineWorld} {src : Source} {starts : List String}
    (h : ∀ A b, wholeWritten ds F I A b ↔ wholeWritten ds' F' I' A b) (ha : (∃ p, I' p) → LiteralsApart ds F I w) (hf : WholeFit ds F I w src starts) :
    WholeFit ds' F' I' w src starts := by
  obtain ⟨h1, -, h3⟩ := hf
  simp only [LiteralsApart, wholeLiteral_same h] at h1 ha
  exact ⟨h1, ha, h3⟩

theorem wholeGrammar_same {ρ ρ' : List (String × String)} {rw : RefineWorld} {w : World} {d : Doc} (h : SameText ds F I ρ ds' F' I' ρ') :
    wholeGrammar ds ρ F I rw w d = wholeGrammar ds' ρ' F' I' rw w d := by
  have e : wholeRegexps F I ρ = wholeRegexps F' I' ρ' := by
    funext k s
    exact propext (h.regexps k s)
  have ea : wholeAlts ds F I (DocAlt w.find (wholeRegexps F I ρ) d) = wholeAlts ds' F' I' (DocAlt w.find (wholeRegexps F' I' ρ') d) := by
    funext A syms f
    rw [propext wholeAlts_iff, propext wholeAlts_iff, e]
    simp only [h.alternatives]
  rw [wholeGrammar, wholeGrammar, ea]

end

/-! ## two results for the same matches -/

section
variable {D : String → Nat → Nat → Prop} {T T' : Nat → String → Nat → Node → Prop} {starts : List String} {len : Nat}

theorem AllMatches.mem_iff {groups : List (Nat × List Node)} (h : AllMatches D T starts len groups) (i : Nat) :
    i ∈ groups.map (·.1) ↔ ∃ k, SpanMatch D starts len i k := by
  constructor
  · intro hi
    obtain ⟨a, ha, rfl⟩ := List.mem_map.1 hi
    obtain ⟨n, hn⟩ := List.exists_mem_of_ne_nil _ (h.nonempty a ha)
    obtain ⟨S, hS, k, -, -, h3⟩ := h.trees a ha n hn
    exact ⟨k, h3⟩
  · rintro ⟨k, h1, h2, S, hS, h3⟩
    obtain ⟨a, ha, e, -⟩ := h.complete S hS i k h1 h2 h3
    exact e ▸ List.mem_map_of_mem ha

theorem ascending_eq {l l' : List Nat} (h : l.Pairwise (· < ·)) (h' : l'.Pairwise (· < ·)) (hm : ∀ i, i ∈ l ↔ i ∈ l') : l = l' :=
  List.Perm.eq_of_pairwise (fun _ _ _ _ h1 h2 => absurd (Nat.lt_trans h1 h2) (Nat.lt_irrefl _)) h h'
    ((List.perm_ext_iff_of_nodup (h.imp (fun h => Nat.ne_of_lt h)) (h'.imp (fun h => Nat.ne_of_lt h))).2 hm)

theorem AllMatches.same {groups groups' : List (Nat × List Node)} (h : AllMatches D T starts len groups)
    (h' : AllMatches D T' starts len groups') : groups.map (·.1) = groups'.map (·.1) :=
  ascending_eq h.ascending h'.ascending fun i => by rw [h.mem_iff, h'.mem_iff]

/-- the segments of a greedy scan are determined, from any token on -/
theorem greedy_same {P : Nat → Nat → Prop} {l l' : List (Nat × Nat)}
    (hd : l.Pairwise (fun a b => a.1 + a.2 ≤ b.1)) (hd' : l'.Pairwise (fun a b => a.1 + a.2 ≤ b.1)) (b : Nat)
    (hb : ∀ a ∈ l, b ≤ a.1) (hb' : ∀ a ∈ l', b ≤ a.1)
    (hp : ∀ a ∈ l, 0 < a.2) (hp' : ∀ a ∈ l', 0 < a.2)
    (hl : ∀ a ∈ l, P a.1 a.2 ∧ ∀ k, P a.1 k → k ≤ a.2) (hl' : ∀ a ∈ l', P a.1 a.2 ∧ ∀ k, P a.1 k → k ≤ a.2)
    (hr : ∀ i k, b ≤ i → (∀ a ∈ l, ¬ (a.1 ≤ i ∧ i < a.1 + a.2)) → ¬ P i k)
    (hr' : ∀ i k, b ≤ i → (∀ a ∈ l', ¬ (a.1 ≤ i ∧ i < a.1 + a.2)) → ¬ P i k) : l = l' := by
  induction l generalizing l' b with
  | nil =>
    cases l' with
    | nil => rfl
    | cons a' l' =>
      have := (hl' a' List.mem_cons_self).1
      exact absurd this (hr _ _ (hb' a' List.mem_cons_self) (by simp))
  | cons a l ih =>
    cases l' with
    | nil =>
      have := (hl a List.mem_cons_self).1
      exact absurd this (hr' _ _ (hb a List.mem_cons_self) (by simp))
    | cons a' l' =>
      rw [List.pairwise_cons] at hd hd'
      have hle : a.1 ≤ a'.1 := by
        by_contra hlt
        refine hr a'.1 a'.2 (hb' a' List.mem_cons_self) ?_ (hl' a' List.mem_cons_self).1
        rintro c hc ⟨h1, -⟩
        rcases List.mem_cons.1 hc with rfl | hc
        · omega
        · have := hd.1 c hc
          omega
      have hle' : a'.1 ≤ a.1 := by
        by_contra hlt
        refine hr' a.1 a.2 (hb a List.mem_cons_self) ?_ (hl a List.mem_cons_self).1
        rintro c hc ⟨h1, -⟩
        rcases List.mem_cons.1 hc with rfl | hc
        · omega
        · have := hd'.1 c hc
          omega
      have e1 : a.1 = a'.1 := Nat.le_antisymm hle hle'
      obtain ⟨p1, p2⟩ := hl a List.mem_cons_self
      obtain ⟨p1', p2'⟩ := hl' a' List.mem_cons_self
      have e2 : a.2 = a'.2 := Nat.le_antisymm (p2' _ (e1 ▸ p1)) (p2 _ (e1 ▸ p1'))
      have e : a = a' := Prod.ext e1 e2
      subst e
      have hpos := hp a List.mem_cons_self
      congr 1
      refine ih hd.2 hd'.2 (a.1 + a.2) hd.1 hd'.1 (fun c hc => hp c (List.mem_cons_of_mem _ hc))
        (fun c hc => hp' c (List.mem_cons_of_mem _ hc)) (fun c hc => hl c (List.mem_cons_of_mem _ hc))
        (fun c hc => hl' c (List.mem_cons_of_mem _ hc)) (fun i k hi hn => hr i k ?_ ?_) (fun i k hi hn => hr' i k ?_ ?_)
      · have := hb a List.mem_cons_self
        omega
      · intro c hc
        rcases List.mem_cons.1 hc with rfl | hc
        · omega
        · exact hn c hc
      · have := hb a List.mem_cons_self
        omega
      · intro c hc
        rcases List.mem_cons.1 hc with rfl | hc
        · omega
        · exact hn c hc

theorem GreedyMatches.same {groups groups' : List ((Nat × Nat) × List Node)} (h : GreedyMatches D T starts len groups)
    (h' : GreedyMatches D T' starts len groups') : groups.map (·.1) = groups'.map (·.1) := by
  refine greedy_same (P := SpanMatch D starts len) h.disjoint h'.disjoint 0 (fun _ _ => Nat.zero_le _) (fun _ _ => Nat.zero_le _) ?_ ?_ ?_ ?_ ?_ ?_
  · intro a ha; obtain ⟨g, hg, rfl⟩ := List.mem_map.1 ha; exact (h.nonempty g hg).1
  · intro a ha; obtain ⟨g, hg, rfl⟩ := List.mem_map.1 ha; exact (h'.nonempty g hg).1
  · intro a ha; obtain ⟨g, hg, rfl⟩ := List.mem_map.1 ha; exact h.longest g hg
  · intro a ha; obtain ⟨g, hg, rfl⟩ := List.mem_map.1 ha; exact h'.longest g hg
  · intro i k _ hn; exact h.rest i k fun g hg => hn _ (List.mem_map_of_mem hg)
  · intro i k _ hn; exact h'.rest i k fun g hg => hn _ (List.mem_map_of_mem hg)

end

/-- what the four calls find, for a source of productions and trees of a grammar -/
def CallsFind (w : World) (src : Source) (G : TextGrammar) (N : String → String → Prop) (context : String) (text : Bytes)
    (starts : List String) (d : Doc) (fuel : Nat) (g : Gram) : Prop :=
    (∃ ns, apiParse w g fuel context text starts = .ok ns ∧ (ns ≠ [] ↔ ∃ k, TextMatch w src starts d.words k) ∧
      ∀ t ∈ ns, ∃ S ∈ starts, ∃ k, TextRoot G N d.words S k t ∧ TextMatch w src starts d.words k ∧
        ∀ k', TextMatch w src starts d.words k' → k' ≤ k) ∧
    (∃ ns, apiParseAny w g fuel context text starts = .ok ns ∧
      FirstMatches (TextSpan w src d.words) (fun i => TextRoot G N (d.words.drop i)) starts d.words.length ns) ∧
    (∃ groups : List (Nat × List Node), apiExtractAll w g fuel context text starts = .ok (groups.map (·.2)).flatten ∧
      AllMatches (TextSpan w src d.words) (fun i => TextRoot G N (d.words.drop i)) starts d.words.length groups) ∧
    ((∀ S ∈ starts, ¬ SourcesDerive (terminalMatch w.lower w.registry) [src] S []) →
      ∃ groups : List ((Nat × Nat) × List Node),
        apiExtractMaxAll w g fuel context text starts = .ok (groups.map (·.2)).flatten ∧
        GreedyMatches (TextSpan w src d.words) (fun i => TextRoot G N (d.words.drop i)) starts d.words.length groups)

/-- two grammars for the same productions find the same -/
theorem callsFind_same {w : World} {src : Source} {G : TextGrammar} {N N' : String → String → Prop} {context : String} {text : Bytes}
    {starts : List String} {d : Doc} {fuel : Nat} {g g' : Gram} (h1 : CallsFind w src G N context text starts d fuel g)
    (h2 : CallsFind w src G N' context text starts d fuel g') :
    (∃ ns ns', apiParse w g fuel context text starts = .ok ns ∧ apiParse w g' fuel context text starts = .ok ns' ∧
      (ns = [] ↔ ns' = []) ∧ ∃ k, (∀ t ∈ ns, ∃ S ∈ starts, TextRoot G N d.words S k t) ∧
        ∀ t ∈ ns', ∃ S ∈ starts, TextRoot G N' d.words S k t) ∧
    (∃ ns ns', apiParseAny w g fuel context text starts = .ok ns ∧ apiParseAny w g' fuel context text starts = .ok ns' ∧
      (ns = [] ↔ ns' = []) ∧ ∃ i k, (∀ t ∈ ns, ∃ S ∈ starts, TextRoot G N (d.words.drop i) S k t) ∧
        ∀ t ∈ ns', ∃ S ∈ starts, TextRoot G N' (d.words.drop i) S k t) ∧
    (∃ gs gs' : List (Nat × List Node), apiExtractAll w g fuel context text starts = .ok (gs.map (·.2)).flatten ∧
      apiExtractAll w g' fuel context text starts = .ok (gs'.map (·.2)).flatten ∧ gs.map (·.1) = gs'.map (·.1) ∧
      ∀ a ∈ gs, ∀ a' ∈ gs', a.1 = a'.1 → ∀ S ∈ starts, ∀ k,
        (∃ t ∈ a.2, TextRoot G N (d.words.drop a.1) S k t) ↔ ∃ t ∈ a'.2, TextRoot G N' (d.words.drop a.1) S k t) ∧
    ((∀ S ∈ starts, ¬ SourcesDerive (terminalMatch w.lower w.registry) [src] S []) →
      ∃ gs gs' : List ((Nat × Nat) × List Node), apiExtractMaxAll w g fuel context text starts = .ok (gs.map (·.2)).flatten ∧
        apiExtractMaxAll w g' fuel context text starts = .ok (gs'.map (·.2)).flatten ∧ gs.map (·.1) = gs'.map (·.1) ∧
        (∀ a ∈ gs, a.2 ≠ [] ∧ ∀ t ∈ a.2, ∃ S ∈ starts, TextRoot G N (d.words.drop a.1.1) S a.1.2 t) ∧
        ∀ a ∈ gs', a.2 ≠ [] ∧ ∀ t ∈ a.2, ∃ S ∈ starts, TextRoot G N' (d.words.drop a.1.1) S a.1.2 t) := by
  obtain ⟨⟨p, p1, p2, p3⟩, ⟨q, q1, q2⟩, ⟨gs, r1, r2⟩, m⟩ := h1
  obtain ⟨⟨p', p1', p2', p3'⟩, ⟨q', q1', q2'⟩, ⟨gs', r1', r2'⟩, m'⟩ := h2
  refine ⟨⟨p, p', p1, p1', ?_, ?_⟩, ⟨q, q', q1, q1', ?_, ?_⟩, ⟨gs, gs', r1, r1', r2.same r2', ?_⟩, fun hne => ?_⟩
  · rw [← not_iff_not]
    exact p2.trans p2'.symm
  · by_cases he : p = []
    · have he' : p' = [] := by
        by_contra hc
        exact p2.2 (p2'.1 hc) he
      subst he he'
      exact ⟨0, by simp, by simp⟩
    · obtain ⟨t0, ht0⟩ := List.exists_mem_of_ne_nil _ he
      obtain ⟨_, _, k, -, hk, hmax⟩ := p3 t0 ht0
      refine ⟨k, fun t ht => ?_, fun t ht => ?_⟩
      · obtain ⟨S, hS, k', g1, g2, g3⟩ := p3 t ht
        obtain rfl : k = k' := Nat.le_antisymm (g3 _ hk) (hmax _ g2)
        exact ⟨S, hS, g1⟩
      · obtain ⟨S, hS, k', g1, g2, g3⟩ := p3' t ht
        obtain rfl : k = k' := Nat.le_antisymm (g3 _ hk) (hmax _ g2)
        exact ⟨S, hS, g1⟩
  · rw [← not_iff_not]
    exact q2.found.trans q2'.found.symm
  · by_cases he : q = []
    · have he' : q' = [] := by
        by_contra hc
        exact q2.found.2 (q2'.found.1 hc) he
      subst he he'
      exact ⟨0, 0, by simp, by simp⟩
    · obtain ⟨t0, ht0⟩ := List.exists_mem_of_ne_nil _ he
      obtain ⟨_, _, i, k, -, -, hk, hmax⟩ := q2.trees t0 ht0
      have key : ∀ i' k', SpanMatch (TextSpan w src d.words) starts d.words.length i' k' →
          (∀ i'' k'', SpanMatch (TextSpan w src d.words) starts d.words.length i'' k'' → i' ≤ i'' ∧ (i'' = i' → k'' ≤ k')) → i' = i ∧ k' = k := by
        intro i' k' g1 g2
        have a1 := g2 _ _ hk
        have a2 := hmax _ _ g1
        have e : i' = i := Nat.le_antisymm a1.1 a2.1
        exact ⟨e, Nat.le_antisymm (a2.2 e) (a1.2 e.symm)⟩
      refine ⟨i, k, fun t ht => ?_, fun t ht => ?_⟩
      · obtain ⟨S, hS, i', k', g1, -, g2, g3⟩ := q2.trees t ht
        obtain ⟨rfl, rfl⟩ := key _ _ g2 g3
        exact ⟨S, hS, g1⟩
      · obtain ⟨S, hS, i', k', g1, -, g2, g3⟩ := q2'.trees t ht
        obtain ⟨rfl, rfl⟩ := key _ _ g2 g3
        exact ⟨S, hS, g1⟩
  · intro a ha a' ha' e S hS k
    have one : ∀ {T : Nat → String → Nat → Node → Prop} {g : List (Nat × List Node)},
        AllMatches (TextSpan w src d.words) T starts d.words.length g → ∀ x ∈ g, ∀ y ∈ g, x.1 = y.1 → x = y := by
      intro T g hg x hx y hy e
      have hnd : (g.map (·.1)).Nodup := hg.ascending.imp fun h => Nat.ne_of_lt h
      exact List.inj_on_of_nodup_map hnd hx hy e
    have root : ∀ {M M' : String → String → Prop} {g g' : List (Nat × List Node)},
        AllMatches (TextSpan w src d.words) (fun i => TextRoot G M (d.words.drop i)) starts d.words.length g →
        AllMatches (TextSpan w src d.words) (fun i => TextRoot G M' (d.words.drop i)) starts d.words.length g' →
        ∀ x ∈ g, ∀ x' ∈ g', x.1 = x'.1 → (∃ t ∈ x.2, TextRoot G M (d.words.drop x.1) S k t) →
          ∃ t ∈ x'.2, TextRoot G M' (d.words.drop x.1) S k t := by
      intro M M' g g' hg hg' x hx x' hx' e ⟨t, ht, hroot⟩
      obtain ⟨S', hS', k', g1, g2, g3⟩ := hg.trees x hx t ht
      have hk : k' = k := by
        have a := hroot.2.2.2.1
        have b := g1.2.2.2.1
        rw [← a, ← b]
      have hSS : S' = S := by
        have a := hroot.2.2.2.2.1
        have b := g1.2.2.2.2.1
        rw [a] at b
        simpa [startBody] using b.symm
      subst hk hSS
      obtain ⟨y, hy, e', u, hu, hr⟩ := hg'.complete S' hS' x.1 k' g3.1 g3.2.1 g2
      obtain rfl := one hg' x' hx' y hy (by rw [← e, e'])
      exact ⟨u, hu, hr⟩
    constructor
    · exact root r2 r2' a ha a' ha' e
    · intro h
      have := root r2' r2 a' ha' a ha e.symm (by rw [← e]; exact h)
      rwa [← e] at this
  · obtain ⟨gs, m1, m2⟩ := m hne
    obtain ⟨gs', m1', m2'⟩ := m' hne
    refine ⟨gs, gs', m1, m1', m2.same m2', fun a ha => ⟨(m2.nonempty a ha).2, fun t ht => ?_⟩, fun a ha => ⟨(m2'.nonempty a ha).2, fun t ht => ?_⟩⟩
    · obtain ⟨S, hS, h, -⟩ := m2.trees a ha t ht
      exact ⟨S, hS, h⟩
    · obtain ⟨S, hS, h, -⟩ := m2'.trees a ha t ht
      exact ⟨S, hS, h⟩

section
variable {lw lw' : LoadWorld} (hlw : lw.lex.OK) (hlw' : lw'.lex.OK) (href : lw.ref = lw'.ref)
  {F F' : Files} {ds ds' : List Def} {ρ ρ' : List (String × String)} {I I' : String → Prop} {ld ld' : Loaded}
  (hload : LoadedFrom lw F ds ρ I ld) (hload' : LoadedFrom lw' F' ds' ρ' I' ld') (hsame : SameText ds F I ρ ds' F' I' ρ')
  (w : World) (ho : w.OrdOK) (context : String) (text : Bytes) (starts : List String) (hs : starts ≠ [])
  (d : Doc) (ht : TextRead w context text d) (hd : DocFit w (wholeRegexps F I ρ) d)
  (src : Source) (hsrc : src = wholeSource ds F I lw.ref.annot (docSource w.find (wholeRegexps F I ρ) d))
  (hfit : WholeFit ds F I lw.ref src starts) (hapart : (∃ p, I' p) → LiteralsApart ds F I lw.ref)
  (G : TextGrammar) (hG : G = wholeGrammar ds ρ F I lw.ref w d) (hu : WholeUniform ds F I)
  (hsafe : WholeSafe ds F I lw.ref.annot (docSource w.find (wholeRegexps F I ρ) d) starts)
include hlw hlw' href hload hload' hsame ho hs ht hd hsrc hfit hapart hG hu hsafe

/-- C96: two sets of files that say the same give the same matches in all four calls: at the same places, of the same length and
for the same start rules, with trees that are all derivation trees of the same texts. Missing for a full statement: grammars where
optional parts are placed so that the parser loses them (`WholeSafe`), where ranges differ (`WholeUniform`), or where two literals
have the same words and there are several files (`LiteralsApart`; false without, see `C96_false`). So nothing is asked of literals
if both grammars are single files. -/
theorem C96_calls_partial : ∃ names names', LiteralNames names ∧ LiteralNames names' ∧ ∃ n, ∀ fuel ≥ n,
    (∃ ns ns', apiParse w ld.gram fuel context text starts = .ok ns ∧ apiParse w ld'.gram fuel context text starts = .ok ns' ∧
      (ns = [] ↔ ns' = []) ∧ ∃ k, (∀ t ∈ ns, ∃ S ∈ starts, TextRoot G names d.words S k t) ∧
        ∀ t ∈ ns', ∃ S ∈ starts, TextRoot G names' d.words S k t) ∧
    (∃ ns ns', apiParseAny w ld.gram fuel context text starts = .ok ns ∧ apiParseAny w ld'.gram fuel context text starts = .ok ns' ∧
      (ns = [] ↔ ns' = []) ∧ ∃ i k, (∀ t ∈ ns, ∃ S ∈ starts, TextRoot G names (d.words.drop i) S k t) ∧
        ∀ t ∈ ns', ∃ S ∈ starts, TextRoot G names' (d.words.drop i) S k t) ∧
    (∃ gs gs' : List (Nat × List Node), apiExtractAll w ld.gram fuel context text starts = .ok (gs.map (·.2)).flatten ∧
      apiExtractAll w ld'.gram fuel context text starts = .ok (gs'.map (·.2)).flatten ∧ gs.map (·.1) = gs'.map (·.1) ∧
      ∀ a ∈ gs, ∀ a' ∈ gs', a.1 = a'.1 → ∀ S ∈ starts, ∀ k,
        (∃ t ∈ a.2, TextRoot G names (d.words.drop a.1) S k t) ↔ ∃ t ∈ a'.2, TextRoot G names' (d.words.drop a.1) S k t) ∧
    ((∀ S ∈ starts, ¬ SourcesDerive (terminalMatch w.lower w.registry) [src] S []) →
      ∃ gs gs' : List ((Nat × Nat) × List Node), apiExtractMaxAll w ld.gram fuel context text starts = .ok (gs.map (·.2)).flatten ∧
        apiExtractMaxAll w ld'.gram fuel context text starts = .ok (gs'.map (·.2)).flatten ∧ gs.map (·.1) = gs'.map (·.1) ∧
        (∀ a ∈ gs, a.2 ≠ [] ∧ ∀ t ∈ a.2, ∃ S ∈ starts, TextRoot G names (d.words.drop a.1.1) S a.1.2 t) ∧
        ∀ a ∈ gs', a.2 ≠ [] ∧ ∀ t ∈ a.2, ∃ S ∈ starts, TextRoot G names' (d.words.drop a.1.1) S a.1.2 t) := by
  have hre : wholeRegexps F' I' ρ' = wholeRegexps F I ρ := by
    funext k s
    exact propext (hsame.regexps k s).symm
  obtain ⟨N, hN, n1, h1⟩ := C76_calls_partial hlw hload w context text starts d ht hd src hsrc hfit G hG hu hsafe hs ho
  obtain ⟨N', hN', n2, h2⟩ := C76_calls_partial hlw' hload' w context text starts d ht (hre.symm ▸ hd) src
    (by rw [hsrc, hre, ← href, wholeSource_same hsame.alternatives]) (href ▸ hfit.moved hsame.alternatives hapart) G
    (by rw [hG, ← href, wholeGrammar_same hsame]) (hu.moved hsame.alternatives)
    (by rw [hre, ← href]; exact hsafe.moved hsame.alternatives) hs ho
  refine ⟨N, N', hN, hN', max n1 n2, fun fuel hf => ?_⟩
  exact callsFind_same (h1 fuel (by omega)) (h2 fuel (by omega))

end

end Fmr
