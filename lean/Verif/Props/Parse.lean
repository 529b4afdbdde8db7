import Verif.Proofs.NullSafe
import Verif.Props.Witness
import Verif.Spec.Final

/-!
# C01 – C09: the chart parser
-/

namespace Fmr

/-! ## helpers -/

theorem parse_chart {env : Env} {flag fuel r} (hs : Started env) (h : parse env flag fuel = some r) :
    chartOf env fuel = some r.chart ∧ r.finals = finalsOf flag r.chart := by
  unfold parse at h
  rw [if_neg hs] at h
  cases hc : chartOf env fuel with
  | none => rw [hc] at h; simp at h
  | some chart => rw [hc] at h; simp at h; subst h; exact ⟨rfl, rfl⟩

theorem parse_nostart {env : Env} {flag fuel r} (hs : env.starts = [])
    (h : parse env flag fuel = some r) : r.finals = [] := by
  unfold parse at h
  rw [if_pos hs] at h
  simp at h; subst h; rfl

theorem mem_finalsAll {chart : List (List TState)} {s : TState} :
    s ∈ finalsAll chart ↔ InChart chart s ∧ s.isFinal = true := by
  unfold finalsAll InChart
  simp only [List.mem_flatMap, List.mem_reverse, List.mem_filter]
  constructor
  · rintro ⟨c, hc, hs, hf⟩; exact ⟨⟨c, hc, hs⟩, hf⟩
  · rintro ⟨⟨c, hc, hs⟩, hf⟩; exact ⟨c, hc, hs, hf⟩

theorem finalsOf_sub {flag chart} {s : TState} (h : s ∈ finalsOf flag chart) : s ∈ finalsAll chart := by
  unfold finalsOf at h
  split at h
  · exact List.mem_of_mem_take h
  · exact h

theorem inChart_item {env : Env} (ho : env.OrdOK) {fuel chart} (h : chartOf env fuel = some chart)
    {s : TState} (hs : InChart chart s) : ∃ i, Item env i s := by
  obtain ⟨col, hc, hm⟩ := hs
  obtain ⟨k, hk⟩ := List.getElem?_of_mem hc
  exact ⟨k, (chartOf_inv ho h).1 k col hk s hm⟩

/-- the model's test for final states agrees with the specification on chart states -/
theorem isFinal_iff_match {env : Env} (hwf : env.WF) {i : Nat} {s : TState} (hi : Item env i s) :
    s.isFinal = true ↔ ∃ S ∈ env.starts, MatchFor S i s := by
  constructor
  · intro hf
    obtain ⟨S, hS, h0, hd, hrb, _⟩ := hi.final hwf hf
    have hv : s.term.value = gammaRule := by
      unfold TState.isFinal at hf; simp at hf; exact hf.1
    exact ⟨S, hS, hv, by rw [hrb]; rfl, h0, hd, (hi.basic hwf).stop⟩
  · rintro ⟨S, hS, hv, hrb, h0, hd, hstop⟩
    have hb := hi.basic hwf
    have hrb' : ∃ rb, s.rb = some rb ∧ rb.terms = [{ value := S, type := .nonterminal, «meta» := .nil }] := by
      cases h : s.rb with
      | none => simp [h] at hrb
      | some rb => exact ⟨rb, rfl, by simpa [h] using hrb⟩
    obtain ⟨rb, hrb', ht⟩ := hrb'
    have hk : s.term.type = .nonterminal := by
      rcases hb.kind with h | h | h
      · exact h
      · rw [(hb.any h).1] at hrb'; simp at hrb'
      · rw [(hb.list h).1] at hrb'; simp at hrb'
    unfold TState.isFinal
    have hc : s.isCompleted = true := by
      rw [completed_nt (by simp [hk]) (by simp [hk])]
      simp [TState.bodyTerms, hrb', ht, hd]
    simp [hc, hv, gammaRule]

/-! ## C01 -/

/-- C01, full statement. -/
def C01_statement : Prop :=
  ∀ (env : Env) (flag : Bool) (fuel : Nat) (r : ParseResult), env.WF → env.OrdOK →
    parse env flag fuel = some r →
    ∀ s ∈ r.finals, ∃ S ∈ env.starts, ∃ j, MatchFor S j s ∧ j ≤ env.tokens.length ∧
      Derives env S (env.tokens.take j)

/-- C01 with the relaxed reading of bounds (missing: `(any{m,n})` may use the bounds of another
`(any…)` term, `(list<x>{m,n})` those of another `(list<x>…)` term). -/
theorem C01_relaxed_partial (env : Env) (flag : Bool) (fuel : Nat) (r : ParseResult)
    (hwf : env.WF) (ho : env.OrdOK) (h : parse env flag fuel = some r) :
    ∀ s ∈ r.finals, ∃ S ∈ env.starts, ∃ j, MatchFor S j s ∧ j ≤ env.tokens.length ∧
      DerivesRelaxed env S (env.tokens.take j) := by
  intro s hs
  by_cases hst : env.starts = []
  · rw [parse_nostart hst h] at hs; simp at hs
  · obtain ⟨hc, hf⟩ := parse_chart hst h
    rw [hf] at hs
    obtain ⟨hin, hfin⟩ := mem_finalsAll.1 (finalsOf_sub hs)
    obtain ⟨i, hi⟩ := inChart_item ho hc hin
    obtain ⟨S, hS, h0, hd, hrb, hder⟩ := hi.final hwf hfin
    have hv : s.term.value = gammaRule := by
      unfold TState.isFinal at hfin; simp at hfin; exact hfin.1
    exact ⟨S, hS, i, ⟨hv, by rw [hrb]; rfl, h0, hd, (hi.basic hwf).stop⟩, (hi.basic hwf).bound, hder⟩

theorem DerivesRelaxed.strict {env : Env} (hu : UniformBounds env) {S w}
    (h : DerivesRelaxed env S w) : Derives env S w :=
  Yields.strict hu h (by intro t ht; simp at ht; subst ht; simp)

theorem Derives.relax {env : Env} {S w} (h : Derives env S w) : DerivesRelaxed env S w :=
  Yields.relax h (by intro t ht; simp at ht; subst ht; simp)

/-- C01 for grammars in which all `(any…)` terms carry the same bounds and all `(list<x>…)` terms
for the same `x` do (missing: grammars mixing different bounds, where it is false). -/
theorem C01_partial (env : Env) (flag : Bool) (fuel : Nat) (r : ParseResult)
    (hwf : env.WF) (ho : env.OrdOK) (hu : UniformBounds env) (h : parse env flag fuel = some r) :
    ∀ s ∈ r.finals, ∃ S ∈ env.starts, ∃ j, MatchFor S j s ∧ j ≤ env.tokens.length ∧
      Derives env S (env.tokens.take j) := by
  intro s hs
  obtain ⟨S, hS, j, h1, h2, h3⟩ := C01_relaxed_partial env flag fuel r hwf ho h s hs
  exact ⟨S, hS, j, h1, h2, h3.strict hu⟩

example : wGood.WF ∧ wGood.OrdOK ∧ UniformBounds wGood ∧
    (parse wGood true 60).map (fun r => r.finals.map (·.stop)) = some [4] :=
  ⟨Env.checkWF_wf (by decide +kernel), idOrd_ok, Env.checkUniform_ok (by decide +kernel),
   by decide +kernel⟩

/-- what `<s>` of `wBounds` derives: two or three tokens, of three only those ending in "y" -/
theorem wBounds_not_derives : ¬ Derives wBounds "s" (wBounds.tokens.take 3) := by
  intro h
  unfold Derives at h
  generalize hw : wBounds.tokens.take 3 = w at h
  have hw : w = [tk "a", tk "b", tk "x"] := by rw [← hw]; rfl
  have one : ∀ {A c : String} {u}, A = "x" ∧ c = "x" ∨ A = "y" ∧ c = "y" →
      Yields wBounds.lang [nt A] u → ∃ a, u = [a] ∧ a.text = c := by
    intro A c u hA hy
    cases hy with
    | nonterminal h1 h2 h3 h4 =>
      cases h4
      obtain ⟨rb, hd, rfl⟩ := h2
      have hm := Env.Defines.mem_allBodies hd
      rcases hA with ⟨rfl, rfl⟩ | ⟨rfl, rfl⟩ <;>
      · simp [Env.allBodies, wBounds, Rule.bodies] at hm
        subst hm
        cases h3 with
        | terminal _ hm hn =>
          cases hn
          refine ⟨_, rfl, ?_⟩
          simp [wBounds, Env.lang, plainMatch, terminalMatch] at hm
          exact hm.symm
        | nonterminal h _ _ _ => simp at h
        | any h _ _ => simp at h
        | list h _ _ _ => simp at h
    | terminal h _ _ => simp at h
    | any h _ _ => simp at h
    | list h _ _ _ => simp at h
  cases h with
  | nonterminal h1 h2 h3 h4 =>
    cases h4
    obtain ⟨rb, hd, rfl⟩ := h2
    have hm := Env.Defines.mem_allBodies hd
    simp [Env.allBodies, wBounds, Rule.bodies] at hm
    rcases hm with rfl | rfl
    all_goals
      cases h3 with
      | any _ hok hy =>
        obtain ⟨a, rfl, ha⟩ := one (by first | exact Or.inl ⟨rfl, rfl⟩ | exact Or.inr ⟨rfl, rfl⟩) hy
        have hlen := congrArg List.length hw
        simp [Env.lang, okCount] at hok hlen
        first
          | omega
          | (have := congrArg List.getLast? hw
             simp at this
             subst this
             simp at ha)
      | terminal h _ _ => simp at h
      | nonterminal h _ _ _ => simp at h
      | list h _ _ _ => simp at h
  | terminal h _ _ => simp at h
  | any h _ _ => simp at h
  | list h _ _ _ => simp at h

theorem C01_false : ¬ C01_statement := by
  intro h
  have hp : (parse wBounds true 30).map (fun r => r.finals.map (·.stop)) = some [3] := by
    decide +kernel
  cases hr : parse wBounds true 30 with
  | none => rw [hr] at hp; simp at hp
  | some r =>
    rw [hr] at hp; replace hp := Option.some.inj hp; simp only at hp
    cases hfin : r.finals with
    | nil => rw [hfin] at hp; simp at hp
    | cons s l =>
      obtain ⟨S, hS, j, hm, _, hd⟩ := h wBounds true 30 r (Env.checkWF_wf (by decide +kernel)) idOrd_ok hr s
        (by simp [hfin])
      rw [hfin, List.map_cons] at hp; injection hp with hp _
      have hj : j = 3 := by rw [← hm.2.2.2.2, hp]
      subst hj
      simp [wBounds] at hS; subst hS
      exact wBounds_not_derives hd

/-- Finding: a user rule named like the internal start symbol `ɣ` (a legal rule name) is reported as
the match, here covering only the second token. This is why `Env.WF` excludes that name. -/
theorem C01_gamma_rule_reported :
    (parse wGamma true 30).map (fun r => r.finals.map (fun s => (s.start, s.stop))) = some [(1, 2)] := by
  decide +kernel

/-! ## C02 -/

/-- C02, full statement. -/
def C02_statement : Prop :=
  ∀ (env : Env) (fuel : Nat) (r : ParseResult), env.WF → env.OrdOK →
    parse env false fuel = some r →
    ∀ S ∈ env.starts, ∀ j ≤ env.tokens.length, Derives env S (env.tokens.take j) →
      ∃ s, InChart r.chart s ∧ s ∈ r.finals ∧ MatchFor S j s

theorem started_of_mem {env : Env} {S : String} (h : S ∈ env.starts) : Started env := by
  intro h'; rw [h'] at h; simp at h

/-- C02 for one run, from its chart: if completing the states of the chart that are finished on the
empty span adds nothing, then no match was missed. -/
theorem C02_of_closed_partial {env : Env} {fuel : Nat} {r : ParseResult} (hwf : env.WF) (ho : env.OrdOK)
    (h : parse env false fuel = some r) (hec : EmptyClosed r.chart) {S : String} (hS : S ∈ env.starts)
    {j : Nat} (hj : j ≤ env.tokens.length) (hd : Derives env S (env.tokens.take j)) :
    ∃ s, InChart r.chart s ∧ s ∈ r.finals ∧ MatchFor S j s := by
  obtain ⟨hc, hf⟩ := parse_chart (started_of_mem hS) h
  obtain ⟨s, hi, hfin, hrb⟩ := Item.complete_start hwf hS hj hd
  obtain ⟨col, hk, hm⟩ := chart_complete hwf ho hc hec hi
  have hin : InChart r.chart s := ⟨col, List.mem_of_getElem? hk, hm⟩
  refine ⟨s, hin, ?_, ?_⟩
  · rw [hf]; exact mem_finalsAll.2 ⟨hin, hfin⟩
  · obtain ⟨S', _, hm'⟩ := (isFinal_iff_match hwf hi).1 hfin
    exact ⟨hm'.1, by rw [hrb]; rfl, hm'.2.2⟩

/-- C02 for grammars in which terms that can be empty are placed safely: used directly after literals
and at the beginning of rules used by no production only, or only at the beginning of the alternatives
of one rule; in particular for grammars in which
nothing can be empty (missing: other grammars with empty derivations, where it is false). -/
theorem C02_partial (env : Env) (fuel : Nat) (r : ParseResult) (hwf : env.WF) (ho : env.OrdOK)
    (hns : NullSafe env) (h : parse env false fuel = some r) :
    ∀ S ∈ env.starts, ∀ j ≤ env.tokens.length, Derives env S (env.tokens.take j) →
      ∃ s, InChart r.chart s ∧ s ∈ r.finals ∧ MatchFor S j s :=
  fun _ hS _ hj hd => C02_of_closed_partial hwf ho h
    (hns.emptyClosed hwf ho (parse_chart (started_of_mem hS) h).1) hS hj hd

theorem wGood_derives : Derives wGood "s" (wGood.tokens.take 1) := by
  have hdef : ∀ A rb, (A, rb) ∈ wGood.allBodies → wGood.Defines A rb := by
    intro A rb h
    simp [Env.allBodies, wGood, Rule.bodies] at h
    rcases h with ⟨rfl, rfl⟩ | ⟨rfl, rfl⟩ | ⟨rfl, rfl⟩ | ⟨rfl, rfl⟩ | ⟨rfl, rfl⟩ | ⟨rfl, rfl⟩ | ⟨rfl, rfl⟩ <;>
    exact ⟨_, List.mem_singleton_self _, _, rfl, by simp [Rule.bodies]⟩
  have hn : Yields wGood.lang [nt "n"] [tk "1"] := by
    refine Yields.nonterminal_one (body := [tt "1"]) rfl
      ⟨⟨[tt "1"], none⟩, hdef _ _ (by simp [Env.allBodies, wGood, Rule.bodies]), rfl⟩ ?_
    exact Yields.terminal rfl (by decide +kernel) Yields.nil
  refine Yields.nonterminal_one (body := [⟨"n", .list, .range 1 2⟩]) rfl
      ⟨⟨[⟨"n", .list, .range 1 2⟩], none⟩, hdef _ _ (by simp [Env.allBodies, wGood, Rule.bodies]), rfl⟩ ?_
  exact Yields.list_one (n := 1) rfl (show okCount (.range 1 2) 1 by decide) hn

theorem wOpt_derives : Derives wOpt "s" (wOpt.tokens.take 1) := by
  have ho : Yields wOpt.lang [nt "o"] [] :=
    Yields.nonterminal_one (body := []) rfl
      ⟨⟨[], none⟩, ⟨_, List.mem_singleton_self _, _, rfl, by simp [Rule.bodies]⟩, rfl⟩ Yields.nil
  exact Yields.nonterminal_one (body := [tt "x", nt "o"]) rfl
      ⟨⟨[tt "x", nt "o"], none⟩, ⟨_, List.mem_singleton_self _, _, rfl, by simp [Rule.bodies]⟩, rfl⟩
      (Yields.terminal rfl (by decide +kernel) ho)

theorem wOpt_safe : NullSafe wOpt := Env.checkNullSafe_ok (N := ["o", "m"]) (by decide +kernel)

-- a grammar without empty derivations, and one with
example : wGood.WF ∧ wGood.OrdOK ∧ NullSafe wGood ∧ (parse wGood false 60).isSome ∧
    "s" ∈ wGood.starts ∧ 1 ≤ wGood.tokens.length ∧ Derives wGood "s" (wGood.tokens.take 1) :=
  ⟨Env.checkWF_wf (by decide +kernel), idOrd_ok, (Env.checkNoEmpty_ok (by decide +kernel)).nullSafe,
   by decide +kernel, by decide, by decide, wGood_derives⟩

example : wOpt.WF ∧ wOpt.OrdOK ∧ NullSafe wOpt ∧ ¬ NoEmpty wOpt ∧
    (parse wOpt false 60).map (fun r => r.finals.map (·.stop)) = some [2, 1] ∧
    "s" ∈ wOpt.starts ∧ 1 ≤ wOpt.tokens.length ∧ Derives wOpt "s" (wOpt.tokens.take 1) :=
  ⟨Env.checkWF_wf (by decide +kernel), idOrd_ok, wOpt_safe,
   fun h => h.1 "o" ⟨[], none⟩ ⟨_, List.mem_singleton_self _, _, rfl, by simp [Rule.bodies]⟩ rfl,
   by decide +kernel, by decide, by decide, wOpt_derives⟩

/-- the test of the chart by computation -/
theorem emptyClosed_iff (chart : List (List TState)) : EmptyClosed chart ↔
    ∀ p ∈ chart.zipIdx, ∀ s ∈ p.1, s.isCompleted = true → s.start = p.2 →
      ∀ st ∈ p.1, ∀ t, st.getNextTerm = some t → completes t s = true →
        (advanced st t).placed p.2 ∈ p.1 := by
  constructor
  · rintro h ⟨col, i⟩ hp s hs hc hst st hm t hn hcm
    rw [List.mem_zipIdx_iff_getElem?] at hp
    exact h i col hp s hs hc hst st hm _ ⟨t, hn, hcm, rfl⟩
  · rintro h i col hp s hs hc hst st hm x ⟨t, hn, hcm, rfl⟩
    exact h (col, i) (by rw [List.mem_zipIdx_iff_getElem?]; exact hp) s hs hc hst st hm t hn hcm

/-- the condition of `C02_of_closed_partial` is met exactly by the charts that miss nothing: a chart
is closed iff it contains every state the rules of Earley's algorithm derive -/
theorem C02_closed_iff {env : Env} {fuel : Nat} {chart : List (List TState)} (hwf : env.WF)
    (ho : env.OrdOK) (h : chartOf env fuel = some chart) :
    EmptyClosed chart ↔ ∀ i s, Item env i s → ∃ col, chart[i]? = some col ∧ s ∈ col :=
  ⟨fun hec _ _ hi => chart_complete hwf ho h hec hi, emptyClosed_of ho h⟩

theorem wNull_derives : Derives wNull "s" (wNull.tokens.take 1) := by
  have ha : ∀ {ts w}, Yields wNull.lang ts w → Yields wNull.lang (nt "a" :: ts) w := by
    intro ts w h
    exact Yields.nonterminal (u := []) (body := []) rfl
      ⟨⟨[], none⟩, ⟨_, List.mem_singleton_self _, _, rfl, by simp [Rule.bodies]⟩, rfl⟩ Yields.nil h
  have hx : Yields wNull.lang [nt "x"] [tk "x"] :=
    Yields.nonterminal_one (body := [tt "x"]) rfl
      ⟨⟨[tt "x"], none⟩, ⟨_, List.mem_singleton_self _, _, rfl, by simp [Rule.bodies]⟩, rfl⟩
      (Yields.terminal rfl (by decide +kernel) Yields.nil)
  exact Yields.nonterminal_one (body := [nt "a", nt "a", nt "x"]) rfl
      ⟨⟨[nt "a", nt "a", nt "x"], none⟩, ⟨_, List.mem_singleton_self _, _, rfl, by simp [Rule.bodies]⟩, rfl⟩
      (ha (ha hx))

theorem C02_false : ¬ C02_statement := by
  intro h
  have hp : (parse wNull false 30).map (fun r => r.finals.map (·.stop)) = some [] := by
    decide +kernel
  cases hr : parse wNull false 30 with
  | none => rw [hr] at hp; simp at hp
  | some r =>
    rw [hr] at hp; simp at hp
    obtain ⟨s, _, hs, _⟩ := h wNull 30 r (Env.checkWF_wf (by decide +kernel)) idOrd_ok hr "s" (by decide) 1
      (by decide) wNull_derives
    rw [hp] at hs; simp at hs

/-! ## C03 -/

theorem flatMap_take_one {α β : Type} (f : α → List β) : ∀ (l : List α) (x : β),
    (l.flatMap f).take 1 = [x] → ∃ l1 a l2, l = l1 ++ a :: l2 ∧ (∀ b ∈ l1, f b = []) ∧ x ∈ f a
  | [], x, h => by simp at h
  | a :: l, x, h => by
    cases hf : f a with
    | nil =>
      simp [hf] at h
      obtain ⟨l1, b, l2, rfl, h1, h2⟩ := flatMap_take_one f l x (by simpa using h)
      exact ⟨a :: l1, b, l2, rfl, by
        intro c hc
        rcases List.mem_cons.1 hc with rfl | hc
        · exact hf
        · exact h1 c hc, h2⟩
    | cons y ys =>
      simp [hf] at h
      exact ⟨[], a, l, rfl, by simp, by simp [hf, h]⟩

/-- C03: with the longest-match flag at most one state is reported; it is a finished match of a start
rule present in the chart, no finished match ends later, and nothing is reported exactly when the
chart has no finished match. -/
theorem C03_longest (env : Env) (fuel : Nat) (r : ParseResult) (hwf : env.WF) (ho : env.OrdOK)
    (hst : Started env) (h : parse env true fuel = some r) :
    r.finals.length ≤ 1 ∧
    (∀ s ∈ r.finals, InChart r.chart s ∧ (∃ S ∈ env.starts, MatchFor S s.stop s) ∧
      ∀ S ∈ env.starts, ∀ j x, InChart r.chart x → MatchFor S j x → j ≤ s.stop) ∧
    (r.finals = [] ↔ ¬ ∃ S ∈ env.starts, ∃ j x, InChart r.chart x ∧ MatchFor S j x) := by
  obtain ⟨hc, hf⟩ := parse_chart hst h
  have hcinv := (chartOf_inv ho hc).1
  have hfa : r.finals = (finalsAll r.chart).take 1 := by rw [hf]; rfl
  have hitem : ∀ {S j x}, InChart r.chart x → MatchFor S j x →
      ∃ col, r.chart[j]? = some col ∧ x ∈ col ∧ Item env j x := by
    intro S j x ⟨col, hcol, hx⟩ hm
    obtain ⟨k, hk⟩ := List.getElem?_of_mem hcol
    have hi := hcinv k col hk x hx
    have : j = k := by rw [← hm.2.2.2.2, (hi.basic hwf).stop]
    subst this
    exact ⟨col, hk, hx, hi⟩
  refine ⟨by rw [hfa, List.length_take]; omega, ?_, ?_⟩
  · intro s hs
    have hs' := hs
    rw [hf] at hs'
    obtain ⟨hin, hfin⟩ := mem_finalsAll.1 (finalsOf_sub hs')
    obtain ⟨i, hi⟩ := inChart_item ho hc hin
    have hstop := (hi.basic hwf).stop
    refine ⟨hin, ?_, ?_⟩
    · rw [hstop]; exact (isFinal_iff_match hwf hi).1 hfin
    · intro S hS j x hx hm
      have hone : (r.chart.reverse.flatMap (fun col => col.filter TState.isFinal)).take 1 = [s] := by
        have hlen : (r.finals).length ≤ 1 := by rw [hfa, List.length_take]; omega
        have : r.finals = [s] := by
          cases hl : r.finals with
          | nil => rw [hl] at hs; simp at hs
          | cons a l =>
            rw [hl] at hs hlen
            have : l = [] := by
              cases l with
              | nil => rfl
              | cons b l => simp at hlen
            subst this
            simp at hs; rw [hs]
        rw [← this, hfa]; rfl
      obtain ⟨l1, a, l2, hrev, hnone, hsa⟩ := flatMap_take_one _ _ _ hone
      have hchart : r.chart = l2.reverse ++ a :: l1.reverse := by
        have := congrArg List.reverse hrev
        simpa using this
      obtain ⟨col, hk, hxc, hxi⟩ := hitem hx hm
      have hxf := (isFinal_iff_match hwf hxi).2 ⟨S, hS, hm⟩
      -- the column of s
      have hsi := hcinv l2.reverse.length a (by rw [hchart]; simp) s (List.mem_filter.1 hsa).1
      have hs2 := (hsi.basic hwf).stop
      rw [hs2]
      rcases Nat.lt_or_ge l2.reverse.length j with hlt | hge
      · exfalso
        rw [hchart, List.getElem?_append_right (by omega)] at hk
        have hne : j - l2.reverse.length ≠ 0 := by omega
        obtain ⟨m, hm'⟩ := Nat.exists_eq_succ_of_ne_zero hne
        rw [hm'] at hk
        simp at hk
        have hcm : col ∈ l1 := by
          have := List.mem_of_getElem? hk
          simpa using this
        have := hnone col hcm
        rw [List.filter_eq_nil_iff] at this
        exact this x hxc hxf
      · exact hge
  · rw [hfa, List.take_eq_nil_iff]
    simp only [Nat.one_ne_zero, false_or]
    constructor
    · intro hnil ⟨S, hS, j, x, hx, hm⟩
      obtain ⟨col, hk, hxc, hxi⟩ := hitem hx hm
      have : x ∈ finalsAll r.chart :=
        mem_finalsAll.2 ⟨hx, (isFinal_iff_match hwf hxi).2 ⟨S, hS, hm⟩⟩
      rw [hnil] at this; simp at this
    · intro hno
      cases hfin : finalsAll r.chart with
      | nil => rfl
      | cons x l =>
        exfalso
        have hx : x ∈ finalsAll r.chart := by rw [hfin]; simp
        obtain ⟨hin, hf'⟩ := mem_finalsAll.1 hx
        obtain ⟨i, hi⟩ := inChart_item ho hc hin
        obtain ⟨S, hS, hm⟩ := (isFinal_iff_match hwf hi).1 hf'
        exact hno ⟨S, hS, i, x, hin, hm⟩

example : wGood.WF ∧ wGood.OrdOK ∧ Started wGood ∧
    (parse wGood true 60).map (fun r => r.finals.map (·.stop)) = some [4] :=
  ⟨Env.checkWF_wf (by decide +kernel), idOrd_ok, by decide, by decide +kernel⟩

/-- C03 in terms of derivability, for grammars with safely placed empty derivations and uniform
bounds: the match reported is the longest derivable prefix, and none is reported iff no prefix is
derivable. (Missing: other grammars with empty derivations and mixed bounds, see C01/C02.) -/
theorem C03_longest_derivable_partial (env : Env) (fuel : Nat) (r : ParseResult) (hwf : env.WF)
    (ho : env.OrdOK) (hns : NullSafe env) (hu : UniformBounds env) (hst : Started env)
    (h : parse env true fuel = some r) :
    (∀ s ∈ r.finals, (∃ S ∈ env.starts, MatchFor S s.stop s ∧ Derives env S (env.tokens.take s.stop)) ∧
      ∀ S ∈ env.starts, ∀ j ≤ env.tokens.length, Derives env S (env.tokens.take j) → j ≤ s.stop) ∧
    (r.finals = [] ↔ ¬ ∃ S ∈ env.starts, ∃ j ≤ env.tokens.length, Derives env S (env.tokens.take j)) := by
  obtain ⟨_, h2, h3⟩ := C03_longest env fuel r hwf ho hst h
  obtain ⟨hc, hf⟩ := parse_chart hst h
  have hpf : parse env false fuel = some { chart := r.chart, finals := finalsAll r.chart } := by
    unfold parse; rw [if_neg hst, hc]; rfl
  have hcomp : ∀ S ∈ env.starts, ∀ j ≤ env.tokens.length, Derives env S (env.tokens.take j) →
      ∃ x, InChart r.chart x ∧ MatchFor S j x := by
    intro S hS j hj hd
    obtain ⟨x, hx, _, hm⟩ := C02_partial env fuel _ hwf ho hns hpf S hS j hj hd
    exact ⟨x, hx, hm⟩
  refine ⟨?_, ?_⟩
  · intro s hs
    obtain ⟨S, hS, j, hm, hj, hd⟩ := C01_partial env true fuel r hwf ho hu h s hs
    have : s.stop = j := hm.2.2.2.2
    rw [this]
    refine ⟨⟨S, hS, hm, hd⟩, ?_⟩
    intro S' hS' j' hj' hd'
    obtain ⟨x, hx, hmx⟩ := hcomp S' hS' j' hj' hd'
    rw [← this]
    exact (h2 s hs).2.2 S' hS' j' x hx hmx
  · rw [h3]
    constructor
    · rintro hno ⟨S, hS, j, hj, hd⟩
      obtain ⟨x, hx, hmx⟩ := hcomp S hS j hj hd
      exact hno ⟨S, hS, j, x, hx, hmx⟩
    · rintro hno ⟨S, hS, j, x, hx, hmx⟩
      obtain ⟨i, hi⟩ := inChart_item ho hc hx
      have hxf : x ∈ finalsAll r.chart :=
        mem_finalsAll.2 ⟨hx, (isFinal_iff_match hwf hi).2 ⟨S, hS, by
          have := (hi.basic hwf).stop
          rw [← this, hmx.2.2.2.2]; exact hmx⟩⟩
      obtain ⟨S', hS', j', hm', hj', hd'⟩ := C01_partial env false fuel _ hwf ho hu hpf x hxf
      exact hno ⟨S', hS', j', hj', hd'⟩

example : wOpt.WF ∧ wOpt.OrdOK ∧ NullSafe wOpt ∧ UniformBounds wOpt ∧ Started wOpt ∧
    (parse wOpt true 60).map (fun r => r.finals.map (·.stop)) = some [2] :=
  ⟨Env.checkWF_wf (by decide +kernel), idOrd_ok, wOpt_safe,
   Env.checkUniform_ok (by decide +kernel), by decide, by decide +kernel⟩

/-! ## C04 -/

/-- C04: in exhaustive mode the reported states are exactly the finished matches in the chart, and
they are listed by non-increasing end. -/
theorem C04_exhaustive (env : Env) (fuel : Nat) (r : ParseResult) (hwf : env.WF) (ho : env.OrdOK)
    (hst : Started env) (h : parse env false fuel = some r) :
    (∀ s, s ∈ r.finals ↔ InChart r.chart s ∧ ∃ S ∈ env.starts, MatchFor S s.stop s) ∧
    r.finals.Pairwise (fun a b => b.stop ≤ a.stop) := by
  obtain ⟨hc, hf⟩ := parse_chart hst h
  have hcinv := (chartOf_inv ho hc).1
  have hfa : r.finals = finalsAll r.chart := by rw [hf]; rfl
  refine ⟨?_, ?_⟩
  · intro s
    rw [hfa, mem_finalsAll]
    constructor
    · rintro ⟨hin, hfin⟩
      obtain ⟨i, hi⟩ := inChart_item ho hc hin
      refine ⟨hin, ?_⟩
      rw [(hi.basic hwf).stop]
      exact (isFinal_iff_match hwf hi).1 hfin
    · rintro ⟨hin, hm⟩
      obtain ⟨i, hi⟩ := inChart_item ho hc hin
      rw [(hi.basic hwf).stop] at hm
      exact ⟨hin, (isFinal_iff_match hwf hi).2 hm⟩
  · rw [hfa]
    unfold finalsAll
    rw [List.flatMap, List.pairwise_flatten]
    refine ⟨?_, ?_⟩
    · intro l hl
      rw [List.mem_map] at hl
      obtain ⟨col, hcol, rfl⟩ := hl
      obtain ⟨k, hk⟩ := List.getElem?_of_mem (List.mem_reverse.1 hcol)
      rw [List.pairwise_iff_forall_sublist]
      intro a b hab
      have ha := hab.subset (show a ∈ [a, b] by simp)
      have hb := hab.subset (show b ∈ [a, b] by simp)
      rw [((hcinv k col hk a (List.mem_filter.1 ha |>.1)).basic hwf).stop,
        ((hcinv k col hk b (List.mem_filter.1 hb |>.1)).basic hwf).stop]
      exact Nat.le_refl _
    · rw [List.pairwise_map, List.pairwise_reverse, List.pairwise_iff_getElem]
      intro i j hi hj hij a ha b hb
      have h1 := hcinv j _ (List.getElem?_eq_getElem hj) a (List.mem_filter.1 ha |>.1)
      have h2 := hcinv i _ (List.getElem?_eq_getElem hi) b (List.mem_filter.1 hb |>.1)
      rw [(h1.basic hwf).stop, (h2.basic hwf).stop]
      omega

/-- C04 in terms of derivability (missing: unsafely placed empty derivations and mixed bounds). -/
theorem C04_exhaustive_derivable_partial (env : Env) (fuel : Nat) (r : ParseResult) (hwf : env.WF)
    (ho : env.OrdOK) (hns : NullSafe env) (hu : UniformBounds env)
    (h : parse env false fuel = some r) (S : String) (hS : S ∈ env.starts) (j : Nat)
    (hj : j ≤ env.tokens.length) :
    (∃ s ∈ r.finals, MatchFor S j s) ↔ Derives env S (env.tokens.take j) := by
  constructor
  · rintro ⟨s, hs, hm⟩
    obtain ⟨S', hS', j', hm', hj', hd⟩ := C01_partial env false fuel r hwf ho hu h s hs
    have hjj : j' = j := by rw [← hm'.2.2.2.2, hm.2.2.2.2]
    have hSS : S' = S := by
      have h1 := hm'.2.1
      rw [hm.2.1] at h1
      simp at h1; exact h1.symm
    rw [hjj, hSS] at hd; exact hd
  · intro hd
    obtain ⟨s, _, hs, hm⟩ := C02_partial env fuel r hwf ho hns h S hS j hj hd
    exact ⟨s, hs, hm⟩

example : wOpt.WF ∧ wOpt.OrdOK ∧ NullSafe wOpt ∧ UniformBounds wOpt ∧ Started wOpt ∧
    (parse wOpt false 60).map (fun r => r.finals.map (·.stop)) = some [2, 1] :=
  ⟨Env.checkWF_wf (by decide +kernel), idOrd_ok, wOpt_safe,
   Env.checkUniform_ok (by decide +kernel), by decide, by decide +kernel⟩

/-! ## C05 -/

/-- C05: parsing terminates for every grammar and text and every iteration order, and the result
does not depend on the fuel. -/
theorem C05_terminates (env : Env) (flag : Bool) (hwf : env.WF) (ho : env.OrdOK) :
    ∃ n r, ∀ fuel, n ≤ fuel → parse env flag fuel = some r := by
  by_cases hst : env.starts = []
  · exact ⟨0, _, fun fuel _ => by unfold parse; rw [if_pos hst]⟩
  · obtain ⟨n, chart, hc⟩ := chartOf_terminates hwf ho
    refine ⟨n, { chart := chart, finals := finalsOf flag chart }, ?_⟩
    intro fuel hle
    unfold parse
    rw [if_neg hst]
    have := chartOf_mono hc (fuel - n)
    rw [show n + (fuel - n) = fuel by omega] at this
    rw [this]

/-- list of nullables: `<s> = (list<a>) <s> | <x>; <a> = "" | <a> <a>` -/
def wCyclic : Env :=
  { grammars := [{ name := "g", rules := [
      rl "s" [[⟨"a", .list, .nil⟩, nt "s"], [nt "x"]], rl "a" [[], [nt "a", nt "a"]],
      rl "x" [[tt "x"]]] }],
    tokens := [tk "x"], starts := ["s"], tmatch := plainMatch, ord := revOrd }

example : wCyclic.WF ∧ wCyclic.OrdOK ∧ (parse wCyclic true 60).isSome :=
  ⟨Env.checkWF_wf (by decide +kernel), revOrd_ok, by decide +kernel⟩

/-! ## C06 -/

/-- C06, full statement: two schedules give the same sets of chart states. -/
def C06_statement : Prop :=
  ∀ (env : Env) (ord2 : Nat → Nat → Nat → List RuleBody → List RuleBody) (flag : Bool)
    (f1 f2 : Nat) (r1 r2 : ParseResult), env.WF → env.OrdOK → ({ env with ord := ord2 }).OrdOK →
    parse env flag f1 = some r1 → parse { env with ord := ord2 } flag f2 = some r2 →
    r1.chart.length = r2.chart.length ∧
    ∀ (k : Nat) (c1 c2 : List TState), r1.chart[k]? = some c1 → r2.chart[k]? = some c2 → ∀ s, s ∈ c1 ↔ s ∈ c2

theorem Item.ord {env : Env} (ord2 : Nat → Nat → Nat → List RuleBody → List RuleBody) {i s}
    (h : Item env i s) : Item { env with ord := ord2 } i s := by
  induction h with
  | init h => exact Item.init h
  | predNT _ h1 h2 h3 h4 h5 h6 ih => exact Item.predNT ih h1 h2 h3 h4 h5 h6
  | predAL _ h1 h2 h3 ih => exact Item.predAL ih h1 h2 h3
  | scanAny _ h1 h2 h3 ih => exact Item.scanAny ih h1 h2 h3
  | scanT _ h1 h2 h3 h4 h5 ih => exact Item.scanT ih h1 h2 h3 h4 h5
  | comp _ _ h1 h2 h3 h4 ih1 ih2 => exact Item.comp ih1 ih2 h1 h2 h3 h4

/-- C06 for grammars in which terms that can be empty are placed safely (missing: other grammars with
empty derivations, where it is false). -/
theorem C06_partial (env : Env) (ord2 : Nat → Nat → Nat → List RuleBody → List RuleBody) (flag : Bool)
    (f1 f2 : Nat) (r1 r2 : ParseResult) (hwf : env.WF) (hns : NullSafe env) (ho : env.OrdOK)
    (ho2 : ({ env with ord := ord2 }).OrdOK)
    (h1 : parse env flag f1 = some r1) (h2 : parse { env with ord := ord2 } flag f2 = some r2) :
    r1.chart.length = r2.chart.length ∧
    ∀ (k : Nat) (c1 c2 : List TState), r1.chart[k]? = some c1 → r2.chart[k]? = some c2 → ∀ s, s ∈ c1 ↔ s ∈ c2 := by
  by_cases hst : env.starts = []
  · unfold parse at h1 h2
    rw [if_pos hst] at h1
    rw [if_pos (by exact hst)] at h2
    simp at h1 h2
    subst h1; subst h2
    refine ⟨rfl, ?_⟩
    intro k c1 c2 hk1 hk2 s
    simp only at hk1 hk2
    rw [hk1] at hk2; rw [Option.some.inj hk2]
  · have hwf2 : ({ env with ord := ord2 } : Env).WF := ⟨hwf.named, hwf.bodies, hwf.noGamma⟩
    have hns2 : NullSafe ({ env with ord := ord2 } : Env) := NullSafe.same (env := env) (by rfl) (fun _ h => h) hns
    obtain ⟨hc1, _⟩ := parse_chart hst h1
    obtain ⟨hc2, _⟩ := parse_chart (env := { env with ord := ord2 }) hst h2
    have i1 := chartOf_inv ho hc1
    have i2 := chartOf_inv ho2 hc2
    refine ⟨by rw [i1.2, i2.2], ?_⟩
    intro k c1 c2 hk1 hk2 s
    constructor
    · intro hs
      have := (i1.1 k c1 hk1 s hs).ord ord2
      obtain ⟨col, hcol, hm⟩ := chart_complete hwf2 ho2 hc2 (hns2.emptyClosed hwf2 ho2 hc2) this
      rw [hk2] at hcol; rw [Option.some.inj hcol]; exact hm
    · intro hs
      have : Item env k s := (i2.1 k c2 hk2 s hs).ord env.ord
      obtain ⟨col, hcol, hm⟩ := chart_complete hwf ho hc1 (hns.emptyClosed hwf ho hc1) this
      rw [hk1] at hcol; rw [Option.some.inj hcol]; exact hm

/-- consequence: in longest-match mode the same span is reported whatever the schedule -/
theorem C06_same_longest_partial (env : Env)
    (ord2 : Nat → Nat → Nat → List RuleBody → List RuleBody)
    (f1 f2 : Nat) (r1 r2 : ParseResult) (hwf : env.WF) (hns : NullSafe env) (ho : env.OrdOK)
    (ho2 : ({ env with ord := ord2 }).OrdOK)
    (h1 : parse env true f1 = some r1) (h2 : parse { env with ord := ord2 } true f2 = some r2) :
    r1.finals.map (·.stop) = r2.finals.map (·.stop) := by
  by_cases hst : env.starts = []
  · rw [parse_nostart hst h1, parse_nostart (env := { env with ord := ord2 }) hst h2]
  have hwf2 : ({ env with ord := ord2 } : Env).WF := ⟨hwf.named, hwf.bodies, hwf.noGamma⟩
  obtain ⟨hlen, hset⟩ := C06_partial env ord2 true f1 f2 r1 r2 hwf hns ho ho2 h1 h2
  have hin : ∀ x, InChart r1.chart x ↔ InChart r2.chart x := by
    intro x
    constructor
    · rintro ⟨c, hc, hx⟩
      obtain ⟨k, hk⟩ := List.getElem?_of_mem hc
      have hlt : k < r2.chart.length := by
        have := (List.getElem?_eq_some_iff.1 hk).1; omega
      exact ⟨r2.chart[k], List.getElem_mem _, (hset k c _ hk (List.getElem?_eq_getElem hlt) x).1 hx⟩
    · rintro ⟨c, hc, hx⟩
      obtain ⟨k, hk⟩ := List.getElem?_of_mem hc
      have hlt : k < r1.chart.length := by
        have := (List.getElem?_eq_some_iff.1 hk).1; omega
      exact ⟨r1.chart[k], List.getElem_mem _, (hset k _ c (List.getElem?_eq_getElem hlt) hk x).2 hx⟩
  obtain ⟨a1, a2, a3⟩ := C03_longest env f1 r1 hwf ho hst h1
  obtain ⟨b1, b2, b3⟩ := C03_longest { env with ord := ord2 } f2 r2 hwf2 ho2 hst h2
  cases hf1 : r1.finals with
  | nil =>
    have : r2.finals = [] := by
      rw [b3]
      rintro ⟨S, hS, j, x, hx, hm⟩
      exact a3.1 hf1 ⟨S, hS, j, x, (hin x).2 hx, hm⟩
    rw [this]
  | cons s l =>
    have hl : l = [] := by rw [hf1] at a1; cases l <;> simp at a1 ⊢
    subst hl
    cases hf2 : r2.finals with
    | nil =>
      exfalso
      obtain ⟨hs1, ⟨S, hS, hm⟩, _⟩ := a2 s (by simp [hf1])
      exact b3.1 hf2 ⟨S, hS, s.stop, s, (hin s).1 hs1, hm⟩
    | cons t l =>
      have hl : l = [] := by rw [hf2] at b1; cases l <;> simp at b1 ⊢
      subst hl
      obtain ⟨hs1, ⟨S, hS, hm⟩, hmax1⟩ := a2 s (by simp [hf1])
      obtain ⟨hs2, ⟨S', hS', hm'⟩, hmax2⟩ := b2 t (by simp [hf2])
      have e1 := hmax1 S' hS' t.stop t ((hin t).2 hs2) hm'
      have e2 := hmax2 S hS s.stop s ((hin s).1 hs1) hm
      simp; omega

example : wOpt.WF ∧ NullSafe wOpt ∧ wOpt.OrdOK ∧ ({ wOpt with ord := revOrd }).OrdOK ∧
    (parse wOpt true 60).isSome ∧ (parse { wOpt with ord := revOrd } true 60).isSome :=
  ⟨Env.checkWF_wf (by decide +kernel), wOpt_safe, idOrd_ok, revOrd_ok,
   by decide +kernel, by decide +kernel⟩

/-- the same parse, two iteration orders: no match / match -/
theorem wOrd_two_results :
    (parse wOrd true 30).map (fun r => r.finals.map (·.stop)) = some [] ∧
    (parse { wOrd with ord := revOrd } true 30).map (fun r => r.finals.map (·.stop)) = some [1] := by
  constructor <;> decide +kernel

theorem C06_false : ¬ C06_statement := by
  intro h
  have hwf : wOrd.WF := Env.checkWF_wf (by decide +kernel)
  have hwf2 : ({ wOrd with ord := revOrd } : Env).WF := ⟨hwf.named, hwf.bodies, hwf.noGamma⟩
  obtain ⟨p1, p2⟩ := wOrd_two_results
  cases hr1 : parse wOrd true 30 with
  | none => rw [hr1] at p1; simp at p1
  | some r1 =>
  cases hr2 : parse { wOrd with ord := revOrd } true 30 with
  | none => rw [hr2] at p2; simp at p2
  | some r2 =>
    rw [hr1] at p1; rw [hr2] at p2
    simp at p1 p2
    obtain ⟨hlen, hset⟩ := h wOrd revOrd true 30 30 r1 r2 hwf idOrd_ok revOrd_ok hr1 hr2
    have hst : Started wOrd := by decide
    obtain ⟨_, a2, a3⟩ := C03_longest wOrd 30 r1 hwf idOrd_ok hst hr1
    obtain ⟨_, b2, b3⟩ := C03_longest { wOrd with ord := revOrd } 30 r2 hwf2 revOrd_ok hst hr2
    cases hf2 : r2.finals with
    | nil => rw [hf2] at p2; simp at p2
    | cons t l =>
      obtain ⟨⟨c, hc, hx⟩, ⟨S, hS, hm⟩, _⟩ := b2 t (by simp [hf2])
      obtain ⟨k, hk⟩ := List.getElem?_of_mem hc
      have hlt : k < r1.chart.length := by
        have := (List.getElem?_eq_some_iff.1 hk).1; omega
      exact a3.1 p1 ⟨S, hS, t.stop, t, ⟨r1.chart[k], List.getElem_mem _,
        (hset k _ c (List.getElem?_eq_getElem hlt) hk t).2 hx⟩, hm⟩

/-! ## C07 -/

/-- C07: at every point of the execution every state in column `k` ends at `k` and starts not later,
and (for distinct start rules) no column contains a state twice. -/
theorem C07_columns (env : Env) (hwf : env.WF) (ho : env.OrdOK)
    (done : List (List TState)) (row : Nat) (cur next : List TState)
    (h : Reach env done row cur next) :
    (∀ (k : Nat) (col : List TState), (done ++ [cur, next])[k]? = some col → ∀ s ∈ col, s.stop = k ∧ s.start ≤ k) ∧
    (env.starts.Nodup → ∀ col ∈ done ++ [cur, next], col.Nodup) := by
  have hi := (h.inv ho).1
  refine ⟨?_, ?_⟩
  · intro k col hk s hs
    have : Item env k s := by
      rcases Nat.lt_or_ge k done.length with hlt | hge
      · rw [List.getElem?_append_left hlt] at hk; exact hi.done k col hk s hs
      · rw [List.getElem?_append_right hge] at hk
        rcases hd : k - done.length with _ | _ | n
        · rw [hd] at hk; simp at hk; subst hk
          have : k = done.length := by omega
          rw [this]; exact hi.cur s hs
        · rw [hd] at hk; simp at hk; subst hk
          have : k = done.length + 1 := by omega
          rw [this]; exact hi.next s hs
        · rw [hd] at hk; simp at hk
    exact ⟨(this.basic hwf).stop, (this.basic hwf).start⟩
  · intro hs col hc
    obtain ⟨h1, h2, h3⟩ := h.nodup hwf ho hs
    simp at hc
    rcases hc with hc | rfl | rfl
    · exact h1 col hc
    · exact h2
    · exact h3

/-- C07 for the finished chart; no two equal states by the code's own `Equal` either. -/
theorem C07_chart (env : Env) (hwf : env.WF) (ho : env.OrdOK) (hs : env.starts.Nodup) (fuel : Nat)
    (chart : List (List TState)) (h : chartOf env fuel = some chart) (k : Nat) (col : List TState)
    (hk : chart[k]? = some col) :
    (∀ s ∈ col, s.stop = k ∧ s.start ≤ k) ∧ col.Pairwise (fun a b => a ≠ b ∧ a.equal b = false) := by
  have hi := (chartOf_inv ho h).1 k col hk
  refine ⟨fun s hs => ⟨((hi s hs).basic hwf).stop, ((hi s hs).basic hwf).start⟩, ?_⟩
  have hn := chartOf_nodup hwf ho hs h col (List.mem_of_getElem? hk)
  rw [List.nodup_iff_pairwise_ne] at hn
  refine (List.Pairwise.imp_of_mem ?_ hn)
  intro a b ha hb hab
  refine ⟨hab, ?_⟩
  rw [← Bool.not_eq_true]
  intro he
  exact hab (TState.equal_eq ((hi a ha).basic hwf).wf ((hi b hb).basic hwf).wf he)

example : wGood.WF ∧ wGood.OrdOK ∧ wGood.starts.Nodup ∧ (chartOf wGood 60).isSome :=
  ⟨Env.checkWF_wf (by decide +kernel), idOrd_ok, by decide, by decide +kernel⟩

/-! ## C08 -/

/-- C08: at every point of the execution, for every state in every column: `columns[state.Start]`
exists (there are `tokens+1` columns), `Rb` is non-nil whenever it is dereferenced (all types except
`Any` and `List`), and `Rb.Terms[Dot]` is in range whenever it is read (state not completed). -/
theorem C08_parse_never_faults (env : Env) (hwf : env.WF) (ho : env.OrdOK)
    (done : List (List TState)) (row : Nat) (cur next : List TState)
    (h : Reach env done row cur next) :
    done.length < env.tokens.length + 1 ∧
    ∀ col ∈ done ++ [cur, next], ∀ s ∈ col,
      s.start < env.tokens.length + 1 ∧ s.start ≤ s.stop ∧
      (s.term.type ≠ .any → s.term.type ≠ .list → ∃ rb, s.rb = some rb ∧
        (s.isCompleted = false → s.dot < rb.terms.length)) := by
  obtain ⟨hi, hlen⟩ := h.inv ho
  refine ⟨by omega, ?_⟩
  have key : ∀ i s, Item env i s → s.start < env.tokens.length + 1 ∧ s.start ≤ s.stop ∧
      (s.term.type ≠ .any → s.term.type ≠ .list → ∃ rb, s.rb = some rb ∧
        (s.isCompleted = false → s.dot < rb.terms.length)) := by
    intro i s hs
    have hb := hs.basic hwf
    have := hb.start; have := hb.bound; have := hb.stop
    refine ⟨by omega, by omega, ?_⟩
    intro h1 h2
    have hk : s.term.type = .nonterminal := by
      rcases hb.kind with h | h | h
      · exact h
      · exact absurd h h1
      · exact absurd h h2
    obtain ⟨rb, hrb, _⟩ := hb.nt hk
    refine ⟨rb, hrb, ?_⟩
    intro hc
    rw [← Bool.not_eq_true, completed_nt h1 h2] at hc
    simp [TState.bodyTerms, hrb] at hc
    exact hc
  intro col hc s hs
  simp at hc
  rcases hc with hc | rfl | rfl
  · obtain ⟨k, hk⟩ := List.getElem?_of_mem hc
    exact key k s (hi.done k col hk s hs)
  · exact key _ s (hi.cur s hs)
  · exact key _ s (hi.next s hs)

example : wGood.WF ∧ wGood.OrdOK ∧ Reach wGood [] 0 (wGood.starts.map gammaState) [] :=
  ⟨Env.checkWF_wf (by decide +kernel), idOrd_ok, Reach.init⟩

/-! ## C09 -/

/-- C09, full statement, for matches: the bounds written on a term bound what that term absorbs. As
the derivation relation `Derives` counts exactly that, this is the bounds part of C01. -/
def C09_statement : Prop := C01_statement

theorem C09_false : ¬ C09_statement := C01_false

/-- C09, part that holds always: a completed `(any…)`/`(list…)` state of the chart satisfies the
bounds recorded in the state, where an `(any…)` state absorbs exactly the tokens it spans, and those
bounds are written on an `(any…)`/`(list<x>…)` term of the grammars. (Missing: the state may be used
for a different term waiting at the same place.) -/
theorem C09_state_bounds_partial (env : Env) (hwf : env.WF) (ho : env.OrdOK) (fuel : Nat)
    (chart : List (List TState)) (h : chartOf env fuel = some chart) (s : TState)
    (hs : InChart chart s) (hc : s.isCompleted = true) :
    (s.term.type = .any → okCount s.term.meta (s.stop - s.start) ∧
      ∃ t, env.Occurs t ∧ t.type = .any ∧ t.meta = s.term.meta) ∧
    (s.term.type = .list → okCount s.term.meta s.dot ∧
      Yields env.relaxedLang (List.replicate s.dot ⟨s.term.value, .nonterminal, .nil⟩)
        ((env.tokens.take s.stop).drop s.start) ∧
      ∃ t, env.Occurs t ∧ t.type = .list ∧ t.value = s.term.value ∧ t.meta = s.term.meta) := by
  obtain ⟨i, hi⟩ := inChart_item ho h hs
  have hb := hi.basic hwf
  have hso := hi.sound hwf
  refine ⟨?_, ?_⟩
  · intro hk
    obtain ⟨_, hdot, t, h1, h2, h3, _⟩ := hb.any hk
    refine ⟨?_, t, h1, h2, h3⟩
    have := (completed_any_list (Or.inl hk)).1 hc
    rw [hdot] at this
    rw [hb.stop]; exact this
  · intro hk
    refine ⟨(completed_any_list (Or.inr hk)).1 hc, ?_, (hb.list hk).2⟩
    rw [hb.stop]
    exact hso.list hk

/-- C09 for uniform bounds: reported matches respect the bounds of every term (missing: mixed bounds). -/
theorem C09_partial (env : Env) (flag : Bool) (fuel : Nat) (r : ParseResult)
    (hwf : env.WF) (ho : env.OrdOK) (hu : UniformBounds env) (h : parse env flag fuel = some r) :
    ∀ s ∈ r.finals, ∃ S ∈ env.starts, ∃ j, MatchFor S j s ∧ j ≤ env.tokens.length ∧
      Derives env S (env.tokens.take j) := C01_partial env flag fuel r hwf ho hu h

example : wGood.WF ∧ wGood.OrdOK ∧ UniformBounds wGood ∧
    (chartOf wGood 60).map (fun c => c.flatten.any (fun s => s.isCompleted && s.term.type == .list)) =
      some true :=
  ⟨Env.checkWF_wf (by decide +kernel), idOrd_ok, Env.checkUniform_ok (by decide +kernel),
   by decide +kernel⟩

end Fmr
