import Verif.Proofs.Epsilon
import Verif.Spec.Columns
import Verif.Props.Parse

/-!
# C82: `handleEpsilons` closes a column

The function is in the package but its only call (earley.go:185) is commented out. It is meant to supply what the row
loop misses for rules that match nothing (C02). It does so for the column, but it need not return (`C82_diverges`), and
the call would not make the parser complete (`C82_not_enough`): what it adds is not scanned.
-/

namespace Fmr

/-- C82, full statement: for every column of a chart, `handleEpsilons` returns a column that keeps its states, is
closed, and holds nothing wrong. -/
def C82_statement : Prop :=
  ∀ (env : Env) (fuel : Nat) (chart : List (List TState)) (i : Nat) (col : List TState)
    (ord : Nat → Nat → Nat → List RuleBody → List RuleBody), env.WF → env.OrdOK → (∀ n r k l, (ord n r k l).Perm l) →
    chartOf env fuel = some chart → chart[i]? = some col →
    ∃ r n, (∀ m ≥ n, handleEpsilons env (chart.take i) ord m 0 col = some r) ∧ col <+: r ∧
      ColumnClosed env (chart.take i) r ∧ ColumnTrue env i r

theorem snapOf_getD {done : List (List TState)} {cur : List TState} {s : TState} (h : s.start ≤ done.length) :
    snapOf done cur s = (done ++ [cur]).getD s.start [] := by
  unfold snapOf
  split
  · rename_i he
    rw [List.getD_eq_getElem?_getD, he]
    simp
  · have hlt : s.start < done.length := by omega
    rw [List.getD_eq_getElem?_getD, List.getD_eq_getElem?_getD, List.getElem?_append_left hlt]

/-- what `handleEpsilons` returns, for all columns of states that the parser can build -/
theorem handleEpsilons_closes {env : Env} (hwf : env.WF) {done : List (List TState)}
    {ord : Nat → Nat → Nat → List RuleBody → List RuleBody} (ho : ∀ n r k l, (ord n r k l).Perm l)
    {fuel round : Nat} {col r : List TState} (hi : Inv env done col [])
    (h : handleEpsilons env done ord fuel round col = some r) :
    col <+: r ∧ ColumnClosed env done r ∧ ColumnTrue env done.length r := by
  obtain ⟨hir, ⟨l, hl, -⟩, hcl⟩ := handleEpsilons_ok hwf ho fuel round col r hi h
  refine ⟨⟨l, hl.symm⟩, ⟨?_, ?_⟩, ?_⟩
  · intro s hs hc st hst t ht htt hv
    obtain ⟨n, row, hsame⟩ := hcl s hs
    have h1 := (epsRowCol_closed hwf (ho n row) hir hs hsame).1 hc
    have hb := (hir.cur s hs).basic hwf
    rw [← snapOf_getD hb.start] at hst
    have hcm : completes t s = true := by
      unfold completes
      rcases hv with hv | hv
      · simp [← htt, hv]
      · simp [htt, hv]
    refine ⟨_, h1 st hst _ ⟨t, ht, hcm, rfl⟩, ⟨?_, ?_, ?_, ?_, ?_, ?_⟩⟩
    · simp [advanced]
    · simp [advanced]
    · simp [advanced]
    · simp [advanced]
    · simp
    · intro hna
      rw [placed_dot (by simpa [advanced] using hna)]
      simp [advanced]
  · intro s hs t ht htt rb hd
    obtain ⟨n, row, hsame⟩ := hcl s hs
    have h2 := (epsRowCol_closed hwf (ho n row) hir hs hsame).2 t ht htt
    obtain ⟨g, hg, r', hr', hrb⟩ := hd
    have hname := hwf.named g hg _ _ hr'
    refine ⟨_, h2 g hg _ ⟨r', hr', rb, hrb, rfl⟩, ?_⟩
    refine ⟨by simp [predicted, hname], by simp [predicted], by simp [predicted], by simp [predicted], by simp, ?_⟩
    rw [placed_dot (by simp [predicted])]
    simp [predicted]
  · intro s hs
    have := (hir.cur s hs).sound hwf
    exact ⟨this.nt, this.list⟩

theorem chart_column {env : Env} (ho : env.OrdOK) {fuel : Nat} {chart : List (List TState)}
    (h : chartOf env fuel = some chart) {i : Nat} {col : List TState} (hc : chart[i]? = some col) :
    (chart.take i).length = i ∧ Inv env (chart.take i) col [] := by
  obtain ⟨hinv, hlen⟩ := chartOf_inv ho h
  have hlt := (List.getElem?_eq_some_iff.1 hc).1
  have hl : (chart.take i).length = i := by simp; omega
  refine ⟨hl, ⟨?_, ?_, by simp⟩⟩
  · intro k c hk
    rw [List.getElem?_take] at hk
    split at hk
    · exact hinv k c hk
    · cases hk
  · rw [hl]
    exact hinv i col hc

/-- C82 for all grammars in which every `(list<x>)` without bounds has an item that cannot be empty (missing: other
lists, for which it is false, `C82_diverges`). -/
theorem C82_partial (env : Env) (fuel : Nat) (chart : List (List TState)) (i : Nat) (col : List TState)
    (ord : Nat → Nat → Nat → List RuleBody → List RuleBody) (hwf : env.WF) (ho : env.OrdOK)
    (hp : ∀ n r k l, (ord n r k l).Perm l) (hf : FiniteLists env)
    (h : chartOf env fuel = some chart) (hc : chart[i]? = some col) :
    ∃ r n, (∀ m ≥ n, handleEpsilons env (chart.take i) ord m 0 col = some r) ∧ col <+: r ∧
      ColumnClosed env (chart.take i) r ∧ ColumnTrue env i r := by
  obtain ⟨hl, hi⟩ := chart_column ho h hc
  obtain ⟨r, hr⟩ := handleEpsilons_halts hwf hp (env.boundedItems (chart.take i).length)
    (fun s hs => hs.mem_bounded hwf hf) (base := col) _ 0 col hi (Grow.refl _) (Nat.le_refl _)
  have := handleEpsilons_closes hwf hp hi hr
  rw [hl] at this
  generalize col.length + (env.boundedItems (chart.take i).length).length - col.length + 1 = N at hr
  refine ⟨r, N, ?_, this⟩
  intro m hm
  obtain ⟨k, rfl⟩ := Nat.exists_eq_add_of_le hm
  exact handleEpsilons_mono hr k

/-- C82 if it returns, for all grammars: the column is closed and right. -/
theorem C82_returned (env : Env) (fuel : Nat) (chart : List (List TState)) (i : Nat) (col r : List TState)
    (ord : Nat → Nat → Nat → List RuleBody → List RuleBody) (m : Nat) (hwf : env.WF) (ho : env.OrdOK)
    (hp : ∀ n r k l, (ord n r k l).Perm l)
    (h : chartOf env fuel = some chart) (hc : chart[i]? = some col)
    (hr : handleEpsilons env (chart.take i) ord m 0 col = some r) :
    col <+: r ∧ ColumnClosed env (chart.take i) r ∧ ColumnTrue env i r := by
  obtain ⟨hl, hi⟩ := chart_column ho h hc
  have := handleEpsilons_closes hwf hp hi hr
  rwa [hl] at this

/-- C82: it never returns for a column that has a list without bounds and an empty match of its item. -/
theorem C82_diverges (env : Env) (fuel : Nat) (chart : List (List TState)) (i : Nat) (col : List TState)
    (ord : Nat → Nat → Nat → List RuleBody → List RuleBody) (hwf : env.WF) (ho : env.OrdOK)
    (hp : ∀ n r k l, (ord n r k l).Perm l)
    (h : chartOf env fuel = some chart) (hc : chart[i]? = some col)
    {lst item : TState} (hlst : lst ∈ col) (hlt : lst.term.type = .list) (hlm : lst.term.meta = .nil)
    (hitem : item ∈ col) (hit : item.term.type = .nonterminal) (hiv : item.term.value = lst.term.value)
    (hcomp : item.isCompleted = true) (hstart : item.start = i) :
    ∀ m, handleEpsilons env (chart.take i) ord m 0 col = none := by
  intro m
  cases hr : handleEpsilons env (chart.take i) ord m 0 col with
  | none => rfl
  | some r =>
    exfalso
    obtain ⟨hl, hi⟩ := chart_column ho h hc
    obtain ⟨hir, ⟨l, hl', -⟩, hcl⟩ := handleEpsilons_ok hwf hp m 0 col r hi hr
    have hsub : ∀ s ∈ col, s ∈ r := fun s hs => by rw [hl']; exact List.mem_append_left _ hs
    obtain ⟨n, row, hsame⟩ := hcl item (hsub _ hitem)
    have h1 := (epsRowCol_closed hwf (hp n row) hir (hsub _ hitem) hsame).1 hcomp
    have hsnap : snapOf (chart.take i) r item = r := by
      unfold snapOf; rw [if_pos (by rw [hl, hstart])]
    rw [hsnap] at h1
    have key : ∀ d, ∃ s ∈ r, s.term.type = .list ∧ s.term.value = lst.term.value ∧ s.term.meta = .nil ∧ s.dot = lst.dot + d := by
      intro d
      induction d with
      | zero => exact ⟨lst, hsub _ hlst, hlt, rfl, hlm, rfl⟩
      | succ d ih =>
        obtain ⟨s, hs, ht, hv, hm, hd⟩ := ih
        have hn : s.getNextTerm = some { value := s.term.value, type := .nonterminal, «meta» := s.term.meta } := by
          unfold TState.getNextTerm TState.maxReached
          simp [ht, hm]
        refine ⟨_, h1 s hs _ ⟨_, hn, by simp [completes, hit, hiv, hv], rfl⟩, ?_⟩
        rw [placed_dot (by simp [advanced, ht])]
        simp [advanced, ht, hv, hm, hd]
        omega
    have hbound : ∃ N, ∀ s ∈ r, s.dot < N := by
      clear hir hcl h1 key hsame hsnap hsub hr hl'
      induction r with
      | nil => exact ⟨0, by simp⟩
      | cons a r ih =>
        obtain ⟨N, hN⟩ := ih
        refine ⟨max N (a.dot + 1), ?_⟩
        intro s hs
        rcases List.mem_cons.1 hs with rfl | hs
        · omega
        · have := hN s hs; omega
    obtain ⟨N, hN⟩ := hbound
    obtain ⟨s, hs, -, -, -, hd⟩ := key N
    have := hN s hs
    omega

/-! ## witnesses -/

/-- `<s> = <o> <o> "x"; <o> = ;` on `x` -/
def wEps : Env :=
  { grammars := [{ name := "g", rules := [rl "s" [[nt "o", nt "o", tt "x"]], rl "o" [[]]] }],
    tokens := [tk "x"], starts := ["s"], tmatch := plainMatch, ord := idOrd }

/-- `<s> = (list<o>); <o> = ;` on the empty text -/
def wEpsList : Env :=
  { grammars := [{ name := "g", rules := [rl "s" [[⟨"o", .list, .nil⟩]], rl "o" [[]]] }],
    tokens := [], starts := ["s"], tmatch := plainMatch, ord := idOrd }

/-- the state that the parser misses (C02) is added -/
example : ∃ chart col, wEps.WF ∧ wEps.OrdOK ∧ FiniteLists wEps ∧ chartOf wEps 20 = some chart ∧ chart[0]? = some col ∧
    (∀ s ∈ col, s.dot ≠ 2) ∧
    ∃ r, handleEpsilons wEps [] (fun _ _ _ l => l) 20 0 col = some r ∧ ∃ s ∈ r, s.dot = 2 := by
  refine ⟨_, _, Env.checkWF_wf (by decide +kernel), idOrd_ok, ?_, rfl, rfl, by decide +kernel, _, rfl, by decide +kernel⟩
  rintro t ⟨A, rb, hd, ht⟩ htt
  have := Env.Defines.mem_allBodies hd
  simp [Env.allBodies, wEps, Rule.bodies] at this
  rcases this with ⟨rfl, rfl⟩ | ⟨rfl, rfl⟩ <;> simp at ht
  rcases ht with rfl | rfl <;> simp at htt

/-- the chart of `wEpsList` -/
theorem wEpsList_chart : ∃ chart col, chartOf wEpsList 20 = some chart ∧ chart[0]? = some col ∧
    (∃ s ∈ col, s.term.type = .list ∧ s.term.meta = .nil ∧ s.term.value = "o") ∧
    ∃ s ∈ col, s.term.type = .nonterminal ∧ s.term.value = "o" ∧ s.isCompleted = true ∧ s.start = 0 :=
  ⟨_, _, rfl, rfl, by decide +kernel, by decide +kernel⟩

/-- C82 is false of the code: for `<s> = (list<o>); <o> = ;` it does not return. -/
theorem C82_false : ¬ C82_statement := by
  intro h
  obtain ⟨chart, col, hc, h0, ⟨l, hl, hlt, hlm, hlv⟩, s, hs, hst, hsv, hsc, hs0⟩ := wEpsList_chart
  have hwf : wEpsList.WF := Env.checkWF_wf (by decide +kernel)
  have hp : ∀ n r k (l : List RuleBody), ((fun _ _ _ l => l : Nat → Nat → Nat → List RuleBody → List RuleBody) n r k l).Perm l :=
    fun _ _ _ _ => List.Perm.refl _
  obtain ⟨r, n, hr, -⟩ := h wEpsList 20 chart 0 col (fun _ _ _ l => l) hwf idOrd_ok hp hc h0
  have := C82_diverges wEpsList 20 chart 0 col (fun _ _ _ l => l) hwf idOrd_ok hp hc h0 hl hlt hlm hs hst
    (by rw [hsv, hlv]) hsc hs0 n
  rw [hr n (Nat.le_refl _)] at this
  cases this

theorem wEps_derives : Derives wEps "s" (wEps.tokens.take 1) := by
  have hdef : ∀ A rb, (A, rb) ∈ wEps.allBodies → wEps.Defines A rb := by
    intro A rb h
    simp [Env.allBodies, wEps, Rule.bodies] at h
    rcases h with ⟨rfl, rfl⟩ | ⟨rfl, rfl⟩ <;>
    exact ⟨_, List.mem_singleton_self _, _, rfl, by simp [Rule.bodies]⟩
  have ho : Yields wEps.lang [nt "o"] [] :=
    Yields.nonterminal_one (body := []) rfl ⟨⟨[], none⟩, hdef _ _ (by simp [Env.allBodies, wEps, Rule.bodies]), rfl⟩
      Yields.nil
  have hx : Yields wEps.lang [tt "x"] [tk "x"] := Yields.terminal rfl (by decide +kernel) Yields.nil
  exact Yields.nonterminal_one (body := [nt "o", nt "o", tt "x"]) rfl
    ⟨⟨[nt "o", nt "o", tt "x"], none⟩, hdef _ _ (by simp [Env.allBodies, wEps, Rule.bodies]), rfl⟩ (ho.append (ho.append hx))

/-- C82: the call in earley.go:185 would not repair C02. With it the parser still finds nothing for
`<s> = <o> <o> "x"; <o> = ;` on `x`: the first column comes to hold the start states and a state that waits for `x`, but
the states that `handleEpsilons` adds are not scanned. -/
theorem C82_not_enough : wEps.WF ∧ Derives wEps "s" wEps.tokens ∧
    ∃ chart, chartOfEps wEps (fun _ _ _ _ l => l) 20 = some chart ∧ finalsAll chart = [] ∧
      wEps.starts.map gammaState <+: chart.getD 0 [] ∧ ∃ s ∈ chart.getD 0 [], s.getNextTerm = some (tt "x") :=
  ⟨Env.checkWF_wf (by decide +kernel), wEps_derives, _, rfl, by decide +kernel, ⟨_, rfl⟩, by decide +kernel⟩

end Fmr
