import Verif.Props.Parse
import Verif.Props.Witness
import Verif.Proofs.TreeSet

/-!
# C58: the chart of a text extends the charts of its prefixes
-/

namespace Fmr

/-- the same parse on the first `n` tokens -/
def Env.upTo (env : Env) (n : Nat) : Env := { env with tokens := env.tokens.take n }

/-- The current column does not depend on the next token. -/
theorem processRow_tok (env env' : Env) (hg : env'.grammars = env.grammars) (ho : env'.ord = env.ord)
    (done : List (List TState)) (t t' : Option Token) (row : Nat) (st : TState) (cur next next' : List TState) :
    (processRow env' done t' row st cur next').1 = (processRow env done t row st cur next).1 := by
  unfold processRow
  simp only []
  cases st.getNextTerm with
  | none => rfl
  | some term =>
    simp only []
    split
    · cases t <;> cases t' <;> rfl
    · cases term.type with
      | terminal => cases t <;> cases t' <;> rfl
      | nonterminal => simp only [predict, hg, ho]
      | any => simp only [predict, hg, ho]
      | list => simp only [predict, hg, ho]
      | eof => rfl

theorem runCol_tok (env env' : Env) (hg : env'.grammars = env.grammars) (ho : env'.ord = env.ord)
    (done : List (List TState)) (t t' : Option Token) : ∀ (fuel row : Nat) (cur next next' : List TState),
    (runCol env' done t' fuel row cur next').map (·.1) = (runCol env done t fuel row cur next).map (·.1)
  | 0, _, _, _, _ => rfl
  | fuel + 1, row, cur, next, next' => by
    rw [runCol, runCol]
    cases cur[row]? with
    | none => rfl
    | some st =>
      simp only []
      rw [processRow_tok env env' hg ho done t t' row st cur next next']
      exact runCol_tok env env' hg ho done t t' fuel (row+1) _ _ _

theorem runCol_env (env env' : Env) (hg : env'.grammars = env.grammars) (ho : env'.ord = env.ord)
    (hm : env'.tmatch = env.tmatch) (done : List (List TState)) (t : Option Token) :
    ∀ (fuel row : Nat) (cur next : List TState), runCol env' done t fuel row cur next = runCol env done t fuel row cur next
  | 0, _, _, _ => rfl
  | fuel + 1, row, cur, next => by
    rw [runCol, runCol]
    cases cur[row]? with
    | none => rfl
    | some st =>
      simp only []
      have : processRow env' done t row st cur next = processRow env done t row st cur next := by
        unfold processRow
        simp only [predict, hg, ho, hm]
      rw [this]
      exact runCol_env env env' hg ho hm done t fuel (row+1) _ _

theorem runCols_take (env env' : Env) (hg : env'.grammars = env.grammars) (ho : env'.ord = env.ord)
    (hm : env'.tmatch = env.tmatch) (fuel : Nat) : ∀ (ts : List Token) (n : Nat) (done : List (List TState))
    (cur : List TState) (chart : List (List TState)), n ≤ ts.length → runCols env fuel ts done cur = some chart →
    runCols env' fuel (ts.take n) done cur = some (chart.take (done.length + n + 1)) ∧
      done.length + ts.length + 1 = chart.length ∧ done <+: chart
  | [], n, done, cur, chart, hn, h => by
    have : n = 0 := Nat.le_zero.mp hn
    subst this
    rw [runCols] at h
    rw [List.take_nil, runCols, runCol_env env env' hg ho hm]
    cases hr : runCol env done none fuel 0 cur [] with
    | none => rw [hr] at h; cases h
    | some x =>
      rw [hr] at h
      simp only [Option.some.injEq] at h
      subst h
      refine ⟨?_, by simp, List.prefix_append _ _⟩
      simp only [Option.some.injEq]
      rw [List.take_of_length_le (by simp)]
  | t :: ts, 0, done, cur, chart, hn, h => by
    rw [runCols] at h
    rw [List.take_zero, runCols]
    cases hr : runCol env done (some t) fuel 0 cur [] with
    | none => rw [hr] at h; cases h
    | some x =>
      rw [hr] at h
      obtain ⟨cur', next⟩ := x
      simp only at h
      obtain ⟨-, h2, h3⟩ := runCols_take env env' hg ho hm fuel ts 0 _ _ _ (Nat.zero_le _) h
      have hc := runCol_tok env env' hg ho done (some t) none fuel 0 cur [] []
      rw [hr] at hc
      cases hr' : runCol env' done none fuel 0 cur [] with
      | none => rw [hr'] at hc; cases hc
      | some y =>
        rw [hr'] at hc
        obtain ⟨c, nx⟩ := y
        simp only [Option.map_some, Option.some.injEq] at hc
        subst hc
        obtain ⟨r, rfl⟩ := h3
        refine ⟨?_, ?_, ?_⟩
        · rw [List.take_append_of_le_length (by simp), List.take_of_length_le (by simp)]
        · rw [← h2]; simp; omega
        · exact ⟨c :: r, by simp⟩
  | t :: ts, n + 1, done, cur, chart, hn, h => by
    rw [runCols] at h
    rw [List.take_succ_cons, runCols, runCol_env env env' hg ho hm]
    cases hr : runCol env done (some t) fuel 0 cur [] with
    | none => rw [hr] at h; cases h
    | some x =>
      rw [hr] at h
      obtain ⟨cur', next⟩ := x
      simp only at h ⊢
      obtain ⟨h1, h2, h3⟩ := runCols_take env env' hg ho hm fuel ts n _ _ _ (by simpa using hn) h
      refine ⟨?_, ?_, ?_⟩
      · rw [h1]
        congr 2
        simp; omega
      · rw [← h2]; simp; omega
      · exact (List.prefix_append _ _).trans h3

/-- C58: parsing the first `n` tokens gives the first `n + 1` columns of the chart of the whole text, row by row,
in all modes. No condition on the grammar. -/
theorem C58_chart {env : Env} {flag flag' : Bool} {fuel n : Nat} {r : ParseResult} (hst : Started env)
    (hn : n ≤ env.tokens.length) (h : parse env flag fuel = some r) :
    ∃ r', parse (env.upTo n) flag' fuel = some r' ∧ r'.chart = r.chart.take (n + 1) ∧
      r'.finals = finalsOf flag' (r.chart.take (n + 1)) := by
  obtain ⟨hc, -⟩ := parse_chart hst h
  unfold chartOf at hc
  obtain ⟨h1, -, -⟩ := runCols_take env (env.upTo n) rfl rfl rfl fuel env.tokens n [] _ r.chart hn hc
  have hst' : (env.upTo n).starts ≠ [] := hst
  refine ⟨{ chart := r.chart.take (n + 1), finals := finalsOf flag' (r.chart.take (n + 1)) }, ?_, rfl, rfl⟩
  rw [parse, if_neg hst', chartOf]
  have e : runCols (env.upTo n) fuel (env.upTo n).tokens [] ((env.upTo n).starts.map gammaState) =
      some (r.chart.take (n + 1)) := by
    have := h1
    rw [List.length_nil, Nat.zero_add] at this
    exact this
  rw [e]

/-- C58 for matches: in exhaustive mode the matches in the first `n` tokens are those matches in the whole text
that end there, in the same order. -/
theorem C58_exhaustive {env : Env} {fuel n : Nat} {r : ParseResult} (hwf : env.WF) (ho : env.OrdOK)
    (hst : Started env) (hn : n ≤ env.tokens.length) (h : parse env false fuel = some r) :
    ∃ r', parse (env.upTo n) false fuel = some r' ∧ r'.finals = r.finals.filter (fun s => s.stop ≤ n) := by
  obtain ⟨r', h1, h2, h3⟩ := C58_chart (flag' := false) hst hn h
  refine ⟨r', h1, ?_⟩
  obtain ⟨hc, hf⟩ := parse_chart hst h
  rw [h3, hf]
  have hcols : ∀ (k : Nat) (col : List TState), r.chart[k]? = some col → ∀ s ∈ col, s.stop = k :=
    fun k col hk s hs => (((chartOf_inv ho hc).1 k col hk s hs).basic hwf).stop
  show finalsAll (r.chart.take (n + 1)) = (finalsAll r.chart).filter _
  rw [finalsAll, finalsAll]
  conv => rhs; rw [← List.take_append_drop (n + 1) r.chart, List.reverse_append, List.flatMap_append, List.filter_append]
  have e1 : ((r.chart.drop (n + 1)).reverse.flatMap (fun col => col.filter TState.isFinal)).filter
      (fun s : TState => decide (s.stop ≤ n)) = [] := by
    rw [List.filter_eq_nil_iff]
    intro s hs
    rw [List.mem_flatMap] at hs
    obtain ⟨col, hcol, hs⟩ := hs
    rw [List.mem_reverse] at hcol
    obtain ⟨k, hk⟩ := List.getElem?_of_mem hcol
    rw [List.getElem?_drop] at hk
    have := hcols _ _ hk s (List.mem_filter.mp hs).1
    simp only [decide_eq_true_eq]
    omega
  have e2 : ((r.chart.take (n + 1)).reverse.flatMap (fun col => col.filter TState.isFinal)).filter
      (fun s : TState => decide (s.stop ≤ n)) = (r.chart.take (n + 1)).reverse.flatMap (fun col => col.filter TState.isFinal) := by
    rw [List.filter_eq_self]
    intro s hs
    rw [List.mem_flatMap] at hs
    obtain ⟨col, hcol, hs⟩ := hs
    rw [List.mem_reverse] at hcol
    obtain ⟨k, hk⟩ := List.getElem?_of_mem hcol
    rw [List.getElem?_take] at hk
    split at hk
    · have := hcols _ _ hk s (List.mem_filter.mp hs).1
      simp only [decide_eq_true_eq]
      omega
    · cases hk
  rw [e1, e2, List.nil_append]

/-- C58 for the longest match: if it ends in the first `n` tokens, parsing only these reports the same. -/
theorem C58_longest {env : Env} {fuel n : Nat} {r : ParseResult} (hwf : env.WF) (ho : env.OrdOK)
    (hst : Started env) (hn : n ≤ env.tokens.length) (h : parse env true fuel = some r)
    (hs : ∀ s ∈ r.finals, s.stop ≤ n) :
    ∃ r', parse (env.upTo n) true fuel = some r' ∧ r'.finals = r.finals := by
  obtain ⟨r', h1, h2, h3⟩ := C58_chart (flag' := true) hst hn h
  refine ⟨r', h1, ?_⟩
  obtain ⟨hc, hf⟩ := parse_chart hst h
  obtain ⟨ra, ha, -, ha'⟩ := C58_chart (flag' := false) hst (Nat.le_refl _) h
  have hra : parse env false fuel = some { chart := r.chart, finals := finalsAll r.chart } := by
    rw [parse, if_neg hst, hc]; rfl
  obtain ⟨rb, hb, hb'⟩ := C58_exhaustive hwf ho hst hn hra
  obtain ⟨rc, hc1, -, hc3⟩ := C58_chart (flag' := false) hst hn h
  rw [hb] at hc1
  cases hc1
  rw [h3, hf]
  rw [hf] at hs
  have e : finalsAll (r.chart.take (n + 1)) = (finalsAll r.chart).filter (fun s => decide (s.stop ≤ n)) := by
    rw [← hb', hc3]; rfl
  show (finalsAll _).take 1 = (finalsAll _).take 1
  rw [e]
  have hs' : ∀ s ∈ (finalsAll r.chart).take 1, s.stop ≤ n := hs
  cases hfa : finalsAll r.chart with
  | nil => rfl
  | cons a l =>
    rw [hfa] at hs'
    have := hs' a (by simp)
    rw [List.filter_cons_of_pos (by simpa using this)]
    rfl

theorem colAt_take {chart : List (List TState)} {n : Nat} {e : Int} (h : e ≤ n) :
    colAt (chart.take (n + 1)) e = colAt chart e := by
  unfold colAt
  split
  · rfl
  · rw [List.getElem?_take, if_pos (by omega)]

/-- every state of a column ends there and starts not later -/
def ColsOK (chart : List (List TState)) : Prop :=
  ∀ (k : Nat) (col : List TState), chart[k]? = some col → ∀ s ∈ col, s.stop = k ∧ s.start ≤ k

theorem optFlat_ext {α β : Type} {f g : α → Option (List β)} :
    ∀ {l : List α}, (∀ a ∈ l, f a = g a) → optFlat f l = optFlat g l
  | [], _ => rfl
  | a :: l, h => by
    rw [optFlat, optFlat, h a (by simp), optFlat_ext (l := l) (fun b hb => h b (by simp [hb]))]

theorem treesHelper_take {chart : List (List TState)} {n : Nat} (hc : ColsOK chart)
    {bt bt' : Nat → Nat → TState → Option (List Node)}
    (hbt : ∀ c r s, c ≤ n → s.stop = c → bt' c r s = bt c r s) (c r : Nat) (s : TState) (terms : List Term) :
    ∀ (k : Nat) (children : List Node) (e : Int), e ≤ n →
      treesHelper (chart.take (n + 1)) bt' c r s terms k children e = treesHelper chart bt c r s terms k children e
  | 0, _, _, _ => rfl
  | k + 1, children, e, he => by
    rw [treesHelper, treesHelper]
    cases terms[k]? with
    | none => rfl
    | some term =>
      simp only []
      split
      · exact treesHelper_take hc hbt c r s terms k _ _ (by omega)
      · rw [colAt_take he]
        cases hcol : colAt chart e with
        | none => rfl
        | some rows =>
          simp only []
          refine optFlat_ext (fun p hp => ?_)
          have hp' : p ∈ rows := by
            unfold rowsBefore at hp
            split at hp
            · exact List.mem_of_mem_take hp
            · exact hp
          have hst : p.1.stop = e.toNat ∧ p.1.start ≤ e.toNat ∧ 0 ≤ e := by
            unfold colAt at hcol
            split at hcol
            · cases hcol
            · rw [Option.map_eq_some_iff] at hcol
              obtain ⟨col, h1, rfl⟩ := hcol
              obtain ⟨p, i⟩ := p
              have hm := List.fst_mem_of_mem_zipIdx hp'
              obtain ⟨h2, h3⟩ := hc _ _ h1 p hm
              exact ⟨h2, h3, by omega⟩
          split
          · rw [hbt _ _ _ (by omega) hst.1]
            cases bt e.toNat p.2 p.1 with
            | none => rfl
            | some subs =>
              simp only []
              refine optFlat_ext (fun sub _ => ?_)
              exact treesHelper_take hc hbt c r s terms k _ _ (by omega)
          · rfl

theorem buildTrees_take {chart : List (List TState)} {n : Nat} (hc : ColsOK chart) :
    ∀ (fuel c r : Nat) (s : TState), c ≤ n → s.stop = c →
      buildTrees (chart.take (n + 1)) fuel c r s = buildTrees chart fuel c r s
  | 0, _, _, _, _, _ => rfl
  | fuel + 1, c, r, s, hcn, hs => by
    rw [buildTrees, buildTrees]
    split
    · rfl
    · cases s.listed.rb with
      | none => rfl
      | some rb =>
        exact treesHelper_take hc (fun c r s h1 h2 => buildTrees_take hc fuel c r s h1 h2) c r s.listed rb.terms _ _ _
          (by omega)

/-- C58 for trees: the trees of a match that ends in the first `n` tokens are the same in both parses. -/
theorem C58_trees {env : Env} {flag : Bool} {fuel n : Nat} {r : ParseResult} (hwf : env.WF) (ho : env.OrdOK)
    (hst : Started env) (h : parse env flag fuel = some r) {k c row : Nat} (hcn : c ≤ n) :
    getTrees (r.chart.take (n + 1)) k c row = getTrees r.chart k c row := by
  obtain ⟨hc, -⟩ := parse_chart hst h
  have hcols : ColsOK r.chart := fun k col hk s hs =>
    let b := ((chartOf_inv ho hc).1 k col hk s hs).basic hwf
    ⟨b.stop, b.start⟩
  unfold getTrees
  rw [List.getElem?_take, if_pos (by omega)]
  cases hcol : r.chart[c]? with
  | none => rfl
  | some col =>
    simp only []
    cases hs : col[row]? with
    | none => rfl
    | some s => exact buildTrees_take hcols k c row s hcn (hcols c col hcol s (List.mem_of_getElem? hs)).1

/-- `1 + 2 | 2 ? z`: the matches that end in the first three tokens, and those that are lost with the rest -/
example : wGood.WF ∧ wGood.OrdOK ∧ Started wGood ∧ 3 ≤ wGood.tokens.length ∧
    (parse wGood false 60).map (fun r => r.finals.map (·.stop)) = some [4, 3, 1] ∧
    (parse (wGood.upTo 3) false 60).map (fun r => r.finals.map (·.stop)) = some [3, 1] ∧
    (parse wGood true 60).map (fun r => r.finals.map (·.stop)) = some [4] ∧
    (parse (wGood.upTo 4) true 60).map (fun r => r.finals.map (·.stop)) = some [4] ∧
    (parse wGood true 60).map (fun r => (getTrees r.chart 20 4 0).isSome) = some true :=
  ⟨Env.checkWF_wf (by decide +kernel), idOrd_ok, by simp [Started, wGood], by decide +kernel, by decide +kernel,
    by decide +kernel, by decide +kernel, by decide +kernel, by decide +kernel⟩

end Fmr
