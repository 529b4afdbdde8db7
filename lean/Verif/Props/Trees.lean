import Verif.Proofs.TreesM
import Verif.Props.Parse

/-!
# C10 – C16: trees
-/

namespace Fmr

/-! ## helpers -/

theorem parse_at {env : Env} (ho : env.OrdOK) {flag fuel} {res : ParseResult}
    (h : parse env flag fuel = some res) {c row s} (hat : chartGet res.chart c row = some s) :
    chartOf env fuel = some res.chart ∧ At res.chart c row s ∧
    (∀ (c : Nat) (col : List TState), res.chart[c]? = some col → ∀ s ∈ col, Item env c s) := by
  by_cases hst : env.starts = []
  · exfalso
    unfold parse at h
    rw [if_pos hst] at h
    simp at h; subst h
    obtain ⟨col, h1, h2⟩ := chartGet_iff.1 hat
    have := List.mem_of_getElem? h1
    rw [List.eq_of_mem_replicate this] at h2
    simp at h2
  · have := parse_chart hst h
    exact ⟨this.1, chartGet_iff.1 hat, (chartOf_inv ho this.1).1⟩

theorem getTrees_eq {chart : List (List TState)} {fuel c row s} (hat : At chart c row s) :
    getTrees chart fuel c row = buildTrees chart fuel c row s := by
  obtain ⟨col, h1, h2⟩ := hat
  unfold getTrees
  rw [h1]
  simp only [h2]

theorem matchFor_final {env : Env} (hwf : env.WF) {i s S j} (hi : Item env i s) (hS : S ∈ env.starts)
    (hm : MatchFor S j s) : s.isCompleted = true ∧ s.term.type = .nonterminal ∧ j = i ∧
      s.rb = some (startBody S) := by
  have hj : j = i := by rw [← hm.2.2.2.2, (hi.basic hwf).stop]
  subst hj
  have hf := (isFinal_iff_match hwf hi).2 ⟨S, hS, hm⟩
  have hrb : ∃ rb, s.rb = some rb ∧ rb.terms = [{ value := S, type := .nonterminal, «meta» := .nil }] := by
    have := hm.2.1
    cases h : s.rb with
    | none => simp [h] at this
    | some rb => exact ⟨rb, rfl, by simpa [h] using this⟩
  refine ⟨?_, ?_, rfl, ?_⟩
  · unfold TState.isFinal at hf; simp at hf; exact hf.2
  rotate_left
  · obtain ⟨S', _, _, _, hr, _⟩ := hi.final hwf hf
    obtain ⟨rb, hrb, ht⟩ := hrb
    have : rb = startBody S' := by rw [hrb] at hr; exact Option.some.inj hr
    subst this
    simp [startBody] at ht
    subst ht; exact hrb
  · obtain ⟨rb, hrb, _⟩ := hrb
    rcases (hi.basic hwf).kind with h | h | h
    · exact h
    · rw [((hi.basic hwf).any h).1] at hrb; simp at hrb
    · rw [((hi.basic hwf).list h).1] at hrb; simp at hrb

/-! ## C10 -/

/-- C10: every tree returned for a match of `S` over the first `j` tokens is a derivation tree.
(Counts of `(any{m,n})` and `(list<x>{m,n})` are read as in C01; the statement of C10 does not
mention them. `C10_counts_partial` adds them.) -/
theorem C10_trees_valid (env : Env) (flag : Bool) (fuel f : Nat) (res : ParseResult)
    (hwf : env.WF) (ho : env.OrdOK) (hun : Unmixed env) (h : parse env flag fuel = some res)
    (c row : Nat) (s : TState) (hat : chartGet res.chart c row = some s)
    (S : String) (hS : S ∈ env.starts) (j : Nat) (hm : MatchFor S j s)
    (ts : List Node) (ht : getTrees res.chart f c row = some ts) :
    ∀ n ∈ ts, RootOK env env.relaxedLang S j n := by
  obtain ⟨hc, hat, hch⟩ := parse_at ho h hat
  have hi : Item env c s := by
    obtain ⟨col, h1, h2⟩ := hat; exact hch c col h1 s (List.mem_of_getElem? h2)
  obtain ⟨hcomp, hnt, rfl, hrb⟩ := matchFor_final hwf hi hS hm
  rw [getTrees_eq hat] at ht
  obtain ⟨ts', h1, h2⟩ := buildTrees_ok hwf hun hch (max f (rank res.chart j row + 1)) j row s hat hcomp
    (by omega)
  have := buildTrees_mono (Nat.le_max_left f (rank res.chart j row + 1)) ht
  rw [h1] at this; simp at this; subst this
  intro n hn
  obtain ⟨e1, e2, e3, _, e4, _⟩ := h2 n hn
  obtain ⟨e5, e6⟩ := e4 hnt
  have hfor := e6 _ hrb
  simp only [startBody] at hfor
  rw [hm.2.2.1, hm.2.2.2.2] at hfor
  refine ⟨by rw [e1]; exact hm.1, by rw [e1, hnt], by rw [e2]; exact hm.2.2.1,
    by rw [e3]; exact hm.2.2.2.2, by rw [e5, hrb], ?_⟩
  cases hcs : n.children with
  | nil => rw [hcs] at hfor; cases hfor
  | cons c0 cs =>
    rw [hcs] at hfor
    cases hfor with
    | cons g1 g2 => cases g2; exact ⟨c0, rfl, g1⟩

/-- C10 including the counts, for grammars with uniform bounds (missing: grammars mixing bounds,
where the counts of another term may be used, see C09). -/
theorem C10_counts_partial (env : Env) (flag : Bool) (fuel f : Nat) (res : ParseResult)
    (hwf : env.WF) (ho : env.OrdOK) (hun : Unmixed env) (hu : UniformBounds env)
    (h : parse env flag fuel = some res)
    (c row : Nat) (s : TState) (hat : chartGet res.chart c row = some s)
    (S : String) (hS : S ∈ env.starts) (j : Nat) (hm : MatchFor S j s)
    (ts : List Node) (ht : getTrees res.chart f c row = some ts) :
    ∀ n ∈ ts, RootOK env env.lang S j n := by
  intro n hn
  obtain ⟨h0, h1, h2, h3, h4, c0, h5, h6⟩ :=
    C10_trees_valid env flag fuel f res hwf ho hun h c row s hat S hS j hm ts ht n hn
  exact ⟨h0, h1, h2, h3, h4, c0, h5, h6.strict hu (by simp)⟩

/-- What a valid tree means: its start rule derives the tokens it spans. -/
theorem RootOK.derives {env : Env} {S j n} (h : RootOK env env.lang S j n)
    (hj : j ≤ env.tokens.length) : Derives env S (env.tokens.take j) := by
  obtain ⟨_, _, _, _, _, c0, _, h6⟩ := h
  have := (TreeOK.yields (L := env.lang) (fun A rb hd => ⟨rb, hd, rfl⟩) h6 hj).2
  rw [slice_zero] at this
  exact this

/-- decidable check for `Unmixed` -/
def Env.checkUnmixed (env : Env) : Bool :=
  env.allBodies.all (fun p => p.2.terms.all (fun t => t.type == .terminal) ||
    p.2.terms.all (fun t => t.type != .terminal))

theorem Env.checkUnmixed_ok {env : Env} (h : env.checkUnmixed = true) : Unmixed env := by
  unfold Env.checkUnmixed at h
  simp at h
  intro A rb hd
  exact h A rb (Env.Defines.mem_allBodies hd)

/-- decidable check for `AnyNamed` -/
def Env.checkAnyNamed (env : Env) : Bool :=
  env.allTerms.all (fun t => t.type != .any || t.value == "any")

theorem Env.checkAnyNamed_ok {env : Env} (h : env.checkAnyNamed = true) : AnyNamed env := by
  unfold Env.checkAnyNamed at h
  simp at h
  intro t ht hk
  rcases h t (Env.Occurs.mem_allTerms ht) with h | h
  · exact absurd hk h
  · exact h

/-- addresses of final states -/
def finalAddrs (chart : List (List TState)) : List (Nat × Nat) :=
  chart.zipIdx.flatMap (fun (col, c) =>
    (col.zipIdx.filter (fun p => p.1.isFinal)).map (fun p => (c, p.2)))

example : wGood.WF ∧ wGood.OrdOK ∧ Unmixed wGood ∧ AnyNamed wGood ∧
    (parse wGood true 60).map (fun r => finalAddrs r.chart) = some [(1, 5), (3, 7), (4, 5)] ∧
    ((parse wGood true 60).bind (fun r => getTrees r.chart 90 4 5)).map (·.map Node.labels)
      = some [["ɣ", "s", "s", "n", "n", "1", "p", "+", "s", "n", "n", "2", "n", "2"]] :=
  ⟨Env.checkWF_wf (by decide +kernel), idOrd_ok, Env.checkUnmixed_ok (by decide +kernel),
   Env.checkAnyNamed_ok (by decide +kernel), by decide +kernel, by decide +kernel⟩

/-- `wGood` has a match of `s` over four tokens at row 5 of column 4 -/
theorem wGood_match : ∃ res s, parse wGood true 60 = some res ∧ chartGet res.chart 4 5 = some s ∧
    "s" ∈ wGood.starts ∧ MatchFor "s" 4 s := by
  cases hp : parse wGood true 60 with
  | none => exact absurd hp (by
      have : (parse wGood true 60).isSome = true := by decide +kernel
      intro h; rw [h] at this; simp at this)
  | some res =>
    have hg : (chartGet res.chart 4 5).map (fun s => ((s.term.value, s.rb.map (·.terms)), (s.start, s.dot, s.stop)))
        = some (("ɣ", some [nt "s"]), (0, 1, 4)) := by
      have : (parse wGood true 60).map (fun res => (chartGet res.chart 4 5).map
          (fun s => ((s.term.value, s.rb.map (·.terms)), (s.start, s.dot, s.stop))))
          = some (some (("ɣ", some [nt "s"]), (0, 1, 4))) := by decide +kernel
      rw [hp] at this; simpa using this
    obtain ⟨s, hs, hs'⟩ := Option.map_eq_some_iff.1 hg
    simp only [Prod.mk.injEq] at hs'
    exact ⟨res, s, rfl, hs, by decide +kernel, hs'.1.1, hs'.1.2, hs'.2.1, hs'.2.2.1, hs'.2.2.2⟩

/-! ## C11 -/

/-- C11: `GetTrees` returns, without fault, for every final state (`none` would be an index out of
range or an unfinished recursion); the result does not depend on the fuel. -/
theorem C11_getTrees_returns (env : Env) (flag : Bool) (fuel : Nat) (res : ParseResult)
    (hwf : env.WF) (ho : env.OrdOK) (hun : Unmixed env) (h : parse env flag fuel = some res)
    (c row : Nat) (s : TState) (hat : chartGet res.chart c row = some s)
    (S : String) (hS : S ∈ env.starts) (j : Nat) (hm : MatchFor S j s) :
    ∃ n ts, ∀ f ≥ n, getTrees res.chart f c row = some ts := by
  obtain ⟨hc, hat, hch⟩ := parse_at ho h hat
  have hi : Item env c s := by
    obtain ⟨col, h1, h2⟩ := hat; exact hch c col h1 s (List.mem_of_getElem? h2)
  obtain ⟨hcomp, _⟩ := matchFor_final hwf hi hS hm
  obtain ⟨ts, h1, _⟩ := buildTrees_ok hwf hun hch (rank res.chart c row + 1) c row s hat hcomp
    (by omega)
  refine ⟨rank res.chart c row + 1, ts, fun f hf => ?_⟩
  rw [getTrees_eq hat]
  exact buildTrees_mono hf h1

/-- C11 for every completed state of the chart, not only final ones -/
theorem C11_any_completed (env : Env) (flag : Bool) (fuel : Nat) (res : ParseResult)
    (hwf : env.WF) (ho : env.OrdOK) (hun : Unmixed env) (h : parse env flag fuel = some res)
    (c row : Nat) (s : TState) (hat : chartGet res.chart c row = some s)
    (hcomp : s.isCompleted = true) :
    ∃ n ts, ∀ f ≥ n, getTrees res.chart f c row = some ts := by
  obtain ⟨hc, hat, hch⟩ := parse_at ho h hat
  obtain ⟨ts, h1, _⟩ := buildTrees_ok hwf hun hch (rank res.chart c row + 1) c row s hat hcomp
    (by omega)
  refine ⟨rank res.chart c row + 1, ts, fun f hf => ?_⟩
  rw [getTrees_eq hat]
  exact buildTrees_mono hf h1

/-- a cyclic grammar with infinitely many derivations: one tree is returned -/
example : wCyclic.WF ∧ wCyclic.OrdOK ∧ Unmixed wCyclic ∧
    (parse wCyclic true 60).map (fun r => (finalAddrs r.chart).map
      (fun a => (getTrees r.chart 90 a.1 a.2).map (·.map Node.labels)))
      = some [some [["ɣ", "s", "x", "x"]]] :=
  ⟨Env.checkWF_wf (by decide +kernel), revOrd_ok, Env.checkUnmixed_ok (by decide +kernel),
   by decide +kernel⟩

/-! ## C12 -/

/-- C12: every match has a tree. -/
theorem C12_match_has_tree (env : Env) (flag : Bool) (fuel f : Nat) (res : ParseResult)
    (hwf : env.WF) (ho : env.OrdOK) (hun : Unmixed env) (hany : AnyNamed env)
    (h : parse env flag fuel = some res)
    (c row : Nat) (s : TState) (hat : chartGet res.chart c row = some s)
    (S : String) (hS : S ∈ env.starts) (j : Nat) (hm : MatchFor S j s)
    (ts : List Node) (ht : getTrees res.chart f c row = some ts) : ts ≠ [] := by
  obtain ⟨hc, hat, hch⟩ := parse_at ho h hat
  have hi : Item env c s := by
    obtain ⟨col, h1, h2⟩ := hat; exact hch c col h1 s (List.mem_of_getElem? h2)
  obtain ⟨hcomp, _⟩ := matchFor_final hwf hi hS hm
  rw [getTrees_eq hat] at ht
  obtain ⟨ts', h1, h2⟩ := buildTrees_nonempty hwf hun hch
    (fun c r s ha => chart_prov hwf ho hany hc ha) (max f (rank res.chart c row + 1)) c row s hat hcomp
    (by omega)
  have := buildTrees_mono (Nat.le_max_left f (rank res.chart c row + 1)) ht
  rw [h1] at this; simp at this; subst this
  exact h2

/-- the hypotheses of C10, C12, C13, C16 are met by `wGood` and its match over four tokens -/
example : ∃ res s, parse wGood true 60 = some res ∧ chartGet res.chart 4 5 = some s ∧
    "s" ∈ wGood.starts ∧ MatchFor "s" 4 s ∧ AnyNamed wGood ∧ UniformBounds wGood := by
  obtain ⟨res, s, h1, h2, h3, h4⟩ := wGood_match
  exact ⟨res, s, h1, h2, h3, h4, Env.checkAnyNamed_ok (by decide +kernel),
    Env.checkUniform_ok (by decide +kernel)⟩

/-- every reported final state has an address in the chart -/
theorem finals_have_address (env : Env) (flag : Bool) (fuel : Nat) (res : ParseResult)
    (h : parse env flag fuel = some res) :
    ∀ s ∈ res.finals, ∃ c row, chartGet res.chart c row = some s := by
  intro s hs
  by_cases hst : env.starts = []
  · rw [parse_nostart hst h] at hs; simp at hs
  · obtain ⟨_, hf⟩ := parse_chart hst h
    rw [hf] at hs
    obtain ⟨⟨col, hcol, hin⟩, _⟩ := mem_finalsAll.1 (finalsOf_sub hs)
    obtain ⟨c, hc⟩ := List.getElem?_of_mem hcol
    obtain ⟨r, hr⟩ := List.getElem?_of_mem hin
    exact ⟨c, r, chartGet_iff.2 ⟨col, hc, hr⟩⟩

/-! ## C13 -/

/-- C13, full statement: every acyclic derivation tree is returned. -/
def C13_statement : Prop :=
  ∀ (env : Env) (flag : Bool) (fuel f : Nat) (res : ParseResult),
    env.WF → env.OrdOK → Unmixed env → AnyNamed env → NoEmpty env → UniformBounds env →
    parse env flag fuel = some res →
    ∀ (c row : Nat) (s : TState), chartGet res.chart c row = some s →
    ∀ (S : String), S ∈ env.starts → ∀ (j : Nat), MatchFor S j s →
    ∀ (ts : List Node), getTrees res.chart f c row = some ts →
    ∀ n, RootOK env env.lang S j n → n.acyclic [] = true → n.shape ∈ ts.map Node.shape

/-- the tree that is lost: `s → y → z → a` -/
def lostTree : Node :=
  let leaf : Node := .mk { term := tt "a", rb := none, start := 0, stop := 1, dot := 0 } []
  let z : Node := .mk { term := nt "z", rb := some ⟨[tt "a"], none⟩, start := 0, stop := 1, dot := 1 } [leaf]
  let y : Node := .mk { term := nt "y", rb := some ⟨[nt "z"], none⟩, start := 0, stop := 1, dot := 1 } [z]
  let s : Node := .mk { term := nt "s", rb := some ⟨[nt "y"], none⟩, start := 0, stop := 1, dot := 1 } [y]
  .mk { term := nt "ɣ", rb := (gammaState "s").rb, start := 0, stop := 1, dot := 1 } [s]

theorem lostTree_ok (ord) : RootOK (wLost ord) (wLost ord).lang "s" 1 lostTree := by
  refine ⟨rfl, rfl, rfl, rfl, rfl, _, rfl, ?_⟩
  refine TreeOK.nonterminal (rb := ⟨[nt "y"], none⟩) rfl ?_ rfl rfl rfl rfl rfl ?_
  · exact ⟨_, List.mem_singleton.2 rfl, _, rfl, by simp [Rule.bodies]⟩
  refine ForestOK.cons (m := 1) ?_ ForestOK.nil
  refine TreeOK.nonterminal (rb := ⟨[nt "z"], none⟩) rfl ?_ rfl rfl rfl rfl rfl ?_
  · exact ⟨_, List.mem_singleton.2 rfl, _, rfl, by simp [Rule.bodies]⟩
  refine ForestOK.cons (m := 1) ?_ ForestOK.nil
  refine TreeOK.nonterminal (rb := ⟨[tt "a"], none⟩) rfl ?_ rfl rfl rfl rfl rfl ?_
  · exact ⟨_, List.mem_singleton.2 rfl, _, rfl, by simp [Rule.bodies]⟩
  refine ForestOK.cons (m := 1) ?_ ForestOK.nil
  exact TreeOK.terminal (tok := tk "a") rfl rfl (show plainMatch (tt "a") (tk "a") = true by decide +kernel) rfl rfl rfl rfl rfl

/-- C13 is false: `<s> = <y>; <y> = "a" | <z>; <z> = "a"` on `a` has two derivation trees; only one
is returned. -/
theorem C13_false : ¬ C13_statement := by
  intro hall
  cases hp : parse (wLost idOrd) true 20 with
  | none => exact absurd hp (by
      have : (parse (wLost idOrd) true 20).isSome = true := by decide +kernel
      intro h; rw [h] at this; simp at this)
  | some res =>
    have hg : (chartGet res.chart 1 4).map (fun s => ((s.term.value, s.rb.map (·.terms)), (s.start, s.dot, s.stop)))
        = some (("ɣ", some [nt "s"]), (0, 1, 1)) := by
      have : (parse (wLost idOrd) true 20).map (fun res => (chartGet res.chart 1 4).map
          (fun s => ((s.term.value, s.rb.map (·.terms)), (s.start, s.dot, s.stop))))
          = some (some (("ɣ", some [nt "s"]), (0, 1, 1))) := by decide +kernel
      rw [hp] at this; simpa using this
    have ht : (getTrees res.chart 20 1 4).map (·.map (·.shape.labels)) = some [["ɣ", "s", "y", "a"]] := by
      have : (parse (wLost idOrd) true 20).map (fun res => (getTrees res.chart 20 1 4).map (·.map (·.shape.labels)))
          = some (some [["ɣ", "s", "y", "a"]]) := by decide +kernel
      rw [hp] at this; simpa using this
    obtain ⟨s, hs, hs'⟩ := Option.map_eq_some_iff.1 hg
    obtain ⟨ts, hts, hts'⟩ := Option.map_eq_some_iff.1 ht
    simp only [Prod.mk.injEq] at hs'
    have hmem := hall (wLost idOrd) true 20 20 res (Env.checkWF_wf (by decide +kernel)) idOrd_ok
      (Env.checkUnmixed_ok (by decide +kernel)) (Env.checkAnyNamed_ok (by decide +kernel))
      (Env.checkNoEmpty_ok (by decide +kernel)) (Env.checkUniform_ok (by decide +kernel)) hp 1 4 s hs
      "s" (by decide +kernel) 1 ⟨hs'.1.1, hs'.1.2, hs'.2.1, hs'.2.2.1, hs'.2.2.2⟩ ts hts lostTree
      (lostTree_ok idOrd) (by decide +kernel)
    obtain ⟨n, hn, hsh⟩ := List.mem_map.1 hmem
    have hl : n.shape.labels ∈ ts.map (·.shape.labels) := List.mem_map_of_mem (f := (·.shape.labels)) hn
    rw [hts', hsh] at hl
    exact absurd hl (by decide +kernel)

/-- the same tree is lost whichever way the rule map is iterated -/
example :
    (chartOf (wLost idOrd) 20).map (fun c => (getTrees c 20 1 4).map (·.map Node.labels))
      = some (some [["ɣ", "s", "y", "a"]]) ∧
    (chartOf (wLost revOrd) 20).map (fun c => (getTrees c 20 1 4).map (·.map Node.labels))
      = some (some [["ɣ", "s", "y", "a"]]) := ⟨by decide +kernel, by decide +kernel⟩

/-- C13, what holds instead: exactly those trees are returned that are laid out on the chart, every
node in a row after those of its children that end in the same column (missing: a derivation tree
one of whose nodes was completed a second time, after its parent, is not laid out). -/
theorem C13_exact_partial (env : Env) (flag : Bool) (fuel f : Nat) (res : ParseResult)
    (hwf : env.WF) (ho : env.OrdOK) (hun : Unmixed env) (h : parse env flag fuel = some res)
    (c row : Nat) (s : TState) (hat : chartGet res.chart c row = some s)
    (S : String) (hS : S ∈ env.starts) (j : Nat) (hm : MatchFor S j s)
    (ts : List Node) (ht : getTrees res.chart f c row = some ts) :
    ∀ n, n ∈ ts ↔ Laid res.chart c row n := by
  obtain ⟨hc, hat, hch⟩ := parse_at ho h hat
  have hi : Item env c s := by
    obtain ⟨col, h1, h2⟩ := hat; exact hch c col h1 s (List.mem_of_getElem? h2)
  obtain ⟨hcomp, _⟩ := matchFor_final hwf hi hS hm
  rw [getTrees_eq hat] at ht
  exact buildTrees_laid hwf hun hch f c row s ts hat hcomp ht

/-- C13 for unambiguous inputs: if all derivation trees of the match have the same shape, that tree
is returned (missing: ambiguous inputs, where trees are lost). -/
theorem C13_unambiguous_partial (env : Env) (flag : Bool) (fuel f : Nat) (res : ParseResult)
    (hwf : env.WF) (ho : env.OrdOK) (hun : Unmixed env) (hany : AnyNamed env)
    (h : parse env flag fuel = some res)
    (c row : Nat) (s : TState) (hat : chartGet res.chart c row = some s)
    (S : String) (hS : S ∈ env.starts) (j : Nat) (hm : MatchFor S j s)
    (ts : List Node) (ht : getTrees res.chart f c row = some ts)
    (huniq : ∀ n n', RootOK env env.relaxedLang S j n → RootOK env env.relaxedLang S j n' →
      n.shape = n'.shape) :
    ∀ n, RootOK env env.relaxedLang S j n → n.shape ∈ ts.map Node.shape := by
  intro n hn
  have hne := C12_match_has_tree env flag fuel f res hwf ho hun hany h c row s hat S hS j hm ts ht
  obtain ⟨n', hn'⟩ := List.exists_mem_of_ne_nil _ hne
  have := C10_trees_valid env flag fuel f res hwf ho hun h c row s hat S hS j hm ts ht n' hn'
  rw [huniq n n' hn this]
  exact List.mem_map_of_mem hn'

/-- `<s> = "x"` on `x` is unambiguous -/
def wOne : Env :=
  { grammars := [{ name := "g", rules := [rl "s" [[tt "x"]]] }],
    tokens := [tk "x"], starts := ["s"], tmatch := plainMatch, ord := idOrd }

theorem wOne_body {A : String} {rb : RuleBody} (h : wOne.Defines A rb) : rb = ⟨[tt "x"], none⟩ := by
  have := Env.Defines.mem_allBodies h
  simp [Env.allBodies, wOne, Rule.bodies] at this
  exact this.2

theorem wOne_unique {n n' : Node} (h : RootOK wOne wOne.relaxedLang "s" 1 n)
    (h' : RootOK wOne wOne.relaxedLang "s" 1 n') : n.shape = n'.shape := by
  have key : ∀ n : Node, RootOK wOne wOne.relaxedLang "s" 1 n →
      n.shape = .mk .nonterminal "ɣ" (some (startBody "s")) 0 1
        [.mk .nonterminal "s" (some ⟨[tt "x"], none⟩) 0 1 [.mk .terminal "x" none 0 1 []]] := by
    intro n ⟨h1, h2, h3, h4, h4', c0, h5, h6⟩
    obtain ⟨v, cs⟩ := n
    simp only [Node.children, Node.value] at *
    subst h5
    obtain ⟨v0, cs0⟩ := c0
    cases h6 with
    | terminal h => simp at h
    | any h => simp at h
    | list h => simp at h
    | nonterminal a1 a2 a3 a4 a5 a6 a7 a8 =>
      have := wOne_body a2
      subst this
      simp only [Node.children, Node.value] at *
      cases a8 with
      | cons g1 g2 =>
        cases g2
        rename_i leaf
        obtain ⟨vl, cl⟩ := leaf
        generalize hm : (1 : Nat) = m at g1
        cases g1 with
        | nonterminal h => simp at h
        | any h => simp at h
        | list h => simp at h
        | terminal b1 b2 b3 b4 b5 b6 b7 b8 =>
          simp only [Node.children, Node.value] at *
          subst b8
          simp [Node.shape, shapes, h1, h2, h3, h4, h4', a3, a4, a5, a6, a7, b4, b5, b6, b7]
  rw [key n h, key n' h']

example : ∀ n n', RootOK wOne wOne.relaxedLang "s" 1 n → RootOK wOne wOne.relaxedLang "s" 1 n' →
    n.shape = n'.shape := fun _ _ => wOne_unique

/-- the trees returned for `wOne` -/
example : (chartOf wOne 20).map (fun c => (finalAddrs c).map
    (fun a => (getTrees c 20 a.1 a.2).map (·.map Node.labels)))
    = some [some [["ɣ", "s", "x"]]] := by decide +kernel

/-! ## C14 -/

/-- C14: no tree is returned twice. -/
theorem C14_no_duplicate_trees (env : Env) (flag : Bool) (fuel f : Nat) (res : ParseResult)
    (hwf : env.WF) (ho : env.OrdOK) (h : parse env flag fuel = some res)
    (c row : Nat) (s : TState) (hat : chartGet res.chart c row = some s)
    (ts : List Node) (ht : getTrees res.chart f c row = some ts) : ts.Nodup := by
  obtain ⟨hc, hat, hch⟩ := parse_at ho h hat
  rw [getTrees_eq hat] at ht
  refine buildTrees_nodup hwf ?_ (chart_distinct hwf ho hc) f c row s ts hat ht
  rintro e rc st ⟨col, h1, h2⟩
  exact (hch e col h1 st (List.mem_of_getElem? h2)).basic hwf

/-- an ambiguous input with two trees -/
example : wAmb.WF ∧ wAmb.OrdOK ∧
    (parse wAmb true 60).map (fun r => (finalAddrs r.chart).map
      (fun a => (getTrees r.chart 90 a.1 a.2).map (·.length)))
      = some [some 1, some 1, some 2] :=
  ⟨Env.checkWF_wf (by decide +kernel), idOrd_ok, by decide +kernel⟩

/-! ## C15 -/

/-- C15: whatever `GetTrees` calls were made before, each call returns the trees of the untouched
chart. -/
theorem C15_calls_independent (chart : List (List TState)) (fuel : Nat) :
    ∀ (calls : List (Nat × Nat)) (chart' : List (List TState)) (out : List (List Node)),
      getTreesSeq fuel calls chart = some (out, chart') →
      out.map some = calls.map (fun a => getTrees chart fuel a.1 a.2) := by
  have key : ∀ (calls : List (Nat × Nat)) (ch ch' : List (List TState)) (out : List (List Node)),
      SameChart chart ch → getTreesSeq fuel calls ch = some (out, ch') →
      out.map some = calls.map (fun a => getTrees chart fuel a.1 a.2) := by
    intro calls
    induction calls with
    | nil => intro ch ch' out _ h; simp [getTreesSeq] at h; simp [h.1]
    | cons a l ih =>
      obtain ⟨c, r⟩ := a
      intro ch ch' out hs h
      unfold getTreesSeq at h
      cases hb : buildTreesM fuel c r ch with
      | none => rw [hb] at h; simp at h
      | some p =>
        obtain ⟨ts, ch1⟩ := p
        rw [hb] at h
        simp only at h
        cases hr : getTreesSeq fuel l ch1 with
        | none => rw [hr] at h; simp at h
        | some q =>
          obtain ⟨rest, ch2⟩ := q
          rw [hr] at h
          simp at h
          obtain ⟨rfl, rfl⟩ := h
          -- the state exists in the original chart
          have hat : ∃ s, At chart c r s := by
            cases hf : fuel with
            | zero => subst hf; simp [buildTreesM] at hb
            | succ n =>
              subst hf
              unfold buildTreesM at hb
              cases hg : chartGet ch c r with
              | none => rw [hg] at hb; simp at hb
              | some s =>
                obtain ⟨s', hs', _⟩ := hs.symm.at (chartGet_iff.1 hg)
                exact ⟨s', hs'⟩
          obtain ⟨s, hat⟩ := hat
          have hag := buildTrees_agree fuel c r s hat ch hs
          rw [← getTrees_eq hat] at hag
          cases hgt : getTrees chart fuel c r with
          | none => rw [hgt] at hag; simp only at hag; rw [hb] at hag; simp at hag
          | some ts' =>
            rw [hgt] at hag
            simp only at hag
            obtain ⟨ch3, h1, h2⟩ := hag
            rw [hb] at h1
            simp at h1
            obtain ⟨rfl, rfl⟩ := h1
            simp [hgt, ih ch1 ch2 rest h2 hr]
  intro calls chart' out h
  exact key calls chart chart' out rfl h

/-- C15, the other direction: a sequence of calls goes through if every single call does. -/
theorem C15_calls_succeed (chart : List (List TState)) (fuel : Nat) (calls : List (Nat × Nat))
    (h : ∀ a ∈ calls, (getTrees chart fuel a.1 a.2).isSome) :
    (getTreesSeq fuel calls chart).isSome := by
  have key : ∀ (calls : List (Nat × Nat)) (ch : List (List TState)),
      SameChart chart ch → (∀ a ∈ calls, (getTrees chart fuel a.1 a.2).isSome) →
      (getTreesSeq fuel calls ch).isSome := by
    intro calls
    induction calls with
    | nil => intro ch _ _; simp [getTreesSeq]
    | cons a l ih =>
      obtain ⟨c, r⟩ := a
      intro ch hs h
      have h1 := h (c, r) (by simp)
      have hat : ∃ s, At chart c r s := by
        unfold getTrees at h1
        cases hc : chart[c]? with
        | none => simp [hc] at h1
        | some col =>
          cases hr : col[r]? with
          | none => simp [hc, hr] at h1
          | some s => exact ⟨s, col, hc, hr⟩
      obtain ⟨s, hat⟩ := hat
      have hag := buildTrees_agree fuel c r s hat ch hs
      rw [← getTrees_eq hat] at hag
      cases hgt : getTrees chart fuel c r with
      | none => simp [hgt] at h1
      | some ts =>
        rw [hgt] at hag
        simp only at hag
        obtain ⟨ch1, h2, h3⟩ := hag
        unfold getTreesSeq
        rw [h2]
        simp only
        have h4 := ih ch1 h3 (fun a ha => h a (by simp [ha]))
        cases hr : getTreesSeq fuel l ch1 with
        | none => rw [hr] at h4; simp at h4
        | some q => rfl
  exact key calls chart rfl h

/-- the write happens (the body of the list state changes), and a second round gives the same -/
example : (chartOf wGood 60).map (fun ch =>
    (getTreesSeq 90 [(4, 5), (3, 7), (4, 5)] ch).map (fun r =>
      (r.1.map (·.map Node.labels), (r.2.flatten.filter (·.rb.isSome)).length,
        (ch.flatten.filter (·.rb.isSome)).length)))
    = some (some ([[["ɣ", "s", "s", "n", "n", "1", "p", "+", "s", "n", "n", "2", "n", "2"]],
        [["ɣ", "s", "s", "n", "n", "1", "p", "+", "s", "n", "n", "2"]],
        [["ɣ", "s", "s", "n", "n", "1", "p", "+", "s", "n", "n", "2", "n", "2"]]], 41, 38)) := by
  decide +kernel

/-! ## C16 -/

/-- C16: reading the leaves of any node of a returned tree from left to right gives exactly the
tokens from its start to its end. -/
theorem C16_leaves_cover (env : Env) (flag : Bool) (fuel f : Nat) (res : ParseResult)
    (hwf : env.WF) (ho : env.OrdOK) (hun : Unmixed env) (h : parse env flag fuel = some res)
    (c row : Nat) (s : TState) (hat : chartGet res.chart c row = some s)
    (S : String) (hS : S ∈ env.starts) (j : Nat) (hm : MatchFor S j s)
    (ts : List Node) (ht : getTrees res.chart f c row = some ts) :
    ∀ n ∈ ts, ∀ m, Node.Sub m n →
      m.leafToks = (List.range (m.value.stop - m.value.start)).map (m.value.start + ·) := by
  intro n hn m hsub
  obtain ⟨_, _, h2, h3, _, c0, h5, h6⟩ :=
    C10_trees_valid env flag fuel f res hwf ho hun h c row s hat S hS j hm ts ht n hn
  cases hsub with
  | refl =>
    rw [h2, h3]
    obtain ⟨v, cs⟩ := n
    simp only [Node.children] at h5
    subst h5
    rw [← h6.leaves.2]
    simp [Node.leafToks, leafToksL]
  | child hk hs =>
    rw [h5] at hk
    simp at hk
    subst hk
    obtain ⟨t, a, b, hok⟩ := TreeOK.sub hs h6
    rw [hok.span.1, hok.span.2]
    exact hok.leaves.2

end Fmr
