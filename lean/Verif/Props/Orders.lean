import Verif.Props.Spines

/-!
# C92: whether the trees depend on the order of map iteration
-/

namespace Fmr

/-- C92, full statement: two runs with different orders of map iteration return the same trees for the
same match, up to their order. -/
def C92_statement : Prop :=
  ∀ (env : Env) (ord2 : Nat → Nat → Nat → List RuleBody → List RuleBody) (flag : Bool)
    (f1 f2 g1 g2 : Nat) (r1 r2 : ParseResult), env.WF → env.OrdOK → ({ env with ord := ord2 }).OrdOK →
    Unmixed env → AnyNamed env → NoEmpty env → UniformBounds env →
    parse env flag f1 = some r1 → parse { env with ord := ord2 } flag f2 = some r2 →
    ∀ (c1 row1 c2 row2 : Nat) (s1 s2 : TState), chartGet r1.chart c1 row1 = some s1 →
    chartGet r2.chart c2 row2 = some s2 →
    ∀ (S : String), S ∈ env.starts → ∀ (j : Nat), MatchFor S j s1 → MatchFor S j s2 →
    ∀ (ts1 ts2 : List Node), getTrees r1.chart g1 c1 row1 = some ts1 →
    getTrees r2.chart g2 c2 row2 = some ts2 →
    (ts1.map Node.shape).Perm (ts2.map Node.shape)

/-- `<s> = <y>; <y> = <p> | <q> | <r> <c>; <p> = "a"; <q> = <r>; <r> = "a"; <c> = "c"` on `a` -/
def wOrder (ord : Nat → Nat → Nat → List RuleBody → List RuleBody) : Env :=
  { grammars := [{ name := "g", rules := [
      rl "s" [[nt "y"]], rl "y" [[nt "p"], [nt "q"], [nt "r", nt "c"]], rl "p" [[tt "a"]],
      rl "q" [[nt "r"]], rl "r" [[tt "a"]], rl "c" [[tt "c"]]] }],
    tokens := [tk "a"], starts := ["s"], tmatch := plainMatch, ord := ord }

/-- One order of the alternatives of `<y>` gives one tree, … -/
theorem wOrder_one : (parse (wOrder idOrd) true 60).map (fun r =>
      (getTrees r.chart 60 1 8).map (·.map (·.shape.labels))) =
    some (some [["ɣ", "s", "y", "p", "a"]]) := by decide +kernel

/-- … the reverse order two. -/
theorem wOrder_two : (parse (wOrder revOrd) true 60).map (fun r =>
      (getTrees r.chart 60 1 8).map (·.map (·.shape.labels))) =
    some (some [["ɣ", "s", "y", "p", "a"], ["ɣ", "s", "y", "q", "r", "a"]]) := by decide +kernel

theorem wOrder_at (o) (ho : o = idOrd ∨ o = revOrd) : (parse (wOrder o) true 60).map (fun r =>
      (chartGet r.chart 1 8).map (fun s => ((s.term.value, s.rb.map (·.terms)), (s.start, s.dot, s.stop)))) =
    some (some (("ɣ", some [nt "s"]), (0, 1, 1))) := by
  rcases ho with rfl | rfl <;> decide +kernel

/-- C92 is false: how many trees there are depends on the order in which Go iterates over a map, which
is random. -/
theorem C92_false : ¬ C92_statement := by
  intro hall
  obtain ⟨r1, h1, b1⟩ := Option.map_eq_some_iff.1 wOrder_one
  obtain ⟨r2, h2, b2⟩ := Option.map_eq_some_iff.1 wOrder_two
  have a1 := wOrder_at idOrd (.inl rfl)
  have a2 := wOrder_at revOrd (.inr rfl)
  rw [h1] at a1
  rw [h2] at a2
  obtain ⟨s1, c1, d1⟩ := Option.map_eq_some_iff.1 (Option.some.inj a1)
  obtain ⟨s2, c2, d2⟩ := Option.map_eq_some_iff.1 (Option.some.inj a2)
  obtain ⟨t1, u1, v1⟩ := Option.map_eq_some_iff.1 b1
  obtain ⟨t2, u2, v2⟩ := Option.map_eq_some_iff.1 b2
  simp only [Prod.mk.injEq] at d1 d2
  have := (hall (wOrder idOrd) revOrd true 60 60 60 60 r1 r2 (Env.checkWF_wf (by decide +kernel)) idOrd_ok
    (fun c r k l => revOrd_ok c r k l) (Env.checkUnmixed_ok (by decide +kernel))
    (Env.checkAnyNamed_ok (by decide +kernel)) (Env.checkNoEmpty_ok (by decide +kernel))
    (Env.checkUniform_ok (by decide +kernel)) h1 h2 1 8 1 8 s1 s2 c1 c2 "s" (by decide +kernel) 1
    ⟨d1.1.1, d1.1.2, d1.2.1, d1.2.2.1, d1.2.2.2⟩ ⟨d2.1.1, d2.1.2, d2.2.1, d2.2.2.1, d2.2.2.2⟩
    t1 t2 u1 u2).length_eq
  have l1 := congrArg List.length v1
  have l2 := congrArg List.length v2
  simp at l1 l2 this
  omega

mutual
theorem TreeOK.ord {env : Env} (ord2 : Nat → Nat → Nat → List RuleBody → List RuleBody) {t a b n}
    (h : TreeOK env env.lang t a b n) :
    TreeOK { env with ord := ord2 } ({ env with ord := ord2 } : Env).lang t a b n := by
  obtain ⟨v, cs⟩ := n
  cases h with
  | terminal h1 h2 h3 h4 h5 h6 h7 h8 => exact .terminal h1 h2 h3 h4 h5 h6 h7 h8
  | any h1 h2 h3 h4 h5 h6 h7 h8 h9 h10 => exact .any h1 h2 h3 h4 h5 h6 h7 h8 h9 h10
  | nonterminal h1 h2 h3 h4 h5 h6 h7 h8 => exact .nonterminal h1 h2 h3 h4 h5 h6 h7 (ForestOK.ord ord2 h8)
  | list h1 h2 h3 h4 h5 h6 h7 h8 => exact .list h1 h2 h3 h4 h5 h6 h7 (ForestOK.ord ord2 h8)
theorem ForestOK.ord {env : Env} (ord2 : Nat → Nat → Nat → List RuleBody → List RuleBody) {ts a b ns}
    (h : ForestOK env env.lang ts a b ns) :
    ForestOK { env with ord := ord2 } ({ env with ord := ord2 } : Env).lang ts a b ns := by
  cases h with
  | nil => exact .nil
  | cons h1 h2 => exact .cons (TreeOK.ord ord2 h1) (ForestOK.ord ord2 h2)
end

theorem RootOK.ord {env : Env} (ord2 : Nat → Nat → Nat → List RuleBody → List RuleBody) {S j n}
    (h : RootOK env env.lang S j n) :
    RootOK { env with ord := ord2 } ({ env with ord := ord2 } : Env).lang S j n := by
  obtain ⟨h1, h2, h3, h4, h5, c, h6, h7⟩ := h
  exact ⟨h1, h2, h3, h4, h5, c, h6, h7.ord ord2⟩

theorem SpinesAgree.ord {env : Env} (ord2 : Nat → Nat → Nat → List RuleBody → List RuleBody)
    (h : SpinesAgree env env.lang) :
    SpinesAgree { env with ord := ord2 } ({ env with ord := ord2 } : Env).lang :=
  fun t t' a b n n' h1 h2 h3 h4 h5 h6 => h t t' a b n n' h1 h2 h3 h4 (h5.ord env.ord) (h6.ord env.ord)

/-- runs that return the same shapes, none of them twice, return permutations of each other -/
theorem perm_of_mem {α : Type} {l l' : List α} (h : l.Nodup) (h' : l'.Nodup) (he : ∀ x, x ∈ l ↔ x ∈ l') :
    l.Perm l' := (List.perm_ext_iff_of_nodup h h').2 he

section
variable (env : Env) (ord2 : Nat → Nat → Nat → List RuleBody → List RuleBody) (flag : Bool)
  (f1 f2 g1 g2 : Nat) (r1 r2 : ParseResult) (hwf : env.WF) (ho : env.OrdOK)
  (ho2 : ({ env with ord := ord2 }).OrdOK) (hun : Unmixed env) (hany : AnyNamed env)
  (hu : UniformBounds env) (h1 : parse env flag f1 = some r1)
  (h2 : parse { env with ord := ord2 } flag f2 = some r2) (c1 row1 c2 row2 : Nat) (s1 s2 : TState)
  (hat1 : chartGet r1.chart c1 row1 = some s1) (hat2 : chartGet r2.chart c2 row2 = some s2)
  (S : String) (hS : S ∈ env.starts) (j : Nat) (hm1 : MatchFor S j s1) (hm2 : MatchFor S j s2)
  (ts1 ts2 : List Node) (ht1 : getTrees r1.chart g1 c1 row1 = some ts1)
  (ht2 : getTrees r2.chart g2 c2 row2 = some ts2)
include hwf ho ho2 hun hany hu h1 h2 hat1 hat2 hS hm1 hm2 ht1 ht2

/-- if both runs return all derivation trees, they return the same -/
theorem trees_of_both
    (k1 : ∀ n, RootOK env env.lang S j n → n.shape ∈ ts1.map Node.shape)
    (k2 : ∀ n, RootOK { env with ord := ord2 } ({ env with ord := ord2 } : Env).lang S j n →
      n.shape ∈ ts2.map Node.shape) : (ts1.map Node.shape).Perm (ts2.map Node.shape) := by
  have hwf2 : ({ env with ord := ord2 } : Env).WF := ⟨hwf.named, hwf.bodies, hwf.noGamma⟩
  refine perm_of_mem
    (C14_shapes env flag f1 g1 r1 hwf ho hun hany hu h1 c1 row1 s1 hat1 S hS j hm1 ts1 ht1)
    (C14_shapes { env with ord := ord2 } flag f2 g2 r2 hwf2 ho2 hun hany hu h2 c2 row2 s2 hat2 S hS j hm2
      ts2 ht2) (fun σ => ?_)
  constructor
  · intro hσ
    obtain ⟨n, hn, rfl⟩ := List.mem_map.1 hσ
    exact k2 n ((C10_counts_partial env flag f1 g1 r1 hwf ho hun hu h1 c1 row1 s1 hat1 S hS j hm1 ts1 ht1 n
      hn).ord ord2)
  · intro hσ
    obtain ⟨n, hn, rfl⟩ := List.mem_map.1 hσ
    exact k1 n ((C10_counts_partial { env with ord := ord2 } flag f2 g2 r2 hwf2 ho2 hun hu h2 c2 row2 s2 hat2
      S hS j hm2 ts2 ht2 n hn).ord env.ord)

/-- C92 for inputs whose derivation trees have spines of equal length (missing: other inputs, where it
is false). -/
theorem C92_partial (hne : NoEmpty env) (hsp : SpinesAgree env env.lang) :
    (ts1.map Node.shape).Perm (ts2.map Node.shape) := by
  have hwf2 : ({ env with ord := ord2 } : Env).WF := ⟨hwf.named, hwf.bodies, hwf.noGamma⟩
  have hne2 : NoEmpty { env with ord := ord2 } := ⟨hne.1, hne.2⟩
  exact trees_of_both env ord2 flag f1 f2 g1 g2 r1 r2 hwf ho ho2 hun hany hu h1 h2 c1 row1 c2 row2 s1 s2
    hat1 hat2 S hS j hm1 hm2 ts1 ts2 ht1 ht2
    (C13_spines_partial env flag f1 g1 r1 hwf ho hun hany hne hu h1 c1 row1 s1 hat1 S hS j hm1 ts1 ht1 hsp)
    (C13_spines_partial { env with ord := ord2 } flag f2 g2 r2 hwf2 ho2 hun hany hne2 hu h2 c2 row2 s2 hat2 S
      hS j hm2 ts2 ht2 (hsp.ord ord2))

/-- C92 for graded grammars and all texts (missing: other grammars). -/
theorem C92_graded_partial (hne : NoEmpty env) (d : String → Nat) (hd : Graded env d) :
    (ts1.map Node.shape).Perm (ts2.map Node.shape) := by
  have hwf2 : ({ env with ord := ord2 } : Env).WF := ⟨hwf.named, hwf.bodies, hwf.noGamma⟩
  have hne2 : NoEmpty { env with ord := ord2 } := ⟨hne.1, hne.2⟩
  exact trees_of_both env ord2 flag f1 f2 g1 g2 r1 r2 hwf ho ho2 hun hany hu h1 h2 c1 row1 c2 row2 s1 s2
    hat1 hat2 S hS j hm1 hm2 ts1 ts2 ht1 ht2
    (C13_graded_partial env flag f1 g1 r1 hwf ho hun hany hne d hd h1 c1 row1 s1 hat1 S hS j hm1 ts1 ht1)
    (C13_graded_partial { env with ord := ord2 } flag f2 g2 r2 hwf2 ho2 hun hany hne2 d hd h2 c2 row2 s2 hat2
      S hS j hm2 ts2 ht2)

/-- C92 for unambiguous inputs, also with empty derivations (missing: ambiguous inputs). -/
theorem C92_unambiguous_partial
    (huniq : ∀ n n', RootOK env env.lang S j n → RootOK env env.lang S j n' → n.shape = n'.shape) :
    (ts1.map Node.shape).Perm (ts2.map Node.shape) := by
  have hwf2 : ({ env with ord := ord2 } : Env).WF := ⟨hwf.named, hwf.bodies, hwf.noGamma⟩
  have k1 := C12_match_has_tree env flag f1 g1 r1 hwf ho hun hany h1 c1 row1 s1 hat1 S hS j hm1 ts1 ht1
  have k2 := C12_match_has_tree { env with ord := ord2 } flag f2 g2 r2 hwf2 ho2 hun hany h2 c2 row2 s2 hat2 S
    hS j hm2 ts2 ht2
  obtain ⟨n1, m1⟩ := List.exists_mem_of_ne_nil _ k1
  obtain ⟨n2, m2⟩ := List.exists_mem_of_ne_nil _ k2
  have o1 := C10_counts_partial env flag f1 g1 r1 hwf ho hun hu h1 c1 row1 s1 hat1 S hS j hm1 ts1 ht1 n1 m1
  have o2 := (C10_counts_partial { env with ord := ord2 } flag f2 g2 r2 hwf2 ho2 hun hu h2 c2 row2 s2 hat2 S hS
    j hm2 ts2 ht2 n2 m2).ord env.ord
  refine trees_of_both env ord2 flag f1 f2 g1 g2 r1 r2 hwf ho ho2 hun hany hu h1 h2 c1 row1 c2 row2 s1 s2
    hat1 hat2 S hS j hm1 hm2 ts1 ts2 ht1 ht2 (fun n hn => ?_) (fun n hn => ?_)
  · rw [huniq n n1 hn o1]; exact List.mem_map_of_mem m1
  · rw [huniq n n2 (hn.ord env.ord) o2]; exact List.mem_map_of_mem m2
end

/-- a graded grammar with four trees in either order -/
example : (wBits idOrd 2).WF ∧ NoEmpty (wBits idOrd 2) ∧ Graded (wBits idOrd 2) bitsDepth ∧
    [idOrd, revOrd].map (fun o => (parse (wBits o 2) true 60).map (fun r => (finalAddrs r.chart).map
      (fun a => (getTrees r.chart 60 a.1 a.2).map (·.length)))) =
      [some [some 2, some 4], some [some 2, some 4]] :=
  ⟨(wBits_ok _ 2).1, (wBits_ok _ 2).2.2.2.1, (wBits_ok _ 2).2.2.2.2.2, by decide +kernel⟩

end Fmr
