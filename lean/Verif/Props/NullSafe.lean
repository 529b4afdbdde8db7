import Verif.Props.Parse

/-!
# C64: optional parts

A rule with an empty alternative is the only way to write an optional part. `C02_false` shows that
the parser may lose matches of such grammars. This file says when it does not: the condition
`NullSafe` on the grammar, and grammars showing that each of its parts is needed.
-/

namespace Fmr

/-- C64: if the terms that can be empty are placed safely, then for every text and every iteration
order of the maps the exhaustive parse reports exactly the derivable prefixes (read with relaxed
bounds in one direction, as in C01, and with the written bounds in the other). -/
theorem C64_optional (env : Env) (fuel : Nat) (r : ParseResult) (hwf : env.WF) (ho : env.OrdOK)
    (hns : NullSafe env) (h : parse env false fuel = some r) (S : String) (hS : S ∈ env.starts)
    (j : Nat) (hj : j ≤ env.tokens.length) :
    (Derives env S (env.tokens.take j) → ∃ s ∈ r.finals, MatchFor S j s) ∧
    ((∃ s ∈ r.finals, MatchFor S j s) → DerivesRelaxed env S (env.tokens.take j)) := by
  constructor
  · intro hd
    obtain ⟨s, _, hs, hm⟩ := C02_partial env fuel r hwf ho hns h S hS j hj hd
    exact ⟨s, hs, hm⟩
  · rintro ⟨s, hs, hm⟩
    obtain ⟨S', hS', j', hm', _, hd⟩ := C01_relaxed_partial env false fuel r hwf ho h s hs
    have hjj : j' = j := by rw [← hm'.2.2.2.2, hm.2.2.2.2]
    have hSS : S' = S := by
      have h1 := hm'.2.1
      rw [hm.2.1] at h1
      simp at h1; exact h1.symm
    rw [hjj, hSS] at hd; exact hd

example : wOpt.WF ∧ wOpt.OrdOK ∧ NullSafe wOpt ∧ "s" ∈ wOpt.starts ∧
    (parse wOpt false 60).map (fun r => r.finals.map (·.stop)) = some [2, 1] ∧
    Derives wOpt "s" (wOpt.tokens.take 1) :=
  ⟨Env.checkWF_wf (by decide +kernel), idOrd_ok, wOpt_safe, by decide, by decide +kernel, wOpt_derives⟩

/-- `<s> = <o> <y> <o> (list<y>) <o>; <o> = "" | <h>; <y> = <g>; <g> = "b"; <h> = "o"` on `b b o`: the
optional `<o>` begins a rule that is only a start rule, and follows a rule ending with a literal two
levels down and a list of this rule. -/
def wDeep : Env :=
  { grammars := [{ name := "g", rules := [
      rl "s" [[nt "o", nt "y", nt "o", ⟨"y", .list, .nil⟩, nt "o"]], rl "o" [[], [nt "h"]],
      rl "y" [[nt "g"]], rl "g" [[tt "b"]], rl "h" [[tt "o"]]] }],
    tokens := [tk "b", tk "b", tk "o"], starts := ["s"], tmatch := plainMatch, ord := idOrd }

theorem wDeep_safe : NullSafe wDeep := Env.checkNullSafe_ok (N := ["o"]) (by decide +kernel)

example : wDeep.WF ∧ wDeep.OrdOK ∧ NullSafe wDeep ∧ "s" ∈ wDeep.starts ∧
    (parse wDeep false 60).map (fun r => r.finals.map (·.stop)) = some [3, 2] :=
  ⟨Env.checkWF_wf (by decide +kernel), idOrd_ok, wDeep_safe, by decide, by decide +kernel⟩

/-- C64, a run can be judged by its own chart: if completing the states finished on the empty span
adds nothing, then the run reports every derivable prefix. -/
theorem C64_certificate (env : Env) (fuel : Nat) (r : ParseResult) (hwf : env.WF) (ho : env.OrdOK)
    (h : parse env false fuel = some r)
    (hec : ∀ p ∈ r.chart.zipIdx, ∀ s ∈ p.1, s.isCompleted = true → s.start = p.2 →
      ∀ st ∈ p.1, ∀ t, st.getNextTerm = some t → completes t s = true →
        (advanced st t).placed p.2 ∈ p.1) :
    ∀ S ∈ env.starts, ∀ j ≤ env.tokens.length, Derives env S (env.tokens.take j) →
      ∃ s ∈ r.finals, MatchFor S j s := by
  intro S hS j hj hd
  obtain ⟨s, _, hs, hm⟩ := C02_of_closed_partial hwf ho h ((emptyClosed_iff _).2 hec) hS hj hd
  exact ⟨s, hs, hm⟩

/-! ## each part of the condition is needed -/

/-- `<s> = <b> <y> | <c>; <c> = <d>; <d> = <b> <x>; <b> = ""; …` on `x`: the optional `<b>` begins
alternatives of two rules -/
def wTwoRules : Env :=
  { grammars := [{ name := "g", rules := [
      rl "s" [[nt "b", nt "y"], [nt "c"]], rl "c" [[nt "d"]], rl "d" [[nt "b", nt "x"]], rl "b" [[]],
      rl "x" [[tt "x"]], rl "y" [[tt "y"]]] }],
    tokens := [tk "x"], starts := ["s"], tmatch := plainMatch, ord := idOrd }

/-- `<s> = (list<a>{2,2}) <x>; <a> = ""; <x> = "x"` on `x`: the items of a list are empty -/
def wListNull : Env :=
  { grammars := [{ name := "g", rules := [
      rl "s" [[⟨"a", .list, .range 2 2⟩, nt "x"]], rl "a" [[]], rl "x" [[tt "x"]]] }],
    tokens := [tk "x"], starts := ["s"], tmatch := plainMatch, ord := idOrd }

/-- `<s> = "" | <t>; <t> = <s> <x>; <x> = "x"` on `x`: an empty start rule used in a production -/
def wStartNull : Env :=
  { grammars := [{ name := "g", rules := [
      rl "s" [[], [nt "t"]], rl "t" [[nt "s", nt "x"]], rl "x" [[tt "x"]]] }],
    tokens := [tk "x"], starts := ["s"], tmatch := plainMatch, ord := idOrd }

/-- `<s> = "x" <o> "z" | <c> <o> "y"; <c> = <d>; <d> = "x"; <o> = ""` on `x y`: the optional `<o>`
follows a literal, and a rule that ends with a literal two levels down -/
def wLevels : Env :=
  { grammars := [{ name := "g", rules := [
      rl "s" [[tt "x", nt "o", tt "z"], [nt "c", nt "o", tt "y"]], rl "c" [[nt "d"]],
      rl "d" [[tt "x"]], rl "o" [[]]] }],
    tokens := [tk "x", tk "y"], starts := ["s"], tmatch := plainMatch, ord := idOrd }

/-- `<s> = "x" <o> <r>; <r> = <o> "y"; <o> = ""` on `x y`: the optional `<o>` follows a literal, and
begins a rule that is used -/
def wUsed : Env :=
  { grammars := [{ name := "g", rules := [
      rl "s" [[tt "x", nt "o", nt "r"]], rl "r" [[nt "o", tt "y"]], rl "o" [[]]] }],
    tokens := [tk "x", tk "y"], starts := ["s"], tmatch := plainMatch, ord := idOrd }

theorem Env.defines_one {env : Env} {A : String} {r : Rule} {b : List Term}
    {gs : Grammar} (h1 : gs ∈ env.grammars) (h2 : gs.rules.lookup A = some r)
    (h3 : (⟨b, none⟩ : RuleBody) ∈ r.bodies) : env.lang.prods A b :=
  ⟨⟨b, none⟩, ⟨gs, h1, r, h2, h3⟩, rfl⟩

theorem wTwoRules_derives : Derives wTwoRules "s" (wTwoRules.tokens.take 1) := by
  have p : ∀ {A b r}, (wTwoRules.grammars.head (by decide)).rules.lookup A = some r →
      (⟨b, none⟩ : RuleBody) ∈ r.bodies → wTwoRules.lang.prods A b :=
    fun h1 h2 => Env.defines_one (List.mem_singleton_self _) h1 h2
  have hx : Yields wTwoRules.lang [nt "x"] [tk "x"] :=
    Yields.nonterminal_one (body := [tt "x"]) rfl (p rfl (by simp [Rule.bodies]))
      (Yields.terminal rfl (by decide +kernel) Yields.nil)
  have hd : Yields wTwoRules.lang [nt "d"] [tk "x"] :=
    Yields.nonterminal_one (body := [nt "b", nt "x"]) rfl (p rfl (by simp [Rule.bodies]))
      (Yields.nonterminal (u := []) (body := []) rfl (p rfl (by simp [Rule.bodies])) Yields.nil hx)
  have hc : Yields wTwoRules.lang [nt "c"] [tk "x"] :=
    Yields.nonterminal_one (body := [nt "d"]) rfl (p rfl (by simp [Rule.bodies])) hd
  exact Yields.nonterminal_one (body := [nt "c"]) rfl (p rfl (by simp [Rule.bodies])) hc

theorem wListNull_derives : Derives wListNull "s" (wListNull.tokens.take 1) := by
  have p : ∀ {A b r}, (wListNull.grammars.head (by decide)).rules.lookup A = some r →
      (⟨b, none⟩ : RuleBody) ∈ r.bodies → wListNull.lang.prods A b :=
    fun h1 h2 => Env.defines_one (List.mem_singleton_self _) h1 h2
  have hx : Yields wListNull.lang [nt "x"] [tk "x"] :=
    Yields.nonterminal_one (body := [tt "x"]) rfl (p rfl (by simp [Rule.bodies]))
      (Yields.terminal rfl (by decide +kernel) Yields.nil)
  have ha : ∀ {ts}, Yields wListNull.lang ts [] → Yields wListNull.lang (nt "a" :: ts) [] := fun h =>
    Yields.nonterminal (u := []) (w := []) (body := []) rfl (p rfl (by simp [Rule.bodies])) Yields.nil h
  exact Yields.nonterminal_one (body := [⟨"a", .list, .range 2 2⟩, nt "x"]) rfl
    (p rfl (by simp [Rule.bodies]))
    (Yields.list (n := 2) (u := []) rfl (show okCount (.range 2 2) 2 by decide)
      (ha (ha Yields.nil)) hx)

theorem wStartNull_derives : Derives wStartNull "s" (wStartNull.tokens.take 1) := by
  have p : ∀ {A b r}, (wStartNull.grammars.head (by decide)).rules.lookup A = some r →
      (⟨b, none⟩ : RuleBody) ∈ r.bodies → wStartNull.lang.prods A b :=
    fun h1 h2 => Env.defines_one (List.mem_singleton_self _) h1 h2
  have hx : Yields wStartNull.lang [nt "x"] [tk "x"] :=
    Yields.nonterminal_one (body := [tt "x"]) rfl (p rfl (by simp [Rule.bodies]))
      (Yields.terminal rfl (by decide +kernel) Yields.nil)
  have ht : Yields wStartNull.lang [nt "t"] [tk "x"] :=
    Yields.nonterminal_one (body := [nt "s", nt "x"]) rfl (p rfl (by simp [Rule.bodies]))
      (Yields.nonterminal (u := []) (body := []) rfl (p rfl (by simp [Rule.bodies])) Yields.nil hx)
  exact Yields.nonterminal_one (body := [nt "t"]) rfl (p rfl (by simp [Rule.bodies])) ht

theorem wLevels_derives : Derives wLevels "s" wLevels.tokens := by
  have p : ∀ {A b r}, (wLevels.grammars.head (by decide)).rules.lookup A = some r →
      (⟨b, none⟩ : RuleBody) ∈ r.bodies → wLevels.lang.prods A b :=
    fun h1 h2 => Env.defines_one (List.mem_singleton_self _) h1 h2
  have hd : Yields wLevels.lang [nt "d"] [tk "x"] :=
    Yields.nonterminal_one (body := [tt "x"]) rfl (p rfl (by simp [Rule.bodies]))
      (Yields.terminal rfl (by decide +kernel) Yields.nil)
  exact Yields.nonterminal_one (body := [nt "c", nt "o", tt "y"]) rfl (p rfl (by simp [Rule.bodies]))
    (Yields.nonterminal (u := [tk "x"]) (w := [tk "y"]) (body := [nt "d"]) rfl
      (p rfl (by simp [Rule.bodies])) hd
      (Yields.nonterminal (u := []) (w := [tk "y"]) (body := []) rfl (p rfl (by simp [Rule.bodies]))
        Yields.nil (Yields.terminal rfl (by decide +kernel) Yields.nil)))

theorem wUsed_derives : Derives wUsed "s" wUsed.tokens := by
  have p : ∀ {A b r}, (wUsed.grammars.head (by decide)).rules.lookup A = some r →
      (⟨b, none⟩ : RuleBody) ∈ r.bodies → wUsed.lang.prods A b :=
    fun h1 h2 => Env.defines_one (List.mem_singleton_self _) h1 h2
  have ho : ∀ {ts w}, Yields wUsed.lang ts w → Yields wUsed.lang (nt "o" :: ts) w := fun h =>
    Yields.nonterminal (u := []) (body := []) rfl (p rfl (by simp [Rule.bodies])) Yields.nil h
  have hr : Yields wUsed.lang [nt "r"] [tk "y"] :=
    Yields.nonterminal_one (body := [nt "o", tt "y"]) rfl (p rfl (by simp [Rule.bodies]))
      (ho (Yields.terminal rfl (by decide +kernel) Yields.nil))
  exact Yields.nonterminal_one (body := [tt "x", nt "o", nt "r"]) rfl (p rfl (by simp [Rule.bodies]))
    (Yields.terminal rfl (by decide +kernel) (ho hr))

/-- C64, sharpness: an optional part after another optional part (`wNull`), at the beginning of two
rules (`wTwoRules`), as a list item (`wListNull`), as a start rule used in a production
(`wStartNull`), after literals at two depths (`wLevels`), or after a literal and at the beginning of a
rule that is used (`wUsed`): the whole text is derivable, and no match of it is reported. -/
theorem C64_sharp : ∀ env ∈ [wNull, wTwoRules, wListNull, wStartNull, wLevels, wUsed],
    env.WF ∧ env.OrdOK ∧ Derives env "s" env.tokens ∧
    (parse env false 30).map (fun r => (r.finals.map (·.stop)).contains env.tokens.length) = some false := by
  intro env h
  simp only [List.mem_cons, List.not_mem_nil, or_false] at h
  rcases h with rfl | rfl | rfl | rfl | rfl | rfl
  · exact ⟨Env.checkWF_wf (by decide +kernel), idOrd_ok, wNull_derives, by decide +kernel⟩
  · exact ⟨Env.checkWF_wf (by decide +kernel), idOrd_ok, wTwoRules_derives, by decide +kernel⟩
  · exact ⟨Env.checkWF_wf (by decide +kernel), idOrd_ok, wListNull_derives, by decide +kernel⟩
  · exact ⟨Env.checkWF_wf (by decide +kernel), idOrd_ok, wStartNull_derives, by decide +kernel⟩
  · exact ⟨Env.checkWF_wf (by decide +kernel), idOrd_ok, wLevels_derives, by decide +kernel⟩
  · exact ⟨Env.checkWF_wf (by decide +kernel), idOrd_ok, wUsed_derives, by decide +kernel⟩

end Fmr
