import Verif.Props.Parse

/-!
# C66: adding rules
-/

namespace Fmr

/-- `env'` has every production and every start rule of `env`, the same text and the same matching of literals -/
structure Extends (env env' : Env) : Prop where
  prods : ∀ A rb, env.Defines A rb → env'.Defines A rb
  starts : ∀ S ∈ env.starts, S ∈ env'.starts
  tokens : env'.tokens = env.tokens
  tmatch : env'.tmatch = env.tmatch

theorem Extends.yields {env env' : Env} (h : Extends env env') {ts : List Term} {w : List Token}
    (hy : Yields env.lang ts w) : Yields env'.lang ts w := by
  induction hy with
  | nil => exact Yields.nil
  | terminal h1 h2 _ ih => exact Yields.terminal h1 (by simpa [Env.lang, h.tmatch] using h2) ih
  | nonterminal h1 h2 _ _ ih1 ih2 =>
    obtain ⟨rb, hrb, e⟩ := h2
    exact Yields.nonterminal h1 ⟨rb, h.prods _ _ hrb, e⟩ ih1 ih2
  | any h1 h2 _ ih => exact Yields.any h1 h2 ih
  | list h1 h2 _ _ ih1 ih2 => exact Yields.list h1 h2 ih1 ih2

/-- C66: adding rules never loses a match. False of the code, see `C66_false`. -/
def C66_statement : Prop :=
  ∀ (env env' : Env) (fuel fuel' : Nat) (r r' : ParseResult), env.WF → env.OrdOK → env'.WF → env'.OrdOK →
    Extends env env' → parse env false fuel = some r → parse env' false fuel' = some r' →
    ∀ S j, (∃ s ∈ r.finals, MatchFor S j s) → ∃ s ∈ r'.finals, MatchFor S j s

/-- C66 if the optional parts of the larger grammar are placed safely.
Missing: other optional parts (see `C66_false`), and smaller grammars with different bounds for the same term, whose
matches need not be matches (see C01). -/
theorem C66_partial (env env' : Env) (fuel fuel' : Nat) (r r' : ParseResult) (hwf : env.WF) (ho : env.OrdOK)
    (hu : UniformBounds env) (hwf' : env'.WF) (ho' : env'.OrdOK) (hns : NullSafe env') (hx : Extends env env')
    (h : parse env false fuel = some r) (h' : parse env' false fuel' = some r') (S : String) (j : Nat)
    (hm : ∃ s ∈ r.finals, MatchFor S j s) : ∃ s ∈ r'.finals, MatchFor S j s := by
  obtain ⟨s, hs, hms⟩ := hm
  obtain ⟨S', hS', j', hm', hj, hd⟩ := C01_partial env false fuel r hwf ho hu h s hs
  have hjj : j' = j := by rw [← hm'.2.2.2.2, hms.2.2.2.2]
  have hSS : S' = S := by
    have h1 := hm'.2.1
    rw [hms.2.1] at h1
    simp at h1; exact h1.symm
  subst hjj hSS
  have hd' : Derives env' S' (env'.tokens.take j') := by rw [hx.tokens]; exact hx.yields hd
  obtain ⟨s', -, hs', hms'⟩ := C02_partial env' fuel' r' hwf' ho' hns h' S' (hx.starts _ hS') j'
    (by rw [hx.tokens]; exact hj) hd'
  exact ⟨s', hs', hms'⟩

/-- C66 for the longest match: it only gets longer. -/
theorem C66_longest_partial (env env' : Env) (fuel fuel' : Nat) (r r' : ParseResult) (hwf : env.WF) (ho : env.OrdOK)
    (hu : UniformBounds env) (hwf' : env'.WF) (ho' : env'.OrdOK) (hns : NullSafe env') (hu' : UniformBounds env')
    (hx : Extends env env') (h : parse env true fuel = some r) (h' : parse env' true fuel' = some r') :
    ∀ s ∈ r.finals, ∃ s' ∈ r'.finals, s.stop ≤ s'.stop := by
  intro s hs
  obtain ⟨S, hS, j, hm, hj, hd⟩ := C01_partial env true fuel r hwf ho hu h s hs
  have hd' : Derives env' S (env'.tokens.take j) := by rw [hx.tokens]; exact hx.yields hd
  have hj' : j ≤ env'.tokens.length := by rw [hx.tokens]; exact hj
  obtain ⟨h1, h2⟩ := C03_longest_derivable_partial env' fuel' r' hwf' ho' hns hu' (started_of_mem (hx.starts _ hS)) h'
  cases hr : r'.finals with
  | nil => exact absurd ⟨S, hx.starts _ hS, j, hj', hd'⟩ (h2.1 hr)
  | cons s' l =>
    refine ⟨s', by simp, ?_⟩
    rw [hm.2.2.2.2]
    exact (h1 s' (by rw [hr]; simp)).2 S (hx.starts _ hS) j hj' hd'

/-- `<s> = <a> <b> <x>; <a> = ""; <b> = ""; <x> = "x"; <y> = "y"` on `x` -/
def wFew : Env :=
  { grammars := [{ name := "g", rules := [
      rl "s" [[nt "a", nt "b", nt "x"]], rl "a" [[]], rl "b" [[]], rl "x" [[tt "x"]], rl "y" [[tt "y"]]] }],
    tokens := [tk "x"], starts := ["s"], tmatch := plainMatch, ord := idOrd }

theorem wFew_extends : Extends wFew wOrd := by
  refine ⟨?_, by simp [wFew, wOrd], rfl, rfl⟩
  intro A rb h
  have hm := h.mem_allBodies
  simp [Env.allBodies, wFew, Rule.bodies] at hm
  rcases hm with ⟨rfl, rfl⟩ | ⟨rfl, rfl⟩ | ⟨rfl, rfl⟩ | ⟨rfl, rfl⟩ | ⟨rfl, rfl⟩ <;>
  exact ⟨_, List.mem_singleton_self _, _, rfl, by simp [Rule.bodies]⟩

/-- the second grammar has one more alternative, and misses the match that the first one finds -/
theorem C66_false : ¬ C66_statement := by
  intro h
  have hp : (parse wFew false 30).map (fun r => r.finals.map (·.stop)) = some [1] := by decide +kernel
  have hp' : (parse wOrd false 30).map (fun r => r.finals.map (·.stop)) = some [] := by decide +kernel
  cases hr : parse wFew false 30 with
  | none => rw [hr] at hp; simp at hp
  | some r =>
    cases hr' : parse wOrd false 30 with
    | none => rw [hr'] at hp'; simp at hp'
    | some r' =>
      rw [hr] at hp; rw [hr'] at hp'
      simp only [Option.map_some, Option.some.injEq, List.map_eq_nil_iff] at hp hp'
      have hp : ∃ s ∈ r.finals, MatchFor "s" 1 s := by
        obtain ⟨s, hs, h1⟩ := List.mem_map.1 (show 1 ∈ r.finals.map (·.stop) by rw [hp]; simp)
        obtain ⟨S, hS, j, hm, -⟩ := C01_relaxed_partial wFew false 30 r (Env.checkWF_wf (by decide +kernel)) idOrd_ok hr s hs
        have : S = "s" := by simpa [wFew] using hS
        have hj : j = 1 := by rw [← hm.2.2.2.2, h1]
        rw [this, hj] at hm
        exact ⟨s, hs, hm⟩
      obtain ⟨s, hs, -⟩ := h wFew wOrd 30 30 r r' (Env.checkWF_wf (by decide +kernel)) idOrd_ok
        (Env.checkWF_wf (by decide +kernel)) idOrd_ok wFew_extends hr hr' "s" 1 hp
      rw [hp'] at hs
      simp at hs

/-- `<s> = "x" <o>; <o> = "" | "o"; …`, a part of `wOpt` -/
def wOptFew : Env :=
  { wOpt with grammars := [{ name := "g", rules := [rl "s" [[tt "x", nt "o"]], rl "o" [[], [tt "o"]]] }] }

example : wOptFew.WF ∧ wOptFew.OrdOK ∧ UniformBounds wOptFew ∧ wOpt.WF ∧ wOpt.OrdOK ∧ NullSafe wOpt ∧
    UniformBounds wOpt ∧ Extends wOptFew wOpt ∧
    (parse wOptFew true 60).map (fun r => r.finals.map (·.stop)) = some [1] ∧
    (parse wOpt true 60).map (fun r => r.finals.map (·.stop)) = some [2] := by
  refine ⟨Env.checkWF_wf (by decide +kernel), idOrd_ok, Env.checkUniform_ok (by decide +kernel),
    Env.checkWF_wf (by decide +kernel), idOrd_ok, wOpt_safe, Env.checkUniform_ok (by decide +kernel),
    ⟨?_, by simp [wOptFew], rfl, rfl⟩, by decide +kernel, by decide +kernel⟩
  intro A rb h
  have hm := h.mem_allBodies
  simp [Env.allBodies, wOptFew, Rule.bodies] at hm
  rcases hm with ⟨rfl, rfl⟩ | ⟨rfl, rfl⟩ | ⟨rfl, rfl⟩ <;>
  exact ⟨_, List.mem_singleton_self _, _, rfl, by simp [Rule.bodies]⟩

end Fmr
