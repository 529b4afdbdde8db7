import Verif.Props.Separate

/-!
# C105: start rules do not hide one another
-/

namespace Fmr

/-- the same parse with one start rule -/
def Env.only (env : Env) (S : String) : Env := { env with starts := [S] }

/-- C105 as claimed: a start rule that matches the longest piece of text that any of them matches is reported. -/
def C105_statement : Prop :=
  ∀ (env : Env) (fuel : Nat) (r : ParseResult), env.WF → env.OrdOK → NoEmpty env → UniformBounds env →
    parse env true fuel = some r → ∀ S ∈ env.starts, ∀ j ≤ env.tokens.length, Derives env S (env.tokens.take j) →
      (∀ S' ∈ env.starts, ∀ j' ≤ env.tokens.length, Derives env S' (env.tokens.take j') → j' ≤ j) → ∃ s ∈ r.finals, MatchFor S j s

/-- C105 if no other start rule matches the same piece of text. -/
theorem C105_partial (env : Env) (fuel : Nat) (r : ParseResult) (hwf : env.WF) (ho : env.OrdOK) (hns : NullSafe env)
    (hu : UniformBounds env) (h : parse env true fuel = some r) {S : String} (hS : S ∈ env.starts) {j : Nat} (hj : j ≤ env.tokens.length)
    (hd : Derives env S (env.tokens.take j))
    (hmax : ∀ S' ∈ env.starts, ∀ j' ≤ env.tokens.length, Derives env S' (env.tokens.take j') → j' ≤ j)
    (hone : ∀ S' ∈ env.starts, Derives env S' (env.tokens.take j) → S' = S) : ∃ s ∈ r.finals, MatchFor S j s := by
  obtain ⟨h1, h2⟩ := C03_longest_derivable_partial env fuel r hwf ho hns hu (started_of_mem hS) h
  cases hr : r.finals with
  | nil => exact absurd ⟨S, hS, j, hj, hd⟩ (h2.1 hr)
  | cons s l =>
    have hs : s ∈ r.finals := by rw [hr]; exact List.mem_cons_self
    obtain ⟨S', hS', j', hm, hj', hd'⟩ := C01_partial env true fuel r hwf ho hu h s hs
    have e : s.stop = j' := hm.2.2.2.2
    have h3 := (h1 s hs).2 S hS j hj hd
    have h4 := hmax S' hS' j' hj' hd'
    obtain rfl : j' = j := by omega
    rw [hone S' hS' hd'] at hm
    exact ⟨s, List.mem_cons_self, hm⟩

/-- Whatever the start rules: the match that is reported is the one that its start rule finds alone, and no start rule finds a longer
one alone; if none is reported, none is found by any of them alone. -/
theorem C105_alone_partial (env : Env) (fuel : Nat) (r : ParseResult) (hwf : env.WF) (ho : env.OrdOK) (hns : NullSafe env)
    (hu : UniformBounds env) (h : parse env true fuel = some r) (hns' : ∀ S ∈ env.starts, NullSafe (env.only S)) :
    (∀ s ∈ r.finals, ∃ S ∈ env.starts, MatchFor S s.stop s ∧
      ∀ f r', parse (env.only S) true f = some r' → ∃ s' ∈ r'.finals, MatchFor S s.stop s') ∧
    (∀ S ∈ env.starts, ∀ f r', parse (env.only S) true f = some r' → ∀ s' ∈ r'.finals, ∃ s ∈ r.finals, s'.stop ≤ s.stop) := by
  have hwf' : ∀ S ∈ env.starts, (env.only S).WF := fun S hS =>
    ⟨hwf.named, hwf.bodies, hwf.noGamma.1, hwf.noGamma.2.1, fun e => hwf.noGamma.2.2 (by
      rw [List.mem_singleton.1 e]; exact hS)⟩
  have ho' : ∀ S, (env.only S).OrdOK := fun _ => ho
  have hu' : ∀ S, UniformBounds (env.only S) := fun _ => hu
  constructor
  · intro s hs
    obtain ⟨S, hS, j, hm, hj, hd⟩ := C01_partial env true fuel r hwf ho hu h s hs
    have e : s.stop = j := hm.2.2.2.2
    subst e
    refine ⟨S, hS, hm, fun f r' hr' => ?_⟩
    have h1 := (C03_longest_derivable_partial env fuel r hwf ho hns hu (started_of_mem hS) h).1 s hs
    refine C105_partial (env.only S) f r' (hwf' S hS) (ho' S) (hns' S hS) (hu' S) hr' (List.mem_singleton.2 rfl) hj hd ?_ ?_
    · intro S' hS' j' hj' hd'
      obtain rfl := List.mem_singleton.1 hS'
      exact h1.2 S' hS j' hj' hd'
    · intro S' hS' _
      exact List.mem_singleton.1 hS'
  · intro S hS f r' hr' s' hs'
    obtain ⟨S', hS', j, hm, hj, hd⟩ := C01_partial (env.only S) true f r' (hwf' S hS) (ho' S) (hu' S) hr' s' hs'
    obtain rfl := List.mem_singleton.1 hS'
    obtain ⟨h1, h2⟩ := C03_longest_derivable_partial env fuel r hwf ho hns hu (started_of_mem hS) h
    cases hr : r.finals with
    | nil => exact absurd ⟨S', hS, j, hj, hd⟩ (h2.1 hr)
    | cons s l =>
      refine ⟨s, List.mem_cons_self, ?_⟩
      rw [hm.2.2.2.2]
      exact (h1 s (by rw [hr]; exact List.mem_cons_self)).2 S' hS j hj hd

/-- `<p> = <a> | <b> "z"; <q> = <b>; <a> = "x"; <b> = "x"` -/
def gHide : Gram :=
  { main := { name := "g", rules := [rl "p" [[nt "a"], [nt "b", tt "z"]], rl "q" [[nt "b"]], rl "a" [[tt "x"]], rl "b" [[tt "x"]]] },
    includes := [] }

/-- the trees that `Parse` returns for `x` with the start rules `p` and `q`, by their labels -/
def hideTrees (w : World) (starts : List String) : Out (List (List String)) :=
  (apiParse w gHide 40 "" [120] starts).bind (fun ns => .ok (ns.map (·.shape.labels)))

/-- Alone, both rules match `x`. Together, one of them is reported, and which one depends on the order of the alternatives of `p` in
the map. -/
theorem C105_order : hideTrees wBytes ["p"] = .ok [["ɣ", "p", "a", "x"]] ∧ hideTrees wBytes ["q"] = .ok [["ɣ", "q", "b", "x"]] ∧
    hideTrees wBytes ["p", "q"] = .ok [["ɣ", "p", "a", "x"]] ∧
    hideTrees { wBytes with ord := fun _ => revOrd } ["p", "q"] = .ok [["ɣ", "q", "b", "x"]] := by
  refine ⟨?_, ?_, ?_, ?_⟩ <;> decide +kernel

/-- `x` with `gHide` -/
def wHide : Env :=
  { grammars := [gHide.main], tokens := [tk "x"], starts := ["p", "q"], tmatch := plainMatch, ord := idOrd }

theorem wHide_wf : wHide.WF := Env.checkWF_wf (by decide +kernel)

theorem wHide_derives {S : String} (h : S = "p" ∨ S = "q") : Derives wHide S (wHide.tokens.take 1) := by
  have hp : ∀ S, S = "p" ∨ S = "q" → (parse (wHide.only S) true 40).map (fun r => r.finals.map (·.stop)) = some [1] := by
    rintro S (rfl | rfl) <;> decide +kernel
  have hwf : (wHide.only S).WF := by rcases h with rfl | rfl <;> exact Env.checkWF_wf (by decide +kernel)
  have hu : UniformBounds (wHide.only S) := Env.checkUniform_ok (show wHide.checkUniform = true by decide +kernel)
  have h1 := hp S h
  cases hr : parse (wHide.only S) true 40 with
  | none => rw [hr] at h1; cases h1
  | some r =>
    rw [hr, Option.map_some, Option.some.injEq] at h1
    obtain ⟨s, hs, e⟩ := List.mem_map.1 (show 1 ∈ r.finals.map (·.stop) by rw [h1]; simp)
    obtain ⟨S', hS', j, hm, -, hd⟩ := C01_partial (wHide.only S) true 40 r hwf idOrd_ok hu hr s hs
    obtain rfl := List.mem_singleton.1 hS'
    obtain rfl : j = 1 := by rw [← hm.2.2.2.2, e]
    exact hd

/-- C105 is false: of two start rules that match `x`, one is reported. -/
theorem C105_false : ¬ C105_statement := by
  intro hall
  obtain ⟨n, r, hr⟩ := C05_terminates wHide true wHide_wf idOrd_ok
  have hmax : ∀ S' ∈ wHide.starts, ∀ j' ≤ wHide.tokens.length, Derives wHide S' (wHide.tokens.take j') → j' ≤ 1 :=
    fun _ _ _ hj _ => hj
  have key := fun S hS hS' => hall wHide n r wHide_wf idOrd_ok (Env.checkNoEmpty_ok (by decide +kernel))
    (Env.checkUniform_ok (by decide +kernel)) (hr n (Nat.le_refl n)) S hS 1 (by decide) (wHide_derives hS') hmax
  obtain ⟨s, hs, hm⟩ := key "p" (by simp [wHide]) (.inl rfl)
  obtain ⟨s', hs', hm'⟩ := key "q" (by simp [wHide]) (.inr rfl)
  have hlen := (C03_longest wHide n r wHide_wf idOrd_ok (started_of_mem (S := "p") (by simp [wHide])) (hr n (Nat.le_refl n))).1
  obtain rfl : s = s' := by
    cases e : r.finals with
    | nil => rw [e] at hs; cases hs
    | cons a l =>
      rw [e] at hs hs' hlen
      obtain rfl : l = [] := List.length_eq_zero_iff.1 (by simpa using hlen)
      rw [List.mem_singleton.1 hs, List.mem_singleton.1 hs']
  have := hm.2.1.symm.trans hm'.2.1
  simp at this

/-- what one start rule of `gHide` matches, from the parser -/
theorem wHide_run {toks : List Token} {S : String} {stops : List Nat} (hwf : ({ wHide with tokens := toks }.only S).WF)
    (h : (parse ({ wHide with tokens := toks }.only S) false 40).map (fun r => r.finals.map (·.stop)) = some stops) {j : Nat}
    (hj : j ≤ toks.length) : Derives { wHide with tokens := toks } S (toks.take j) ↔ j ∈ stops := by
  have hu : UniformBounds ({ wHide with tokens := toks }.only S) := Env.checkUniform_ok (show wHide.checkUniform = true by decide +kernel)
  have hne : NoEmpty ({ wHide with tokens := toks }.only S) := Env.checkNoEmpty_ok (show wHide.checkNoEmpty = true by decide +kernel)
  cases hr : parse ({ wHide with tokens := toks }.only S) false 40 with
  | none => rw [hr] at h; cases h
  | some r =>
    rw [hr, Option.map_some, Option.some.injEq] at h
    rw [← h, List.mem_map]
    constructor
    · intro hd
      obtain ⟨s, -, hs, hm⟩ := C02_partial _ 40 r hwf idOrd_ok hne.nullSafe hr S (List.mem_singleton.2 rfl) j hj hd
      exact ⟨s, hs, hm.2.2.2.2⟩
    · rintro ⟨s, hs, e⟩
      obtain ⟨S', hS', j', hm, -, hd⟩ := C01_partial _ false 40 r hwf idOrd_ok hu hr s hs
      obtain rfl := List.mem_singleton.1 hS'
      obtain rfl : j' = j := by rw [← hm.2.2.2.2, e]
      exact hd

/-- Non-vacuity: in `x z` the rule `q` matches `x` and `p` matches both tokens, which is reported. -/
example : ∃ n r, parse { wHide with tokens := [tk "x", tk "z"] } true n = some r ∧ ∃ s ∈ r.finals, MatchFor "p" 2 s := by
  have hwf : ({ wHide with tokens := [tk "x", tk "z"] } : Env).WF := Env.checkWF_wf (by decide +kernel)
  have hne : NoEmpty { wHide with tokens := [tk "x", tk "z"] } := Env.checkNoEmpty_ok (by decide +kernel)
  obtain ⟨n, r, hr⟩ := C05_terminates _ true hwf idOrd_ok
  have hp := fun j (hj : j ≤ 2) => wHide_run (toks := [tk "x", tk "z"]) (S := "p") (stops := [2, 1]) (Env.checkWF_wf (by decide +kernel))
    (by decide +kernel) (j := j) hj
  have hq := fun j (hj : j ≤ 2) => wHide_run (toks := [tk "x", tk "z"]) (S := "q") (stops := [1]) (Env.checkWF_wf (by decide +kernel))
    (by decide +kernel) (j := j) hj
  refine ⟨n, r, hr n (Nat.le_refl n), C105_partial _ n r hwf idOrd_ok hne.nullSafe (Env.checkUniform_ok (by decide +kernel))
    (hr n (Nat.le_refl n)) (by simp [wHide]) (by decide) ((hp 2 (by decide)).2 (by simp)) (fun _ _ _ hj _ => hj) fun S' h h2 => ?_⟩
  simp only [wHide, List.mem_cons, List.not_mem_nil, or_false] at h
  rcases h with rfl | rfl
  · rfl
  · exact absurd ((hq 2 (by decide)).1 h2) (by simp)

/-- Non-vacuity: in `x` each rule alone matches as much as both together. -/
example : ∃ n r, parse wHide true n = some r ∧ ∀ s ∈ r.finals, ∃ S ∈ wHide.starts, MatchFor S s.stop s ∧
    ∀ f r', parse (wHide.only S) true f = some r' → ∃ s' ∈ r'.finals, MatchFor S s.stop s' := by
  have hne : NoEmpty wHide := Env.checkNoEmpty_ok (by decide +kernel)
  obtain ⟨n, r, hr⟩ := C05_terminates wHide true wHide_wf idOrd_ok
  exact ⟨n, r, hr n (Nat.le_refl n), (C105_alone_partial wHide n r wHide_wf idOrd_ok hne.nullSafe (Env.checkUniform_ok (by decide +kernel))
    (hr n (Nat.le_refl n)) fun S _ => NoEmpty.nullSafe (env := wHide.only S) hne).1⟩

end Fmr
