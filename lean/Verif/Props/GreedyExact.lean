import Verif.Props.Greedy
import Verif.Spec.Greedy

/-!
# C18: when greedy extraction returns
-/

namespace Fmr

theorem maxAllLoop_returns {w : World} {g fuel text l starts} {tokens : List Token} (hs : starts ≠ [])
    (hwf : (envFor w g l tokens starts 0).WF) (ho : w.OrdOK)
    (hns : NullSafe (envFor w g l tokens starts 0)) (hu : UniformBounds (envFor w g l tokens starts 0))
    (hno : ∀ i, Scanned (envFor w g l tokens starts 0) i → ¬ OnlyEmptyAt (envFor w g l tokens starts 0) i)
    (hf : ∀ c < tokens.length, ∀ i < tokens.length, ∃ r,
      parse (envFor w g l (tokens.drop i) starts c) true fuel = some r) :
    ∀ (n call i : Nat), call ≤ i → tokens.length - i < n → Scanned (envFor w g l tokens starts 0) i →
    ∃ ps, maxAllLoop w g fuel text tokens l starts n call i = .ok ps := by
  intro n
  induction n with
  | zero => intro call i _ h; omega
  | succ n ih =>
    intro call i hc hn hsc
    rw [maxAllLoop]
    split
    · rename_i hi
      obtain ⟨r, hr⟩ := hf call (by omega) i hi
      obtain ⟨f1, f2⟩ := offset_facts hwf ho hns hu hs (Nat.le_of_lt hi) hr
      rw [earleyParse_eq hs (by intro e; rw [List.drop_eq_nil_iff] at e; omega) hr]
      simp only [Out.bind_ok]
      split
      · rename_i hfin
        obtain ⟨s, h⟩ : ∃ s, r.finals = [s] := by
          rcases longest_single hr with h | h
          · exact absurd h hfin
          · exact h
        obtain ⟨g1, g2⟩ := f1 s (by rw [h]; simp)
        have hpos : 0 < s.stop := by
          rcases Nat.eq_zero_or_pos s.stop with h0 | h0
          · exact absurd ⟨hi, h0 ▸ g1, fun k hk => by have := g2 k hk; omega⟩ (hno i hsc)
          · exact h0
        have hm : maxEnd r.finals = s.stop := by rw [h, maxEnd_single]
        rw [hm]
        obtain ⟨ps, hps⟩ := ih (call+1) (i + s.stop) (by omega) (by omega)
          (hsc.tail (.jump hi g1 g2))
        rw [hps]
        exact ⟨_, rfl⟩
      · rename_i hfin
        exact ih (call+1) (i+1) (by omega) (by omega)
          (hsc.tail (.skip hi (f2.1 (by simpa using hfin))))
    · exact ⟨[], rfl⟩

theorem maxAllLoop_spins {w : World} {g fuel text l starts} {tokens : List Token} (hs : starts ≠ [])
    (hwf : (envFor w g l tokens starts 0).WF) (ho : w.OrdOK)
    (hns : NullSafe (envFor w g l tokens starts 0)) (hu : UniformBounds (envFor w g l tokens starts 0))
    {i j : Nat} (hj : OnlyEmptyAt (envFor w g l tokens starts 0) j)
    (hreach : Relation.ReflTransGen (ScanStep (envFor w g l tokens starts 0)) i j) :
    ∀ n c, maxAllLoop w g fuel text tokens l starts n c i = .div := by
  induction hreach using Relation.ReflTransGen.head_induction_on with
  | refl =>
    intro n
    induction n with
    | zero => intro c; rfl
    | succ n ih =>
      intro c
      have hi : j < tokens.length := hj.1
      rw [maxAllLoop, if_pos hi]
      cases hr : parse (envFor w g l (tokens.drop j) starts c) true fuel with
      | none =>
        simp [earleyParse, hs, hr, show ¬ tokens.length - j = 0 by omega]
      | some r =>
        obtain ⟨f1, f2⟩ := offset_facts hwf ho hns hu hs (Nat.le_of_lt hi) hr
        rw [earleyParse_eq hs (by intro e; rw [List.drop_eq_nil_iff] at e; omega) hr]
        simp only [Out.bind_ok]
        have hne : r.finals ≠ [] := fun e => f2.1 e 0 hj.2.1
        obtain ⟨s, h⟩ : ∃ s, r.finals = [s] := by
          rcases longest_single hr with h | h
          · exact absurd h hne
          · exact h
        have h0 : s.stop = 0 := hj.2.2 _ (f1 s (by rw [h]; simp)).1
        rw [if_pos hne, h, maxEnd_single, h0, show j + 0 = j from rfl, ih]
        rfl
  | head hst hrest ih =>
    rename_i a b
    intro n
    cases n with
    | zero => intro c; rfl
    | succ n =>
      intro c
      have hi : a < tokens.length := by cases hst <;> assumption
      rw [maxAllLoop, if_pos hi]
      cases hr : parse (envFor w g l (tokens.drop a) starts c) true fuel with
      | none =>
        simp [earleyParse, hs, hr, show ¬ tokens.length - a = 0 by omega]
      | some r =>
        obtain ⟨f1, f2⟩ := offset_facts hwf ho hns hu hs (Nat.le_of_lt hi) hr
        rw [earleyParse_eq hs (by intro e; rw [List.drop_eq_nil_iff] at e; omega) hr]
        simp only [Out.bind_ok]
        cases hst with
        | skip _ hno =>
          rw [if_neg (by simpa using f2.2 hno), ih]
        | jump _ hm hmax =>
          have hne : r.finals ≠ [] := fun e => f2.1 e _ hm
          obtain ⟨s, h⟩ : ∃ s, r.finals = [s] := by
            rcases longest_single hr with h | h
            · exact absurd h hne
            · exact h
          obtain ⟨g1, g2⟩ := f1 s (by rw [h]; simp)
          have e := Nat.le_antisymm (hmax _ g1) (g2 _ hm)
          rw [if_pos hne, h, maxEnd_single, e, ih]
          rfl

/-- C18, exactly when `EarleyParseMaxAll` returns: if the scan comes to a token at which only the empty
sequence matches, it does not return, whatever the map orders; otherwise it returns.
(Missing: unsafely placed empty derivations and mixed bounds, see C01, C02.) -/
theorem C18_exact_partial (w : World) (g : Gram) (context : String) (text : Bytes)
    (starts : List String) (tokens : List Token) (l : Option Grammar)
    (hp : process w g context text = .ok (tokens, l)) (hs : starts ≠ [])
    (hwf : (envFor w g l tokens starts 0).WF) (ho : w.OrdOK)
    (hns : NullSafe (envFor w g l tokens starts 0)) (hu : UniformBounds (envFor w g l tokens starts 0)) :
    ((∃ i, Scanned (envFor w g l tokens starts 0) i ∧ OnlyEmptyAt (envFor w g l tokens starts 0) i) ∧
      ∀ fuel, earleyParseMaxAll w g fuel context text starts = .div) ∨
    ((¬ ∃ i, Scanned (envFor w g l tokens starts 0) i ∧ OnlyEmptyAt (envFor w g l tokens starts 0) i) ∧
      ∃ n, ∀ fuel ≥ n, ∃ ps, earleyParseMaxAll w g fuel context text starts = .ok ps) := by
  by_cases h : ∃ i, Scanned (envFor w g l tokens starts 0) i ∧ OnlyEmptyAt (envFor w g l tokens starts 0) i
  · refine .inl ⟨h, fun fuel => ?_⟩
    obtain ⟨j, h1, h2⟩ := h
    unfold earleyParseMaxAll
    rw [hp]
    simp only [Out.bind_ok]
    exact maxAllLoop_spins hs hwf ho hns hu h2 h1 fuel 0
  · refine .inr ⟨h, ?_⟩
    obtain ⟨n, hn⟩ := common_fuel2 (flag := true) hwf ho tokens.length tokens.length
    refine ⟨max n (tokens.length + 1), fun fuel hf => ?_⟩
    unfold earleyParseMaxAll
    rw [hp]
    simp only [Out.bind_ok]
    exact maxAllLoop_returns hs hwf ho hns hu (fun i a b => h ⟨i, a, b⟩) (hn fuel (by omega)) fuel 0 0
      (by omega) (by omega) .refl

theorem maxAllLoop_gives {w : World} {g fuel text l starts} {tokens : List Token}
    (hwf : (envFor w g l tokens starts 0).WF) (ho : w.OrdOK)
    (hns : NullSafe (envFor w g l tokens starts 0)) (hu : UniformBounds (envFor w g l tokens starts 0)) :
    ∀ (n c i : Nat) (ps : List Parsed), maxAllLoop w g fuel text tokens l starts n c i = .ok ps →
    ∃ ms, ScanGives (envFor w g l tokens starts 0) i ms ∧
      ps.map (fun p => (p.off, p.res.finals.map (·.stop))) = ms.map (fun m => (m.1, [m.2])) := by
  intro n
  induction n with
  | zero => intro c i ps h; simp [maxAllLoop] at h
  | succ n ih =>
    intro c i ps h
    rw [maxAllLoop] at h
    split at h
    · rename_i hi
      obtain ⟨p, h1, h2⟩ := Out.bind_eq_ok.1 h
      obtain ⟨hs, _, htx, hoff, henv, hpar⟩ := earleyParse_ok h1
      obtain ⟨f1, f2⟩ := offset_facts hwf ho hns hu hs (Nat.le_of_lt hi) hpar
      split at h2
      · rename_i hf
        obtain ⟨rest, h3, h4⟩ := Out.bind_eq_ok.1 h2
        simp only [Out.pure_eq, Out.ok.injEq] at h4
        subst h4
        obtain ⟨s, hs1⟩ : ∃ s, p.res.finals = [s] := by
          rcases longest_single hpar with h | h
          · exact absurd h hf
          · exact h
        obtain ⟨g1, g2⟩ := f1 s (by rw [hs1]; simp)
        rw [hs1, maxEnd_single] at h3
        have hpos : 0 < s.stop := by
          rcases Nat.eq_zero_or_pos s.stop with h0 | h0
          · have hj : OnlyEmptyAt (envFor w g l tokens starts 0) i :=
              ⟨hi, h0 ▸ g1, fun k hk => by have := g2 k hk; omega⟩
            rw [h0, show i + 0 = i from rfl, maxAllLoop_spins hs hwf ho hns hu hj .refl] at h3
            simp at h3
          · exact h0
        obtain ⟨ms, i1, i2⟩ := ih _ _ _ h3
        exact ⟨(i, s.stop) :: ms, .jump hi g1 g2 hpos i1, by simp [hoff, hs1, i2]⟩
      · rename_i hf
        obtain ⟨ms, i1, i2⟩ := ih _ _ _ h2
        exact ⟨ms, .skip hi (f2.1 (by simpa using hf)) i1, i2⟩
    · rename_i hi
      simp only [Out.ok.injEq] at h
      subst h
      exact ⟨[], .done (Nat.le_of_not_lt hi), rfl⟩

theorem ScanGives.unique {env : Env} {i ms ms'} (h : ScanGives env i ms) (h' : ScanGives env i ms') :
    ms = ms' := by
  induction h generalizing ms' with
  | done hi =>
    cases h' with
    | done => rfl
    | skip h1 => exact absurd h1 (Nat.not_lt.2 hi)
    | jump h1 => exact absurd h1 (Nat.not_lt.2 hi)
  | skip hi hno _ ih =>
    cases h' with
    | done h1 => exact absurd hi (Nat.not_lt.2 h1)
    | skip _ _ h2 => exact ih h2
    | jump _ h2 => exact absurd h2 (hno _)
  | jump hi hm hmax _ _ ih =>
    cases h' with
    | done h1 => exact absurd hi (Nat.not_lt.2 h1)
    | skip _ h2 => exact absurd hm (h2 _)
    | jump _ h2 h3 _ h5 =>
      have e := Nat.le_antisymm (hmax _ h2) (h3 _ hm)
      subst e
      rw [ih h5]

/-- C18, what is returned: the matches reported are those of the greedy scan, in its order, and there is
only one list it can give.
(Missing: unsafely placed empty derivations and mixed bounds, see C01, C02.) -/
theorem C18_result_partial (w : World) (g : Gram) (fuel : Nat) (context : String) (text : Bytes)
    (starts : List String) (tokens : List Token) (l : Option Grammar)
    (hp : process w g context text = .ok (tokens, l)) (ps : List Parsed)
    (hwf : (envFor w g l tokens starts 0).WF) (ho : w.OrdOK)
    (hns : NullSafe (envFor w g l tokens starts 0)) (hu : UniformBounds (envFor w g l tokens starts 0))
    (h : earleyParseMaxAll w g fuel context text starts = .ok ps) :
    ∃! ms, ScanGives (envFor w g l tokens starts 0) 0 ms ∧
      ps.map (fun p => (p.off, p.res.finals.map (·.stop))) = ms.map (fun m => (m.1, [m.2])) := by
  unfold earleyParseMaxAll at h
  rw [hp] at h
  simp only [Out.bind_ok] at h
  obtain ⟨ms, h1, h2⟩ := maxAllLoop_gives hwf ho hns hu _ _ _ _ h
  exact ⟨ms, ⟨h1, h2⟩, fun ms' h' => h'.1.unique h1⟩

/-- non-vacuity, first case: on `1 a` the rule `<s> = (list<n>{0,2})` matches the first token and then only
the empty sequence -/
example : ∃ l, process (wWorld [tk "1", tk "a"]) gEmptyList "" [97] = .ok ([tk "1", tk "a"], some l) ∧
    (envFor (wWorld [tk "1", tk "a"]) gEmptyList (some l) [tk "1", tk "a"] ["s"] 0).WF ∧
    NullSafe (envFor (wWorld [tk "1", tk "a"]) gEmptyList (some l) [tk "1", tk "a"] ["s"] 0) ∧
    UniformBounds (envFor (wWorld [tk "1", tk "a"]) gEmptyList (some l) [tk "1", tk "a"] ["s"] 0) ∧
    Scanned (envFor (wWorld [tk "1", tk "a"]) gEmptyList (some l) [tk "1", tk "a"] ["s"] 0) 1 ∧
    OnlyEmptyAt (envFor (wWorld [tk "1", tk "a"]) gEmptyList (some l) [tk "1", tk "a"] ["s"] 0) 1 := by
  have hwf : (envFor (wWorld [tk "1", tk "a"]) gEmptyList (some lA) [tk "1", tk "a"] ["s"] 0).WF :=
    Env.checkWF_wf (by decide +kernel)
  have hns : NullSafe (envFor (wWorld [tk "1", tk "a"]) gEmptyList (some lA) [tk "1", tk "a"] ["s"] 0) :=
    Env.checkNullSafe_ok (N := ["s"]) (by decide +kernel)
  have hu : UniformBounds (envFor (wWorld [tk "1", tk "a"]) gEmptyList (some lA) [tk "1", tk "a"] ["s"] 0) :=
    Env.checkUniform_ok (by decide +kernel)
  have look : ∀ i ≤ 2, ∀ k,
      (parse (envFor (wWorld [tk "1", tk "a"]) gEmptyList (some lA) ([tk "1", tk "a"].drop i) ["s"] 0)
        true 20).map (fun r => r.finals.map (·.stop)) = some [k] →
      MatchAt (envFor (wWorld [tk "1", tk "a"]) gEmptyList (some lA) [tk "1", tk "a"] ["s"] 0) i k ∧
      ∀ k', MatchAt (envFor (wWorld [tk "1", tk "a"]) gEmptyList (some lA) [tk "1", tk "a"] ["s"] 0) i k' →
        k' ≤ k := by
    intro i hi k h
    cases hr : parse (envFor (wWorld [tk "1", tk "a"]) gEmptyList (some lA) ([tk "1", tk "a"].drop i) ["s"] 0)
        true 20 with
    | none => simp [hr] at h
    | some r =>
      rw [hr] at h
      simp only [Option.map_some, Option.some.injEq] at h
      cases hf : r.finals with
      | nil => simp [hf] at h
      | cons s t =>
        rw [hf] at h
        simp only [List.map_cons, List.cons.injEq] at h
        have := (offset_facts hwf (wWorld_ord _) hns hu (by simp) hi hr).1 s (by rw [hf]; simp)
        rw [h.1] at this
        exact this
  obtain ⟨a1, a2⟩ := look 0 (by omega) 1 (by decide +kernel)
  obtain ⟨b1, b2⟩ := look 1 (by omega) 0 (by decide +kernel)
  refine ⟨lA, rfl, hwf, hns, hu, ?_, by decide, b1, fun k hk => by have := b2 k hk; omega⟩
  exact Relation.ReflTransGen.single (.jump (i := 0) (k := 1) (by decide) a1 a2)

/-- non-vacuity, second case: the same rule on `1 1` -/
example : (match earleyParseMaxAll (wWorld [tk "1", tk "1"]) gEmptyList 30 "" [97] ["s"] with
    | .ok ps => ps.map (fun p => (p.off, p.res.finals.map (·.stop)))
    | _ => []) = [(0, [2])] := by decide +kernel

end Fmr
