import Verif.Props.Extend

/-!
# C103: what is found is found again when it is parsed alone
-/

namespace Fmr

theorem World.AlikeTokens.refl {w : World} {g : Gram} {R : String → Prop} (t : Token) : w.AlikeTokens g R t t := fun _ _ => rfl

section
variable {w : World} {g : Gram} {starts : List String} {l : Option Grammar} {fuel : Nat} {text : Bytes}

/-- every match of `EarleyParseMaxAll` is that of a parse of the tokens from its offset on -/
theorem maxLoop_run {toks : List Token} : ∀ (n call i : Nat) {ps : List Parsed},
    maxAllLoop w g fuel text toks l starts n call i = .ok ps → ∀ p ∈ ps, 2 ≤ n ∧ p.res.finals ≠ [] ∧
      ∃ c, earleyParse w g fuel true text (toks.drop p.off) l starts c p.off = .ok p
  | 0, _, _, _, h => by simp [maxAllLoop] at h
  | n+1, call, i, ps, h => by
    rw [maxAllLoop] at h
    split at h
    · obtain ⟨p, h1, h⟩ := Out.bind_eq_ok.1 h
      split at h
      · rename_i hf
        obtain ⟨rest, h2, h⟩ := Out.bind_eq_ok.1 h
        simp only [Out.pure_eq, Out.ok.injEq] at h
        subst h
        intro q hq
        rcases List.mem_cons.1 hq with rfl | hq
        · have hoff := (earleyParse_ok h1).2.2.2.1
          refine ⟨?_, hf, call, by rw [hoff]; exact h1⟩
          cases n with
          | zero => simp [maxAllLoop] at h2
          | succ n => omega
        · obtain ⟨k1, k2, k3⟩ := maxLoop_run n _ _ h2 q hq
          exact ⟨by omega, k2, k3⟩
      · intro q hq
        obtain ⟨k1, k2, k3⟩ := maxLoop_run n _ _ h q hq
        exact ⟨by omega, k2, k3⟩
    · simp only [Out.ok.injEq] at h
      subst h
      simp

/-- the parse of `EarleyParseAny` is one of the tokens from its offset on -/
theorem anyLoop_run {all : List Token} : ∀ {toks : List Token} (i : Nat) {p q : Option Parsed}, toks = all.drop i →
    parseAnyLoop w g fuel text l starts toks i p = .ok q → q = p ∨
      ∃ a, q = some a ∧ earleyParse w g fuel true text (all.drop a.off) l starts a.off a.off = .ok a
  | [], i, p, q, _, h => by
    rw [parseAnyLoop, Out.ok.injEq] at h
    exact .inl h.symm
  | t :: ts, i, p, q, e, h => by
    rw [parseAnyLoop] at h
    obtain ⟨a, h1, h⟩ := Out.bind_eq_ok.1 h
    have hoff := (earleyParse_ok h1).2.2.2.1
    rw [e] at h1
    split at h
    · simp only [Out.pure_eq, Out.ok.injEq] at h
      exact .inr ⟨a, h.symm, by rw [hoff]; exact h1⟩
    · rcases anyLoop_run (all := all) (i+1) (by rw [← List.tail_drop, ← e]; rfl) h with rfl | h
      · exact .inr ⟨a, rfl, by rw [hoff]; exact h1⟩
      · exact .inr h

/-- the parses of `EarleyParseAll` from an offset on -/
theorem allLoop_drop : ∀ (u : List Token) {v : List Token} (i : Nat) {ps : List Parsed},
    parseAllLoop w g fuel text l starts (u ++ v) i = .ok ps →
    ∃ qs rs, ps = qs ++ rs ∧ parseAllLoop w g fuel text l starts v (i + u.length) = .ok rs
  | [], v, i, ps, h => ⟨[], ps, rfl, h⟩
  | t :: u, v, i, ps, h => by
    rw [List.cons_append, parseAllLoop] at h
    obtain ⟨p, -, h⟩ := Out.bind_eq_ok.1 h
    obtain ⟨rest, h2, h⟩ := Out.bind_eq_ok.1 h
    simp only [Out.pure_eq, Out.ok.injEq] at h
    obtain ⟨qs, rs, rfl, h3⟩ := allLoop_drop u (i+1) h2
    rw [show i + 1 + u.length = i + (t :: u).length by simp; omega] at h3
    subst h
    split
    · exact ⟨p :: qs, rs, rfl, h3⟩
    · exact ⟨qs, rs, rfl, h3⟩

variable {R : String → Prop}

/-- the parse of a part of the tokens alone -/
theorem alone_parse (hc : Closed R ([g.main] ++ g.includes) starts) (ho : w.OrdOK) {l1 : Option Grammar} (hl : ∀ x ∈ l, Unused R [x])
    (hl1 : ∀ x ∈ l1, Unused R [x]) {m m' v : List Token} (hwf : (envFor w g l (m ++ v) starts 0).WF) (hm : m ≠ [])
    (hmm : List.Forall₂ (w.AlikeTokens g R) m m') {text1 : Bytes} {c off : Nat} {p : Parsed}
    (h : earleyParse w g fuel true text (m ++ v) l starts c off = .ok p) (hs : ∀ s ∈ p.res.finals, s.stop ≤ m.length) :
    ∃ p', earleyParse (w.later c) g fuel true text1 m' l1 starts 0 0 = .ok p' ∧ SameTrees p p' := by
  obtain ⟨p1, h1, hcut⟩ := cut_earleyParse (u' := m) (text' := text) (off' := off) hc ho hl hl hwf hm
    (List.forall₂_same.2 fun t _ => .refl t) h
  obtain ⟨p2, h2, hsame⟩ := (shift_earleyParse (l := l) (l' := l1) hc ho hl hl1 fuel text text1 c hmm true 0 off 0).ok
    (by rw [Nat.zero_add]; exact h1)
  have h3 := hcut.same hs
  exact ⟨p2, h2, hsame.1.trans h3.1, fun k f => (hsame.2 k f).trans (h3.2 k f)⟩

end

/-- C103: let the tokens of one text be a part of those of another, up to what the reachable literals do not see, and let the names
of the reachable rules not be those of local rules. (The map orders met in the part alone are those of some parse of the
whole text.)
* If `ExtractMaxAll` finds a match in the part, beginning where the part begins, then `Parse` finds it with the same trees
in the part alone; and if the match is the whole part, then `ExtractMaxAll` finds there this match and nothing else.
* If `ParseAny` finds its match in the part, beginning where the part begins, then `Parse` and `ParseAny` find it with the
same trees in the part alone.
* The trees that `ExtractAll` finds in the part alone are among those it finds in the whole text, in the same order. -/
theorem C103_calls {w : World} {g : Gram} {R : String → Prop} {starts : List String}
    (hc : Closed R ([g.main] ++ g.includes) starts) (ho : w.OrdOK)
    {context context1 : String} {text text1 : Bytes} {u m m' v : List Token} {l l1 : Option Grammar}
    (hp : process w g context text = .ok (u ++ (m ++ v), l)) (hp1 : process w g context1 text1 = .ok (m', l1))
    (hmm : List.Forall₂ (w.AlikeTokens g R) m m')
    (hl : ∀ x ∈ l, Unused R [x]) (hl1 : ∀ x ∈ l1, Unused R [x])
    (hwf : (envFor w g l (u ++ (m ++ v)) starts 0).WF) {fuel : Nat} :
    (∀ ps, earleyParseMaxAll w g fuel context text starts = .ok ps → ∀ p ∈ ps, p.off = u.length → p.Within (u.length + m.length) →
      ∃ k p', earleyParseCtx (w.later k) g fuel context1 text1 starts = .ok p' ∧ SameTrees p p' ∧
        ((∃ s ∈ p.res.finals, s.stop = m.length) →
          ∃ q, earleyParseMaxAll (w.later k) g fuel context1 text1 starts = .ok [q] ∧ SameTrees p q)) ∧
    (∀ p, earleyParseAny w g fuel context text starts = .ok (some p) → p.off = u.length → p.Within (u.length + m.length) →
      ∃ k p', earleyParseCtx (w.later k) g fuel context1 text1 starts = .ok p' ∧ SameTrees p p' ∧
        (p.res.finals ≠ [] → ∃ q, earleyParseAny (w.later k) g fuel context1 text1 starts = .ok (some q) ∧ SameTrees p q)) ∧
    (∀ ns, apiExtractAll w g fuel context text starts = .ok ns →
      ∃ k ns1, apiExtractAll (w.later k) g fuel context1 text1 starts = .ok ns1 ∧ ns1.Sublist ns) := by
  have hm' : m' ≠ [] := (process_ok hp1).1
  have hm : m ≠ [] := by
    rintro rfl
    exact hm' (List.forall₂_nil_left_iff.1 hmm)
  have hp1' : ∀ k, process (w.later k) g context1 text1 = .ok (m', l1) := fun _ => hp1
  have hctx : ∀ k, earleyParseCtx (w.later k) g fuel context1 text1 starts = earleyParse (w.later k) g fuel true text1 m' l1 starts 0 0 := by
    intro k
    unfold earleyParseCtx
    rw [hp1' k]
    rfl
  have hwin : ∀ {p : Parsed}, p.off = u.length → p.Within (u.length + m.length) → ∀ s ∈ p.res.finals, s.stop ≤ m.length := by
    intro p ho hw s hs
    have := hw s hs
    omega
  refine ⟨fun ps h p hpm hoff hw => ?_, fun p h hoff hw => ?_, fun ns h => ?_⟩
  · unfold earleyParseMaxAll at h
    rw [hp] at h
    simp only [Out.bind_ok] at h
    obtain ⟨h2, hf, c, h3⟩ := maxLoop_run _ _ _ h p hpm
    rw [hoff, List.drop_left] at h3
    obtain ⟨p', h4, h5⟩ := alone_parse (text1 := text1) hc ho hl hl1 (wf_envFor hwf _ _) hm hmm h3 (hwin hoff hw)
    refine ⟨c, p', by rw [hctx]; exact h4, h5, ?_⟩
    rintro ⟨s, hs, hstop⟩
    refine ⟨p', ?_, h5⟩
    unfold earleyParseMaxAll
    rw [hp1' c]
    simp only [Out.bind_ok]
    obtain ⟨n, rfl⟩ : ∃ n, fuel = n + 2 := ⟨fuel - 2, by omega⟩
    obtain ⟨-, -, -, -, -, hpar⟩ := earleyParse_ok h3
    obtain ⟨s', hs'⟩ := (longest_single hpar).resolve_left hf
    rw [hs', List.mem_singleton] at hs
    subst hs
    rw [maxAllLoop, if_pos (List.length_pos_of_ne_nil hm'), List.drop_zero, h4]
    simp only [Out.bind_ok]
    rw [h5.1, if_pos hf, hs', maxEnd_single, hstop, hmm.length_eq, maxAllLoop, if_neg (by omega)]
    rfl
  · unfold earleyParseAny at h
    rw [hp] at h
    simp only [Out.bind_ok] at h
    rcases anyLoop_run (all := u ++ (m ++ v)) 0 (by simp) h with h | ⟨a, h, h3⟩
    · cases h
    · obtain rfl := Option.some.inj h
      rw [hoff, List.drop_left] at h3
      obtain ⟨p', h4, h5⟩ := alone_parse (text1 := text1) hc ho hl hl1 (wf_envFor hwf _ _) hm hmm h3 (hwin hoff hw)
      refine ⟨u.length, p', by rw [hctx]; exact h4, h5, fun hf => ⟨p', ?_, h5⟩⟩
      unfold earleyParseAny
      rw [hp1' u.length]
      simp only [Out.bind_ok]
      cases hmc : m' with
      | nil => exact absurd hmc hm'
      | cons t ts =>
        rw [hmc] at h4
        rw [parseAnyLoop, h4]
        simp only [Out.bind_ok]
        rw [h5.1, if_pos hf]
        rfl
  · unfold apiExtractAll extract earleyParseAll at h
    rw [hp] at h
    simp only [Out.bind_ok] at h
    obtain ⟨ps, h1, h2⟩ := Out.bind_eq_ok.1 h
    obtain ⟨qs, rs, rfl, h3⟩ := allLoop_drop u 0 h1
    obtain ⟨X, Y, hX, hY, rfl⟩ := outFlat_append h2
    rw [Nat.zero_add] at h3
    obtain ⟨ps1, ns1, h4, h5, h6⟩ := cut_allLoop (text1 := text) (u' := m) hc ho hl hl hwf (List.forall₂_same.2 fun t _ => .refl t) _ h3 _ _ hY
    obtain ⟨ps2, h7, h8⟩ := (shift_allLoop (l := l) (l' := l1) hc ho hl hl1 fuel text text1 u.length hmm 0).ok
      (by rw [Nat.zero_add]; exact h4)
    refine ⟨u.length, ns1, ?_, h6.trans (List.sublist_append_right X Y)⟩
    unfold apiExtractAll extract earleyParseAll
    rw [hp1' u.length]
    simp only [Out.bind_ok]
    rw [h7, Out.bind_ok, sameTrees_flat _ _ h8]
    exact h5

/-- In `a!ab!` the match `ab` is found at 2; alone, it is found again, and nothing else. -/
example : ∃ ps p k q, earleyParseMaxAll wBytes gAB 40 "" [97, 33, 97, 98, 33] ["s"] = .ok ps ∧ p ∈ ps ∧ p.off = 2 ∧
    earleyParseMaxAll (wBytes.later k) gAB 40 "" [97, 98] ["s"] = .ok [q] ∧ SameTrees p q := by
  obtain ⟨l, hp, hl, hwf⟩ : ∃ l, process wBytes gAB "" [97, 33, 97, 98, 33] = .ok
      ([{ text := "a", startByte := 0, endByte := 1, i := 0 }, { text := "!", type := .punct, startByte := 1, endByte := 2, i := 1 }] ++
        ([{ text := "a", startByte := 2, endByte := 3, i := 2 }, { text := "b", startByte := 3, endByte := 4, i := 3 }] ++
          [{ text := "!", type := .punct, startByte := 4, endByte := 5, i := 4 }]), l) ∧
      (∀ x ∈ l, Unused (· = "s") [x]) ∧ (envFor wBytes gAB l [] ["s"] 0).checkWF = true :=
    ⟨_, rfl, by rintro x hx; cases hx; intro y hy A hA; cases List.mem_singleton.1 hy; subst hA; decide +kernel,
      by decide +kernel⟩
  obtain ⟨l1, hp1, hl1⟩ : ∃ l, process wBytes gAB "" [97, 98] = .ok
      ([{ text := "a", startByte := 0, endByte := 1, i := 0 }, { text := "b", startByte := 1, endByte := 2, i := 1 }], l) ∧
      ∀ x ∈ l, Unused (· = "s") [x] :=
    ⟨_, rfl, by rintro x hx; cases hx; intro y hy A hA; cases List.mem_singleton.1 hy; subst hA; decide +kernel⟩
  have hsum : (earleyParseMaxAll wBytes gAB 40 "" [97, 33, 97, 98, 33] ["s"]).bind
      (fun ps => .ok (ps.map fun p => (p.off, p.res.finals.map (·.stop)))) = .ok [(0, [1]), (2, [2])] := by decide +kernel
  obtain ⟨ps, hps, hsum⟩ := Out.bind_eq_ok.1 hsum
  rw [Out.ok.injEq] at hsum
  obtain ⟨p, hpm, hpe⟩ := List.mem_map.1 (show (2, [2]) ∈ ps.map _ by rw [hsum]; simp)
  obtain ⟨hoff, hst⟩ := Prod.mk.inj hpe
  have hstop : ∀ n, n ∈ p.res.finals.map (·.stop) ↔ n = 2 := fun n => by rw [hst]; simp
  obtain ⟨k, -, -, -, h⟩ := (C103_calls gAB_closed wBytes_ord hp hp1
    (.cons (C97_fields rfl rfl rfl) (.cons (C97_fields rfl rfl rfl) .nil)) hl hl1
    (wf_envFor (Env.checkWF_wf hwf) _ _)).1 ps hps p hpm hoff
    (fun s hs => by rw [hoff, (hstop _).1 (List.mem_map_of_mem hs)]; simp)
  obtain ⟨s, hs, he⟩ := List.mem_map.1 ((hstop 2).2 rfl)
  obtain ⟨q, hq, hsq⟩ := h ⟨s, hs, he⟩
  exact ⟨ps, p, k, q, hps, hpm, hoff, hq, hsq⟩

end Fmr
