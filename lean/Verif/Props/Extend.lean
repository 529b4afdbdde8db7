import Verif.Proofs.Extend

/-!
# C101: text added at the end changes only what reaches it
-/

namespace Fmr

/-- a parse whose matches all end within the first `n` tokens -/
def Parsed.Within (n : Nat) (p : Parsed) : Prop := ∀ s ∈ p.res.finals, p.off + s.stop ≤ n

/-- Let the tokens of a text be those of a shorter text followed by others, up to what the reachable literals do
not see; let the names of the reachable rules not be those of local rules.
* `EarleyParse` of the shorter text has the same matches and trees if no match of the longer text goes beyond it.
* `EarleyParseAny` of the shorter text has the same matches and trees, unless the match of the longer text goes
beyond the shorter one, or begins there: then the shorter one has no match.
* The trees of `ExtractAll` for the shorter text are among those for the longer one, in the same order.
* `EarleyParseMaxAll` of the longer text is a list of matches within the shorter text, followed by matches that go
beyond it or begin there. `EarleyParseMaxAll` of the shorter text begins with the same matches; it has no others if
the match that follows begins after it, and otherwise its others begin where this one begins, or later. -/
theorem C101_calls {w : World} {g : Gram} {R : String → Prop} {starts : List String}
    (hc : Closed R ([g.main] ++ g.includes) starts) (ho : w.OrdOK)
    {context context1 : String} {text text1 : Bytes} {u u' v : List Token} {l l1 : Option Grammar}
    (hp : process w g context text = .ok (u ++ v, l)) (hp1 : process w g context1 text1 = .ok (u', l1))
    (huu : List.Forall₂ (w.AlikeTokens g R) u u')
    (hl : ∀ x ∈ l, Unused R [x]) (hl1 : ∀ x ∈ l1, Unused R [x])
    (hwf : (envFor w g l (u ++ v) starts 0).WF) {fuel : Nat} :
    (∀ p, earleyParseCtx w g fuel context text starts = .ok p →
      ∃ p', earleyParseCtx w g fuel context1 text1 starts = .ok p' ∧ (p.Within u.length → SameTrees p p')) ∧
    (∀ p, earleyParseAny w g fuel context text starts = .ok (some p) →
      (p.Within u.length → p.off < u.length → ∃ p', earleyParseAny w g fuel context1 text1 starts = .ok (some p') ∧ SameTrees p p') ∧
      (u.length ≤ p.off → ∃ p', earleyParseAny w g fuel context1 text1 starts = .ok (some p') ∧ p'.res.finals = [])) ∧
    (∀ ns, apiExtractAll w g fuel context text starts = .ok ns →
      ∃ ns1, apiExtractAll w g fuel context1 text1 starts = .ok ns1 ∧ ns1.Sublist ns) ∧
    (∀ ps, earleyParseMaxAll w g fuel context text starts = .ok ps →
      ∃ qs qs1 rest, ps = qs ++ rest ∧ List.Forall₂ SameTrees qs qs1 ∧ (∀ p ∈ qs, p.Within u.length) ∧
        (∀ p ∈ rest, p.Reaches u.length) ∧
        ((∀ p ∈ rest, u.length ≤ p.off) → earleyParseMaxAll w g fuel context1 text1 starts = .ok qs1) ∧
        ∀ ps1, earleyParseMaxAll w g fuel context1 text1 starts = .ok ps1 → ∃ rest1, ps1 = qs1 ++ rest1 ∧
          ∀ p ∈ rest.head?, ∀ q ∈ rest1, p.off ≤ q.off) := by
  have hu' : u' ≠ [] := (process_ok hp1).1
  have hu : u ≠ [] := by
    rintro rfl
    exact hu' (List.forall₂_nil_left_iff.1 huu)
  refine ⟨fun p h => ?_, fun p h => ?_, fun ns h => ?_, fun ps h => ?_⟩
  · unfold earleyParseCtx at h ⊢
    rw [hp] at h
    rw [hp1]
    simp only [Out.bind_ok] at h ⊢
    obtain ⟨p', e, hcut⟩ := cut_earleyParse (text' := text1) (off' := 0) hc ho hl hl1 hwf hu huu h
    have hoff := (earleyParse_ok h).2.2.2.1
    refine ⟨p', e, fun hw => hcut.same (fun s hs => ?_)⟩
    have := hw s hs
    omega
  · unfold earleyParseAny at h ⊢
    rw [hp] at h
    rw [hp1]
    simp only [Out.bind_ok] at h ⊢
    rcases cut_anyLoop (text1 := text1) (p1 := none) hc ho hl hl1 hwf huu 0 h hu with
      ⟨a, b, e, ha, hab, hb⟩ | ⟨a, e, ha, s, hs, hlt⟩ | ⟨b, hb, hn, a, e, ha⟩
    · cases e
      exact ⟨fun _ _ => ⟨b, hb, hab⟩, fun hge => by omega⟩
    · cases e
      refine ⟨fun hw _ => ?_, fun hge => ?_⟩
      · have := hw s hs
        omega
      · omega
    · cases e
      exact ⟨fun _ hlt => by omega, fun _ => ⟨b, hb, hn⟩⟩
  · unfold apiExtractAll extract earleyParseAll at h ⊢
    rw [hp] at h
    rw [hp1]
    obtain ⟨ps, h1, h⟩ := Out.bind_eq_ok.1 h
    simp only [Out.bind_ok] at h1
    obtain ⟨ps1, ns1, k1, k2, k3⟩ := cut_allLoop (text1 := text1) hc ho hl hl1 hwf huu 0 h1 fuel ns h
    refine ⟨ns1, ?_, k3⟩
    simp only [Out.bind_ok, k1, k2]
  · unfold earleyParseMaxAll at h ⊢
    rw [hp] at h
    rw [hp1]
    simp only [Out.bind_ok] at h ⊢
    obtain ⟨qs, qs1, r, k1, k2, k3, k4, k5, k6⟩ := cut_maxLoop (text1 := text1) hc ho hl hl1 hwf huu fuel 0 0 (Nat.zero_le _) h
    exact ⟨qs, qs1, r, k1, k2, k4, k3, k5, k6⟩

/-- the trees: those of the matches before the first that goes beyond the shorter text are the same -/
theorem C101_trees {qs qs1 rest rest1 : List Parsed} (h : List.Forall₂ SameTrees qs qs1) {fuel : Nat} {flag : Bool}
    {ns ns1 : List Node} (e : outFlat (treesOf fuel flag) (qs ++ rest) = .ok ns)
    (e1 : outFlat (treesOf fuel flag) (qs1 ++ rest1) = .ok ns1) :
    ∃ c r r1, ns = c ++ r ∧ ns1 = c ++ r1 ∧ outFlat (treesOf fuel flag) qs = .ok c ∧
      outFlat (treesOf fuel flag) rest = .ok r ∧ outFlat (treesOf fuel flag) rest1 = .ok r1 := by
  obtain ⟨c, r, h1, h2, h3⟩ := outFlat_append e
  obtain ⟨c', r1, k1, k2, k3⟩ := outFlat_append e1
  rw [sameTrees_flat fuel flag h, h1, Out.ok.injEq] at k1
  subst k1
  exact ⟨c, r, r1, h3, k3, h1, h2, k2⟩

/-- What has been found may go: in `a` the call `ExtractMaxAll` finds `a`, in `ab` it finds `ab` only. -/
theorem C101_longer : foundIn gAB [97] = .ok [["ɣ", "s", "a"]] ∧ foundIn gAB [97, 98] = .ok [["ɣ", "s", "a", "b"]] := by
  constructor <;> decide +kernel

/-! ## non-vacuity: `a!a` and `a!ab` -/

theorem gAB_closed : Closed (· = "s") ([gAB.main] ++ gAB.includes) ["s"] :=
  { roots := by simp
    closed := by
      rintro A rfl g hg r hr b hb t ht
      rcases gAB_terms hg hr hb ht with rfl | rfl <;> simp [Term.within] }

example : (∃ ps qs qs1 rest, earleyParseMaxAll wBytes gAB 40 "" [97, 33, 97, 98] ["s"] = .ok ps ∧ ps = qs ++ rest ∧
      List.Forall₂ SameTrees qs qs1 ∧ (∀ p ∈ qs, p.Within 3) ∧ (∀ p ∈ rest, p.Reaches 3) ∧
      ∀ ps1, earleyParseMaxAll wBytes gAB 40 "" [97, 33, 97] ["s"] = .ok ps1 → ∃ rest1, ps1 = qs1 ++ rest1) ∧
    foundIn gAB [97, 33, 97, 98] = .ok [["ɣ", "s", "a"], ["ɣ", "s", "a", "b"]] ∧
    foundIn gAB [97, 33, 97] = .ok [["ɣ", "s", "a"], ["ɣ", "s", "a"]] := by
  refine ⟨?_, by decide +kernel, by decide +kernel⟩
  obtain ⟨l, hp, hl, hwf⟩ : ∃ l, process wBytes gAB "" [97, 33, 97, 98] = .ok
      ([{ text := "a", startByte := 0, endByte := 1, i := 0 }, { text := "!", type := .punct, startByte := 1, endByte := 2, i := 1 },
        { text := "a", startByte := 2, endByte := 3, i := 2 }] ++ [{ text := "b", startByte := 3, endByte := 4, i := 3 }], l) ∧
      (∀ x ∈ l, Unused (· = "s") [x]) ∧ (envFor wBytes gAB l [] ["s"] 0).checkWF = true :=
    ⟨_, rfl, by rintro x hx; cases hx; intro y hy A hA; cases List.mem_singleton.1 hy; subst hA; decide +kernel,
      by decide +kernel⟩
  obtain ⟨l1, hp1, hl1⟩ : ∃ l, process wBytes gAB "" [97, 33, 97] = .ok
      ([{ text := "a", startByte := 0, endByte := 1, i := 0 }, { text := "!", type := .punct, startByte := 1, endByte := 2, i := 1 },
        { text := "a", startByte := 2, endByte := 3, i := 2 }], l) ∧ ∀ x ∈ l, Unused (· = "s") [x] :=
    ⟨_, rfl, by rintro x hx; cases hx; intro y hy A hA; cases List.mem_singleton.1 hy; subst hA; decide +kernel⟩
  cases hps : earleyParseMaxAll wBytes gAB 40 "" [97, 33, 97, 98] ["s"] with
  | ok ps =>
    obtain ⟨qs, qs1, rest, h1, h2, h3, h4, -, h5⟩ := (C101_calls gAB_closed wBytes_ord hp hp1
      (.cons (C97_fields rfl rfl rfl) (.cons (C97_fields rfl rfl rfl) (.cons (C97_fields rfl rfl rfl) .nil))) hl hl1
      (wf_envFor (Env.checkWF_wf hwf) _ _)).2.2.2 ps hps
    exact ⟨ps, qs, qs1, rest, rfl, h1, h2, h3, h4, fun ps1 e => ⟨_, (h5 ps1 e).choose_spec.1⟩⟩
  | err => have : (earleyParseMaxAll wBytes gAB 40 "" [97, 33, 97, 98] ["s"]).bind (fun _ => .ok ()) = .ok () := by decide +kernel
           rw [hps] at this; simp [Out.bind] at this
  | panic => have : (earleyParseMaxAll wBytes gAB 40 "" [97, 33, 97, 98] ["s"]).bind (fun _ => .ok ()) = .ok () := by decide +kernel
             rw [hps] at this; simp [Out.bind] at this
  | div => have : (earleyParseMaxAll wBytes gAB 40 "" [97, 33, 97, 98] ["s"]).bind (fun _ => .ok ()) = .ok () := by decide +kernel
           rw [hps] at this; simp [Out.bind] at this

end Fmr
