import Verif.Spec.Api
import Verif.Props.Trees
import Verif.Props.Values

/-!
# C17–C20, C54: the drivers
-/

namespace Fmr

/-! ## helpers -/

theorem parse_mono {env : Env} {flag fuel r} (h : parse env flag fuel = some r) {fuel' : Nat}
    (hle : fuel ≤ fuel') : parse env flag fuel' = some r := by
  unfold parse at h ⊢
  split
  · rename_i hs; rw [if_pos hs] at h; exact h
  · rename_i hs
    rw [if_neg hs] at h
    cases hc : chartOf env fuel with
    | none => simp [hc] at h
    | some c =>
      rw [hc] at h
      have := chartOf_mono hc (fuel' - fuel)
      rw [show fuel + (fuel' - fuel) = fuel' by omega] at this
      rw [this]; exact h

theorem parse_det {env : Env} {flag f f' r r'} (h : parse env flag f = some r)
    (h' : parse env flag f' = some r') : r = r' := by
  have h1 := parse_mono h (Nat.le_max_left f f')
  have h2 := parse_mono h' (Nat.le_max_right f f')
  rw [h1] at h2; exact Option.some.inj h2

theorem earleyParse_ok {w g fuel flag text tokens l starts call off p}
    (h : earleyParse w g fuel flag text tokens l starts call off = .ok p) :
    starts ≠ [] ∧ tokens ≠ [] ∧ p.text = text ∧ p.off = off ∧
    p.env = envFor w g l tokens starts call ∧
    parse (envFor w g l tokens starts call) flag fuel = some p.res := by
  unfold earleyParse at h
  split at h
  · simp at h
  split at h
  · simp at h
  rename_i h1 h2
  simp only at h
  split at h
  · simp at h
  · rename_i r hr
    simp only [Out.ok.injEq] at h
    subst h
    exact ⟨by intro e; simp [e] at h1, by intro e; simp [e] at h2, rfl, rfl, rfl, hr⟩

theorem earleyParse_eq {w g fuel flag text tokens l starts call off r}
    (hs : starts ≠ []) (ht : tokens ≠ [])
    (h : parse (envFor w g l tokens starts call) flag fuel = some r) :
    earleyParse w g fuel flag text tokens l starts call off =
      .ok { text := text, env := envFor w g l tokens starts call, res := r, off := off } := by
  unfold earleyParse
  rw [if_neg (by simp [hs]), if_neg (by simp [ht])]
  simp only [h]

theorem earleyParse_err {w g fuel flag text tokens l starts call off} (ht : tokens ≠ []) :
    earleyParse w g fuel flag text tokens l starts call off = .err ↔ starts = [] := by
  unfold earleyParse
  by_cases hs : starts = []
  · simp [hs]
  · rw [if_neg (by simp [hs]), if_neg (by simp [ht])]
    simp only [hs, iff_false]
    split <;> simp

theorem earleyParse_no_panic {w g fuel flag text tokens l starts call off} :
    earleyParse w g fuel flag text tokens l starts call off ≠ .panic := by
  unfold earleyParse
  split
  · simp
  split
  · simp
  · simp only; split <;> simp

theorem process_ok {w g context text tokens l} (h : process w g context text = .ok (tokens, l)) :
    tokens ≠ [] ∧ ∃ d, annotateText w context (w.trim text) = some d ∧ w.trim text ≠ [] ∧
      tokens = d.tokens.filter (fun t => t.type ≠ .space) ∧
      localGrammar w.hash w.find g.main.regexps d = .ok l := by
  unfold process at h
  simp only at h
  split at h
  · simp at h
  rename_i hne
  split at h
  · simp at h
  rename_i d hd
  split at h
  · simp at h
  rename_i hr
  obtain ⟨l', h1, h2⟩ := Out.bind_eq_ok.1 h
  simp only [Out.pure_eq, Out.ok.injEq, Prod.mk.injEq] at h2
  obtain ⟨rfl, rfl⟩ := h2
  exact ⟨hr, d, hd, hne, rfl, h1⟩

theorem wf_envFor {w g l ts starts c} (h : (envFor w g l ts starts c).WF) (ts' : List Token) (c' : Nat) :
    (envFor w g l ts' starts c').WF :=
  ⟨h.named, h.bodies, h.noGamma⟩

theorem nullSafe_envFor {w g l ts starts c} (h : NullSafe (envFor w g l ts starts c)) (ts' : List Token)
    (c' : Nat) : NullSafe (envFor w g l ts' starts c') :=
  NullSafe.same (env := envFor w g l ts starts c) (by rfl) (fun _ h => h) h

theorem ord_envFor {w : World} (h : w.OrdOK) (g l ts starts c) : (envFor w g l ts starts c).OrdOK :=
  h c

/-- what the longest-match parse of the tokens from offset `i` on reports -/
theorem offset_facts {w : World} {g l tokens starts call i fuel r}
    (hwf : (envFor w g l tokens starts 0).WF) (ho : w.OrdOK)
    (hns : NullSafe (envFor w g l tokens starts 0)) (hu : UniformBounds (envFor w g l tokens starts 0))
    (hs : starts ≠ []) (hi : i ≤ tokens.length)
    (h : parse (envFor w g l (tokens.drop i) starts call) true fuel = some r) :
    (∀ s ∈ r.finals, MatchAt (envFor w g l tokens starts 0) i s.stop ∧
      ∀ k, MatchAt (envFor w g l tokens starts 0) i k → k ≤ s.stop) ∧
    (r.finals = [] ↔ ∀ k, ¬ MatchAt (envFor w g l tokens starts 0) i k) := by
  have key := C03_longest_derivable_partial _ fuel r (wf_envFor hwf (tokens.drop i) call)
    (ord_envFor ho g l _ starts call) (nullSafe_envFor hns _ _) hu hs h
  have hlen : (envFor w g l (tokens.drop i) starts call).tokens.length = tokens.length - i := by
    simp [envFor]
  have conv : ∀ k, MatchAt (envFor w g l tokens starts 0) i k ↔
      ∃ S ∈ starts, k ≤ tokens.length - i ∧
        Derives (envFor w g l (tokens.drop i) starts call) S ((tokens.drop i).take k) := by
    intro k
    constructor
    · rintro ⟨h1, S, hS, hd⟩
      exact ⟨S, hS, by simp only [envFor] at h1; omega, hd⟩
    · rintro ⟨S, hS, hk, hd⟩
      exact ⟨by simp only [envFor]; omega, S, hS, hd⟩
  refine ⟨?_, ?_⟩
  · intro s hs'
    obtain ⟨⟨S, hS, hm, hd⟩, hmax⟩ := key.1 s hs'
    have hle : s.stop ≤ tokens.length - i := by
      obtain ⟨S', hS', j, hm', hj, _⟩ := C01_partial _ true fuel r (wf_envFor hwf (tokens.drop i) call)
        (ord_envFor ho g l _ starts call) hu h s hs'
      rw [hm'.2.2.2.2]; rw [hlen] at hj; exact hj
    refine ⟨(conv _).2 ⟨S, hS, hle, hd⟩, ?_⟩
    intro k hk
    obtain ⟨S', hS', hk', hd'⟩ := (conv k).1 hk
    exact hmax S' hS' k (by rw [hlen]; exact hk') hd'
  · rw [key.2]
    constructor
    · intro hno k hk
      obtain ⟨S', hS', hk', hd'⟩ := (conv k).1 hk
      exact hno ⟨S', hS', k, by rw [hlen]; exact hk', hd'⟩
    · rintro hno ⟨S, hS, k, hk, hd⟩
      exact hno k ((conv k).2 ⟨S, hS, by rw [hlen] at hk; exact hk, hd⟩)

/-! ## C17 -/

theorem parseAnyLoop_spec {w : World} {g fuel text l starts} {tokens : List Token} :
    ∀ (ts : List Token) (i : Nat) (p0 r : Option Parsed), ts = tokens.drop i →
    parseAnyLoop w g fuel text l starts ts i p0 = .ok r →
    (ts = [] ∧ r = p0) ∨ ∃ p, r = some p ∧ i ≤ p.off ∧ p.off < tokens.length ∧ p.text = text ∧
      p.env = envFor w g l (tokens.drop p.off) starts p.off ∧ parse p.env true fuel = some p.res ∧
      starts ≠ [] ∧
      (∀ j, i ≤ j → j < p.off → ∃ rj, parse (envFor w g l (tokens.drop j) starts j) true fuel = some rj ∧
        rj.finals = []) ∧
      (p.res.finals = [] → p.off + 1 = tokens.length) := by
  intro ts
  induction ts with
  | nil =>
    intro i p0 r hts h
    simp only [parseAnyLoop, Out.ok.injEq] at h
    exact .inl ⟨rfl, h.symm⟩
  | cons t ts ih =>
    intro i p0 r hts h
    right
    rw [parseAnyLoop] at h
    obtain ⟨p, h1, h2⟩ := Out.bind_eq_ok.1 h
    obtain ⟨hs, _, htx, hoff, henv, hpar⟩ := earleyParse_ok h1
    have hlt : i < tokens.length := by
      rcases Nat.lt_or_ge i tokens.length with h | h
      · exact h
      · rw [List.drop_eq_nil_of_le h] at hts; simp at hts
    have hts' : ts = tokens.drop (i+1) := by
      rw [← List.tail_drop, ← hts]; rfl
    have hpar' : parse p.env true fuel = some p.res := by rw [henv]; exact hpar
    split at h2
    · rename_i hf
      simp at h2
      subst h2
      refine ⟨p, rfl, by omega, by omega, htx, by rw [henv, hoff, hts], hpar', hs, ?_, ?_⟩
      · intro j h1 h2; omega
      · intro h; exact absurd h hf
    · rename_i hf
      simp only [ne_eq, Decidable.not_not] at hf
      rcases ih (i+1) (some p) r hts' h2 with ⟨he, hr⟩ | ⟨q, hq, hle, hq2⟩
      · refine ⟨p, hr, by omega, by omega, htx, by rw [henv, hoff, hts], hpar', hs, ?_, ?_⟩
        · intro j h1 h2; omega
        · intro _
          rw [hts', List.drop_eq_nil_iff] at he
          omega
      · refine ⟨q, hq, by omega, hq2.1, hq2.2.1, hq2.2.2.1, hq2.2.2.2.1, hs, ?_, hq2.2.2.2.2.2.2⟩
        intro j h1 h2
        rcases Nat.eq_or_lt_of_le h1 with e | e
        · subst e
          exact ⟨p.res, by rw [← hts]; exact hpar, hf⟩
        · exact hq2.2.2.2.2.2.1 j e h2

/-- C17: `EarleyParseAny` returns a parse, of the tokens from some offset on. No parse of an earlier
offset reports a match, and if the returned one reports none, no offset does. -/
theorem C17_leftmost (w : World) (g : Gram) (fuel : Nat) (context : String) (text : Bytes)
    (starts : List String) (tokens : List Token) (l : Option Grammar)
    (hp : process w g context text = .ok (tokens, l)) (r : Option Parsed)
    (h : earleyParseAny w g fuel context text starts = .ok r) :
    ∃ p, r = some p ∧ p.off < tokens.length ∧
      p.env = envFor w g l (tokens.drop p.off) starts p.off ∧ parse p.env true fuel = some p.res ∧
      (∀ j < p.off, ∃ rj, parse (envFor w g l (tokens.drop j) starts j) true fuel = some rj ∧
        rj.finals = []) ∧
      (p.res.finals = [] → ∀ j < tokens.length,
        ∃ rj, parse (envFor w g l (tokens.drop j) starts j) true fuel = some rj ∧ rj.finals = []) := by
  unfold earleyParseAny at h
  rw [hp] at h
  simp only [Out.bind_ok] at h
  rcases parseAnyLoop_spec (tokens := tokens) tokens 0 none r (by simp) h with ⟨h1, _⟩ | ⟨p, h1, _, h3, _, h5, h6, _, h8, h9⟩
  · exact absurd h1 (process_ok hp).1
  · refine ⟨p, h1, h3, h5, h6, fun j hj => h8 j (by omega) hj, ?_⟩
    intro hnil j hj
    have := h9 hnil
    rcases Nat.lt_or_ge j p.off with hlt | hge
    · exact h8 j (by omega) hlt
    · have : j = p.off := by omega
      subst this
      exact ⟨p.res, by rw [← h5]; exact h6, hnil⟩

/-- C17 in terms of derivability, for grammars with safely placed empty derivations and uniform
bounds: a match is
reported iff some token span is derivable; it then starts at the leftmost token at which one starts
and is the longest there. (Missing: unsafely placed empty derivations and
mixed bounds, see C01, C02.) -/
theorem C17_derivable_partial (w : World) (g : Gram) (fuel : Nat) (context : String) (text : Bytes)
    (starts : List String) (tokens : List Token) (l : Option Grammar)
    (hp : process w g context text = .ok (tokens, l)) (r : Option Parsed)
    (hwf : (envFor w g l tokens starts 0).WF) (ho : w.OrdOK)
    (hns : NullSafe (envFor w g l tokens starts 0)) (hu : UniformBounds (envFor w g l tokens starts 0))
    (h : earleyParseAny w g fuel context text starts = .ok r) :
    ∃ p, r = some p ∧
      (p.res.finals ≠ [] ↔ ∃ i k, i < tokens.length ∧ MatchAt (envFor w g l tokens starts 0) i k) ∧
      ∀ s ∈ p.res.finals, MatchAt (envFor w g l tokens starts 0) p.off s.stop ∧
        (∀ i k, i < tokens.length → MatchAt (envFor w g l tokens starts 0) i k →
          p.off ≤ i ∧ (i = p.off → k ≤ s.stop)) := by
  obtain ⟨p, h1, h3, h5, h6, h8, h9⟩ := C17_leftmost w g fuel context text starts tokens l hp r h
  have hst : starts ≠ [] := by
    unfold earleyParseAny at h
    rw [hp] at h
    simp only [Out.bind_ok] at h
    rcases parseAnyLoop_spec (tokens := tokens) tokens 0 none r (by simp) h with ⟨h1, _⟩ | ⟨p, _, _, _, _, _, _, h7, _, _⟩
    · exact absurd h1 (process_ok hp).1
    · exact h7
  rw [h5] at h6
  have hf := offset_facts hwf ho hns hu hst (Nat.le_of_lt h3) h6
  refine ⟨p, h1, ?_, ?_⟩
  · constructor
    · intro hn
      cases hfin : p.res.finals with
      | nil => exact absurd hfin hn
      | cons s _ =>
        exact ⟨p.off, s.stop, h3, (hf.1 s (by rw [hfin]; simp)).1⟩
    · rintro ⟨i, k, hi, hm⟩ hnil
      obtain ⟨rj, hj1, hj2⟩ := h9 hnil i hi
      exact (offset_facts hwf ho hns hu hst (Nat.le_of_lt hi) hj1).2.1 hj2 k hm
  · intro s hs
    refine ⟨(hf.1 s hs).1, ?_⟩
    intro i k hi hm
    refine ⟨?_, ?_⟩
    · rcases Nat.lt_or_ge i p.off with hlt | hge
      · obtain ⟨rj, hj1, hj2⟩ := h8 i hlt
        exact absurd hm ((offset_facts hwf ho hns hu hst (Nat.le_of_lt hi) hj1).2.1 hj2 k)
      · exact hge
    · rintro rfl
      exact (hf.1 s hs).2 k hm

/-- a common fuel for finitely many terminating parses -/
theorem common_fuel {w : World} {g l starts flag} {tokens : List Token}
    (hwf : (envFor w g l tokens starts 0).WF) (ho : w.OrdOK) (F : Nat → Nat) (m : Nat) :
    ∃ n, ∀ fuel ≥ n, ∀ i < m, ∃ r,
      parse (envFor w g l (tokens.drop i) starts (F i)) flag fuel = some r := by
  induction m with
  | zero => exact ⟨0, fun _ _ i hi => absurd hi (by omega)⟩
  | succ m ih =>
    obtain ⟨n, hn⟩ := ih
    obtain ⟨n', r, hn'⟩ := C05_terminates (envFor w g l (tokens.drop m) starts (F m)) flag
      (wf_envFor hwf _ _) (ord_envFor ho _ _ _ _ _)
    refine ⟨max n n', fun fuel hf i hi => ?_⟩
    rcases Nat.lt_succ_iff_lt_or_eq.1 hi with h | h
    · exact hn fuel (by omega) i h
    · subst h; exact ⟨r, hn' fuel (by omega)⟩

theorem parseAnyLoop_total {w : World} {g fuel text l starts} {tokens : List Token} (hs : starts ≠ [])
    (hf : ∀ i < tokens.length, ∃ r, parse (envFor w g l (tokens.drop i) starts i) true fuel = some r) :
    ∀ (ts : List Token) (i : Nat) (p0 : Option Parsed), ts = tokens.drop i →
    ∃ r, parseAnyLoop w g fuel text l starts ts i p0 = .ok r := by
  intro ts
  induction ts with
  | nil => intro i p0 _; exact ⟨p0, rfl⟩
  | cons t ts ih =>
    intro i p0 hts
    have hlt : i < tokens.length := by
      rcases Nat.lt_or_ge i tokens.length with h | h
      · exact h
      · rw [List.drop_eq_nil_of_le h] at hts; simp at hts
    have hts' : ts = tokens.drop (i+1) := by
      rw [← List.tail_drop, ← hts]; rfl
    obtain ⟨r, hr⟩ := hf i hlt
    rw [← hts] at hr
    rw [parseAnyLoop, earleyParse_eq hs (by simp) hr]
    simp only [Out.bind_ok]
    split
    · exact ⟨_, rfl⟩
    · exact ih (i+1) _ hts'

/-- C17: `EarleyParseAny` returns. -/
theorem C17_terminates (w : World) (g : Gram) (context : String) (text : Bytes)
    (starts : List String) (tokens : List Token) (l : Option Grammar)
    (hp : process w g context text = .ok (tokens, l)) (hs : starts ≠ [])
    (hwf : (envFor w g l tokens starts 0).WF) (ho : w.OrdOK) :
    ∃ n, ∀ fuel ≥ n, ∃ r, earleyParseAny w g fuel context text starts = .ok r := by
  obtain ⟨n, hn⟩ := common_fuel (flag := true) hwf ho id tokens.length
  refine ⟨n, fun fuel hf => ?_⟩
  unfold earleyParseAny
  rw [hp]
  simp only [Out.bind_ok]
  exact parseAnyLoop_total hs (hn fuel hf) tokens 0 none (by simp)

/-! ## C19 -/

theorem parseAllLoop_spec {w : World} {g fuel text l starts} {tokens : List Token} :
    ∀ (ts : List Token) (i : Nat) (ps : List Parsed), ts = tokens.drop i →
    parseAllLoop w g fuel text l starts ts i = .ok ps →
    (ps.map (·.off)).Pairwise (· < ·) ∧
    (∀ p ∈ ps, i ≤ p.off ∧ p.off < tokens.length ∧ p.text = text ∧
      p.env = envFor w g l (tokens.drop p.off) starts p.off ∧ parse p.env false fuel = some p.res ∧
      p.res.finals ≠ []) ∧
    (∀ j, i ≤ j → j < tokens.length → ∃ rj,
      parse (envFor w g l (tokens.drop j) starts j) false fuel = some rj ∧
      (rj.finals ≠ [] → ∃ p ∈ ps, p.off = j)) ∧
    (ts ≠ [] → starts ≠ []) := by
  intro ts
  induction ts with
  | nil =>
    intro i ps hts h
    simp only [parseAllLoop, Out.ok.injEq] at h
    subst h
    refine ⟨by simp, by simp, ?_, by simp⟩
    intro j h1 h2
    have := List.drop_eq_nil_iff.1 hts.symm
    omega
  | cons t ts ih =>
    intro i ps hts h
    rw [parseAllLoop] at h
    obtain ⟨p, h1, h2⟩ := Out.bind_eq_ok.1 h
    obtain ⟨rest, h3, h4⟩ := Out.bind_eq_ok.1 h2
    obtain ⟨hs, _, htx, hoff, henv, hpar⟩ := earleyParse_ok h1
    have hlt : i < tokens.length := by
      rcases Nat.lt_or_ge i tokens.length with h | h
      · exact h
      · rw [List.drop_eq_nil_of_le h] at hts; simp at hts
    have hts' : ts = tokens.drop (i+1) := by
      rw [← List.tail_drop, ← hts]; rfl
    have hpar' : parse p.env false fuel = some p.res := by rw [henv]; exact hpar
    obtain ⟨i1, i2, i3, _⟩ := ih (i+1) rest hts' h3
    simp only [Out.pure_eq, Out.ok.injEq] at h4
    have hp : i ≤ p.off ∧ p.off < tokens.length ∧ p.text = text ∧
      p.env = envFor w g l (tokens.drop p.off) starts p.off ∧ parse p.env false fuel = some p.res :=
      ⟨by omega, by omega, htx, by rw [henv, hoff, hts], hpar'⟩
    by_cases hf : p.res.finals = []
    · rw [if_neg (by simp [hf])] at h4
      subst h4
      refine ⟨i1, fun q hq => ⟨by have := (i2 q hq).1; omega, (i2 q hq).2⟩, ?_, fun _ => hs⟩
      intro j h1 h2
      rcases Nat.eq_or_lt_of_le h1 with e | e
      · subst e
        exact ⟨p.res, by rw [← hts]; exact hpar, fun h => absurd hf h⟩
      · exact i3 j e h2
    · rw [if_pos hf] at h4
      subst h4
      refine ⟨?_, ?_, ?_, fun _ => hs⟩
      · rw [List.map_cons, List.pairwise_cons]
        refine ⟨?_, i1⟩
        intro o ho
        obtain ⟨q, hq, rfl⟩ := List.mem_map.1 ho
        have := (i2 q hq).1
        omega
      · intro q hq
        rcases List.mem_cons.1 hq with rfl | hq
        · exact ⟨hp.1, hp.2.1, hp.2.2.1, hp.2.2.2.1, hp.2.2.2.2, hf⟩
        · exact ⟨by have := (i2 q hq).1; omega, (i2 q hq).2⟩
      · intro j h1 h2
        rcases Nat.eq_or_lt_of_le h1 with e | e
        · subst e
          exact ⟨p.res, by rw [← hts]; exact hpar, fun _ => ⟨p, by simp, hoff⟩⟩
        · obtain ⟨rj, a, b⟩ := i3 j e h2
          refine ⟨rj, a, fun h => ?_⟩
          obtain ⟨q, hq, hq'⟩ := b h
          exact ⟨q, List.mem_cons_of_mem _ hq, hq'⟩

/-- C19: `EarleyParseAll` returns the exhaustive parses of the suffixes, by increasing offset, of
exactly those offsets whose exhaustive parse reports a match. -/
theorem C19_all_offsets (w : World) (g : Gram) (fuel : Nat) (context : String) (text : Bytes)
    (starts : List String) (tokens : List Token) (l : Option Grammar)
    (hp : process w g context text = .ok (tokens, l)) (ps : List Parsed)
    (h : earleyParseAll w g fuel context text starts = .ok ps) :
    (ps.map (·.off)).Pairwise (· < ·) ∧
    (∀ p ∈ ps, p.off < tokens.length ∧ p.text = text ∧
      p.env = envFor w g l (tokens.drop p.off) starts p.off ∧
      parse p.env false fuel = some p.res ∧ p.res.finals ≠ []) ∧
    (∀ j < tokens.length, ∃ rj,
      parse (envFor w g l (tokens.drop j) starts j) false fuel = some rj ∧
      (rj.finals ≠ [] → ∃ p ∈ ps, p.off = j)) := by
  unfold earleyParseAll at h
  rw [hp] at h
  simp only [Out.bind_ok] at h
  obtain ⟨h1, h2, h3, _⟩ := parseAllLoop_spec (tokens := tokens) tokens 0 ps (by simp) h
  exact ⟨h1, fun p hp => (h2 p hp).2, fun j hj => h3 j (by omega) hj⟩

/-- C19 in terms of derivability: the spans reported are exactly the derivable ones.
(Missing: unsafely placed empty derivations and
mixed bounds, see C01, C02.) -/
theorem C19_derivable_partial (w : World) (g : Gram) (fuel : Nat) (context : String) (text : Bytes)
    (starts : List String) (tokens : List Token) (l : Option Grammar)
    (hp : process w g context text = .ok (tokens, l)) (ps : List Parsed)
    (hwf : (envFor w g l tokens starts 0).WF) (ho : w.OrdOK)
    (hns : NullSafe (envFor w g l tokens starts 0)) (hu : UniformBounds (envFor w g l tokens starts 0))
    (h : earleyParseAll w g fuel context text starts = .ok ps)
    (S : String) (hS : S ∈ starts) (i k : Nat) (hik : i + k ≤ tokens.length) (hi : i < tokens.length) :
    (∃ p ∈ ps, p.off = i ∧ ∃ s ∈ p.res.finals, MatchFor S k s) ↔
      Derives (envFor w g l tokens starts 0) S ((tokens.drop i).take k) := by
  obtain ⟨_, h2, h3⟩ := C19_all_offsets w g fuel context text starts tokens l hp ps h
  have key : ∀ r, parse (envFor w g l (tokens.drop i) starts i) false fuel = some r →
      ((∃ s ∈ r.finals, MatchFor S k s) ↔
        Derives (envFor w g l tokens starts 0) S ((tokens.drop i).take k)) := by
    intro r hr
    exact C04_exhaustive_derivable_partial (envFor w g l (tokens.drop i) starts i) fuel r
      (wf_envFor hwf _ _) (ord_envFor ho _ _ _ _ _) (nullSafe_envFor hns _ _) hu hr S hS k
      (by simp only [envFor, List.length_drop]; omega)
  constructor
  · rintro ⟨p, hp, rfl, s, hs, hm⟩
    obtain ⟨_, _, he, hpar, _⟩ := h2 p hp
    rw [he] at hpar
    exact (key _ hpar).1 ⟨s, hs, hm⟩
  · intro hd
    obtain ⟨rj, hj, hj'⟩ := h3 i hi
    obtain ⟨s, hs, hm⟩ := (key rj hj).2 hd
    obtain ⟨p, hp, ho⟩ := hj' (by intro e; rw [e] at hs; simp at hs)
    refine ⟨p, hp, ho, s, ?_, hm⟩
    obtain ⟨_, _, he, hpar, _⟩ := h2 p hp
    rw [he, ho, hj] at hpar
    rw [← Option.some.inj hpar]; exact hs

theorem parseAllLoop_total {w : World} {g fuel text l starts} {tokens : List Token} (hs : starts ≠ [])
    (hf : ∀ i < tokens.length, ∃ r, parse (envFor w g l (tokens.drop i) starts i) false fuel = some r) :
    ∀ (ts : List Token) (i : Nat), ts = tokens.drop i →
    ∃ r, parseAllLoop w g fuel text l starts ts i = .ok r := by
  intro ts
  induction ts with
  | nil => intro i _; exact ⟨[], rfl⟩
  | cons t ts ih =>
    intro i hts
    have hlt : i < tokens.length := by
      rcases Nat.lt_or_ge i tokens.length with h | h
      · exact h
      · rw [List.drop_eq_nil_of_le h] at hts; simp at hts
    have hts' : ts = tokens.drop (i+1) := by
      rw [← List.tail_drop, ← hts]; rfl
    obtain ⟨r, hr⟩ := hf i hlt
    rw [← hts] at hr
    obtain ⟨rest, hrest⟩ := ih (i+1) hts'
    rw [parseAllLoop, earleyParse_eq hs (by simp) hr]
    simp only [Out.bind_ok, hrest]
    exact ⟨_, rfl⟩

/-- C19: `EarleyParseAll` returns. -/
theorem C19_terminates (w : World) (g : Gram) (context : String) (text : Bytes)
    (starts : List String) (tokens : List Token) (l : Option Grammar)
    (hp : process w g context text = .ok (tokens, l)) (hs : starts ≠ [])
    (hwf : (envFor w g l tokens starts 0).WF) (ho : w.OrdOK) :
    ∃ n, ∀ fuel ≥ n, ∃ r, earleyParseAll w g fuel context text starts = .ok r := by
  obtain ⟨n, hn⟩ := common_fuel (flag := false) hwf ho id tokens.length
  refine ⟨n, fun fuel hf => ?_⟩
  unfold earleyParseAll
  rw [hp]
  simp only [Out.bind_ok]
  exact parseAllLoop_total hs (hn fuel hf) tokens 0 (by simp)

/-! ## more fuel does not change results -/

theorem earleyParse_mono {w : World} {g : Gram} {fuel fuel' : Nat} {flag : Bool} {text : Bytes} {tokens : List Token}
    {l : Option Grammar} {starts : List String} {call off : Nat} {p : Parsed} (hle : fuel ≤ fuel')
    (h : earleyParse w g fuel flag text tokens l starts call off = .ok p) :
    earleyParse w g fuel' flag text tokens l starts call off = .ok p := by
  obtain ⟨e1, e2, e3, e4, e5, e6⟩ := earleyParse_ok h
  rw [earleyParse_eq e1 e2 (parse_mono e6 hle)]
  obtain ⟨x, y, z, o⟩ := p
  simp only at e3 e4 e5
  subst e3 e4 e5
  rfl

theorem outFlat_mono {α β : Type} {f f' : α → Out (List β)} (hf : ∀ a x, f a = .ok x → f' a = .ok x) :
    ∀ {l : List α} {x : List β}, outFlat f l = .ok x → outFlat f' l = .ok x
  | [], _, h => h
  | a :: l, x, h => by
    unfold outFlat at h ⊢
    obtain ⟨y, h1, h⟩ := Out.bind_eq_ok.mp h
    obtain ⟨z, h2, h⟩ := Out.bind_eq_ok.mp h
    rw [hf _ _ h1, Out.bind_ok, outFlat_mono hf h2]
    exact h

theorem treesOf_mono {fuel fuel' : Nat} {flag : Bool} {p : Parsed} {ns : List Node} (hle : fuel ≤ fuel')
    (h : treesOf fuel flag p = .ok ns) : treesOf fuel' flag p = .ok ns := by
  unfold treesOf at h ⊢
  split at h
  · rename_i hs; rw [if_pos hs]; exact h
  · rename_i hs
    rw [if_neg hs]
    refine outFlat_mono (fun a x hx => ?_) h
    unfold getTrees at hx ⊢
    split at hx
    · exact hx
    · split at hx
      · exact hx
      · cases e : buildTrees p.res.chart fuel a.1 a.2 _ with
        | none => rw [e] at hx; cases hx
        | some ts => rw [e] at hx; rw [buildTrees_mono hle e]; exact hx

/-- more fuel does not change the result of `Parse` -/
theorem apiParse_mono {w : World} {g : Gram} {fuel fuel' : Nat} {context : String} {text : Bytes} {starts : List String}
    {ns : List Node} (hle : fuel ≤ fuel') (h : apiParse w g fuel context text starts = .ok ns) :
    apiParse w g fuel' context text starts = .ok ns := by
  unfold apiParse extract earleyParseCtx at h ⊢
  obtain ⟨ps, h1, h⟩ := Out.bind_eq_ok.mp h
  obtain ⟨p, h2, h1⟩ := Out.bind_eq_ok.mp h1
  obtain ⟨⟨tokens, l⟩, h3, h2⟩ := Out.bind_eq_ok.mp h2
  cases h1
  rw [h3]
  simp only [Out.bind_ok]
  rw [earleyParse_mono hle h2]
  exact outFlat_mono (fun _ _ => treesOf_mono hle) h

theorem parseAllLoop_mono {w : World} {g : Gram} {fuel fuel' : Nat} {text : Bytes} {l : Option Grammar}
    {starts : List String} (hle : fuel ≤ fuel') : ∀ (ts : List Token) (i : Nat) {ps : List Parsed},
    parseAllLoop w g fuel text l starts ts i = .ok ps → parseAllLoop w g fuel' text l starts ts i = .ok ps
  | [], _, _, h => h
  | t :: ts, i, ps, h => by
    rw [parseAllLoop] at h ⊢
    obtain ⟨p, h1, h⟩ := Out.bind_eq_ok.1 h
    obtain ⟨rest, h2, h⟩ := Out.bind_eq_ok.1 h
    rw [earleyParse_mono hle h1]
    simp only [Out.bind_ok, parseAllLoop_mono hle ts (i+1) h2]
    exact h

theorem earleyParseAll_mono {w : World} {g : Gram} {fuel fuel' : Nat} {context : String} {text : Bytes}
    {starts : List String} (hle : fuel ≤ fuel') {ps : List Parsed}
    (h : earleyParseAll w g fuel context text starts = .ok ps) :
    earleyParseAll w g fuel' context text starts = .ok ps := by
  unfold earleyParseAll at h ⊢
  obtain ⟨x, h1, h⟩ := Out.bind_eq_ok.1 h
  rw [h1]
  simp only [Out.bind_ok]
  exact parseAllLoop_mono hle _ _ h

theorem parseAnyLoop_mono {w : World} {g : Gram} {fuel fuel' : Nat} {text : Bytes} {l : Option Grammar}
    {starts : List String} (hle : fuel ≤ fuel') : ∀ (ts : List Token) (i : Nat) (p0 : Option Parsed) {r : Option Parsed},
    parseAnyLoop w g fuel text l starts ts i p0 = .ok r → parseAnyLoop w g fuel' text l starts ts i p0 = .ok r
  | [], _, _, _, h => h
  | t :: ts, i, p0, r, h => by
    rw [parseAnyLoop] at h ⊢
    obtain ⟨p, h1, h⟩ := Out.bind_eq_ok.1 h
    rw [earleyParse_mono hle h1, Out.bind_ok]
    split at h
    · rename_i hf; rw [if_pos hf]; exact h
    · rename_i hf; rw [if_neg hf]; exact parseAnyLoop_mono hle ts (i+1) _ h

theorem earleyParseAny_mono {w : World} {g : Gram} {fuel fuel' : Nat} {context : String} {text : Bytes}
    {starts : List String} (hle : fuel ≤ fuel') {r : Option Parsed}
    (h : earleyParseAny w g fuel context text starts = .ok r) :
    earleyParseAny w g fuel' context text starts = .ok r := by
  unfold earleyParseAny at h ⊢
  obtain ⟨x, h1, h⟩ := Out.bind_eq_ok.1 h
  rw [h1]
  simp only [Out.bind_ok]
  exact parseAnyLoop_mono hle _ _ _ h

theorem maxAllLoop_mono {w : World} {g : Gram} {fuel fuel' : Nat} {text : Bytes} {tokens : List Token} {l : Option Grammar}
    {starts : List String} (hle : fuel ≤ fuel') : ∀ {n n' : Nat}, n ≤ n' → ∀ (call i : Nat) {ps : List Parsed},
    maxAllLoop w g fuel text tokens l starts n call i = .ok ps →
      maxAllLoop w g fuel' text tokens l starts n' call i = .ok ps
  | 0, _, _, _, _, _, h => by cases h
  | n + 1, n', hn, call, i, ps, h => by
    obtain ⟨m, rfl⟩ : ∃ m, n' = m + 1 := ⟨n' - 1, by omega⟩
    rw [maxAllLoop] at h ⊢
    split at h
    · rename_i hi
      rw [if_pos hi]
      obtain ⟨p, h1, h⟩ := Out.bind_eq_ok.1 h
      rw [earleyParse_mono hle h1, Out.bind_ok]
      split at h
      · rename_i hf
        rw [if_pos hf]
        obtain ⟨rest, h2, h⟩ := Out.bind_eq_ok.1 h
        rw [maxAllLoop_mono hle (by omega) _ _ h2]
        exact h
      · rename_i hf
        rw [if_neg hf]
        exact maxAllLoop_mono hle (by omega) _ _ h
    · rename_i hi; rw [if_neg hi]; exact h

theorem earleyParseMaxAll_mono {w : World} {g : Gram} {fuel fuel' : Nat} {context : String} {text : Bytes}
    {starts : List String} (hle : fuel ≤ fuel') {ps : List Parsed}
    (h : earleyParseMaxAll w g fuel context text starts = .ok ps) :
    earleyParseMaxAll w g fuel' context text starts = .ok ps := by
  unfold earleyParseMaxAll at h ⊢
  obtain ⟨x, h1, h⟩ := Out.bind_eq_ok.1 h
  rw [h1]
  simp only [Out.bind_ok]
  exact maxAllLoop_mono hle hle _ _ h

end Fmr
