import Verif.Props.Api
import Verif.Proofs.LocalAlts

/-!
# C18, C20: greedy extraction, error contract
-/

namespace Fmr

/-! ## C18 -/

/-- C18, termination as claimed. -/
def C18_statement : Prop :=
  ∀ (w : World) (g : Gram) (context : String) (text : Bytes) (starts : List String)
    (tokens : List Token) (l : Option Grammar),
    process w g context text = .ok (tokens, l) → starts ≠ [] →
    (envFor w g l tokens starts 0).WF → w.OrdOK →
    ∃ n, ∀ fuel ≥ n, ∃ ps, earleyParseMaxAll w g fuel context text starts = .ok ps

/-- the tokens a reported parse covers -/
def Parsed.Covers (p : Parsed) (k : Nat) : Prop := ∃ s ∈ p.res.finals, p.off ≤ k ∧ k < p.off + s.stop

theorem le_foldl_max (l : List TState) : ∀ m, m ≤ l.foldl (fun m s => if s.stop > m then s.stop else m) m := by
  induction l with
  | nil => intro m; exact Nat.le_refl m
  | cons a l ih =>
    intro m
    rw [List.foldl_cons]
    refine Nat.le_trans ?_ (ih _)
    split <;> omega

theorem maxEnd_single (s : TState) : maxEnd [s] = s.stop := by
  simp only [maxEnd, List.foldl_cons, List.foldl_nil]
  split <;> omega

theorem longest_single {env : Env} {fuel r} (h : parse env true fuel = some r) :
    r.finals = [] ∨ ∃ s, r.finals = [s] := by
  by_cases hst : env.starts = []
  · exact .inl (parse_nostart hst h)
  · obtain ⟨_, hf⟩ := parse_chart hst h
    have : r.finals = (finalsAll r.chart).take 1 := by rw [hf]; rfl
    rw [this]
    cases finalsAll r.chart with
    | nil => exact .inl rfl
    | cons a l => exact .inr ⟨a, rfl⟩

theorem maxAllLoop_spec {w : World} {g fuel text l starts} {tokens : List Token} :
    ∀ (n call i : Nat) (ps : List Parsed), maxAllLoop w g fuel text tokens l starts n call i = .ok ps →
    (∀ p ∈ ps, i ≤ p.off ∧ p.off < tokens.length ∧ p.text = text ∧
      (∃ c, p.env = envFor w g l (tokens.drop p.off) starts c) ∧
      parse p.env true fuel = some p.res ∧ ∃ s, p.res.finals = [s]) ∧
    ps.Pairwise (fun p q => p.off + maxEnd p.res.finals ≤ q.off) ∧
    (∀ k, i ≤ k → k < tokens.length → (∃ p ∈ ps, p.Covers k) ∨
      ∃ c r, parse (envFor w g l (tokens.drop k) starts c) true fuel = some r ∧ r.finals = []) ∧
    (i < tokens.length → starts ≠ []) := by
  intro n
  induction n with
  | zero => intro call i ps h; simp [maxAllLoop] at h
  | succ n ih =>
    intro call i ps h
    rw [maxAllLoop] at h
    split at h
    · rename_i hi
      obtain ⟨p, h1, h2⟩ := Out.bind_eq_ok.1 h
      obtain ⟨hs, _, htx, hoff, henv, hpar⟩ := earleyParse_ok h1
      have hpar' : parse p.env true fuel = some p.res := by rw [henv]; exact hpar
      split at h2
      · rename_i hf
        obtain ⟨rest, h3, h4⟩ := Out.bind_eq_ok.1 h2
        simp only [Out.pure_eq, Out.ok.injEq] at h4
        subst h4
        obtain ⟨i1, i2, i3, _⟩ := ih _ _ _ h3
        obtain ⟨s, hs1⟩ : ∃ s, p.res.finals = [s] := by
          rcases longest_single hpar' with h | h
          · exact absurd h hf
          · exact h
        rw [hs1, maxEnd_single] at i1 i3
        refine ⟨?_, ?_, ?_, fun _ => hs⟩
        · intro q hq
          rcases List.mem_cons.1 hq with rfl | hq
          · exact ⟨by omega, by omega, htx, ⟨call, by rw [henv, hoff]⟩, hpar', s, hs1⟩
          · exact ⟨by have := (i1 q hq).1; omega, (i1 q hq).2⟩
        · rw [List.pairwise_cons]
          refine ⟨?_, i2⟩
          intro q hq
          have := (i1 q hq).1
          rw [hs1, maxEnd_single]
          omega
        · intro k hk1 hk2
          rcases Nat.lt_or_ge k (i + s.stop) with hlt | hge
          · exact .inl ⟨p, List.mem_cons_self, s, by rw [hs1]; simp, by omega, by omega⟩
          · rcases i3 k hge hk2 with ⟨q, hq, hc⟩ | h
            · exact .inl ⟨q, List.mem_cons_of_mem _ hq, hc⟩
            · exact .inr h
      · rename_i hf
        simp only [ne_eq, Decidable.not_not] at hf
        obtain ⟨i1, i2, i3, _⟩ := ih _ _ _ h2
        refine ⟨fun q hq => ⟨by have := (i1 q hq).1; omega, (i1 q hq).2⟩, i2, ?_, fun _ => hs⟩
        intro k hk1 hk2
        rcases Nat.eq_or_lt_of_le hk1 with e | e
        · subst e
          exact .inr ⟨call, p.res, hpar, hf⟩
        · exact i3 k e hk2
    · rename_i hi
      simp only [Out.ok.injEq] at h
      subst h
      refine ⟨by simp, by simp, ?_, fun h => absurd h hi⟩
      intro k h1 h2; omega

/-- C18, what the result is: if `EarleyParseMaxAll` returns, each parse reports exactly one match, the
longest one at its offset (C03); matches are ordered and do not overlap; and a token not covered by
a match is an offset at which nothing was found. -/
theorem C18_greedy (w : World) (g : Gram) (fuel : Nat) (context : String) (text : Bytes)
    (starts : List String) (tokens : List Token) (l : Option Grammar)
    (hp : process w g context text = .ok (tokens, l)) (ps : List Parsed)
    (h : earleyParseMaxAll w g fuel context text starts = .ok ps) :
    (∀ p ∈ ps, p.off < tokens.length ∧ p.text = text ∧
      (∃ c, p.env = envFor w g l (tokens.drop p.off) starts c) ∧
      parse p.env true fuel = some p.res ∧ ∃ s, p.res.finals = [s]) ∧
    ps.Pairwise (fun p q => (∀ s ∈ p.res.finals, p.off + s.stop ≤ q.off) ∧
      ∀ k, p.Covers k → ¬ q.Covers k) ∧
    (∀ k < tokens.length, (∃ p ∈ ps, p.Covers k) ∨
      ∃ c r, parse (envFor w g l (tokens.drop k) starts c) true fuel = some r ∧ r.finals = []) := by
  unfold earleyParseMaxAll at h
  rw [hp] at h
  simp only [Out.bind_ok] at h
  obtain ⟨h1, h2, h3, _⟩ := maxAllLoop_spec _ _ _ _ h
  refine ⟨fun p hp => (h1 p hp).2, ?_, fun k hk => h3 k (by omega) hk⟩
  have h2' : ps.Pairwise (fun p q => p ∈ ps ∧ p.off + maxEnd p.res.finals ≤ q.off) := by
    rw [List.pairwise_iff_forall_sublist] at h2 ⊢
    intro a b hab
    exact ⟨hab.subset (by simp), h2 hab⟩
  refine h2'.imp ?_
  rintro p q ⟨hp, hle⟩
  obtain ⟨_, _, _, _, _, s, hs⟩ := h1 p hp
  rw [hs, maxEnd_single] at hle
  refine ⟨?_, ?_⟩
  · intro s' hs'
    rw [hs] at hs'
    rw [List.mem_singleton.1 hs']; exact hle
  · rintro k ⟨s1, hs1, h1, h2⟩ ⟨s2, _, h3, _⟩
    rw [hs] at hs1
    rw [List.mem_singleton.1 hs1] at h2
    omega

/-- No start rule derives the empty token sequence (with relaxed bounds). -/
def NoEmptyMatch (env : Env) : Prop := ∀ S ∈ env.starts, ¬ DerivesRelaxed env S []

theorem common_fuel2 {w : World} {g l starts flag} {tokens : List Token}
    (hwf : (envFor w g l tokens starts 0).WF) (ho : w.OrdOK) (m m' : Nat) :
    ∃ n, ∀ fuel ≥ n, ∀ c < m', ∀ i < m, ∃ r,
      parse (envFor w g l (tokens.drop i) starts c) flag fuel = some r := by
  induction m' with
  | zero => exact ⟨0, fun _ _ i hi => absurd hi (by omega)⟩
  | succ m' ih =>
    obtain ⟨n, hn⟩ := ih
    obtain ⟨n', hn'⟩ := common_fuel (flag := flag) hwf ho (fun _ => m') m
    refine ⟨max n n', fun fuel hf c hc i hi => ?_⟩
    rcases Nat.lt_succ_iff_lt_or_eq.1 hc with h | h
    · exact hn fuel (by omega) c h i hi
    · subst h; exact hn' fuel (by omega) i hi

theorem maxAllLoop_total {w : World} {g fuel text l starts} {tokens : List Token} (hs : starts ≠ [])
    (hwf : (envFor w g l tokens starts 0).WF) (ho : w.OrdOK)
    (hnm : NoEmptyMatch (envFor w g l tokens starts 0))
    (hf : ∀ c < tokens.length, ∀ i < tokens.length, ∃ r,
      parse (envFor w g l (tokens.drop i) starts c) true fuel = some r) :
    ∀ (n call i : Nat), call ≤ i → tokens.length - i < n →
    ∃ ps, maxAllLoop w g fuel text tokens l starts n call i = .ok ps := by
  intro n
  induction n with
  | zero => intro call i _ h; omega
  | succ n ih =>
    intro call i hc hn
    rw [maxAllLoop]
    split
    · rename_i hi
      obtain ⟨r, hr⟩ := hf call (by omega) i hi
      rw [earleyParse_eq hs (by intro e; rw [List.drop_eq_nil_iff] at e; omega) hr]
      simp only [Out.bind_ok]
      split
      · rename_i hfin
        have hpos : 0 < maxEnd r.finals := by
          rcases longest_single hr with h | ⟨s, h⟩
          · exact absurd h hfin
          · rw [h, maxEnd_single]
            rcases Nat.eq_zero_or_pos s.stop with h0 | h0
            · obtain ⟨S, hS, j, hm, hj, hd⟩ := C01_relaxed_partial _ true fuel r
                (wf_envFor hwf _ _) (ord_envFor ho _ _ _ _ _) hr s (by rw [h]; simp)
              rw [← hm.2.2.2.2, h0, List.take_zero] at hd
              exact absurd hd (hnm S hS)
            · exact h0
        obtain ⟨ps, hps⟩ := ih (call+1) (i + maxEnd r.finals) (by omega) (by omega)
        rw [hps]
        exact ⟨_, rfl⟩
      · exact ih (call+1) (i+1) (by omega) (by omega)
    · exact ⟨[], rfl⟩

/-- C18, termination: `EarleyParseMaxAll` returns if no start rule derives the empty sequence.
(Missing: start rules with empty matches, for which it is false, `C18_false`.) -/
theorem C18_terminates_partial (w : World) (g : Gram) (context : String) (text : Bytes)
    (starts : List String) (tokens : List Token) (l : Option Grammar)
    (hp : process w g context text = .ok (tokens, l)) (hs : starts ≠ [])
    (hwf : (envFor w g l tokens starts 0).WF) (ho : w.OrdOK)
    (hnm : NoEmptyMatch (envFor w g l tokens starts 0)) :
    ∃ n, ∀ fuel ≥ n, ∃ ps, earleyParseMaxAll w g fuel context text starts = .ok ps := by
  obtain ⟨n, hn⟩ := common_fuel2 (flag := true) hwf ho tokens.length tokens.length
  refine ⟨max n (tokens.length + 1), fun fuel hf => ?_⟩
  unfold earleyParseMaxAll
  rw [hp]
  simp only [Out.bind_ok]
  exact maxAllLoop_total hs hwf ho hnm (hn fuel (by omega)) fuel 0 0 (by omega) (by omega)

theorem NoEmpty.noEmptyMatch {env : Env} (h : NoEmpty env) : NoEmptyMatch env := by
  intro S _ hd
  have := h.yields hd rfl
  simp at this

/-- C18 in terms of derivability. (Missing: unsafely placed empty derivations and
mixed bounds, see C01, C02.) -/
theorem C18_derivable_partial (w : World) (g : Gram) (fuel : Nat) (context : String) (text : Bytes)
    (starts : List String) (tokens : List Token) (l : Option Grammar)
    (hp : process w g context text = .ok (tokens, l)) (ps : List Parsed)
    (hwf : (envFor w g l tokens starts 0).WF) (ho : w.OrdOK)
    (hns : NullSafe (envFor w g l tokens starts 0)) (hu : UniformBounds (envFor w g l tokens starts 0))
    (hnm : NoEmptyMatch (envFor w g l tokens starts 0))
    (h : earleyParseMaxAll w g fuel context text starts = .ok ps) :
    (∀ p ∈ ps, ∃ s, p.res.finals = [s] ∧ 0 < s.stop ∧
      MatchAt (envFor w g l tokens starts 0) p.off s.stop ∧
      ∀ k, MatchAt (envFor w g l tokens starts 0) p.off k → k ≤ s.stop) ∧
    (∀ i < tokens.length, (¬ ∃ p ∈ ps, p.Covers i) →
      ∀ k, ¬ MatchAt (envFor w g l tokens starts 0) i k) := by
  obtain ⟨h1, h2, h3⟩ := C18_greedy w g fuel context text starts tokens l hp ps h
  have hst : starts ≠ [] := by
    unfold earleyParseMaxAll at h
    rw [hp] at h
    simp only [Out.bind_ok] at h
    exact (maxAllLoop_spec _ _ _ _ h).2.2.2 (List.length_pos_iff.2 (process_ok hp).1)
  refine ⟨?_, ?_⟩
  · intro p hp
    obtain ⟨ho1, _, ⟨c, he⟩, hpar, s, hs⟩ := h1 p hp
    rw [he] at hpar
    have := (offset_facts hwf ho hns hu hst (Nat.le_of_lt ho1) hpar).1 s (by rw [hs]; simp)
    refine ⟨s, hs, ?_, this⟩
    rcases Nat.eq_zero_or_pos s.stop with h0 | h0
    · obtain ⟨⟨_, S, hS, hd⟩, _⟩ := this
      rw [h0, List.take_zero] at hd
      exact absurd hd.relax (hnm S hS)
    · exact h0
  · intro i hi hno
    rcases h3 i hi with h | ⟨c, r, hr, hnil⟩
    · exact absurd h hno
    · exact (offset_facts hwf ho hns hu hst (Nat.le_of_lt hi) hr).2.1 hnil

/-! ### the counterexample to termination -/

/-- a world whose annotator returns the given tokens for every text -/
def wWorld (tokens : List Token) : World :=
  { trim := id, annotate := fun b => some { text := b, tokens := tokens, spans := [] },
    ctxTagger := "", annotateCtx := fun _ _ => none, hash := fun _ => some 0, find := fun _ _ => none,
    lower := id, registry := fun _ => none, ord := fun _ => idOrd }

theorem wWorld_ord (ts) : (wWorld ts).OrdOK := fun _ _ _ _ _ => List.Perm.refl _

/-- `<s> = (list<n>{0,2}); <n> = "1"` -/
def gEmptyList : Gram :=
  { main := { name := "g", rules := [rl "s" [[⟨"n", .list, .range 0 2⟩]], rl "n" [[tt "1"]]] },
    includes := [] }

/-- the local grammar for the text `a`: `<word> = "a"` -/
def lA : Grammar :=
  { name := "local",
    rules := [("word", { name := "word", body := [(0, { terms := [tt "a"], f := none })] })] }

theorem maxAll_stuck {w : World} {g fuel text l starts} {tokens : List Token} {i : Nat}
    (hi : i < tokens.length)
    (hstuck : ∀ c r, parse (envFor w g l (tokens.drop i) starts c) true fuel = some r →
      r.finals ≠ [] ∧ maxEnd r.finals = 0) :
    ∀ n c ps, maxAllLoop w g fuel text tokens l starts n c i ≠ .ok ps := by
  intro n
  induction n with
  | zero => intro c ps h; simp [maxAllLoop] at h
  | succ n ih =>
    intro c ps h
    rw [maxAllLoop, if_pos hi] at h
    obtain ⟨p, h1, h2⟩ := Out.bind_eq_ok.1 h
    obtain ⟨_, _, _, _, _, hpar⟩ := earleyParse_ok h1
    obtain ⟨hne, h0⟩ := hstuck c p.res hpar
    rw [if_pos hne, h0] at h2
    obtain ⟨rest, h3, _⟩ := Out.bind_eq_ok.1 h2
    exact ih _ _ h3

/-- C18 fails: on the text `a` the start rule `<s> = (list<n>{0,2})` matches the empty sequence, the
loop does not advance, and `EarleyParseMaxAll` never returns. -/
theorem C18_false : ¬ C18_statement := by
  intro hall
  have hwf : (envFor (wWorld [tk "a"]) gEmptyList (some lA) [tk "a"] ["s"] 0).WF :=
    Env.checkWF_wf (by decide +kernel)
  obtain ⟨n, hn⟩ := hall (wWorld [tk "a"]) gEmptyList "" [97] ["s"] [tk "a"] (some lA) rfl (by simp) hwf
    (wWorld_ord _)
  obtain ⟨ps, hps⟩ := hn n (Nat.le_refl n)
  have hps' : maxAllLoop (wWorld [tk "a"]) gEmptyList n [97] [tk "a"] (some lA) ["s"] n 0 0 = .ok ps := hps
  refine maxAll_stuck (by simp) ?_ n 0 ps hps'
  intro c r hr
  have hc : (parse (envFor (wWorld [tk "a"]) gEmptyList (some lA) [tk "a"] ["s"] 0) true 20).map
      (fun r => r.finals.map (·.stop)) = some [0] := by decide +kernel
  cases hp : parse (envFor (wWorld [tk "a"]) gEmptyList (some lA) [tk "a"] ["s"] 0) true 20 with
  | none => simp [hp] at hc
  | some r' =>
    have e : r = r' := parse_det hr hp
    subst e
    rw [hp] at hc
    simp only [Option.map_some, Option.some.injEq] at hc
    cases hf : r.finals with
    | nil => simp [hf] at hc
    | cons a t =>
      rw [hf] at hc
      simp at hc
      obtain ⟨h0, rfl⟩ := hc
      exact ⟨by simp, by rw [maxEnd_single]; exact h0⟩

/-- the grammar of `wGood` -/
def gGood : Gram :=
  { main := { name := "g", rules := [
      rl "s" [[nt "s", nt "p", nt "s"], [⟨"n", .list, .range 1 2⟩], [nt "q", ⟨"any", .any, .range 1 2⟩]],
      rl "n" [[tt "1"], [tt "2"]], rl "p" [[tt "+"]], rl "q" [[tt "?"]]] }, includes := [] }

/-- non-vacuity of the positive theorems: two matches separated by an uncovered token -/
example : (match earleyParseMaxAll (wWorld [tk "1", tk "2", tk "z", tk "?", tk "z"])
      gGood 40 "" [97] ["s"] with
    | .ok ps => ps.map (fun p => (p.off, p.res.finals.map (·.stop)))
    | _ => []) = [(0, [2]), (3, [2])] := by decide +kernel

/-- its local grammar (all hashes are 0 in this world, so the last token of the class is kept) -/
def lGood : Grammar :=
  { name := "local",
    rules := [("word", { name := "word", body := [(0, { terms := [tt "z"], f := none })] })] }

example : process (wWorld wGood.tokens) gGood "" [97] = .ok (wGood.tokens, some lGood) ∧
    (envFor (wWorld wGood.tokens) gGood (some lGood) wGood.tokens ["s"] 0).WF ∧
    NullSafe (envFor (wWorld wGood.tokens) gGood (some lGood) wGood.tokens ["s"] 0) ∧
    NoEmptyMatch (envFor (wWorld wGood.tokens) gGood (some lGood) wGood.tokens ["s"] 0) ∧
    UniformBounds (envFor (wWorld wGood.tokens) gGood (some lGood) wGood.tokens ["s"] 0) :=
  ⟨rfl, Env.checkWF_wf (by decide +kernel), (Env.checkNoEmpty_ok (by decide +kernel)).nullSafe,
    (Env.checkNoEmpty_ok (by decide +kernel)).noEmptyMatch,
    Env.checkUniform_ok (by decide +kernel)⟩

/-- non-vacuity of C17 and C19 -/
example : (match earleyParseAny (wWorld [tk "z", tk "1", tk "2", tk "z"])
      gGood 40 "" [97] ["s"] with
    | .ok (some p) => [(p.off, p.res.finals.map (·.stop))]
    | _ => []) = [(1, [2])] ∧
    (match earleyParseAll (wWorld [tk "z", tk "1", tk "2", tk "z"])
      gGood 40 "" [97] ["s"] with
    | .ok ps => ps.map (fun p => (p.off, p.res.finals.map (·.stop)))
    | _ => []) = [(1, [2, 1]), (2, [1])] := by decide +kernel

/-! ## C20 -/

theorem Out.bind_ne_div {α β : Type} {x : Out α} {f : α → Out β} (h : x ≠ .div) (hf : ∀ a, f a ≠ .div) :
    (x >>= f) ≠ .div := by
  cases x <;> simp_all

theorem localGrammar_no_div {hash find regexps d} : localGrammar hash find regexps d ≠ .div := by
  have h1 : ∀ ts rules, localTokens hash ts rules ≠ .div := by
    intro ts
    induction ts with
    | nil => intro rules; simp [localTokens]
    | cons t ts ih =>
      intro rules
      rw [localTokens]
      simp only
      split
      · split
        · simp
        · exact ih _
      · exact ih _
  have h2 : ∀ d n start, spanTerms d start n ≠ .div := by
    intro d n
    induction n with
    | zero => intro s; simp [spanTerms]
    | succ n ih =>
      intro s
      rw [spanTerms]
      split
      · simp
      · split
        · simp
        · exact Out.bind_ne_div (ih _) (by simp)
  have h3 : ∀ sp terms m rules, spanRules hash sp terms m rules ≠ .div := by
    intro sp terms m
    induction m with
    | nil => intro rules; simp [spanRules]
    | cons a m ih =>
      intro rules
      obtain ⟨k, vs⟩ := a
      rw [spanRules]
      split
      · simp
      · exact ih _
  have h4 : ∀ d sps rules, localSpans hash d sps rules ≠ .div := by
    intro d sps
    induction sps with
    | nil => intro rules; simp [localSpans]
    | cons sp sps ih =>
      intro rules
      rw [localSpans]
      split
      · exact ih _
      · exact ih _
      · exact Out.bind_ne_div (h2 _ _ _) (fun _ => Out.bind_ne_div (h3 _ _ _ _) (fun _ => ih _))
  unfold localGrammar
  simp only
  split
  · simp
  · exact Out.bind_ne_div (h1 _ _) (fun _ => Out.bind_ne_div (h4 _ _ _) (by simp))

theorem annotates_iff {w : World} {context : String} {text : Bytes} {d : Doc} :
    Annotates w context text d ↔ annotateText w context text = some d := by
  unfold annotateText
  constructor
  · rintro (h | ⟨h1, h2, h3⟩)
    · rw [if_pos rfl]; exact h
    · rw [if_neg h1, if_neg h2]; exact h3
  · intro h
    split at h
    · rename_i hc; subst hc; exact .plain h
    · rename_i hc
      split at h
      · cases h
      · rename_i ht; exact .context hc ht h

theorem process_err {w g context text} : process w g context text = .err ↔
    w.trim text = [] ∨ annotateText w context (w.trim text) = none ∨
    ∃ d, annotateText w context (w.trim text) = some d ∧
      ((∀ t ∈ d.tokens, t.type = .space) ∨ localGrammar w.hash w.find g.main.regexps d = .err) := by
  unfold process
  simp only
  by_cases h : w.trim text = []
  · simp [h]
  · rw [if_neg h]
    simp only [h, false_or]
    cases hd : annotateText w context (w.trim text) with
    | none => simp
    | some d =>
      simp only [reduceCtorEq, false_or, Option.some.injEq, exists_eq_left']
      by_cases hr : ∀ t ∈ d.tokens, t.type = .space
      · have : d.tokens.filter (fun t => t.type ≠ .space) = [] := by
          rw [List.filter_eq_nil_iff]; intro t ht; simp [hr t ht]
        rw [if_pos this]; simp only [true_iff]; exact .inl hr
      · have : d.tokens.filter (fun t => t.type ≠ .space) ≠ [] := by
          intro e
          rw [List.filter_eq_nil_iff] at e
          exact hr (fun t ht => by simpa using e t ht)
        rw [if_neg this]
        simp only [hr, false_or]
        cases localGrammar w.hash w.find g.main.regexps d <;> simp

theorem process_panic {w g context text} (hs : SpansInside w g context text) :
    process w g context text ≠ .panic := by
  unfold process
  simp only
  split
  · simp
  split
  · simp
  rename_i d hd
  split
  · simp
  intro h
  rcases Out.bind_eq_panic.1 h with h | ⟨_, _, h⟩
  · obtain ⟨h1, h2⟩ := hs d (annotates_iff.2 hd)
    exact (localGrammar_err h1 h2).1 h
  · simp at h

theorem parseAnyLoop_noerr {w : World} {g fuel text l starts} (hs : starts ≠ []) :
    ∀ ts i p0, parseAnyLoop w g fuel text l starts ts i p0 ≠ .err ∧
      parseAnyLoop w g fuel text l starts ts i p0 ≠ .panic := by
  intro ts
  induction ts with
  | nil => intro i p0; simp [parseAnyLoop]
  | cons t ts ih =>
    intro i p0
    rw [parseAnyLoop]
    constructor
    · intro h
      rcases Out.bind_eq_err.1 h with h | ⟨p, _, h⟩
      · exact hs ((earleyParse_err (by simp)).1 h)
      · split at h
        · simp at h
        · exact (ih _ _).1 h
    · intro h
      rcases Out.bind_eq_panic.1 h with h | ⟨p, _, h⟩
      · exact earleyParse_no_panic h
      · split at h
        · simp at h
        · exact (ih _ _).2 h

theorem parseAllLoop_noerr {w : World} {g fuel text l starts} (hs : starts ≠ []) :
    ∀ ts i, parseAllLoop w g fuel text l starts ts i ≠ .err ∧
      parseAllLoop w g fuel text l starts ts i ≠ .panic := by
  intro ts
  induction ts with
  | nil => intro i; simp [parseAllLoop]
  | cons t ts ih =>
    intro i
    rw [parseAllLoop]
    constructor
    · intro h
      rcases Out.bind_eq_err.1 h with h | ⟨p, _, h⟩
      · exact hs ((earleyParse_err (by simp)).1 h)
      · rcases Out.bind_eq_err.1 h with h | ⟨p, _, h⟩
        · exact (ih _).1 h
        · simp at h
    · intro h
      rcases Out.bind_eq_panic.1 h with h | ⟨p, _, h⟩
      · exact earleyParse_no_panic h
      · rcases Out.bind_eq_panic.1 h with h | ⟨p, _, h⟩
        · exact (ih _).2 h
        · simp at h

theorem maxAllLoop_noerr {w : World} {g fuel text l starts} {tokens : List Token} (hs : starts ≠ []) :
    ∀ n c i, maxAllLoop w g fuel text tokens l starts n c i ≠ .err ∧
      maxAllLoop w g fuel text tokens l starts n c i ≠ .panic := by
  intro n
  induction n with
  | zero => intro c i; simp [maxAllLoop]
  | succ n ih =>
    intro c i
    rw [maxAllLoop]
    split
    · rename_i hi
      constructor
      · intro h
        rcases Out.bind_eq_err.1 h with h | ⟨p, _, h⟩
        · exact hs ((earleyParse_err (by intro e; rw [List.drop_eq_nil_iff] at e; omega)).1 h)
        · split at h
          · rcases Out.bind_eq_err.1 h with h | ⟨p, _, h⟩
            · exact (ih _ _).1 h
            · simp at h
          · exact (ih _ _).1 h
      · intro h
        rcases Out.bind_eq_panic.1 h with h | ⟨p, _, h⟩
        · exact earleyParse_no_panic h
        · split at h
          · rcases Out.bind_eq_panic.1 h with h | ⟨p, _, h⟩
            · exact (ih _ _).2 h
            · simp at h
          · exact (ih _ _).2 h
    · simp

/-- C20: every entry point returns an error exactly for bad input, and never panics while parsing.
(A result and an error are never both returned: that is the type `Out`.) -/
theorem C20_errors (w : World) (g : Gram) (fuel : Nat) (hfuel : 0 < fuel) (context : String)
    (text : Bytes) (starts : List String) (hs : SpansInside w g context text) :
    (earleyParseCtx w g fuel context text starts = .err ↔ BadInput w g context text starts) ∧
    (earleyParseAny w g fuel context text starts = .err ↔ BadInput w g context text starts) ∧
    (earleyParseMaxAll w g fuel context text starts = .err ↔ BadInput w g context text starts) ∧
    (earleyParseAll w g fuel context text starts = .err ↔ BadInput w g context text starts) ∧
    earleyParseCtx w g fuel context text starts ≠ .panic ∧
    earleyParseAny w g fuel context text starts ≠ .panic ∧
    earleyParseMaxAll w g fuel context text starts ≠ .panic ∧
    earleyParseAll w g fuel context text starts ≠ .panic ∧
    earleyParseAny w g fuel context text starts ≠ .ok none := by
  have hbad : BadInput w g context text starts ↔ process w g context text = .err ∨ starts = [] := by
    rw [process_err]
    constructor
    · rintro (h | h | ⟨h, h'⟩ | ⟨h, h', h''⟩ | h)
      · exact .inl (.inl h)
      · refine .inl (.inr (.inl ?_))
        cases he : annotateText w context (w.trim text) with
        | none => rfl
        | some d => exact absurd ⟨d, annotates_iff.2 he⟩ h
      · exact .inl (.inr (.inr ⟨_, annotates_iff.1 h, .inl h'⟩))
      · obtain ⟨h1, h2⟩ := hs _ h
        exact .inl (.inr (.inr ⟨_, annotates_iff.1 h, .inr ((localGrammar_err h1 h2).2.2.2 ⟨_, _, h', h''⟩)⟩))
      · exact .inr h
    · rintro ((h | h | ⟨d, h, h' | h'⟩) | h)
      · exact .blank h
      · exact .unannotated (fun ⟨d, hd⟩ => by rw [annotates_iff.1 hd] at h; cases h)
      · exact .spaces (annotates_iff.2 h) h'
      · obtain ⟨h1, h2⟩ := hs d (annotates_iff.2 h)
        obtain ⟨A, rb, g1, g2⟩ := (localGrammar_err h1 h2).2.2.1 h'
        exact .hash (annotates_iff.2 h) g1 g2
      · exact .noStart h
  have hpan := process_panic hs
  unfold earleyParseCtx earleyParseAny earleyParseMaxAll earleyParseAll
  rw [hbad]
  cases hp : process w g context text with
  | err => simp
  | panic => exact absurd hp hpan
  | div =>
    exfalso
    unfold process at hp
    simp only at hp
    split at hp
    · simp at hp
    split at hp
    · simp at hp
    split at hp
    · simp at hp
    rename_i d hd _
    cases hl : localGrammar w.hash w.find g.main.regexps d with
    | ok a => rw [hl] at hp; simp at hp
    | err => rw [hl] at hp; simp at hp
    | panic => rw [hl] at hp; simp at hp
    | div => exact localGrammar_no_div hl
  | ok a =>
    obtain ⟨tokens, l⟩ := a
    have hne := (process_ok hp).1
    simp only [Out.bind_ok, reduceCtorEq, false_or]
    by_cases hst : starts = []
    · subst hst
      obtain ⟨f, rfl⟩ : ∃ f, fuel = f + 1 := ⟨fuel - 1, by omega⟩
      cases tokens with
      | nil => exact absurd rfl hne
      | cons t ts =>
        have he : ∀ flag tok c o, earleyParse w g (f+1) flag text tok l [] c o = .err := by
          intro flag tok c o; unfold earleyParse; simp
        simp [parseAnyLoop, parseAllLoop, maxAllLoop, he]
    · obtain ⟨a1, a2⟩ := parseAnyLoop_noerr (w := w) (g := g) (fuel := fuel) (text := text) (l := l) hst
        tokens 0 none
      obtain ⟨b1, b2⟩ := parseAllLoop_noerr (w := w) (g := g) (fuel := fuel) (text := text) (l := l) hst
        tokens 0
      obtain ⟨c1, c2⟩ := maxAllLoop_noerr (w := w) (g := g) (fuel := fuel) (text := text) (l := l)
        (tokens := tokens) hst fuel 0 0
      refine ⟨earleyParse_err hne, by simp [a1, hst], by simp [c1, hst], by simp [b1, hst],
        earleyParse_no_panic, a2, c2, b2, ?_⟩
      intro h
      rcases parseAnyLoop_spec (tokens := tokens) tokens 0 none none (by simp) h with ⟨h1, _⟩ | ⟨p, h1, _⟩
      · exact hne h1
      · simp at h1

/-- C20: the assumption holds, a text with a word is good input and is parsed; without start rules, or with a context
and no context tagger, every call fails -/
example : SpansInside (wWorld [tk "1"]) gEmptyList "" [49] ∧ SpansInside (wWorld [tk "1"]) gEmptyList "c" [49] ∧
    ¬ BadInput (wWorld [tk "1"]) gEmptyList "" [49] ["s"] ∧
    BadInput (wWorld [tk "1"]) gEmptyList "" [49] [] ∧ BadInput (wWorld [tk "1"]) gEmptyList "c" [49] ["s"] ∧
    earleyParseAny (wWorld [tk "1"]) gEmptyList 60 "" [49] [] = .err ∧
    earleyParseAny (wWorld [tk "1"]) gEmptyList 60 "c" [49] ["s"] = .err := by
  have hs : ∀ c, SpansInside (wWorld [tk "1"]) gEmptyList c [49] := by
    intro c d hd
    cases hd with
    | plain h =>
      cases h
      exact ⟨(by intro sp hsp; cases hsp), fun h => absurd rfl h⟩
    | context h1 h2 => exact absurd rfl h2
  have hc : BadInput (wWorld [tk "1"]) gEmptyList "c" [49] ["s"] := by
    refine .unannotated ?_
    rintro ⟨d, hd⟩
    generalize e : "c" = c at hd
    cases hd with
    | plain h => exact absurd e (by decide)
    | context h1 h2 => exact absurd rfl h2
  refine ⟨hs _, hs _, ?_, .noStart rfl, hc, (C20_errors _ _ 60 (by decide) _ _ _ (hs _)).2.1.2 (.noStart rfl),
    (C20_errors _ _ 60 (by decide) _ _ _ (hs _)).2.1.2 hc⟩
  intro h
  have h1 := (C20_errors _ _ 60 (by decide) _ _ _ (hs _)).2.1.2 h
  have h2 : (match earleyParseAny (wWorld [tk "1"]) gEmptyList 60 "" [49] ["s"] with
    | .ok _ => true
    | _ => false) = true := by decide +kernel
  rw [h1] at h2
  cases h2

end Fmr
