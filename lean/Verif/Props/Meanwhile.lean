import Verif.Spec.Meanwhile
import Verif.Props.Conc
import Verif.Proofs.Alike
import Mathlib.Tactic.IntervalCases

/-!
# C107: a loaded grammar goes on matching the same words
-/

namespace Fmr

/-! ## the registry -/

theorem callsOf_append (j : Nat) : ∀ (a b : List CMEv), callsOf j (a ++ b) = callsOf j a ++ callsOf j b
  | [], _ => rfl
  | e :: a, b => by
    have ih := callsOf_append j a b
    cases e <;> simp only [List.cons_append, callsOf] <;> (try split) <;> simp [ih]

theorem OnlyLibrary.prefix {a b : List CMEv} (h : OnlyLibrary (a ++ b)) : OnlyLibrary a := by
  intro j
  obtain ⟨toks, more, he⟩ := h j
  exact ⟨toks, callsOf j b ++ more, by rw [callsOf_append, List.append_assoc] at he; exact he⟩

/-- a put comes right after a lookup that found nothing -/
theorem ensures_before_put {toks : List Token} {cs : List CMCall} (h : Ensures toks cs) {k : String} {t : Token} :
    ∀ {x y : List CMCall}, cs = x ++ .put k t :: y → ∃ x', x = x' ++ [.got k none] := by
  induction h with
  | nil => intro x y e; cases x <;> cases e
  | @lookup k' v toks cs _ ih =>
    intro x y e
    match x, e with
    | [], e => cases e
    | [_], e => cases e
    | c :: c' :: x, e =>
      simp only [List.cons_append, List.cons.injEq] at e
      obtain ⟨x', rfl⟩ := ih e.2.2
      exact ⟨c :: c' :: x', rfl⟩
  | @present t' v toks cs _ ih =>
    intro x y e
    match x, e with
    | [], e => cases e
    | [_], e => cases e
    | c :: c' :: x, e =>
      simp only [List.cons_append, List.cons.injEq] at e
      obtain ⟨x', rfl⟩ := ih e.2.2
      exact ⟨c :: c' :: x', rfl⟩
  | @missing t' toks cs _ ih =>
    intro x y e
    match x, e with
    | [], e => cases e
    | [_], e => cases e
    | [c, c'], e =>
      simp only [List.cons_append, List.nil_append, List.cons.injEq, CMCall.put.injEq] at e
      obtain ⟨rfl, rfl, ⟨rfl, rfl⟩, -⟩ := e
      exact ⟨[.get t'.text], rfl⟩
    | [_, _, _], e => cases e
    | c :: c' :: c'' :: c3 :: x, e =>
      simp only [List.cons_append, List.cons.injEq] at e
      obtain ⟨x', rfl⟩ := ih e.2.2.2.2
      exact ⟨c :: c' :: c'' :: c3 :: x', rfl⟩

theorem Unsettled.snoc {es : List CMEv} {j : Nat} {k : String} (h : Unsettled es j k) {e : CMEv} (he : ¬ e.forgets j) :
    Unsettled (es ++ [e]) j k := by
  obtain ⟨a, b, rfl, hb⟩ := h
  refine ⟨a, b ++ [e], by simp, fun x hx => ?_⟩
  rcases List.mem_append.1 hx with hx | hx
  · exact hb x hx
  · rw [List.mem_singleton.1 hx]; exact he

/-- what a goroutine that is about to write has seen -/
def Saw (es : List CMEv) (j : Nat) : CMPC → Prop
  | .gotR k none => Unsettled es j k
  | .idle => ∀ k x, callsOf j es = x ++ [.got k none] → Unsettled es j k
  | .wantW k _ => Unsettled es j k
  | .holdW k _ => Unsettled es j k
  | .writing k _ => Unsettled es j k
  | _ => True

theorem cm_saw {es : List CMEv} {s : CMState} (h : CMRun es s) (hl : OnlyLibrary es) : ∀ j, Saw es j (s.pc j) := by
  induction h with
  | init => intro j k x e; cases x <;> cases e
  | @step es s e s' hr hs ih =>
    have ih := ih hl.prefix
    -- an event of another goroutine
    have other : ∀ j, callsOf j [e] = [] → ¬ e.forgets j → s'.pc j = s.pc j → Saw (es ++ [e]) j (s'.pc j) := by
      intro j h1 h2 h3
      have := ih j
      rw [h3]
      cases hp : s.pc j with
      | idle =>
        rw [hp] at this
        intro k x hx
        rw [callsOf_append, h1, List.append_nil] at hx
        exact (this k x hx).snoc h2
      | gotR k v =>
        rw [hp] at this
        cases v with
        | none => exact Unsettled.snoc this h2
        | some v => trivial
      | wantW k t => rw [hp] at this; exact Unsettled.snoc this h2
      | holdW k t => rw [hp] at this; exact Unsettled.snoc this h2
      | writing k t => rw [hp] at this; exact Unsettled.snoc this h2
      | _ => trivial
    intro j
    cases hs with
    | @callGet i k hpc =>
      by_cases hj : j = i
      · subst hj; simp [CMState.goto, Saw]
      · exact other j (by simp [callsOf, Ne.symm hj]) (by simp [CMEv.forgets, Ne.symm hj]) (by simp [CMState.goto, hj])
    | @rlock i k hpc hw =>
      by_cases hj : j = i
      · subst hj; simp [CMState.goto, Saw]
      · exact other j (by simp [callsOf]) (by simp [CMEv.forgets]) (by simp [CMState.goto, hj])
    | @beginRead i k hpc =>
      by_cases hj : j = i
      · subst hj; simp [CMState.goto, Saw]
      · exact other j (by simp [callsOf]) (by simp [CMEv.forgets]) (by simp [CMState.goto, hj])
    | @endRead i k hpc =>
      by_cases hj : j = i
      · subst hj
        simp only [CMState.goto, if_true]
        cases hk : s.tokens k with
        | none => exact ⟨es, [], rfl, by simp⟩
        | some v => trivial
      · exact other j (by simp [callsOf]) (by simp [CMEv.forgets]) (by simp [CMState.goto, hj])
    | @retGet i k v hpc =>
      by_cases hj : j = i
      · subst hj
        simp only [CMState.goto, if_true]
        intro k' x hx
        rw [callsOf_append] at hx
        simp only [callsOf, if_true] at hx
        obtain ⟨-, hx⟩ := List.append_inj' hx rfl
        simp only [List.cons.injEq, CMCall.got.injEq, and_true] at hx
        obtain ⟨rfl, rfl⟩ := hx
        have := ih j
        rw [hpc] at this
        exact Unsettled.snoc this (by simp [CMEv.forgets])
      · exact other j (by simp [callsOf, Ne.symm hj]) (by simp [CMEv.forgets]) (by simp [CMState.goto, hj])
    | @callPut i k t hpc =>
      by_cases hj : j = i
      · subst hj
        simp only [CMState.goto, if_true]
        obtain ⟨toks, more, he⟩ := hl j
        rw [callsOf_append] at he
        simp only [callsOf, if_true, List.append_assoc, List.cons_append, List.nil_append] at he
        obtain ⟨x, hx⟩ := ensures_before_put he rfl
        have := ih j
        rw [hpc] at this
        exact Unsettled.snoc (this k x hx) (by simp [CMEv.forgets])
      · exact other j (by simp [callsOf, Ne.symm hj]) (by simp [CMEv.forgets]) (by simp [CMState.goto, hj])
    | @lock i k t hpc hw hr' =>
      by_cases hj : j = i
      · subst hj
        simp only [CMState.goto, if_true]
        have := ih j
        rw [hpc] at this
        exact Unsettled.snoc this (by simp [CMEv.forgets])
      · exact other j (by simp [callsOf]) (by simp [CMEv.forgets]) (by simp [CMState.goto, hj])
    | @beginWrite i k t hpc =>
      by_cases hj : j = i
      · subst hj
        simp only [CMState.goto, if_true]
        have := ih j
        rw [hpc] at this
        exact Unsettled.snoc this (by simp [CMEv.forgets])
      · exact other j (by simp [callsOf]) (by simp [CMEv.forgets]) (by simp [CMState.goto, hj])
    | @endWrite i k t hpc =>
      by_cases hj : j = i
      · subst hj; simp [CMState.goto, Saw]
      · exact other j (by simp [callsOf]) (by simp [CMEv.forgets, Ne.symm hj]) (by simp [CMState.goto, hj])
    | @retPut i k t hpc =>
      by_cases hj : j = i
      · subst hj
        simp only [CMState.goto, if_true]
        intro k' x hx
        rw [callsOf_append] at hx
        simp only [callsOf, if_true] at hx
        obtain ⟨-, hx⟩ := List.append_inj' hx rfl
        simp at hx
      · exact other j (by simp [callsOf, Ne.symm hj]) (by simp [CMEv.forgets]) (by simp [CMState.goto, hj])

/-- the events determine the registry -/
theorem cm_tokens {es : List CMEv} {s s' : CMState} (h : CMRun es s) (h' : CMRun es s') : s.tokens = s'.tokens :=
  funext fun k => ((cm_inv h).mem k).trans ((cm_inv h').mem k).symm

/-- a lookup sees what is there -/
theorem cm_read {es : List CMEv} {s : CMState} {i : Nat} {k : String} {v : Option Token}
    (h : CMRun (es ++ [.endRead i k v]) s) : ∃ s0, CMRun es s0 ∧ v = s0.tokens k := by
  obtain ⟨s0, h0, hs⟩ := cm_snoc h
  generalize he : CMEv.endRead i k v = e at hs
  cases hs <;> cases he
  exact ⟨s0, h0, rfl⟩

/-- a key that has a token keeps one -/
theorem cm_stays {es es' : List CMEv} {s s' : CMState} (h : CMRun es s) (h' : CMRun (es ++ es') s') {k : String}
    (hk : s.tokens k ≠ none) : s'.tokens k ≠ none := by
  rw [(cm_inv h).mem] at hk
  rw [(cm_inv h').mem]
  clear h h'
  induction es' using List.reverseRecOn with
  | nil => simpa using hk
  | append_singleton es' e ih =>
    rw [← List.append_assoc, lastWrite_snoc]
    cases e with
    | endWrite i k' t =>
      simp only
      split
      · simp
      · exact ih
    | _ => exact ih

/-- C107 for the registry: a token stays what it is, if no goroutine has just seen that it is missing. -/
theorem C107_kept {es : List CMEv} {s : CMState} (h : CMRun es s) {k : String} {v : Token} (hk : s.tokens k = some v)
    (hn : ∀ j, ¬ Unsettled es j k) : ∀ (n : Nat) (es' : List CMEv) (s' : CMState), es'.length = n → CMRun (es ++ es') s' →
      OnlyLibrary (es ++ es') → s'.tokens k = some v := by
  intro n
  induction n using Nat.strong_induction_on with
  | _ n ih =>
    intro es' s' hlen h' hl
    rcases List.eq_nil_or_concat es' with rfl | ⟨es'', e, rfl⟩
    · rw [List.append_nil] at h'
      rw [cm_tokens h h'] at hk
      exact hk
    · rw [List.concat_eq_append, ← List.append_assoc] at h' hl
      simp only [List.concat_eq_append, List.length_append, List.length_cons, List.length_nil] at hlen
      obtain ⟨s1, h1, hs⟩ := cm_snoc h'
      have hk1 : s1.tokens k = some v := ih es''.length (by omega) es'' s1 rfl h1 hl.prefix
      have saw := cm_saw h1 hl.prefix
      cases hs with
      | @endWrite i k' t hpc =>
        by_cases hkk : k' = k
        · subst hkk
          have := saw i
          rw [hpc] at this
          obtain ⟨a, b, he, hb⟩ := this
          exfalso
          rcases List.append_eq_append_iff.1 he with ⟨l, e1, e2⟩ | ⟨l, e1, e2⟩
          · -- the lookup was later than `es`
            subst e1
            have hp : es ++ es'' = ((es ++ l) ++ [.endRead i k' none]) ++ b := by rw [he]; simp
            rw [hp] at h1
            obtain ⟨s2, h2⟩ := cm_prefix h1
            obtain ⟨s3, h3, hs3⟩ := cm_read h2
            have hl3 : OnlyLibrary (es ++ l) := by
              have := hl.prefix
              rw [hp, List.append_assoc] at this
              exact this.prefix
            have hlt : l.length < n := by
              rw [e2] at hlen
              simp only [List.length_append, List.length_cons] at hlen
              omega
            rw [ih l.length hlt l s3 rfl h3 hl3] at hs3
            cases hs3
          · cases l with
            | nil =>
              simp only [List.append_nil] at e1
              subst e1
              simp only [List.nil_append] at e2
              -- the lookup is the first event after `es`
              have hp : es ++ es'' = (es ++ [.endRead i k' none]) ++ b := by rw [← e2]; simp
              rw [hp] at h1
              obtain ⟨s2, h2⟩ := cm_prefix h1
              obtain ⟨s3, h3, hs3⟩ := cm_read h2
              rw [← cm_tokens h h3, hk] at hs3
              cases hs3
            | cons c l =>
              simp only [List.cons_append, List.cons.injEq] at e2
              obtain ⟨rfl, rfl⟩ := e2
              exact hn i ⟨a, l, e1, fun e he => hb e (List.mem_append_left _ he)⟩
        · simp only [Ne.symm hkk, if_false]
          exact hk1
      | _ => exact hk1

/-! ## matching and parsing -/

/-- tokens with the same lemma and, in lower case, the same norm are matched by the same tokens -/
theorem terminalMatch_same {lower : String → String} {reg reg' : String → Option Token} {t : Term}
    (h : t.meta ≠ .nil → ∃ v v', reg t.value = some v ∧ reg' t.value = some v' ∧ v'.lemma_ = v.lemma_ ∧ lower v'.norm = lower v.norm)
    (a : Token) : terminalMatch lower reg' t a = terminalMatch lower reg t a := by
  unfold terminalMatch
  by_cases ht : t.type ≠ .terminal
  · simp [ht]
  · cases hm : t.meta with
    | nil => simp [ht]
    | _ =>
      obtain ⟨v, v', h1, h2, h3, h4⟩ := h (by rw [hm]; simp)
      simp [ht, h1, h2, h3, h4]

section
variable {env : Env} {tm : Nat → Nat → Term → Token → Bool}

/-- the literals of the grammars -/
def AnyLiteral (gs : List Grammar) (t : Term) : Prop := IsLiteral (fun _ => True) gs t

theorem alike_at (env : Env) (m : Term → Token → Bool) (hm : ∀ t, AnyLiteral env.grammars t → ∀ a ∈ env.tokens, m t a = env.tmatch t a) :
    Alike (fun _ => True) env.grammars env { env with tmatch := m } where
  left := ⟨[], by simp, by intro g hg; cases hg⟩
  right := ⟨[], by simp, by intro g hg; cases hg⟩
  starts := rfl
  ord := rfl
  closed := ⟨fun _ _ => trivial, fun _ _ _ _ _ _ _ _ _ _ _ => trivial⟩
  tokens := by
    rw [List.forall₂_same]
    exact fun a ha t ht => hm t ht a ha

theorem at_runCol (ho : env.OrdOK) (hm : ∀ c r t, AnyLiteral env.grammars t → ∀ a ∈ env.tokens, tm c r t a = env.tmatch t a)
    {done : List (List TState)} {tok : Option Token} (htok : ∀ a ∈ tok, a ∈ env.tokens)
    (hd : ∀ c ∈ done, ∀ x ∈ c, x.known (fun _ => True) env.grammars) :
    ∀ (fuel row : Nat) (cur next : List TState), (∀ x ∈ cur, x.known (fun _ => True) env.grammars) →
      (∀ x ∈ next, x.known (fun _ => True) env.grammars) →
    runColAt env tm done tok fuel row cur next = runCol env done tok fuel row cur next ∧
    ∀ r, runCol env done tok fuel row cur next = some r →
      (∀ x ∈ r.1, x.known (fun _ => True) env.grammars) ∧ ∀ x ∈ r.2, x.known (fun _ => True) env.grammars
  | 0, _, _, _, _, _ => ⟨rfl, by simp [runCol]⟩
  | fuel+1, row, cur, next, hcur, hnext => by
    unfold runCol runColAt
    cases hc : cur[row]? with
    | none =>
      refine ⟨rfl, fun r hr => ?_⟩
      rw [← Option.some.inj hr]
      exact ⟨hcur, hnext⟩
    | some st =>
      have ha : AlikeTok (fun _ => True) env.grammars env { env with tmatch := tm done.length row } tok tok := by
        cases tok with
        | none => exact .none
        | some a => exact .some (fun t ht => hm _ _ t ht a (htok a rfl))
      obtain ⟨h1, h2, h3⟩ := alike_processRow (alike_at env _ (hm done.length row)) ho ha (row := row) hd
        (hcur st (List.mem_of_getElem? hc)) hcur hnext
      simp only [h1]
      exact at_runCol ho hm htok hd fuel (row+1) _ _ h2 h3

theorem at_runCols (ho : env.OrdOK) (hm : ∀ c r t, AnyLiteral env.grammars t → ∀ a ∈ env.tokens, tm c r t a = env.tmatch t a)
    (fuel : Nat) : ∀ (toks : List Token) (done : List (List TState)) (cur : List TState), (∀ a ∈ toks, a ∈ env.tokens) →
    (∀ c ∈ done, ∀ x ∈ c, x.known (fun _ => True) env.grammars) → (∀ x ∈ cur, x.known (fun _ => True) env.grammars) →
    runColsAt env tm fuel toks done cur = runCols env fuel toks done cur
  | [], done, cur, _, hd, hcur => by
    unfold runCols runColsAt
    rw [(at_runCol ho hm (tok := none) (by simp) hd fuel 0 cur [] hcur (by simp)).1]
    cases runCol env done none fuel 0 cur [] <;> rfl
  | t :: ts, done, cur, ht, hd, hcur => by
    obtain ⟨h1, h2⟩ := at_runCol ho hm (tok := some t) (by intro a ha; cases ha; exact ht _ List.mem_cons_self) hd fuel 0 cur [] hcur (by simp)
    simp only [runCols, runColsAt, h1]
    cases hr : runCol env done (some t) fuel 0 cur [] with
    | none => rfl
    | some r =>
      obtain ⟨k1, k2⟩ := h2 r hr
      refine at_runCols ho hm fuel ts _ _ (fun a ha => ht a (List.mem_cons_of_mem _ ha)) (fun c hc => ?_) k2
      rcases List.mem_append.1 hc with hc | hc
      · exact hd c hc
      · rw [List.mem_singleton.1 hc]; exact k1

/-- If all calls of `terminalMatch` give the same for the literals of the grammars, the parse is the same. -/
theorem at_parse (ho : env.OrdOK) (hm : ∀ c r t, AnyLiteral env.grammars t → ∀ a ∈ env.tokens, tm c r t a = env.tmatch t a)
    (flag : Bool) (fuel : Nat) : parseAt env tm flag fuel = parse env flag fuel := by
  have key : runColsAt env tm fuel env.tokens [] (env.starts.map gammaState) = chartOf env fuel := by
    refine at_runCols ho hm fuel env.tokens [] _ (fun _ h => h) (by simp) (fun x hx => ?_)
    obtain ⟨S, hS, rfl⟩ := List.mem_map.1 hx
    refine ⟨⟨fun t ht => fun _ => trivial, fun h => by simp [gammaState] at h⟩, fun t ht htt => ?_⟩
    simp only [gammaState, TState.bodyTerms, List.mem_singleton] at ht
    subst ht
    simp at htt
  unfold parse parseAt
  rw [key]
  split <;> [rfl; (cases chartOf env fuel <;> rfl)]

end

theorem AnyLiteral.hasFlags {gs : List Grammar} {t : Term} (h : AnyLiteral gs t) (hm : t.meta ≠ .nil) : HasFlags gs t := by
  obtain ⟨h1, A, g, r, b, -, h2, h3, h4, h5⟩ := h
  exact ⟨h1, hm, g, h2, A, r, b, h3, h4, h5⟩

/-- The state of the registry at each call of `terminalMatch`: after `es` and some more events. -/
def LaterStates (es : List CMEv) (at_ : Nat → Nat → CMState) : Prop :=
  ∀ c r, ∃ es', CMRun (es ++ es') (at_ c r) ∧ OnlyLibrary (es ++ es')

/-- C107 as claimed: if the literals with flags are registered when a parse begins, then it does not matter what other goroutines
do meanwhile. -/
def C107_statement : Prop :=
  ∀ (lower : String → String) (env : Env) (es : List CMEv) (s : CMState) (at_ : Nat → Nat → CMState), env.OrdOK → CMRun es s →
    LaterStates es at_ → env.tmatch = terminalMatch lower s.tokens →
    (∀ t, HasFlags env.grammars t → s.tokens t.value ≠ none) → ∀ flag fuel,
      parseAt env (fun c r => terminalMatch lower (at_ c r).tokens) flag fuel = parse env flag fuel

/-- C107 if no goroutine has just seen that one of these literals is missing, which is so if no other load is under way.
Missing: loads that began before (see `C107_false`). -/
theorem C107_partial (lower : String → String) (env : Env) {es : List CMEv} {s : CMState} {at_ : Nat → Nat → CMState} (ho : env.OrdOK)
    (h : CMRun es s) (hat : LaterStates es at_) (hm : env.tmatch = terminalMatch lower s.tokens)
    (hreg : ∀ t, HasFlags env.grammars t → s.tokens t.value ≠ none)
    (hn : ∀ t, HasFlags env.grammars t → ∀ j, ¬ Unsettled es j t.value) (flag : Bool) (fuel : Nat) :
    parseAt env (fun c r => terminalMatch lower (at_ c r).tokens) flag fuel = parse env flag fuel := by
  refine at_parse ho (fun c r t ht a _ => ?_) flag fuel
  rw [hm]
  refine terminalMatch_same (fun hne => ?_) a
  obtain ⟨es', h1, h2⟩ := hat c r
  obtain ⟨v, hv⟩ := Option.ne_none_iff_exists'.1 (hreg t (ht.hasFlags hne))
  exact ⟨v, v, hv, C107_kept h hv (hn t (ht.hasFlags hne)) _ es' _ rfl h1 h2, rfl, rfl⟩

/-- C107 if the annotator gives the same lemma and norm to the same word wherever it is found in a literal. -/
theorem C107_words_partial (lower : String → String) (env : Env) {es : List CMEv} {s : CMState} {at_ : Nat → Nat → CMState} (ho : env.OrdOK)
    (h : CMRun es s) (hat : LaterStates es at_) (hm : env.tmatch = terminalMatch lower s.tokens)
    (hreg : ∀ t, HasFlags env.grammars t → s.tokens t.value ≠ none) {lem norm : String → String}
    (hw : ∀ c r es', CMRun (es ++ es') (at_ c r) → ∀ i k t, .callPut i k t ∈ es ++ es' → t.lemma_ = lem k ∧ t.norm = norm k)
    (flag : Bool) (fuel : Nat) :
    parseAt env (fun c r => terminalMatch lower (at_ c r).tokens) flag fuel = parse env flag fuel := by
  refine at_parse ho (fun c r t ht a _ => ?_) flag fuel
  rw [hm]
  refine terminalMatch_same (fun hne => ?_) a
  obtain ⟨es', h1, h2⟩ := hat c r
  obtain ⟨v, hv⟩ := Option.ne_none_iff_exists'.1 (hreg t (ht.hasFlags hne))
  have hne' : (at_ c r).tokens t.value ≠ none := cm_stays h h1 (by rw [hv]; simp)
  obtain ⟨v', hv'⟩ := Option.ne_none_iff_exists'.1 hne'
  obtain ⟨i, hi⟩ := (cm_keep h).held _ _ hv
  obtain ⟨i', hi'⟩ := (cm_keep h1).held _ _ hv'
  obtain ⟨e1, e2⟩ := hw c r es' h1 i _ _ (List.mem_append_left _ hi)
  obtain ⟨e3, e4⟩ := hw c r es' h1 i' _ _ hi'
  exact ⟨v, v', hv, hv', e3.trans e1.symm, by rw [e2, e4]⟩

/-! ## why it fails: the race of two loads -/

def meantA : Token := { text := "x", lemma_ := "a" }
def meantB : Token := { text := "x", lemma_ := "b" }

/-- both look for `x`, and the first writes and is done -/
def meantEvs : List CMEv :=
  [.callGet 0 "x", .callGet 1 "x", .rlock 0, .rlock 1, .beginRead 0, .beginRead 1, .endRead 0 "x" none,
   .endRead 1 "x" none, .retGet 0 "x" none, .retGet 1 "x" none,
   .callPut 0 "x" meantA, .lock 0, .beginWrite 0, .endWrite 0 "x" meantA, .retPut 0 "x" meantA]

/-- the second writes -/
def meantMore : List CMEv := [.callPut 1 "x" meantB, .lock 1, .beginWrite 1, .endWrite 1 "x" meantB, .retPut 1 "x" meantB]

/-- `<s> = "(?l)x" "(?l)x"` -/
def meantEnv : Env where
  grammars := [{ name := "g", rules := [rl "s" [[⟨"x", .terminal, .flags "l"⟩, ⟨"x", .terminal, .flags "l"⟩]]] }]
  tokens := [meantA, meantA]
  starts := ["s"]
  tmatch := terminalMatch id (fun k => if k = "x" then some meantA else none)
  ord := fun _ _ _ l => l

theorem meant_run : ∃ s s', CMRun meantEvs s ∧ CMRun (meantEvs ++ meantMore) s' ∧ s.tokens = (fun k => if k = "x" then some meantA else none) ∧
    s'.tokens = (fun k => if k = "x" then some meantB else none) := by
  have h : (cmExecs CMState.init meantEvs).isSome = true ∧ (cmExecs CMState.init (meantEvs ++ meantMore)).isSome = true := by decide +kernel
  obtain ⟨s, hs⟩ := Option.isSome_iff_exists.1 h.1
  obtain ⟨s', hs'⟩ := Option.isSome_iff_exists.1 h.2
  have r : CMRun meantEvs s := by simpa using cmExecs_run .init hs
  have r' : CMRun (meantEvs ++ meantMore) s' := by simpa using cmExecs_run .init hs'
  refine ⟨s, s', r, r', funext fun k => ?_, funext fun k => ?_⟩
  · rw [(cm_inv r).mem k]
    by_cases hk : k = "x"
    · simp [meantEvs, lastWrite, hk]
    · simp [meantEvs, lastWrite, hk, Ne.symm hk]
  · rw [(cm_inv r').mem k]
    by_cases hk : k = "x"
    · simp [meantEvs, meantMore, lastWrite, hk]
    · simp [meantEvs, meantMore, lastWrite, hk, Ne.symm hk]

theorem meant_library : OnlyLibrary (meantEvs ++ meantMore) ∧ Ensures [meantA] (callsOf 0 meantEvs) := by
  have h0 : Ensures [meantA] (callsOf 0 (meantEvs ++ meantMore)) := .missing .nil
  have h1 : Ensures [meantB] (callsOf 1 (meantEvs ++ meantMore)) := .missing .nil
  refine ⟨fun j => ?_, .missing .nil⟩
  by_cases hj : j = 0
  · subst hj; exact ⟨_, [], by simpa using h0⟩
  · by_cases hj1 : j = 1
    · subst hj1; exact ⟨_, [], by simpa using h1⟩
    · refine ⟨[], [], ?_⟩
      have : callsOf j (meantEvs ++ meantMore) = [] := by
        simp [callsOf, meantEvs, meantMore, Ne.symm hj, Ne.symm hj1]
      rw [this]; exact .nil

/-- C107 is false: a goroutine has loaded its grammar `<s> = "(?l)x" "(?l)x"` and parses the text `x x`, which the grammar matches. Another one,
which found `x` missing before, writes its own token with another lemma after the first column has been scanned, and the match is lost. -/
theorem C107_race : ∃ s s', CMRun meantEvs s ∧ CMRun (meantEvs ++ meantMore) s' ∧ OnlyLibrary (meantEvs ++ meantMore) ∧
    Ensures [meantA] (callsOf 0 meantEvs) ∧ meantEnv.tmatch = terminalMatch id s.tokens ∧
    (parse meantEnv true 20).map (·.finals.map (·.stop)) = some [2] ∧
    (parseAt meantEnv (fun c _ => terminalMatch id (if c = 0 then s else s').tokens) true 20).map (·.finals.map (·.stop)) = some [] := by
  obtain ⟨s, s', r, r', h1, h2⟩ := meant_run
  refine ⟨s, s', r, r', meant_library.1, meant_library.2, by rw [h1]; rfl, by decide +kernel, ?_⟩
  have e : (fun (c _ : Nat) => terminalMatch id (if c = 0 then s else s').tokens) = fun (c _ : Nat) => terminalMatch id
      (if c = 0 then fun k => if k = "x" then some meantA else none else fun k => if k = "x" then some meantB else none) := by
    funext c r
    split
    · rw [h1]
    · rw [h2]
  rw [e]
  decide +kernel

theorem C107_false : ¬ C107_statement := by
  intro h
  obtain ⟨s, s', r, r', hl, -, hm, h1, h2⟩ := C107_race
  have hp := h id meantEnv meantEvs s (fun c _ => if c = 0 then s else s') (fun _ _ _ _ => .refl _) r (fun c _ => ?_) hm ?_ true 20
  · rw [hp, h1] at h2
    simp at h2
  · dsimp only
    split
    · exact ⟨[], by simpa using r, by simpa using hl.prefix⟩
    · exact ⟨meantMore, r', hl⟩
  · rintro t ⟨-, -, g, hg, A, rr, b, hlook, hb, ht⟩
    obtain ⟨s1, s2, r1, -, h1, -⟩ := meant_run
    rw [cm_tokens r r1, h1]
    have : t.value = "x" := by
      simp only [meantEnv, List.mem_singleton] at hg
      subst hg
      simp only [rl, List.lookup_cons, List.lookup_nil] at hlook
      split at hlook
      · cases hlook
        simp [Rule.bodies] at hb
        subst hb
        simp at ht
        rw [ht]
      · cases hlook
    simp [this]

/-- Non-vacuity: after the race, when both loads are done, nobody is about to write `x`. -/
example : ∃ s, CMRun (meantEvs ++ meantMore) s ∧ s.tokens "x" = some meantB ∧ ∀ j, ¬ Unsettled (meantEvs ++ meantMore) j "x" := by
  obtain ⟨s, s', r, r', h1, h2⟩ := meant_run
  refine ⟨s', r', by rw [h2]; rfl, ?_⟩
  rintro j ⟨a, b, e, hb⟩
  have key : ∀ (n : Nat) (i : Nat), (meantEvs ++ meantMore)[n]? = some (.endRead i "x" none) →
      ∃ m, n < m ∧ ∃ t, (meantEvs ++ meantMore)[m]? = some (.endWrite i "x" t) := by
    intro n i hn
    have hn' : n < 20 := by
      by_contra hc
      rw [List.getElem?_eq_none (by simp [meantEvs, meantMore]; omega)] at hn
      cases hn
    interval_cases n <;> simp [meantEvs, meantMore] at hn
    · subst hn; exact ⟨13, by omega, _, rfl⟩
    · subst hn; exact ⟨18, by omega, _, rfl⟩
  obtain ⟨m, hm, t, ht⟩ := key a.length j (by rw [e]; simp)
  rw [e, List.getElem?_append_right (by omega)] at ht
  obtain ⟨q, hq⟩ : ∃ q, m - a.length = q + 1 := ⟨m - a.length - 1, by omega⟩
  rw [hq, List.getElem?_cons_succ] at ht
  exact hb _ (List.mem_of_getElem? ht) rfl

end Fmr
