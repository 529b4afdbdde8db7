import Verif.Props.Separate

/-!
# Parsing a text and its beginning
-/

namespace Fmr

/-- the final states in the columns after the first `n + 1` -/
theorem finalsAll_cut (chart : List (List TState)) (n : Nat) :
    finalsAll chart = (chart.drop (n+1)).reverse.flatMap (fun col => col.filter TState.isFinal) ++ finalsAll (chart.take (n+1)) := by
  conv_lhs => rw [← List.take_append_drop (n+1) chart]
  unfold finalsAll
  rw [List.reverse_append, List.flatMap_append]

/-- their addresses -/
def latePtrs (chart : List (List TState)) (n : Nat) : List (Nat × Nat) :=
  ((chart.drop (n+1)).zipIdx (chart.take (n+1)).length).reverse.flatMap (fun p =>
    (p.1.zipIdx.filter (fun q => q.1.isFinal)).map (fun q => (p.2, q.2)))

theorem finalPtrsAll_cut (chart : List (List TState)) (n : Nat) :
    finalPtrsAll chart = latePtrs chart n ++ finalPtrsAll (chart.take (n+1)) := by
  conv_lhs => rw [← List.take_append_drop (n+1) chart]
  unfold finalPtrsAll latePtrs
  rw [List.zipIdx_append, List.reverse_append, List.flatMap_append, Nat.zero_add]

theorem latePtrs_nil {chart : List (List TState)} {n : Nat}
    (h : (chart.drop (n+1)).reverse.flatMap (fun col => col.filter TState.isFinal) = []) : latePtrs chart n = [] := by
  unfold latePtrs
  rw [List.flatMap_eq_nil_iff] at h ⊢
  intro x hx
  have h1 := List.fst_mem_of_mem_zipIdx (List.mem_reverse.1 hx)
  have h2 := h x.1 (List.mem_reverse.2 h1)
  rw [List.map_eq_nil_iff, List.filter_eq_nil_iff]
  intro q hq
  rw [List.filter_eq_nil_iff] at h2
  exact h2 q.1 (List.fst_mem_of_mem_zipIdx hq)

theorem finalPtrsAll_le {chart : List (List TState)} {a : Nat × Nat} (h : a ∈ finalPtrsAll chart) : a.1 < chart.length := by
  unfold finalPtrsAll at h
  obtain ⟨x, hx, hxa⟩ := List.mem_flatMap.1 h
  obtain ⟨q, _, rfl⟩ := List.mem_map.1 hxa
  have hx' := List.mem_reverse.1 hx
  rw [List.mem_zipIdx_iff_getElem?] at hx'
  exact (List.getElem?_eq_some_iff.1 hx').1

/-- two parses where the second is that of the first tokens: it has the same trees if no match of the first goes
beyond these, and none if the first has none -/
structure CutAt (n : Nat) (p p' : Parsed) : Prop where
  none : p.res.finals = [] → p'.res.finals = []
  same : (∀ s ∈ p.res.finals, s.stop ≤ n) → SameTrees p p'
  all : ∀ k ns, treesOf k false p = .ok ns → ∃ X Y, treesOf k false p' = .ok Y ∧ ns = X ++ Y

section
variable {w : World} {g : Gram} {R : String → Prop} {starts : List String}

theorem cut_earleyParse (hc : Closed R ([g.main] ++ g.includes) starts) (ho : w.OrdOK)
    {l l' : Option Grammar} (hl : ∀ x ∈ l, Unused R [x]) (hl' : ∀ x ∈ l', Unused R [x])
    {u u' v : List Token} (hwf : (envFor w g l (u ++ v) starts 0).WF) (hu : u ≠ [])
    (huu : List.Forall₂ (w.AlikeTokens g R) u u') {fuel : Nat} {flag : Bool}
    {text text' : Bytes} {call off off' : Nat} {p : Parsed}
    (h : earleyParse w g fuel flag text (u ++ v) l starts call off = .ok p) :
    ∃ p', earleyParse w g fuel flag text' u' l' starts call off' = .ok p' ∧ CutAt u.length p p' := by
  obtain ⟨hst, -, -, -, henv, hp⟩ := earleyParse_ok h
  have hwf' := wf_envFor hwf (u ++ v) call
  have hord := ord_envFor ho g l (u ++ v) starts call
  have hst' : Started (envFor w g l (u ++ v) starts call) := hst
  obtain ⟨r', h1, h2, h3⟩ := C58_chart (n := u.length) (flag' := flag) hst' (by simp [envFor]) hp
  obtain ⟨hch, hf⟩ := parse_chart hst' hp
  have e : (envFor w g l (u ++ v) starts call).upTo u.length = envFor w g l u starts call := by
    unfold Env.upTo envFor; simp
  rw [e] at h1
  have halike : Alike R ([g.main] ++ g.includes) (envFor w g l u starts call) (envFor w g l' u' starts call) :=
    { left := separate_grammars hl u call, right := separate_grammars hl' u' call, starts := rfl, ord := rfl, closed := hc,
      tokens := huu }
  have h5 : parse (envFor w g l' u' starts call) flag fuel = some r' := by
    rw [alike_parse halike (ord_envFor ho g l u starts call)]
    exact h1
  have hu' : u' ≠ [] := by
    rintro rfl
    exact hu (List.forall₂_nil_right_iff.1 huu)
  have hlate : ∀ s ∈ (p.res.chart.drop (u.length + 1)).reverse.flatMap (fun col => col.filter TState.isFinal), u.length < s.stop := by
    intro s hs
    obtain ⟨c, hc1, hc2⟩ := List.mem_flatMap.1 hs
    obtain ⟨k, hk⟩ := List.getElem?_of_mem (List.mem_reverse.1 hc1)
    rw [List.getElem?_drop] at hk
    have := (((chartOf_inv hord hch).1 _ _ hk s (List.mem_filter.1 hc2).1).basic hwf').stop
    omega
  have hempty : ∀ s0 : Unit, (∀ s ∈ p.res.finals, s.stop ≤ u.length) →
      (p.res.chart.drop (u.length + 1)).reverse.flatMap (fun col => col.filter TState.isFinal) = [] := by
    intro _ hs
    by_contra hne
    obtain ⟨s, t, hst⟩ := List.exists_cons_of_ne_nil hne
    have hmem : s ∈ p.res.finals := by
      rw [hf]
      unfold finalsOf
      rw [finalsAll_cut _ u.length, hst]
      split <;> simp
    have h6 := hs s hmem
    have h7 := hlate s (by rw [hst]; simp)
    omega
  have htrees : ∀ k (l : List (Nat × Nat)), (∀ a ∈ l, a.1 ≤ u.length) →
      outFlat (fun a => Out.ofFuel (getTrees r'.chart k a.1 a.2)) l =
      outFlat (fun a => Out.ofFuel (getTrees p.res.chart k a.1 a.2)) l := by
    intro k l hl
    induction l with
    | nil => rfl
    | cons a l ih =>
      simp only [outFlat]
      rw [ih (fun b hb => hl b (List.mem_cons_of_mem _ hb)), h2, C58_trees hwf' hord hst' hp (hl a List.mem_cons_self)]
  have hin : ∀ a ∈ finalPtrsAll r'.chart, a.1 ≤ u.length := by
    intro a ha
    have := finalPtrsAll_le ha
    rw [h2, List.length_take] at this
    omega
  have hsame : (∀ s ∈ p.res.finals, s.stop ≤ u.length) → r'.finals = p.res.finals ∧ ∀ f, finalPtrs f p.res.chart = finalPtrs f r'.chart := by
    intro hs
    have he := hempty () hs
    constructor
    · rw [h3, hf]
      unfold finalsOf
      rw [finalsAll_cut p.res.chart u.length, he, List.nil_append]
    · intro f
      unfold finalPtrs
      rw [finalPtrsAll_cut p.res.chart u.length, latePtrs_nil he, List.nil_append, h2]
  refine ⟨_, earleyParse_eq hst hu' h5, ⟨fun hn => ?_, fun hs => ⟨(hsame hs).1, fun k f => ?_⟩, fun k ns hns => ?_⟩⟩
  · have := (hsame (by rw [hn]; simp)).1
    simp only
    rw [this, hn]
  · unfold treesOf
    rw [henv]
    simp only [envFor]
    simp only [hst, if_false]
    rw [(hsame hs).2 f]
    refine htrees k _ (fun a ha => hin a ?_)
    unfold finalPtrs at ha
    split at ha
    · exact List.mem_of_mem_take ha
    · exact ha
  · unfold treesOf at hns ⊢
    rw [henv] at hns
    simp only [envFor] at hns ⊢
    simp only [hst, if_false] at hns ⊢
    have hq : finalPtrs false p.res.chart = latePtrs p.res.chart u.length ++ finalPtrs false r'.chart := by
      unfold finalPtrs
      simp only [Bool.false_eq_true, if_false]
      rw [finalPtrsAll_cut p.res.chart u.length, h2]
    rw [hq] at hns
    obtain ⟨X, Y, hX, hY, e⟩ := outFlat_append hns
    refine ⟨X, Y, ?_, e⟩
    rw [← hY]
    refine htrees k _ (fun a ha => hin a ?_)
    unfold finalPtrs at ha
    simpa using ha

/-! ## the loops -/

theorem maxLoop_off {fuel : Nat} {text : Bytes} {toks : List Token} {l : Option Grammar} : ∀ (n call i : Nat) {ps : List Parsed},
    maxAllLoop w g fuel text toks l starts n call i = .ok ps → ∀ p ∈ ps, i ≤ p.off
  | 0, _, _, _, h => by simp [maxAllLoop] at h
  | n+1, call, i, ps, h => by
    rw [maxAllLoop] at h
    split at h
    · obtain ⟨p, h1, h⟩ := Out.bind_eq_ok.1 h
      split at h
      · obtain ⟨rest, h2, h⟩ := Out.bind_eq_ok.1 h
        simp only [Out.pure_eq, Out.ok.injEq] at h
        subst h
        intro q hq
        rcases List.mem_cons.1 hq with rfl | hq
        · rw [(earleyParse_ok h1).2.2.2.1]
        · exact Nat.le_trans (Nat.le_add_right _ _) (maxLoop_off n _ _ h2 q hq)
      · intro q hq
        exact Nat.le_of_succ_le (maxLoop_off n _ _ h q hq)
    · simp only [Out.ok.injEq] at h
      subst h
      simp

/-- a match that reaches beyond the first `n` tokens, or begins there -/
def Parsed.Reaches (n : Nat) (p : Parsed) : Prop := n ≤ p.off ∨ ∃ s ∈ p.res.finals, n < p.off + s.stop

variable (hc : Closed R ([g.main] ++ g.includes) starts) (ho : w.OrdOK)
  {l l1 : Option Grammar} (hl : ∀ x ∈ l, Unused R [x]) (hl1 : ∀ x ∈ l1, Unused R [x])
  {toks : List Token} (hwf : (envFor w g l toks starts 0).WF)
  {fuel : Nat} {text text1 : Bytes} {v : List Token}
include hc ho hl hl1 hwf

theorem cut_maxLoop {u u' : List Token} (huu : List.Forall₂ (w.AlikeTokens g R) u u') : ∀ (n call i : Nat) {ps : List Parsed}, i ≤ u.length →
    maxAllLoop w g fuel text (u ++ v) l starts n call i = .ok ps →
    ∃ qs qs1 rest, ps = qs ++ rest ∧ List.Forall₂ SameTrees qs qs1 ∧ (∀ p ∈ rest, p.Reaches u.length) ∧
      (∀ p ∈ qs, ∀ s ∈ p.res.finals, p.off + s.stop ≤ u.length) ∧
      ((∀ p ∈ rest, u.length ≤ p.off) → maxAllLoop w g fuel text1 u' l1 starts n call i = .ok qs1) ∧
      ∀ ps1, maxAllLoop w g fuel text1 u' l1 starts n call i = .ok ps1 → ∃ rest1, ps1 = qs1 ++ rest1 ∧
        ∀ p ∈ rest.head?, ∀ q ∈ rest1, p.off ≤ q.off
  | 0, _, _, _, _, h => by simp [maxAllLoop] at h
  | n+1, call, i, ps, hi, h => by
    rcases Nat.lt_or_eq_of_le hi with hlt | rfl
    · have hlt' : i < u'.length := huu.length_eq ▸ hlt
      rw [maxAllLoop, if_pos (by rw [List.length_append]; omega)] at h
      obtain ⟨p, h1, h⟩ := Out.bind_eq_ok.1 h
      rw [List.drop_append_of_le_length hi] at h1
      have hoff := (earleyParse_ok h1).2.2.2.1
      obtain ⟨p', e1, hp⟩ := cut_earleyParse (u := u.drop i) (text' := text1) (off' := i) hc ho hl hl1
        (wf_envFor hwf _ _) (by rw [ne_eq, List.drop_eq_nil_iff]; omega) (List.forall₂_drop i huu) h1
      have hoff' := (earleyParse_ok e1).2.2.2.1
      rw [List.length_drop] at hp
      split at h
      · rename_i hf
        obtain ⟨rest, h2, h⟩ := Out.bind_eq_ok.1 h
        simp only [Out.pure_eq, Out.ok.injEq] at h
        subst h
        obtain ⟨-, -, -, -, -, hpar⟩ := earleyParse_ok h1
        obtain ⟨s, hs⟩ := (longest_single hpar).resolve_left hf
        rw [hs, maxEnd_single] at h2
        by_cases hle : i + s.stop ≤ u.length
        · have hsame := hp.same (by rw [hs]; intro x hx; rw [List.mem_singleton.1 hx]; omega)
          obtain ⟨qs, qs1, r, k1, k2, k3, k4, k5, k6⟩ := cut_maxLoop huu n (call+1) _ hle h2
          have hstep : maxAllLoop w g fuel text1 u' l1 starts (n+1) call i =
              (maxAllLoop w g fuel text1 u' l1 starts n (call+1) (i + s.stop)).bind (fun rest => .ok (p' :: rest)) := by
            rw [maxAllLoop, if_pos hlt', e1]
            simp only [Out.bind_ok, hsame.1, hs, maxEnd_single]
            rw [if_pos (by simp)]
            rfl
          refine ⟨p :: qs, p' :: qs1, r, by rw [k1]; rfl, .cons hsame k2, k3, ?_, ?_, ?_⟩
          · intro q hq
            rcases List.mem_cons.1 hq with rfl | hq
            · intro x hx
              rw [hs] at hx
              rw [List.mem_singleton.1 hx, hoff]
              exact hle
            · exact k4 q hq
          · intro hr
            rw [hstep, k5 hr]
            rfl
          · intro ps1 hps1
            rw [hstep] at hps1
            obtain ⟨rest1, h3, h4⟩ := Out.bind_eq_ok.1 hps1
            simp only [Out.ok.injEq] at h4
            obtain ⟨r1, k7, k8⟩ := k6 _ h3
            exact ⟨r1, by rw [← h4, k7]; rfl, k8⟩
        · refine ⟨[], [], p :: rest, rfl, .nil, ?_, by simp, ?_, ?_⟩
          · intro q hq
            rcases List.mem_cons.1 hq with rfl | hq
            · exact .inr ⟨s, by rw [hs]; simp, by omega⟩
            · have := maxLoop_off n _ _ h2 q hq
              exact .inl (by omega)
          · intro hr
            have := hr p List.mem_cons_self
            omega
          · intro ps1 hps1
            refine ⟨ps1, rfl, ?_⟩
            intro q hq r hr
            cases hq
            rw [hoff]
            exact maxLoop_off _ _ _ hps1 r hr
      · rename_i hf
        have hf' := hp.none (Classical.not_not.1 hf)
        obtain ⟨qs, qs1, r, k1, k2, k3, k4, k5, k6⟩ := cut_maxLoop huu n (call+1) (i+1) (by omega) h
        have hstep : maxAllLoop w g fuel text1 u' l1 starts (n+1) call i = maxAllLoop w g fuel text1 u' l1 starts n (call+1) (i+1) := by
          rw [maxAllLoop, if_pos hlt', e1]
          simp only [Out.bind_ok, hf', ne_eq, not_true, if_false]
        rw [hstep]
        exact ⟨qs, qs1, r, k1, k2, k3, k4, k5, k6⟩
    · have hnil : maxAllLoop w g fuel text1 u' l1 starts (n+1) call u.length = .ok [] := by
        rw [maxAllLoop, if_neg (by rw [huu.length_eq]; omega)]
      refine ⟨[], [], ps, rfl, .nil, fun p hp => .inl (maxLoop_off _ _ _ h p hp), by simp, fun _ => hnil, ?_⟩
      intro ps1 hps1
      rw [hnil, Out.ok.injEq] at hps1
      exact ⟨[], hps1.symm, by simp⟩

theorem cut_allLoop : ∀ {u u' : List Token} (_ : List.Forall₂ (w.AlikeTokens g R) u u') (i : Nat) {ps : List Parsed},
    parseAllLoop w g fuel text l starts (u ++ v) i = .ok ps → ∀ k ns, outFlat (treesOf k false) ps = .ok ns →
    ∃ ps1 ns1, parseAllLoop w g fuel text1 l1 starts u' i = .ok ps1 ∧ outFlat (treesOf k false) ps1 = .ok ns1 ∧ ns1.Sublist ns
  | _, _, .nil, i, ps, h, k, ns, _ => ⟨[], [], rfl, rfl, List.nil_sublist _⟩
  | t :: u, _, .cons ha has, i, ps, h, k, ns, hns => by
    rw [List.cons_append, parseAllLoop] at h
    obtain ⟨p, h1, h⟩ := Out.bind_eq_ok.1 h
    obtain ⟨rest, h2, h⟩ := Out.bind_eq_ok.1 h
    obtain ⟨p', e1, hp⟩ := cut_earleyParse (u := t :: u) (text' := text1) (off' := i) hc ho hl hl1
      (wf_envFor hwf _ _) (by simp) (.cons ha has) h1
    simp only [Out.pure_eq, Out.ok.injEq] at h
    have key : ∃ X N, treesOf k false p = .ok X ∧ outFlat (treesOf k false) rest = .ok N ∧ ns = X ++ N := by
      subst h
      split at hns
      · rw [outFlat] at hns
        obtain ⟨X, hX, hns⟩ := Out.bind_eq_ok.1 hns
        obtain ⟨N, hN, hns⟩ := Out.bind_eq_ok.1 hns
        simp only [Out.pure_eq, Out.ok.injEq] at hns
        exact ⟨X, N, hX, hN, hns.symm⟩
      · rename_i hf
        obtain ⟨-, -, -, -, henv, hpar⟩ := earleyParse_ok h1
        exact ⟨[], ns, treesOf_none (f := fuel) (by rw [henv]; exact hpar) (Classical.not_not.1 hf), hns, rfl⟩
    obtain ⟨X, N, hX, hN, rfl⟩ := key
    obtain ⟨ps1, ns1, k1, k2, k3⟩ := cut_allLoop has (i+1) h2 k N hN
    obtain ⟨Z, Y, hY, rfl⟩ := hp.all k X hX
    refine ⟨if p'.res.finals ≠ [] then p' :: ps1 else ps1, Y ++ ns1, ?_, ?_, ?_⟩
    · rw [parseAllLoop, e1]
      simp only [Out.bind_ok, k1]
      rfl
    · split
      · rw [outFlat, hY, Out.bind_ok, k2]
        rfl
      · rename_i hf
        obtain ⟨-, -, -, -, henv, hpar⟩ := earleyParse_ok e1
        have := treesOf_none (fuel := k) (flag := false) (f := fuel) (p := p') (by rw [henv]; exact hpar) (Classical.not_not.1 hf)
        rw [hY, Out.ok.injEq] at this
        rw [this]
        exact k2
    · exact (List.sublist_append_right Z Y).append k3

theorem cut_anyLoop : ∀ {u u' : List Token} (_ : List.Forall₂ (w.AlikeTokens g R) u u') (i : Nat) {p p1 : Option Parsed} {q : Option Parsed},
    parseAnyLoop w g fuel text l starts (u ++ v) i p = .ok q → u ≠ [] →
    (∃ a b, q = some a ∧ a.off < i + u.length ∧ SameTrees a b ∧ parseAnyLoop w g fuel text1 l1 starts u' i p1 = .ok (some b)) ∨
    (∃ a, q = some a ∧ a.off < i + u.length ∧ ∃ s ∈ a.res.finals, i + u.length < a.off + s.stop) ∨
    ∃ b, parseAnyLoop w g fuel text1 l1 starts u' i p1 = .ok (some b) ∧ b.res.finals = [] ∧ ∃ a, q = some a ∧ i + u.length ≤ a.off
  | [], _, .nil, i, p, p1, q, h, hu => absurd rfl hu
  | t :: u, _, .cons ha has, i, p, p1, q, h, _ => by
    rw [List.cons_append, parseAnyLoop] at h
    obtain ⟨a, h1, h⟩ := Out.bind_eq_ok.1 h
    have hoff := (earleyParse_ok h1).2.2.2.1
    obtain ⟨a', e1, hp⟩ := cut_earleyParse (u := t :: u) (text' := text1) (off' := i) hc ho hl hl1
      (wf_envFor hwf _ _) (by simp) (.cons ha has) h1
    rw [parseAnyLoop, e1]
    simp only [Out.bind_ok]
    split at h
    · rename_i hf
      simp only [Out.pure_eq, Out.ok.injEq] at h
      by_cases hall : ∀ s ∈ a.res.finals, s.stop ≤ (t :: u).length
      · have hsame := hp.same hall
        rw [hsame.1, if_pos hf]
        exact .inl ⟨a, a', h.symm, by rw [hoff]; simp, hsame, rfl⟩
      · have : ∃ s ∈ a.res.finals, (t :: u).length < s.stop := by
          by_contra hno
          exact hall (fun s hs => Nat.le_of_not_lt (fun hlt => hno ⟨s, hs, hlt⟩))
        obtain ⟨s, hs, hlt⟩ := this
        exact .inr (.inl ⟨a, h.symm, by rw [hoff]; simp, s, hs, by rw [hoff]; omega⟩)
    · rename_i hf
      have hf0 := Classical.not_not.1 hf
      have hf' := hp.none hf0
      simp only [hf', ne_eq, not_true, if_false]
      cases u with
      | nil =>
        cases has
        rw [parseAnyLoop]
        cases v with
        | nil =>
          rw [List.nil_append, parseAnyLoop] at h
          simp only [Out.ok.injEq] at h
          exact .inl ⟨a, a', h.symm, by rw [hoff]; simp, hp.same (by rw [hf0]; simp), rfl⟩
        | cons x v =>
          refine .inr (.inr ⟨a', rfl, hf', ?_⟩)
          rcases parseAnyLoop_spec (tokens := List.replicate (i+1) x ++ (x :: v)) (x :: v) (i+1) (some a) _ (by
              rw [List.drop_left' (by simp)]) h with ⟨h0, -⟩ | ⟨b, hb, hb2, -⟩
          · simp at h0
          · exact ⟨b, hb, by simpa using hb2⟩
      | cons t' u =>
        rcases cut_anyLoop has (i+1) (p1 := some a') h (by simp) with ⟨a, b, h3, h4, h5⟩ | ⟨a, h3, h4, h5⟩ | ⟨b, h3, h4, a, h5, h6⟩
        · exact .inl ⟨a, b, h3, by rw [List.length_cons]; rw [List.length_cons] at h4 ⊢; omega, h5⟩
        · refine .inr (.inl ⟨a, h3, ?_, ?_⟩)
          · rw [List.length_cons]; rw [List.length_cons] at h4 ⊢; omega
          · obtain ⟨s, hs, hlt⟩ := h5
            exact ⟨s, hs, by rw [List.length_cons]; rw [List.length_cons] at hlt ⊢; omega⟩
        · exact .inr (.inr ⟨b, h3, h4, a, h5, by rw [List.length_cons]; rw [List.length_cons] at h6 ⊢; omega⟩)

end

end Fmr
