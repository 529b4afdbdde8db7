import Verif.Proofs.Separate
import Verif.Props.Alike
import Verif.Props.Extract

/-!
# C98: a token that the grammar cannot read separates the text
-/

namespace Fmr

/-- the same world `k` parses later: map orders are drawn anew for every parse of a call -/
def World.later (w : World) (k : Nat) : World := { w with ord := fun n => w.ord (n + k) }

/-- two parses with the same final states and the same trees -/
def SameTrees (p p' : Parsed) : Prop :=
  p'.res.finals = p.res.finals ∧ ∀ k flag, treesOf k flag p' = treesOf k flag p

section
variable {w : World} {g : Gram} {R : String → Prop} {starts : List String} {sep : Token}

/-- the literals and the `(any)`s of the grammar and its includes cannot read the token -/
def World.Separates (w : World) (g : Gram) (R : String → Prop) (sep : Token) : Prop :=
  Fmr.Separates R ([g.main] ++ g.includes) (terminalMatch w.lower w.registry) sep

theorem separate_grammars {l : Option Grammar} (hl : ∀ x ∈ l, Unused R [x]) (toks : List Token) (call : Nat) :
    ∃ more, (envFor w g l toks starts call).grammars = ([g.main] ++ g.includes) ++ more ∧ Unused R more := by
  refine ⟨_, rfl, ?_⟩
  cases l with
  | none => intro x hx; simp at hx
  | some x => exact hl x rfl

theorem separate_earleyParse (hc : Closed R ([g.main] ++ g.includes) starts) (ho : w.OrdOK)
    (hs : w.Separates g R sep) {l l' : Option Grammar} (hl : ∀ x ∈ l, Unused R [x]) (hl' : ∀ x ∈ l', Unused R [x])
    {u u' v : List Token} (hwf : (envFor w g l (u ++ sep :: v) starts 0).WF) (hu : u ≠ [])
    (huu : List.Forall₂ (w.AlikeTokens g R) u u') {fuel : Nat} {flag : Bool}
    {text text' : Bytes} {call off off' : Nat} {p : Parsed}
    (h : earleyParse w g fuel flag text (u ++ sep :: v) l starts call off = .ok p) :
    ∃ p', earleyParse w g fuel flag text' u' l' starts call off' = .ok p' ∧ SameTrees p p' ∧
      ∀ s ∈ p.res.finals, s.stop ≤ u.length := by
  obtain ⟨hst, -, -, -, henv, hp⟩ := earleyParse_ok h
  have hself := Alike.self (separate_grammars (w := w) (starts := starts) hl (u ++ sep :: v) call) hc
  have hwf' := wf_envFor hwf (u ++ sep :: v) call
  have hord := ord_envFor ho g l (u ++ sep :: v) starts call
  obtain ⟨r', h1, h2, h2', h3, h4⟩ := separate_parse hself hs hord hst rfl hp
  have halike : Alike R ([g.main] ++ g.includes) (envFor w g l u starts call) (envFor w g l' u' starts call) :=
    { left := separate_grammars hl u call, right := separate_grammars hl' u' call, starts := rfl, ord := rfl, closed := hc,
      tokens := huu }
  have h5 : parse (envFor w g l' u' starts call) flag fuel = some r' := by
    rw [alike_parse halike (ord_envFor ho g l u starts call)]
    exact h1
  have hu' : u' ≠ [] := by
    rintro rfl
    exact hu (List.forall₂_nil_right_iff.1 huu)
  refine ⟨_, earleyParse_eq hst hu' h5, ⟨h4.symm, fun k f => ?_⟩, fun s hs => ?_⟩
  · unfold treesOf
    rw [henv]
    simp only [envFor]
    simp only [hst, if_false]
    have hptr : finalPtrs f p.res.chart = finalPtrs f r'.chart := by
      unfold finalPtrs
      rw [h2, finalPtrsAll_pad]
    rw [hptr]
    have : ∀ l : List (Nat × Nat), (∀ a ∈ l, a.1 ≤ u.length) →
        outFlat (fun a => Out.ofFuel (getTrees r'.chart k a.1 a.2)) l =
        outFlat (fun a => Out.ofFuel (getTrees p.res.chart k a.1 a.2)) l := by
      intro l hl
      induction l with
      | nil => rfl
      | cons a l ih =>
        simp only [outFlat]
        rw [ih (fun b hb => hl b (List.mem_cons_of_mem _ hb)), h2',
          C58_trees hwf' hord hst hp (hl a List.mem_cons_self)]
    refine this _ (fun a ha => ?_)
    have ha' : a ∈ finalPtrsAll r'.chart := by
      unfold finalPtrs at ha
      split at ha
      · exact List.mem_of_mem_take ha
      · exact ha
    unfold finalPtrsAll at ha'
    obtain ⟨x, hx, hxa⟩ := List.mem_flatMap.1 ha'
    obtain ⟨q, _, rfl⟩ := List.mem_map.1 hxa
    have hx' := List.mem_reverse.1 hx
    rw [List.mem_zipIdx_iff_getElem?] at hx'
    have := (List.getElem?_eq_some_iff.1 hx').1
    simp only
    omega
  · rw [h4] at hs
    obtain ⟨S, _, j, hm, hj, _⟩ := C01_relaxed_partial _ flag fuel r' (wf_envFor hwf u call)
      (ord_envFor ho g l u starts call) h1 s hs
    rw [hm.2.2.2.2]
    exact hj

/-- at the separator itself nothing is found -/
theorem separate_none (hc : Closed R ([g.main] ++ g.includes) starts) (ho : w.OrdOK)
    (hs : w.Separates g R sep) {l : Option Grammar} (hl : ∀ x ∈ l, Unused R [x]) {v toks : List Token}
    (hwf : (envFor w g l toks starts 0).WF) (hnm : NoEmptyMatch (envFor w g l toks starts 0)) {fuel : Nat}
    {flag : Bool} {text : Bytes} {call off : Nat} {p : Parsed}
    (h : earleyParse w g fuel flag text (sep :: v) l starts call off = .ok p) : p.res.finals = [] := by
  obtain ⟨hst, -, -, -, henv, hp⟩ := earleyParse_ok h
  have hself := Alike.self (separate_grammars (w := w) (starts := starts) hl (sep :: v) call) hc
  obtain ⟨r', h1, -, -, -, h4⟩ := separate_parse (u := []) hself hs (ord_envFor ho g l (sep :: v) starts call) hst rfl hp
  rw [h4, List.eq_nil_iff_forall_not_mem]
  intro s hs
  obtain ⟨S, hS, j, hm, hj, hd⟩ := C01_relaxed_partial _ flag fuel r' (wf_envFor hwf [] call)
    (ord_envFor ho g l [] starts call) h1 s hs
  rw [show (envFor w g l [] starts call).tokens.take j = [] from List.take_nil] at hd
  exact hnm S hS hd

/-! ## the tokens after the separator -/

theorem SameRun.sameTrees {p p' : Parsed} (h : SameRun p p') : SameTrees p p' :=
  ⟨by rw [h.1], fun k f => alike_treesOf h k f⟩

variable (hc : Closed R ([g.main] ++ g.includes) starts) (ho : w.OrdOK)
  {l l' : Option Grammar} (hl : ∀ x ∈ l, Unused R [x]) (hl' : ∀ x ∈ l', Unused R [x]) (fuel : Nat)
  (text text' : Bytes) (k : Nat)
include hc ho hl hl'

theorem shift_earleyParse {toks toks' : List Token} (ht : List.Forall₂ (w.AlikeTokens g R) toks toks') (flag : Bool)
    (call off off' : Nat) : (earleyParse w g fuel flag text toks l starts (call + k) off).Both SameTrees
      (earleyParse (w.later k) g fuel flag text' toks' l' starts call off') := by
  have h : Alike R ([g.main] ++ g.includes) (envFor w g l toks starts (call + k)) (envFor w g l' toks' starts (call + k)) :=
    { left := separate_grammars hl toks _, right := separate_grammars hl' toks' _, starts := rfl, ord := rfl,
      closed := hc, tokens := ht }
  have hp := alike_parse h (ord_envFor ho g l toks starts (call + k)) flag fuel
  have hp' : parse (envFor (w.later k) g l' toks' starts call) flag fuel =
    parse (envFor w g l toks starts (call + k)) flag fuel := hp
  unfold earleyParse
  rw [ht.length_eq]
  split
  · trivial
  · split
    · trivial
    · simp only [hp']
      cases parse (envFor w g l toks starts (call + k)) flag fuel with
      | none => trivial
      | some r => exact ⟨rfl, fun _ _ => rfl⟩

theorem shift_allLoop : ∀ {toks toks' : List Token} (_ : List.Forall₂ (w.AlikeTokens g R) toks toks') (i : Nat),
    (parseAllLoop w g fuel text l starts toks (i + k)).Both (List.Forall₂ SameTrees)
      (parseAllLoop (w.later k) g fuel text' l' starts toks' i)
  | _, _, .nil, i => by unfold parseAllLoop; exact List.Forall₂.nil
  | _, _, .cons h hs, i => by
    unfold parseAllLoop
    refine (shift_earleyParse hc ho hl hl' fuel text text' k (.cons h hs) false i _ i).bind (fun a b hab => ?_)
    have := shift_allLoop hs (i+1)
    rw [show i + 1 + k = i + k + 1 by omega] at this
    refine this.bind (fun r r' hr => ?_)
    rw [hab.1]
    split
    · exact List.Forall₂.cons hab hr
    · exact hr

theorem shift_anyLoop : ∀ {toks toks' : List Token} (_ : List.Forall₂ (w.AlikeTokens g R) toks toks') (i : Nat)
    {p p' : Option Parsed}, toks ≠ [] ∨ Option.Rel SameTrees p p' →
    (parseAnyLoop w g fuel text l starts toks (i + k) p).Both (Option.Rel SameTrees)
      (parseAnyLoop (w.later k) g fuel text' l' starts toks' i p')
  | _, _, .nil, i, p, p', hp => by
    unfold parseAnyLoop
    exact hp.resolve_left (by simp)
  | _, _, .cons h hs, i, p, p', _ => by
    unfold parseAnyLoop
    refine (shift_earleyParse hc ho hl hl' fuel text text' k (.cons h hs) true i _ i).bind (fun a b hab => ?_)
    rw [hab.1]
    split
    · exact .some hab
    · have := shift_anyLoop hs (i+1) (p := some a) (p' := some b) (.inr (.some hab))
      rw [show i + 1 + k = i + k + 1 by omega] at this
      exact this

theorem shift_maxLoop (pre : List Token) {v v' : List Token} (hv : List.Forall₂ (w.AlikeTokens g R) v v') : ∀ n call i,
    (maxAllLoop w g fuel text (pre ++ v) l starts n (call + k) (pre.length + i)).Both (List.Forall₂ SameTrees)
      (maxAllLoop (w.later k) g fuel text' v' l' starts n call i)
  | 0, _, _ => trivial
  | n+1, call, i => by
    unfold maxAllLoop
    have hlt : pre.length + i < (pre ++ v).length ↔ i < v.length := by
      rw [List.length_append]; omega
    by_cases hi : i < v.length
    · have hi' : i < v'.length := hv.length_eq ▸ hi
      rw [if_pos (hlt.2 hi), if_pos hi']
      have hd : (pre ++ v).drop (pre.length + i) = v.drop i := by
        rw [List.drop_append]
        simp
      rw [hd]
      refine (shift_earleyParse hc ho hl hl' fuel text text' k (List.forall₂_drop i hv) true call _ i).bind (fun a b hab => ?_)
      rw [hab.1]
      split
      · have := shift_maxLoop pre hv n (call+1) (i + maxEnd a.res.finals)
        rw [show call + 1 + k = call + k + 1 by omega, ← Nat.add_assoc] at this
        refine this.bind (fun r r' hr => ?_)
        exact List.Forall₂.cons hab hr
      · have := shift_maxLoop pre hv n (call+1) (i+1)
        rw [show call + 1 + k = call + k + 1 by omega, ← Nat.add_assoc] at this
        exact this
    · have hi' : ¬ i < v'.length := hv.length_eq ▸ hi
      rw [if_neg (fun h => hi (hlt.1 h)), if_neg hi']
      exact List.Forall₂.nil
end

theorem Out.Both.ok {α β : Type} {r : α → β → Prop} {x : Out α} {y : Out β} (h : x.Both r y) {a : α}
    (hx : x = .ok a) : ∃ b, y = .ok b ∧ r a b := by
  subst hx
  cases y <;> first | exact ⟨_, rfl, h⟩ | exact h.elim

/-! ## the loops over the whole text -/

section
variable {w : World} {g : Gram} {R : String → Prop} {starts : List String} {sep : Token}
variable (hc : Closed R ([g.main] ++ g.includes) starts) (ho : w.OrdOK) (hs : w.Separates g R sep)
  {l l1 l2 : Option Grammar} (hl : ∀ x ∈ l, Unused R [x]) (hl1 : ∀ x ∈ l1, Unused R [x]) (hl2 : ∀ x ∈ l2, Unused R [x])
  {toks : List Token} (hwf : (envFor w g l toks starts 0).WF) (hnm : NoEmptyMatch (envFor w g l toks starts 0))
  {fuel : Nat} {text text1 text2 : Bytes} {v v' : List Token} (hvv : List.Forall₂ (w.AlikeTokens g R) v v')
include hc ho hs hl hl1 hl2 hwf hnm hvv

theorem separate_allLoop : ∀ {u u' : List Token} (_ : List.Forall₂ (w.AlikeTokens g R) u u') (i : Nat) {ps : List Parsed},
    parseAllLoop w g fuel text l starts (u ++ sep :: v) i = .ok ps →
    ∃ ps1 ps2, parseAllLoop w g fuel text1 l1 starts u' i = .ok ps1 ∧
      parseAllLoop (w.later (i + u.length + 1)) g fuel text2 l2 starts v' 0 = .ok ps2 ∧
      List.Forall₂ SameTrees ps (ps1 ++ ps2)
  | _, _, .nil, i, ps, h => by
    rw [List.nil_append, parseAllLoop] at h
    obtain ⟨p, h1, h⟩ := Out.bind_eq_ok.1 h
    obtain ⟨rest, h2, h⟩ := Out.bind_eq_ok.1 h
    have := separate_none hc ho hs hl hwf hnm h1
    simp only [this, ne_eq, not_true, if_false, Out.pure_eq, Out.ok.injEq] at h
    subst h
    have hb := shift_allLoop hc ho hl hl2 fuel text text2 (i+1) hvv 0
    rw [Nat.zero_add] at hb
    obtain ⟨ps2, e2, hr⟩ := hb.ok h2
    exact ⟨[], ps2, rfl, e2, hr⟩
  | t :: u, _, .cons ha has, i, ps, h => by
    rw [List.cons_append, parseAllLoop] at h
    obtain ⟨p, h1, h⟩ := Out.bind_eq_ok.1 h
    obtain ⟨rest, h2, h⟩ := Out.bind_eq_ok.1 h
    obtain ⟨p', e1, hp, -⟩ := separate_earleyParse (u := t :: u) (text' := text1) (off' := i) hc ho hs hl hl1
      (wf_envFor hwf _ _) (by simp) (.cons ha has) h1
    obtain ⟨ps1, ps2, k1, k2, k3⟩ := separate_allLoop has (i+1) h2
    refine ⟨if p'.res.finals ≠ [] then p' :: ps1 else ps1, ps2, ?_, ?_, ?_⟩
    · rw [parseAllLoop, e1]
      simp only [Out.bind_ok, k1]
      rfl
    · rw [show i + (t :: u).length + 1 = i + 1 + u.length + 1 by simp; omega]
      exact k2
    · simp only [Out.pure_eq, Out.ok.injEq] at h
      rw [← h, hp.1]
      split
      · exact .cons hp k3
      · exact k3

theorem separate_maxLoop {u u' : List Token} (huu : List.Forall₂ (w.AlikeTokens g R) u u') : ∀ (n call i : Nat) {ps : List Parsed}, i ≤ u.length →
    maxAllLoop w g fuel text (u ++ sep :: v) l starts n call i = .ok ps →
    ∃ k ps1 ps2, maxAllLoop w g fuel text1 u' l1 starts n call i = .ok ps1 ∧
      maxAllLoop (w.later k) g fuel text2 v' l2 starts n 0 0 = .ok ps2 ∧
      List.Forall₂ SameTrees ps (ps1 ++ ps2)
  | 0, _, _, _, _, h => by simp [maxAllLoop] at h
  | n+1, call, i, ps, hi, h => by
    rw [maxAllLoop, if_pos (by simp; omega)] at h
    obtain ⟨p, h1, h⟩ := Out.bind_eq_ok.1 h
    rcases Nat.lt_or_eq_of_le hi with hlt | rfl
    · rw [List.drop_append_of_le_length hi] at h1
      obtain ⟨p', e1, hp, hle⟩ := separate_earleyParse (u := u.drop i) (text' := text1) (off' := i) hc ho hs hl hl1
        (wf_envFor hwf _ _) (by rw [ne_eq, List.drop_eq_nil_iff]; omega) (List.forall₂_drop i huu) h1
      split at h
      · rename_i hf
        obtain ⟨rest, h2, h⟩ := Out.bind_eq_ok.1 h
        simp only [Out.pure_eq, Out.ok.injEq] at h
        subst h
        have hend : i + maxEnd p.res.finals ≤ u.length := by
          obtain ⟨-, -, -, -, -, hpar⟩ := earleyParse_ok h1
          rcases longest_single hpar with h0 | ⟨s, h0⟩
          · exact absurd h0 hf
          · rw [h0, maxEnd_single]
            have := hle s (by rw [h0]; simp)
            rw [List.length_drop] at this
            omega
        obtain ⟨k, ps1, ps2, k1, k2, k3⟩ := separate_maxLoop huu n (call+1) _ hend h2
        refine ⟨k, p' :: ps1, ps2, ?_, maxAllLoop_mono (Nat.le_refl _) (Nat.le_succ n) _ _ k2, .cons hp k3⟩
        rw [maxAllLoop, if_pos (huu.length_eq ▸ hlt), e1]
        simp only [Out.bind_ok, hp.1, if_pos hf, k1]
        rfl
      · rename_i hf
        obtain ⟨k, ps1, ps2, k1, k2, k3⟩ := separate_maxLoop huu n (call+1) (i+1) (by omega) h
        refine ⟨k, ps1, ps2, ?_, maxAllLoop_mono (Nat.le_refl _) (Nat.le_succ n) _ _ k2, k3⟩
        rw [maxAllLoop, if_pos (huu.length_eq ▸ hlt), e1]
        simp only [Out.bind_ok, hp.1, if_neg hf, k1]
    · rw [List.drop_left] at h1
      have hno := separate_none hc ho hs hl hwf hnm h1
      simp only [hno, ne_eq, not_true, if_false] at h
      have hb := shift_maxLoop hc ho hl hl2 fuel text text2 (call+1) (u ++ [sep]) hvv n 0 0
      rw [Nat.zero_add, Nat.add_zero, List.append_assoc, List.length_append] at hb
      obtain ⟨ps2, e2, hr⟩ := hb.ok h
      refine ⟨call+1, [], ps2, ?_, maxAllLoop_mono (Nat.le_refl _) (Nat.le_succ n) _ _ e2, hr⟩
      rw [maxAllLoop, if_neg (by rw [huu.length_eq]; omega)]

theorem separate_anyLoop (hv : v ≠ []) : ∀ {u u' : List Token} (_ : List.Forall₂ (w.AlikeTokens g R) u u') (i : Nat) {p p1 : Option Parsed} {q : Option Parsed},
    parseAnyLoop w g fuel text l starts (u ++ sep :: v) i p = .ok q →
    (∃ a b, q = some a ∧ SameTrees a b ∧ parseAnyLoop w g fuel text1 l1 starts u' i p1 = .ok (some b)) ∨
    ∃ q1 q2, parseAnyLoop w g fuel text1 l1 starts u' i p1 = .ok q1 ∧ (u = [] ∨ ∃ b, q1 = some b ∧ b.res.finals = []) ∧
      parseAnyLoop (w.later (i + u.length + 1)) g fuel text2 l2 starts v' 0 none = .ok q2 ∧
      Option.Rel SameTrees q q2
  | _, _, .nil, i, p, p1, q, h => by
    rw [List.nil_append, parseAnyLoop] at h
    obtain ⟨a, h1, h⟩ := Out.bind_eq_ok.1 h
    have := separate_none hc ho hs hl hwf hnm h1
    simp only [this, ne_eq, not_true, if_false] at h
    have hb := shift_anyLoop hc ho hl hl2 fuel text text2 (i+1) hvv 0 (p := some a) (p' := none) (.inl hv)
    rw [Nat.zero_add] at hb
    obtain ⟨q2, e2, hr⟩ := hb.ok h
    exact .inr ⟨p1, q2, rfl, .inl rfl, e2, hr⟩
  | t :: u, _, .cons ha has, i, p, p1, q, h => by
    rw [List.cons_append, parseAnyLoop] at h
    obtain ⟨a, h1, h⟩ := Out.bind_eq_ok.1 h
    obtain ⟨a', e1, hp, -⟩ := separate_earleyParse (u := t :: u) (text' := text1) (off' := i) hc ho hs hl hl1
      (wf_envFor hwf _ _) (by simp) (.cons ha has) h1
    rw [parseAnyLoop, e1]
    simp only [Out.bind_ok, hp.1]
    split at h
    · rename_i hf
      rw [if_pos hf]
      simp only [Out.pure_eq, Out.ok.injEq] at h
      exact .inl ⟨a, a', h.symm, hp, rfl⟩
    · rename_i hf
      rw [if_neg hf, show i + (t :: u).length + 1 = i + 1 + u.length + 1 by simp; omega]
      rcases separate_anyLoop hv has (i+1) (p1 := some a') h with h' | ⟨q1, q2, k1, k2, k3, k4⟩
      · exact .inl h'
      · refine .inr ⟨q1, q2, k1, .inr ?_, k3, k4⟩
        rcases k2 with rfl | k2
        · cases has
          rw [parseAnyLoop] at k1
          simp only [Out.ok.injEq] at k1
          exact ⟨a', k1.symm, by rw [hp.1]; exact Classical.not_not.1 hf⟩
        · exact k2
end

/-! ## trees -/

theorem sameTrees_flat (fuel : Nat) (flag : Bool) : ∀ {ps ps' : List Parsed}, List.Forall₂ SameTrees ps ps' →
    outFlat (treesOf fuel flag) ps' = outFlat (treesOf fuel flag) ps
  | _, _, .nil => rfl
  | _, _, .cons h hs => by simp only [outFlat, h.2, sameTrees_flat fuel flag hs]

theorem outFlat_append {α β : Type} {f : α → Out (List β)} : ∀ {l m : List α} {x : List β},
    outFlat f (l ++ m) = .ok x → ∃ y z, outFlat f l = .ok y ∧ outFlat f m = .ok z ∧ x = y ++ z
  | [], m, x, h => ⟨[], x, rfl, h, rfl⟩
  | a :: l, m, x, h => by
    rw [List.cons_append, outFlat] at h
    obtain ⟨y, h1, h⟩ := Out.bind_eq_ok.1 h
    obtain ⟨z, h2, h⟩ := Out.bind_eq_ok.1 h
    simp only [Out.pure_eq, Out.ok.injEq] at h
    obtain ⟨y', z', k1, k2, rfl⟩ := outFlat_append h2
    refine ⟨y ++ y', z', ?_, k2, by rw [← h, List.append_assoc]⟩
    rw [outFlat, h1, Out.bind_ok, k1]
    rfl

theorem treesOf_none {fuel f : Nat} {flag : Bool} {p : Parsed} (hp : parse p.env flag f = some p.res)
    (hf : p.res.finals = []) : treesOf fuel flag p = .ok [] := by
  unfold treesOf
  split
  · rfl
  · rename_i hst
    have hfin := (parse_chart hst hp).2
    rw [hf] at hfin
    have : finalPtrs flag p.res.chart = [] := by
      have := finalPtrs_get flag p.res.chart
      rw [← hfin] at this
      simpa using this
    rw [this]
    rfl

/-- Let a text consist of the tokens of a first part, a token that no reachable rule can read, and the tokens
of a second part, up to what the reachable literals do not see (such as the places of the tokens); let the names of the reachable rules not be those of local rules, and let no start rule
match nothing. What the calls return for the whole text they return for the parts: `Parse` for the first one,
`ParseAny` for the first one or else for the second one, `ExtractMaxAll` and `ExtractAll` for both, one after
the other. (The map orders met in the second part are those met from some parse of the whole text on.) -/
theorem C98_calls {w : World} {g : Gram} {R : String → Prop} {starts : List String} {sep : Token}
    (hc : Closed R ([g.main] ++ g.includes) starts) (ho : w.OrdOK) (hs : w.Separates g R sep)
    {context context1 context2 : String} {text text1 text2 : Bytes} {u u' v v' : List Token} {l l1 l2 : Option Grammar}
    (hp : process w g context text = .ok (u ++ sep :: v, l)) (hp1 : process w g context1 text1 = .ok (u', l1))
    (hp2 : process w g context2 text2 = .ok (v', l2))
    (huu : List.Forall₂ (w.AlikeTokens g R) u u') (hvv : List.Forall₂ (w.AlikeTokens g R) v v')
    (hl : ∀ x ∈ l, Unused R [x]) (hl1 : ∀ x ∈ l1, Unused R [x]) (hl2 : ∀ x ∈ l2, Unused R [x])
    (hwf : (envFor w g l (u ++ sep :: v) starts 0).WF) (hnm : NoEmptyMatch (envFor w g l (u ++ sep :: v) starts 0))
    {fuel : Nat} {ns : List Node} :
    (apiParse w g fuel context text starts = .ok ns → apiParse w g fuel context1 text1 starts = .ok ns) ∧
    (apiParseAny w g fuel context text starts = .ok ns →
      apiParseAny w g fuel context1 text1 starts = .ok ns ∨
      apiParseAny w g fuel context1 text1 starts = .ok [] ∧
        ∃ k, apiParseAny (w.later k) g fuel context2 text2 starts = .ok ns) ∧
    (apiExtractMaxAll w g fuel context text starts = .ok ns → ∃ k ns1 ns2,
      apiExtractMaxAll w g fuel context1 text1 starts = .ok ns1 ∧
      apiExtractMaxAll (w.later k) g fuel context2 text2 starts = .ok ns2 ∧ ns = ns1 ++ ns2) ∧
    (apiExtractAll w g fuel context text starts = .ok ns → ∃ k ns1 ns2,
      apiExtractAll w g fuel context1 text1 starts = .ok ns1 ∧
      apiExtractAll (w.later k) g fuel context2 text2 starts = .ok ns2 ∧ ns = ns1 ++ ns2) := by
  have hp2' : ∀ k, process (w.later k) g context2 text2 = .ok (v', l2) := fun _ => hp2
  have hu' : u' ≠ [] := (process_ok hp1).1
  have hu : u ≠ [] := by
    rintro rfl
    exact hu' (List.forall₂_nil_left_iff.1 huu)
  have hv : v ≠ [] := by
    rintro rfl
    exact (process_ok hp2).1 (List.forall₂_nil_left_iff.1 hvv)
  refine ⟨fun h => ?_, fun h => ?_, fun h => ?_, fun h => ?_⟩
  · unfold apiParse extract earleyParseCtx at h ⊢
    rw [hp] at h
    rw [hp1]
    obtain ⟨ps, h1, h⟩ := Out.bind_eq_ok.1 h
    obtain ⟨p, h2, h1⟩ := Out.bind_eq_ok.1 h1
    simp only [Out.bind_ok] at h2
    obtain ⟨p', e, hst, -⟩ := separate_earleyParse (text' := text1) (off' := 0) hc ho hs hl hl1 hwf hu huu h2
    simp only [Out.pure_eq, Out.ok.injEq] at h1
    subst h1
    simp only [Out.bind_ok, e, Out.pure_eq]
    rw [sameTrees_flat fuel true (.cons hst .nil)]
    exact h
  · unfold apiParseAny extract earleyParseAny at h ⊢
    rw [hp] at h
    rw [hp1]
    obtain ⟨ps, h1, h⟩ := Out.bind_eq_ok.1 h
    obtain ⟨q, h2, h1⟩ := Out.bind_eq_ok.1 h1
    simp only [Out.bind_ok] at h2
    rcases separate_anyLoop (text1 := text1) (text2 := text2) (p1 := none) hc ho hs hl hl1 hl2 hwf hnm hvv hv huu 0 h2 with
      ⟨a, b, rfl, hab, e⟩ | ⟨q1, q2, k1, k2, k3, k4⟩
    · simp only [Out.pure_eq, Out.ok.injEq] at h1
      subst h1
      refine .inl ?_
      simp only [Out.bind_ok, e, Out.pure_eq]
      rw [sameTrees_flat fuel true (.cons hab .nil)]
      exact h
    · obtain ⟨b, rfl, hb⟩ := k2.resolve_left hu
      refine .inr ⟨?_, 0 + u.length + 1, ?_⟩
      · simp only [Out.bind_ok, k1, Out.pure_eq]
        have hpar : ∃ f, parse b.env true f = some b.res := by
          rcases parseAnyLoop_spec (tokens := u') u' 0 none _ rfl k1 with ⟨h0, -⟩ | ⟨b', e, -, -, -, -, hb', -⟩
          · exact absurd h0 hu'
          · rw [← Option.some.inj e] at hb'
            exact ⟨_, hb'⟩
        obtain ⟨f, hf⟩ := hpar
        simp only [outFlat, treesOf_none hf hb, Out.bind_ok]
        rfl
      · rw [hp2']
        simp only [Out.bind_ok, k3]
        cases k4 with
        | none => simp at h1
        | some hab =>
          simp only [Out.pure_eq, Out.ok.injEq] at h1
          subst h1
          simp only [Out.bind_ok, Out.pure_eq]
          rw [sameTrees_flat fuel true (.cons hab .nil)]
          exact h
  · unfold apiExtractMaxAll extract earleyParseMaxAll at h ⊢
    rw [hp] at h
    rw [hp1]
    obtain ⟨ps, h1, h⟩ := Out.bind_eq_ok.1 h
    simp only [Out.bind_ok] at h1
    obtain ⟨k, ps1, ps2, k1, k2, k3⟩ := separate_maxLoop (text1 := text1) (text2 := text2) hc ho hs hl hl1 hl2 hwf hnm hvv huu
      fuel 0 0 (Nat.zero_le _) h1
    rw [← sameTrees_flat fuel true k3] at h
    obtain ⟨ns1, ns2, e1, e2, e3⟩ := outFlat_append h
    refine ⟨k, ns1, ns2, ?_, ?_, e3⟩
    · simp only [Out.bind_ok, k1, e1]
    · rw [hp2']
      simp only [Out.bind_ok, k2, e2]
  · unfold apiExtractAll extract earleyParseAll at h ⊢
    rw [hp] at h
    rw [hp1]
    obtain ⟨ps, h1, h⟩ := Out.bind_eq_ok.1 h
    simp only [Out.bind_ok] at h1
    obtain ⟨ps1, ps2, k1, k2, k3⟩ := separate_allLoop (text1 := text1) (text2 := text2) hc ho hs hl hl1 hl2 hwf hnm hvv huu
      0 h1
    rw [← sameTrees_flat fuel false k3] at h
    obtain ⟨ns1, ns2, e1, e2, e3⟩ := outFlat_append h
    refine ⟨0 + u.length + 1, ns1, ns2, ?_, ?_, e3⟩
    · simp only [Out.bind_ok, k1, e1]
    · rw [hp2']
      simp only [Out.bind_ok, k2, e2]

/-! ## non-vacuity, and why `(any)` is excluded -/

/-- `<s> = "a" "b" | "a"` -/
def gAB : Gram :=
  { main := { name := "g", rules := [rl "s" [[tt "a", tt "b"], [tt "a"]]] }, includes := [] }

theorem gAB_terms {g : Grammar} {r : Rule} {b : RuleBody} {t : Term} (hg : g ∈ [gAB.main] ++ gAB.includes)
    (hr : g.rules.lookup "s" = some r) (hb : b ∈ r.bodies) (ht : t ∈ b.terms) : t = tt "a" ∨ t = tt "b" := by
  simp [gAB] at hg
  subst hg
  simp [List.lookup] at hr
  subst hr
  simp [Rule.bodies] at hb
  rcases hb with rfl | rfl <;> simp at ht <;> tauto

/-- what is recognised in a text -/
def foundIn (g : Gram) (text : Bytes) : Out (List (List String)) :=
  (apiExtractMaxAll wBytes g 40 "" text ["s"]).bind (fun ns => .ok (ns.map (·.shape.labels)))

example : (∃ ns k ns1 ns2, apiExtractMaxAll wBytes gAB 40 "" [97, 98, 33, 97] ["s"] = .ok ns ∧
      apiExtractMaxAll wBytes gAB 40 "" [97, 98] ["s"] = .ok ns1 ∧
      apiExtractMaxAll (wBytes.later k) gAB 40 "" [97] ["s"] = .ok ns2 ∧ ns = ns1 ++ ns2) ∧
    foundIn gAB [97, 98, 33, 97] = .ok [["ɣ", "s", "a", "b"], ["ɣ", "s", "a"]] := by
  have hf : foundIn gAB [97, 98, 33, 97] = .ok [["ɣ", "s", "a", "b"], ["ɣ", "s", "a"]] := by decide +kernel
  refine ⟨?_, hf⟩
  cases hns : apiExtractMaxAll wBytes gAB 40 "" [97, 98, 33, 97] ["s"] with
  | ok ns =>
    have hcl : Closed (· = "s") ([gAB.main] ++ gAB.includes) ["s"] :=
      { roots := by simp
        closed := by
          rintro A rfl g hg r hr b hb t ht
          rcases gAB_terms hg hr hb ht with rfl | rfl <;> simp [Term.within] }
    have hsep : wBytes.Separates gAB (· = "s")
        { text := "!", type := .punct, startByte := 2, endByte := 3, i := 2 } :=
      { literals := by
          rintro t ⟨-, A, g, r, b, rfl, hg, hr, hb, ht⟩
          rcases gAB_terms hg hr hb ht with rfl | rfl <;> decide +kernel
        noAny := by
          rintro A rfl g hg r hr b hb t ht
          rcases gAB_terms hg hr hb ht with rfl | rfl <;> simp [tt] }
    obtain ⟨l, hp, hl, hwf, hne⟩ : ∃ l, process wBytes gAB "" [97, 98, 33, 97] = .ok
        ([{ text := "a", startByte := 0, endByte := 1, i := 0 }, { text := "b", startByte := 1, endByte := 2, i := 1 }] ++
          { text := "!", type := .punct, startByte := 2, endByte := 3, i := 2 } ::
            [{ text := "a", startByte := 3, endByte := 4, i := 3 }], l) ∧
        (∀ x ∈ l, Unused (· = "s") [x]) ∧ (envFor wBytes gAB l [] ["s"] 0).checkWF = true ∧
        (envFor wBytes gAB l [] ["s"] 0).checkNoEmpty = true :=
      ⟨_, rfl, by rintro x hx; cases hx; intro y hy A hA; cases List.mem_singleton.1 hy; subst hA; decide +kernel,
        by decide +kernel, by decide +kernel⟩
    obtain ⟨l1, hp1, hl1⟩ : ∃ l, process wBytes gAB "" [97, 98] = .ok
        ([{ text := "a", startByte := 0, endByte := 1, i := 0 }, { text := "b", startByte := 1, endByte := 2, i := 1 }], l) ∧
        ∀ x ∈ l, Unused (· = "s") [x] :=
      ⟨_, rfl, by rintro x hx; cases hx; intro y hy A hA; cases List.mem_singleton.1 hy; subst hA; decide +kernel⟩
    obtain ⟨l2, hp2, hl2⟩ : ∃ l, process wBytes gAB "" [97] = .ok
        ([{ text := "a", startByte := 0, endByte := 1, i := 0 }], l) ∧ ∀ x ∈ l, Unused (· = "s") [x] :=
      ⟨_, rfl, by rintro x hx; cases hx; intro y hy A hA; cases List.mem_singleton.1 hy; subst hA; decide +kernel⟩
    obtain ⟨k, ns1, ns2, h1, h2, h3⟩ := (C98_calls hcl wBytes_ord hsep hp hp1 hp2
      (.cons (C97_fields rfl rfl rfl) (.cons (C97_fields rfl rfl rfl) .nil)) (.cons (C97_fields rfl rfl rfl) .nil) hl hl1 hl2
      (wf_envFor (Env.checkWF_wf hwf) _ _)
      (show NoEmpty (envFor wBytes gAB l _ ["s"] 0) from Env.checkNoEmpty_ok hne).noEmptyMatch).2.2.1 hns
    exact ⟨ns, k, ns1, ns2, rfl, h1, h2, h3⟩
  | err => rw [foundIn, hns] at hf; simp [Out.bind] at hf
  | panic => rw [foundIn, hns] at hf; simp [Out.bind] at hf
  | div => rw [foundIn, hns] at hf; simp [Out.bind] at hf

/-- With an `(any)` the text `a!a` is one match, not two. -/
theorem C98_any : foundIn { main := { name := "g", rules := [rl "s" [[tt "a", ⟨"any", .any, .nil⟩], [tt "a"]]] }, includes := [] }
    [97, 33, 97] = .ok [["ɣ", "s", "a", "any"]] := by decide +kernel

end Fmr
