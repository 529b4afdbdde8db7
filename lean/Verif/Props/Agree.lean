import Verif.Props.Greedy
import Verif.Props.Extract
import Verif.Props.Separate
import Mathlib.Data.List.Forall2

/-!
# C111: the four calls agree
-/

namespace Fmr

/-- Map iteration is in the same order in all parses. -/
def World.OneOrder (w : World) : Prop := ∀ c c', w.ord c = w.ord c'

/-- an exhaustive parse `q` of what `p` is a parse of -/
structure Twin (p q : Parsed) : Prop where
  env : q.env = p.env
  chart : q.res.chart = p.res.chart
  off : q.off = p.off
  nothing : q.res.finals = [] ↔ p.res.finals = []

section
variable {w : World} {g : Gram} {fuel : Nat} {text : Bytes} {l : Option Grammar} {starts : List String}

theorem twin_of (ho : w.OneOrder) {toks : List Token} {c c' off : Nat} {p q : Parsed}
    (hp : earleyParse w g fuel true text toks l starts c off = .ok p)
    (hq : earleyParse w g fuel false text toks l starts c' off = .ok q) : Twin p q := by
  obtain ⟨hs, _, _, ho1, he1, hr1⟩ := earleyParse_ok hp
  obtain ⟨_, _, _, ho2, he2, hr2⟩ := earleyParse_ok hq
  have he : envFor w g l toks starts c' = envFor w g l toks starts c := by unfold envFor; rw [ho c' c]
  rw [he] at he2 hr2
  have hs' : ¬ (envFor w g l toks starts c).starts = [] := hs
  unfold parse at hr1 hr2
  rw [if_neg hs'] at hr1 hr2
  split at hr1
  · cases hr1
  · rename_i chart hc
    rw [hc] at hr2
    have e1 := Option.some.inj hr1
    have e2 := Option.some.inj hr2
    refine ⟨he2.trans he1.symm, by rw [← e1, ← e2], ho2.trans ho1.symm, ?_⟩
    rw [← e1, ← e2]
    simp [finalsOf]

/-! ## the loops -/

theorem any_all (ho : w.OneOrder) : ∀ (toks : List Token) (i : Nat) (p0 r : Option Parsed) (qs : List Parsed), toks ≠ [] →
    parseAnyLoop w g fuel text l starts toks i p0 = .ok r → parseAllLoop w g fuel text l starts toks i = .ok qs →
    ∃ p, r = some p ∧ ((p.res.finals = [] ∧ qs = []) ∨ (p.res.finals ≠ [] ∧ ∃ q rest, qs = q :: rest ∧ Twin p q))
  | [], _, _, _, _, h, _, _ => absurd rfl h
  | t :: ts, i, p0, r, qs, _, ha, hl => by
    unfold parseAnyLoop at ha
    unfold parseAllLoop at hl
    obtain ⟨p, hp, ha⟩ := Out.bind_eq_ok.1 ha
    obtain ⟨q, hq, hl⟩ := Out.bind_eq_ok.1 hl
    obtain ⟨rest, hr, hl⟩ := Out.bind_eq_ok.1 hl
    cases hl
    have ht := twin_of ho hp hq
    split at ha
    · rename_i hf
      cases ha
      exact ⟨p, rfl, .inr ⟨hf, q, rest, by rw [if_pos (fun e => hf (ht.nothing.1 e))], ht⟩⟩
    · rename_i hf
      have hf := not_not.1 hf
      have hqf : ¬ q.res.finals ≠ [] := not_not.2 (ht.nothing.2 hf)
      rw [if_neg hqf]
      by_cases he : ts = []
      · subst he
        unfold parseAnyLoop at ha
        unfold parseAllLoop at hr
        cases ha
        cases hr
        exact ⟨p, rfl, .inl ⟨hf, rfl⟩⟩
      · exact any_all ho ts (i+1) _ _ _ he ha hr

theorem all_drop : ∀ (m : Nat) (toks : List Token) (i : Nat) (qs : List Parsed),
    parseAllLoop w g fuel text l starts toks i = .ok qs →
    ∃ qs', parseAllLoop w g fuel text l starts (toks.drop m) (i + m) = .ok qs' ∧ qs' <:+ qs
  | 0, toks, i, qs, h => ⟨qs, h, List.suffix_refl _⟩
  | m + 1, [], i, qs, h => by
    unfold parseAllLoop at h
    cases h
    exact ⟨[], by simp [parseAllLoop], List.suffix_refl _⟩
  | m + 1, t :: ts, i, qs, h => by
    unfold parseAllLoop at h
    obtain ⟨q, hq, h⟩ := Out.bind_eq_ok.1 h
    obtain ⟨rest, hr, h⟩ := Out.bind_eq_ok.1 h
    cases h
    obtain ⟨qs', h1, h2⟩ := all_drop m ts (i+1) rest hr
    refine ⟨qs', ?_, ?_⟩
    · have : i + (m + 1) = i + 1 + m := by omega
      rw [List.drop_succ_cons, this]
      exact h1
    · split
      · exact h2.trans (List.suffix_cons _ _)
      · exact h2

theorem sub_suffix {ps qs qs' : List Parsed} (h : List.SublistForall₂ Twin ps qs') (hs : qs' <:+ qs) : List.SublistForall₂ Twin ps qs := by
  obtain ⟨a, rfl⟩ := hs
  induction a with
  | nil => exact h
  | cons x a ih => exact .cons_right ih

theorem maxAll_all (ho : w.OneOrder) (toks : List Token) : ∀ (n c i : Nat) (ps qs : List Parsed),
    maxAllLoop w g fuel text toks l starts n c i = .ok ps → parseAllLoop w g fuel text l starts (toks.drop i) i = .ok qs →
    List.SublistForall₂ Twin ps qs
  | 0, _, _, _, _, h, _ => by simp [maxAllLoop] at h
  | n+1, c, i, ps, qs, h, hl => by
    unfold maxAllLoop at h
    split at h
    · rename_i hi
      obtain ⟨p, hp, h⟩ := Out.bind_eq_ok.1 h
      obtain ⟨t, ts, hd⟩ : ∃ t ts, toks.drop i = t :: ts := by
        cases hd : toks.drop i with
        | nil => rw [List.drop_eq_nil_iff] at hd; omega
        | cons t ts => exact ⟨t, ts, rfl⟩
      have hts : ts = toks.drop (i+1) := by rw [← List.tail_drop, hd]; rfl
      rw [hd] at hl hp
      unfold parseAllLoop at hl
      obtain ⟨q, hq, hl⟩ := Out.bind_eq_ok.1 hl
      obtain ⟨rest, hr, hl⟩ := Out.bind_eq_ok.1 hl
      cases hl
      have ht := twin_of ho hp hq
      split at h
      · rename_i hf
        obtain ⟨ps', hps, h⟩ := Out.bind_eq_ok.1 h
        cases h
        rw [if_pos (fun e => hf (ht.nothing.1 e))]
        refine .cons ht ?_
        cases hm : maxEnd p.res.finals with
        | zero =>
          rw [hm, Nat.add_zero] at hps
          refine absurd hps (maxAll_stuck hi ?_ n _ _)
          intro c' r hr
          obtain ⟨_, _, _, _, _, hpar⟩ := earleyParse_ok hp
          have e : envFor w g l (toks.drop i) starts c' = envFor w g l (t :: ts) starts c := by
            unfold envFor; rw [ho c' c, hd]
          rw [e, hpar] at hr
          cases hr
          exact ⟨hf, hm⟩
        | succ m =>
          rw [hm] at hps
          obtain ⟨qs', h1, h2⟩ := all_drop m ts (i+1) rest hr
          rw [hts, List.drop_drop] at h1
          have e : i + (m + 1) = i + 1 + m := by omega
          rw [e] at hps
          exact sub_suffix (maxAll_all ho toks n _ _ _ _ hps h1) h2
      · rename_i hf
        have hf := not_not.1 hf
        have hqf : ¬ q.res.finals ≠ [] := not_not.2 (ht.nothing.2 hf)
        rw [if_neg hqf]
        rw [hts] at hr
        exact maxAll_all ho toks n _ _ _ _ h hr
    · cases h
      exact .nil

/-- the first match of `EarleyParseMaxAll` is that of `EarleyParseAny` -/
theorem any_maxAll (toks : List Token) : ∀ (n i : Nat) (p0 r : Option Parsed) (ps : List Parsed), i < toks.length →
    parseAnyLoop w g fuel text l starts (toks.drop i) i p0 = .ok r → maxAllLoop w g fuel text toks l starts n i i = .ok ps →
    ∃ p, r = some p ∧ ((p.res.finals = [] ∧ ps = []) ∨ (p.res.finals ≠ [] ∧ ∃ rest, ps = p :: rest))
  | 0, _, _, _, _, _, _, h => by simp [maxAllLoop] at h
  | n+1, i, p0, r, ps, hi, ha, h => by
    unfold maxAllLoop at h
    rw [if_pos hi] at h
    obtain ⟨p, hp, h⟩ := Out.bind_eq_ok.1 h
    obtain ⟨t, ts, hd⟩ : ∃ t ts, toks.drop i = t :: ts := by
      cases hd : toks.drop i with
      | nil => rw [List.drop_eq_nil_iff] at hd; omega
      | cons t ts => exact ⟨t, ts, rfl⟩
    have hts : ts = toks.drop (i+1) := by rw [← List.tail_drop, hd]; rfl
    rw [hd] at hp ha
    unfold parseAnyLoop at ha
    rw [hp] at ha
    simp only [Out.bind_ok] at ha
    split at h
    · rename_i hf
      rw [if_pos hf] at ha
      obtain ⟨rest, _, h⟩ := Out.bind_eq_ok.1 h
      cases h
      cases ha
      exact ⟨p, rfl, .inr ⟨hf, rest, rfl⟩⟩
    · rename_i hf
      rw [if_neg hf] at ha
      by_cases hl : i + 1 < toks.length
      · rw [hts] at ha
        exact any_maxAll toks n (i+1) _ _ _ hl ha h
      · have e : ts = [] := by rw [hts, List.drop_eq_nil_iff]; omega
        subst e
        unfold parseAnyLoop at ha
        cases ha
        cases n with
        | zero => simp [maxAllLoop] at h
        | succ n =>
          unfold maxAllLoop at h
          rw [if_neg hl] at h
          cases h
          exact ⟨p, rfl, .inl ⟨not_not.1 hf, rfl⟩⟩

end

/-! ## trees -/

theorem outFlat_take {α β : Type} {f : α → Out (List β)} {l : List α} {x y : List β} (k : Nat) (hx : outFlat f (l.take k) = .ok x)
    (hy : outFlat f l = .ok y) : x <+: y := by
  induction l generalizing k x y with
  | nil => simp only [List.take_nil] at hx; rw [hx] at hy; cases hy; exact List.prefix_refl _
  | cons a l ih =>
    cases k with
    | zero => simp only [List.take_zero, outFlat] at hx; cases hx; exact List.nil_prefix
    | succ k =>
      rw [List.take_succ_cons] at hx
      unfold outFlat at hx hy
      obtain ⟨a1, h1, hx⟩ := Out.bind_eq_ok.1 hx
      obtain ⟨b1, h2, hx⟩ := Out.bind_eq_ok.1 hx
      obtain ⟨a2, h3, hy⟩ := Out.bind_eq_ok.1 hy
      obtain ⟨b2, h4, hy⟩ := Out.bind_eq_ok.1 hy
      rw [h1] at h3
      cases hx; cases hy; cases h3
      exact List.prefix_append_right_inj _ |>.2 (ih k h2 h4)

theorem twin_trees {fuel : Nat} {p q : Parsed} (h : Twin p q) {x y : List Node} (hx : treesOf fuel true p = .ok x)
    (hy : treesOf fuel false q = .ok y) : x <+: y := by
  unfold treesOf at hx hy
  rw [h.env, h.chart] at hy
  split at hx
  · cases hx; exact List.nil_prefix
  · rename_i hs
    rw [if_neg hs] at hy
    exact outFlat_take 1 hx hy

theorem twins_trees {fuel : Nat} {ps qs : List Parsed} (h : List.SublistForall₂ Twin ps qs) : ∀ {x y : List Node},
    outFlat (treesOf fuel true) ps = .ok x → outFlat (treesOf fuel false) qs = .ok y → List.Sublist x y := by
  induction h with
  | nil => intro x y hx _; cases hx; exact List.nil_sublist _
  | cons ht _ ih =>
    intro x y hx hy
    unfold outFlat at hx hy
    obtain ⟨a1, h1, hx⟩ := Out.bind_eq_ok.1 hx
    obtain ⟨b1, h2, hx⟩ := Out.bind_eq_ok.1 hx
    obtain ⟨a2, h3, hy⟩ := Out.bind_eq_ok.1 hy
    obtain ⟨b2, h4, hy⟩ := Out.bind_eq_ok.1 hy
    cases hx; cases hy
    exact (twin_trees ht h1 h3).sublist.append (ih h2 h4)
  | cons_right _ ih =>
    intro x y hx hy
    unfold outFlat at hy
    obtain ⟨a2, h3, hy⟩ := Out.bind_eq_ok.1 hy
    obtain ⟨b2, h4, hy⟩ := Out.bind_eq_ok.1 hy
    cases hy
    exact (ih hx h4).trans (List.sublist_append_right _ _)

/-! ## C111 -/

/-- What the calls have to do with one another: what `Parse` finds, `ParseAny` finds; what `ParseAny` finds comes first in what
`ExtractMaxAll` finds; and both are in what `ExtractAll` finds. `a`, `b`, `m` and `e` are what the four calls return. -/
structure Agreeing (a b m e : List Node) : Prop where
  parse : a ≠ [] → b = a
  first : b <+: m
  any : ∀ n ∈ b, n ∈ e
  maxAll : ∀ n ∈ m, n ∈ e

/-- C111 as claimed; the orders of map iteration in the last call are others than those in the first three. -/
def C111_statement : Prop :=
  ∀ (w : World) (ord : Nat → Nat → Nat → Nat → List RuleBody → List RuleBody) (g : Gram) (fuel : Nat) (context : String) (text : Bytes)
    (starts : List String) (a b m e : List Node), w.OrdOK → ({ w with ord := ord } : World).OrdOK →
    apiParse w g fuel context text starts = .ok a → apiParseAny w g fuel context text starts = .ok b →
    apiExtractMaxAll w g fuel context text starts = .ok m → apiExtractAll { w with ord := ord } g fuel context text starts = .ok e →
    Agreeing a b m e

section
variable (w : World) (g : Gram) (fuel : Nat) (context : String) (text : Bytes) (starts : List String) {a b m e : List Node}

/-- What `Parse` finds is what `ParseAny` finds, if `Parse` finds something, for the same orders of map iteration. -/
theorem C111_parse (ha : apiParse w g fuel context text starts = .ok a) (hb : apiParseAny w g fuel context text starts = .ok b)
    (hne : a ≠ []) : b = a := by
  unfold apiParse at ha
  unfold apiParseAny at hb
  obtain ⟨ps, hps, ha⟩ := Out.bind_eq_ok.1 ha
  obtain ⟨ps', hps', hb⟩ := Out.bind_eq_ok.1 hb
  obtain ⟨p, hp, hps⟩ := Out.bind_eq_ok.1 hps
  obtain ⟨r, hr, hps'⟩ := Out.bind_eq_ok.1 hps'
  cases hps
  have hpar := (ctx_parsed hp).2.1
  have hf : p.res.finals ≠ [] := by
    intro hf
    unfold outFlat at ha
    rw [treesOf_none hpar hf] at ha
    simp only [outFlat, Out.bind_ok, Out.pure_eq, List.append_nil, Out.ok.injEq] at ha
    exact hne ha.symm
  unfold earleyParseCtx at hp
  unfold earleyParseAny at hr
  obtain ⟨⟨toks, l⟩, h1, hp⟩ := Out.bind_eq_ok.1 hp
  rw [h1] at hr
  simp only [Out.bind_ok] at hr
  cases toks with
  | nil => exact absurd rfl (process_ok h1).1
  | cons t ts =>
    have hp : earleyParse w g fuel true text (t :: ts) l starts 0 0 = .ok p := hp
    unfold parseAnyLoop at hr
    rw [hp] at hr
    simp only [Out.bind_ok, if_pos hf] at hr
    cases hr
    cases hps'
    rw [ha] at hb
    exact (Out.ok.inj hb).symm

/-- What `ParseAny` finds comes first in what `ExtractMaxAll` finds, for the same orders of map iteration. -/
theorem C111_first (hb : apiParseAny w g fuel context text starts = .ok b) (hm : apiExtractMaxAll w g fuel context text starts = .ok m) :
    b <+: m := by
  unfold apiParseAny at hb
  unfold apiExtractMaxAll at hm
  obtain ⟨ps', hps', hb⟩ := Out.bind_eq_ok.1 hb
  obtain ⟨ps, hps, hm⟩ := Out.bind_eq_ok.1 hm
  obtain ⟨r, hr, hps'⟩ := Out.bind_eq_ok.1 hps'
  unfold earleyParseMaxAll at hps
  have hr0 := hr
  unfold earleyParseAny at hr
  obtain ⟨⟨toks, l⟩, h1, hr⟩ := Out.bind_eq_ok.1 hr
  rw [h1] at hps
  simp only [Out.bind_ok] at hps
  have hpos : 0 < toks.length := List.length_pos_iff.2 (process_ok h1).1
  obtain ⟨p, rfl, h⟩ := any_maxAll toks fuel 0 none r ps hpos hr hps
  obtain ⟨p', e, -, -, hpar, -, -⟩ := C17_leftmost w g fuel context text starts toks l h1 _ hr0
  cases e
  cases hps'
  rcases h with ⟨hf, rfl⟩ | ⟨_, rest, rfl⟩
  · unfold outFlat at hb
    rw [treesOf_none hpar hf] at hb
    simp only [outFlat, Out.bind_ok, Out.pure_eq, List.append_nil, Out.ok.injEq] at hb
    rw [← hb]
    exact List.nil_prefix
  · unfold outFlat at hb hm
    obtain ⟨x, hx, hb⟩ := Out.bind_eq_ok.1 hb
    rw [hx] at hm
    simp only [outFlat, Out.bind_ok, Out.pure_eq, List.append_nil, Out.ok.injEq] at hb hm
    obtain ⟨y, _, hm⟩ := Out.bind_eq_ok.1 hm
    cases hm
    rw [← hb]
    exact List.prefix_append _ _

variable (ho : w.OneOrder)
include ho

/-- What `ParseAny` finds comes first in what `ExtractAll` finds, if map iteration has one order. -/
theorem C111_any_partial (hb : apiParseAny w g fuel context text starts = .ok b)
    (he : apiExtractAll w g fuel context text starts = .ok e) : b <+: e := by
  unfold apiParseAny at hb
  unfold apiExtractAll at he
  obtain ⟨ps', hps', hb⟩ := Out.bind_eq_ok.1 hb
  obtain ⟨ps, hps, he⟩ := Out.bind_eq_ok.1 he
  obtain ⟨r, hr, hps'⟩ := Out.bind_eq_ok.1 hps'
  unfold earleyParseAll at hps
  have hr0 := hr
  unfold earleyParseAny at hr
  obtain ⟨⟨toks, l⟩, h1, hr⟩ := Out.bind_eq_ok.1 hr
  rw [h1] at hps
  simp only [Out.bind_ok] at hps
  obtain ⟨p, rfl, h⟩ := any_all ho toks 0 none r ps (process_ok h1).1 hr hps
  obtain ⟨p', e, -, -, hpar, -, -⟩ := C17_leftmost w g fuel context text starts toks l h1 _ hr0
  cases e
  cases hps'
  rcases h with ⟨hf, rfl⟩ | ⟨_, q, rest, rfl, ht⟩
  · unfold outFlat at hb
    rw [treesOf_none hpar hf] at hb
    simp only [outFlat, Out.bind_ok, Out.pure_eq, List.append_nil, Out.ok.injEq] at hb
    rw [← hb]
    exact List.nil_prefix
  · unfold outFlat at hb he
    obtain ⟨x, hx, hb⟩ := Out.bind_eq_ok.1 hb
    obtain ⟨x', hx', he⟩ := Out.bind_eq_ok.1 he
    obtain ⟨y, _, he⟩ := Out.bind_eq_ok.1 he
    simp only [outFlat, Out.bind_ok, Out.pure_eq, List.append_nil, Out.ok.injEq] at hb
    cases he
    rw [← hb]
    exact (twin_trees ht hx hx').trans (List.prefix_append _ _)

/-- What `ExtractMaxAll` finds is in what `ExtractAll` finds, in the same order, if map iteration has one order. -/
theorem C111_maxAll_partial (hm : apiExtractMaxAll w g fuel context text starts = .ok m)
    (he : apiExtractAll w g fuel context text starts = .ok e) : List.Sublist m e := by
  unfold apiExtractMaxAll at hm
  unfold apiExtractAll at he
  obtain ⟨ps', hps', hm⟩ := Out.bind_eq_ok.1 hm
  obtain ⟨ps, hps, he⟩ := Out.bind_eq_ok.1 he
  unfold earleyParseAll at hps
  unfold earleyParseMaxAll at hps'
  obtain ⟨⟨toks, l⟩, h1, hps'⟩ := Out.bind_eq_ok.1 hps'
  rw [h1] at hps
  simp only [Out.bind_ok] at hps
  exact twins_trees (maxAll_all ho toks fuel 0 0 ps' ps hps' hps) hm he

/-- C111 if map iteration has one order, for all grammars. Missing: other orders, see `C111_false`; for them `C111_matches_partial`. -/
theorem C111_partial (ha : apiParse w g fuel context text starts = .ok a) (hb : apiParseAny w g fuel context text starts = .ok b)
    (hm : apiExtractMaxAll w g fuel context text starts = .ok m) (he : apiExtractAll w g fuel context text starts = .ok e) :
    Agreeing a b m e where
  parse := C111_parse w g fuel context text starts ha hb
  first := C111_first w g fuel context text starts hb hm
  any n hn := (C111_any_partial w g fuel context text starts ho hb he).subset hn
  maxAll n hn := (C111_maxAll_partial w g fuel context text starts ho hm he).subset hn

end

/-! ## other orders -/

theorem parse_flag {env : Env} {fuel : Nat} {r : ParseResult} (hs : env.starts ≠ []) (flag : Bool) (h : parse env flag fuel = some r)
    (flag' : Bool) : parse env flag' fuel = some { chart := r.chart, finals := finalsOf flag' r.chart } := by
  obtain ⟨hc, _⟩ := parse_chart hs h
  unfold parse
  rw [if_neg hs, hc]

/-- two parses of the same tokens, with different orders, the second exhaustive -/
theorem finals_orders {w : World} {ord : Nat → Nat → Nat → Nat → List RuleBody → List RuleBody} {g : Gram} {l : Option Grammar}
    {toks : List Token} {starts : List String} (hs : starts ≠ []) {c c' fuel : Nat} {r r' : ParseResult} {flag : Bool}
    (hwf : (envFor w g l toks starts c).WF) (hns : NullSafe (envFor w g l toks starts c)) (ho : w.OrdOK)
    (ho' : ({ w with ord := ord } : World).OrdOK) (h : parse (envFor w g l toks starts c) flag fuel = some r)
    (h' : parse (envFor { w with ord := ord } g l toks starts c') false fuel = some r') {s : TState} (hf : s ∈ r.finals) :
    s ∈ r'.finals := by
  have e : envFor { w with ord := ord } g l toks starts c' = { envFor w g l toks starts c with ord := ord c' } := rfl
  obtain ⟨_, hfin⟩ := parse_chart (env := envFor w g l toks starts c) hs h
  have h1 := parse_flag (env := envFor w g l toks starts c) hs flag h false
  obtain ⟨_, hfin'⟩ := parse_chart (env := envFor { w with ord := ord } g l toks starts c') hs h'
  have ho2 := ord_envFor ho' g l toks starts c'
  rw [e] at h' ho2
  obtain ⟨hlen, hset⟩ := C06_partial _ (ord c') false fuel fuel _ r' hwf hns (ord_envFor ho g l toks starts c) ho2 h1 h'
  rw [hfin] at hf
  have hm := finalsOf_sub hf
  rw [hfin']
  show s ∈ finalsAll r'.chart
  rw [mem_finalsAll] at hm ⊢
  refine ⟨?_, hm.2⟩
  obtain ⟨col, hc, hx⟩ := hm.1
  obtain ⟨k, hk⟩ := List.getElem?_of_mem hc
  have hlt : k < r'.chart.length := by
    have := (List.getElem?_eq_some_iff.1 hk).1
    have hl : r.chart.length = r'.chart.length := hlen
    omega
  exact ⟨r'.chart[k], List.getElem_mem _, (hset k col _ hk (List.getElem?_eq_getElem hlt) s).1 hx⟩

/-- C111 for the matches, whatever the orders of map iteration, if optional parts are placed safely: all that `EarleyParse`,
`EarleyParseAny` and `EarleyParseMaxAll` find, `EarleyParseAll` finds. (Not for trees: see C92.) -/
theorem C111_matches_partial (w : World) (ord : Nat → Nat → Nat → Nat → List RuleBody → List RuleBody) (g : Gram) (fuel : Nat)
    (context : String) (text : Bytes) (starts : List String) (tokens : List Token) (l : Option Grammar)
    (hp : process w g context text = .ok (tokens, l)) (hwf : (envFor w g l tokens starts 0).WF)
    (hns : NullSafe (envFor w g l tokens starts 0)) (ho : w.OrdOK) (ho' : ({ w with ord := ord } : World).OrdOK) {qs : List Parsed}
    (hq : earleyParseAll { w with ord := ord } g fuel context text starts = .ok qs) :
    (∀ p, earleyParseCtx w g fuel context text starts = .ok p → ∀ s ∈ p.res.finals, ∃ q ∈ qs, q.off = 0 ∧ s ∈ q.res.finals) ∧
    (∀ p, earleyParseAny w g fuel context text starts = .ok (some p) →
      ∀ s ∈ p.res.finals, ∃ q ∈ qs, q.off = p.off ∧ s ∈ q.res.finals) ∧
    (∀ ps, earleyParseMaxAll w g fuel context text starts = .ok ps →
      ∀ p ∈ ps, ∀ s ∈ p.res.finals, ∃ q ∈ qs, q.off = p.off ∧ s ∈ q.res.finals) := by
  have hp' : process { w with ord := ord } g context text = .ok (tokens, l) := hp
  obtain ⟨_, hall, hoff⟩ := C19_all_offsets { w with ord := ord } g fuel context text starts tokens l hp' qs hq
  have hs : starts ≠ [] := by
    unfold earleyParseAll at hq
    rw [hp'] at hq
    simp only [Out.bind_ok] at hq
    cases tokens with
    | nil => exact absurd rfl (process_ok hp).1
    | cons t ts =>
      unfold parseAllLoop at hq
      obtain ⟨q, hq, _⟩ := Out.bind_eq_ok.1 hq
      exact (earleyParse_ok hq).1
  have key : ∀ (i c : Nat) (r : ParseResult), i < tokens.length → parse (envFor w g l (tokens.drop i) starts c) true fuel = some r →
      ∀ s ∈ r.finals, ∃ q ∈ qs, q.off = i ∧ s ∈ q.res.finals := by
    intro i c r hi hr s hf
    obtain ⟨r', hr', hex⟩ := hoff i hi
    have hm := finals_orders hs (wf_envFor hwf (tokens.drop i) c) (nullSafe_envFor hns _ _) ho ho' hr hr' hf
    obtain ⟨q, hqm, rfl⟩ := hex (List.ne_nil_of_mem hm)
    obtain ⟨_, _, he, hpar, _⟩ := hall q hqm
    rw [he, hr'] at hpar
    cases hpar
    exact ⟨q, hqm, rfl, hm⟩
  refine ⟨?_, ?_, ?_⟩
  · intro p h
    unfold earleyParseCtx at h
    rw [hp] at h
    obtain ⟨_, _, _, _, _, hpar⟩ := earleyParse_ok h
    exact key 0 0 p.res (List.length_pos_iff.2 (process_ok hp).1) hpar
  · intro p h
    obtain ⟨p', e, h1, h2, h3, -, -⟩ := C17_leftmost w g fuel context text starts tokens l hp _ h
    cases e
    rw [h2] at h3
    exact key p.off p.off p.res h1 h3
  · intro ps h p hm
    obtain ⟨h1, -, ⟨c, h2⟩, h3, -⟩ := (C18_greedy w g fuel context text starts tokens l hp ps h).1 p hm
    rw [h2] at h3
    exact key p.off c p.res h1 h3

/-! ## witnesses -/

/-- `<s> = <b> <y> | <a> <b> <x>; <a> = ""; <b> = ""; <x> = "x"; <y> = "y"` -/
def gOrd : Gram := { main := { name := "g", rules := [rl "s" [[nt "b", nt "y"], [nt "a", nt "b", nt "x"]], rl "a" [[]], rl "b" [[]],
  rl "x" [[tt "x"]], rl "y" [[tt "y"]]] }, includes := [] }

/-- the numbers of trees that the four calls find in `x`, the last one with another order -/
def ordAns (o o' : Nat → Nat → Nat → Nat → List RuleBody → List RuleBody) : Option (List Nat) :=
  match apiParse { wWorld [tk "x"] with ord := o } gOrd 40 "" [120] ["s"], apiParseAny { wWorld [tk "x"] with ord := o } gOrd 40 "" [120] ["s"],
    apiExtractMaxAll { wWorld [tk "x"] with ord := o } gOrd 40 "" [120] ["s"],
    apiExtractAll { wWorld [tk "x"] with ord := o' } gOrd 40 "" [120] ["s"] with
  | .ok a, .ok b, .ok m, .ok e => some [a.length, b.length, m.length, e.length]
  | _, _, _, _ => none

theorem ord_answers : ordAns (fun _ => revOrd) (fun _ => idOrd) = some [1, 1, 1, 0] ∧
    ordAns (fun _ => revOrd) (fun _ => revOrd) = some [1, 1, 1, 1] := by
  constructor <;> decide +kernel

theorem ordAns_some {o o' : Nat → Nat → Nat → Nat → List RuleBody → List RuleBody} {k : List Nat} (h : ordAns o o' = some k) :
    ∃ a b m e, apiParse { wWorld [tk "x"] with ord := o } gOrd 40 "" [120] ["s"] = .ok a ∧
      apiParseAny { wWorld [tk "x"] with ord := o } gOrd 40 "" [120] ["s"] = .ok b ∧
      apiExtractMaxAll { wWorld [tk "x"] with ord := o } gOrd 40 "" [120] ["s"] = .ok m ∧
      apiExtractAll { wWorld [tk "x"] with ord := o' } gOrd 40 "" [120] ["s"] = .ok e ∧
      k = [a.length, b.length, m.length, e.length] := by
  unfold ordAns at h
  generalize apiParse { wWorld [tk "x"] with ord := o } gOrd 40 "" [120] ["s"] = w1 at h ⊢
  generalize apiParseAny { wWorld [tk "x"] with ord := o } gOrd 40 "" [120] ["s"] = w2 at h ⊢
  generalize apiExtractMaxAll { wWorld [tk "x"] with ord := o } gOrd 40 "" [120] ["s"] = w3 at h ⊢
  generalize apiExtractAll { wWorld [tk "x"] with ord := o' } gOrd 40 "" [120] ["s"] = w4 at h ⊢
  cases w1 <;> cases w2 <;> cases w3 <;> cases w4 <;> first | cases h | skip
  exact ⟨_, _, _, _, rfl, rfl, rfl, rfl, rfl⟩

/-- C111 fails: `Parse` finds `x`, and `ExtractAll`, with another order of map iteration, finds nothing. -/
theorem C111_false : ¬ C111_statement := by
  intro h
  obtain ⟨a, b, m, e, h1, h2, h3, h4, h5⟩ := ordAns_some ord_answers.1
  have := h { wWorld [tk "x"] with ord := fun _ => revOrd } (fun _ => idOrd) gOrd 40 "" [120] ["s"] a b m e
    (fun _ _ _ _ b => List.reverse_perm b) (fun _ _ _ _ _ => List.Perm.refl _) h1 h2 h3 h4
  simp only [List.cons.injEq, and_true] at h5
  obtain ⟨-, h6, -, h7⟩ := h5
  cases b with
  | nil => simp at h6
  | cons n b =>
    have := this.any n List.mem_cons_self
    cases e with
    | nil => cases this
    | cons _ _ => simp at h7

/-- non-vacuity of `C111_partial` -/
example : ∃ a b m e, a ≠ [] ∧ Agreeing a b m e := by
  obtain ⟨a, b, m, e, h1, h2, h3, h4, h5⟩ := ordAns_some ord_answers.2
  refine ⟨a, b, m, e, ?_, C111_partial _ gOrd 40 "" [120] ["s"] (fun _ _ => rfl) h1 h2 h3 h4⟩
  rintro rfl
  simp at h5

/-- non-vacuity of `C111_matches_partial`: `<s> = "a"` on `a` -/
example : process (wWorld [tk "a"]) gA "" [97] = .ok ([tk "a"], some lA) ∧ (envFor (wWorld [tk "a"]) gA (some lA) [tk "a"] ["s"] 0).WF ∧
    NullSafe (envFor (wWorld [tk "a"]) gA (some lA) [tk "a"] ["s"] 0) ∧
    (match earleyParseCtx (wWorld [tk "a"]) gA 20 "" [97] ["s"], earleyParseAll { wWorld [tk "a"] with ord := fun _ => revOrd } gA 20 "" [97] ["s"] with
      | .ok p, .ok qs => p.res.finals.length == 1 && qs.length == 1
      | _, _ => false) = true :=
  ⟨rfl, Env.checkWF_wf (by decide +kernel), NoEmpty.nullSafe (Env.checkNoEmpty_ok (by decide +kernel)), by decide +kernel⟩

end Fmr
