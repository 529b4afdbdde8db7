import Verif.Spec.English
import Verif.Model.ShippedMore
import Verif.Proofs.NumberZhLang
import Verif.Proofs.OneFile

/-!
# What the rules of examples/math/grammars/number.en.grammar derive
-/

namespace Fmr

/-! ## the definitions -/

/-- the sum of two parts -/
def addAlt (ts : List Term) (a b : Int) : RuleBody := ⟨ts, some (.mk "nf.math.sum" [argI a, argI b])⟩

/-- the rule for numbers with the unit `e`, where `B` counts the unit and is the remainder -/
def scaleAlts (e B : String) : List RuleBody :=
  [sameAlt B, sameAlt e, mulAlt B e, sumAlt [nt B, nt e, nt B] (argI 3), sumAlt [nt B, nt e, lit "and", nt B] (argI 4)]

def enUnits : List (String × Nat) := ("zero", 0) :: enDigits

def enDefs : List Def := [
  ⟨false, "unit", enUnits.map fun p => numAlt p.1 p.2⟩,
  ⟨false, "numbers", [sameAlt "unit", ⟨[nt "unit", nt "numbers"], some (.mk "nf.util.concat" [argI 1, argI 2])⟩]⟩,
  ⟨false, "ten", enTeens.map fun p => numAlt p.1 p.2⟩,
  ⟨false, "tens", enTens.map fun p => numAlt p.1 p.2⟩,
  ⟨false, "e1", [sameAlt "unit", sameAlt "ten", sameAlt "tens", addAlt [nt "tens", nt "unit"] 1 2,
    addAlt [nt "tens", lit "-", nt "unit"] 1 3]⟩,
  ⟨false, "e2", [numAlt "hundred" 100]⟩,
  ⟨false, "e3", [numAlt "thousand" 1000]⟩,
  ⟨false, "e6", [numAlt "million" 1000000]⟩,
  ⟨false, "e9", [numAlt "billion" 1000000000]⟩,
  ⟨false, "e12", [numAlt "trillion" 1000000000000]⟩,
  ⟨false, "e2s", scaleAlts "e2" "e1"⟩,
  ⟨false, "e3s", scaleAlts "e3" "e2s"⟩,
  ⟨false, "e6s", scaleAlts "e6" "e3s"⟩,
  ⟨false, "e9s", scaleAlts "e9" "e6s"⟩,
  ⟨false, "e12s", scaleAlts "e12" "e9s"⟩,
  ⟨false, "en_decimal", [⟨[lit "point", nt "numbers"], some (.mk "nf.math.decimal" [argI 2])⟩]⟩,
  ⟨false, "en_number", [sameAlt "e12s"]⟩,
  ⟨false, "number", [sameAlt "en_number", sameAlt "en_decimal", addAlt [nt "en_number", nt "en_decimal"] 1 2,
    addAlt [nt "en_number", lit "and", nt "en_decimal"] 1 3]⟩]

set_option maxRecDepth 100000 in
theorem en_parts : PartsRead [] numberEnParts enDefs := by
  unfold numberEnParts enDefs
  repeat' first | exact .nil | refine .cons _ rfl (by decide +kernel) ?_

/-- the words of the literals -/
def enSplits : List (String × List String) :=
  ((enUnits ++ enTeens ++ enTens).map (·.1) ++ ["-", "and", "hundred", "thousand", "million", "billion", "trillion", "point"]).map
    fun s => (s, [s])

def enNames : List String :=
  ["unit", "numbers", "ten", "tens", "e1", "e2", "e3", "e6", "e9", "e12", "e2s", "e3s", "e6s", "e9s", "e12s", "en_decimal", "en_number",
    "number"]

theorem en_check : wordDefsOK enNames enSplits enDefs = true := by decide +kernel

/-! ## inversion of derivations -/

abbrev EnLang := WordLang (Written enDefs false) (splitIn enSplits) fmrNum

abbrev EnSeq := WordSeq (Written enDefs false) (splitIn enSplits) fmrNum

theorem enSeq_nil {l : List String} {vs : List (Option Nat)} : EnSeq [] l vs ↔ l = [] ∧ vs = [] := by
  constructor
  · intro h; cases h; exact ⟨rfl, rfl⟩
  · rintro ⟨rfl, rfl⟩; exact .nil

theorem enSeq_lit {x : String} {ts : List Term} {l : List String} {vs : List (Option Nat)} (hx : splitIn enSplits x = [x]) :
    EnSeq (lit x :: ts) l vs ↔ ∃ l' vs', EnSeq ts l' vs' ∧ l = x :: l' ∧ vs = none :: vs' := by
  constructor
  · intro h
    cases h with
    | lit h1 h2 => exact ⟨_, _, h2, by rw [show (lit x).value = x from rfl, hx]; rfl, rfl⟩
    | ref h1 => cases h1
  · rintro ⟨l', vs', h, rfl, rfl⟩
    have := WordSeq.lit (split := splitIn enSplits) (t := lit x) rfl h
    rwa [show (lit x).value = x from rfl, hx] at this

theorem enSeq_nt {A : String} {ts : List Term} {l : List String} {vs : List (Option Nat)} :
    EnSeq (nt A :: ts) l vs ↔ ∃ l1 l2 v vs', EnLang A l1 v ∧ EnSeq ts l2 vs' ∧ l = l1 ++ l2 ∧ vs = v :: vs' := by
  constructor
  · intro h
    cases h with
    | lit h1 => cases h1
    | ref h1 h2 h3 => exact ⟨_, _, _, _, h2, h3, rfl, rfl⟩
  · rintro ⟨l1, l2, v, vs', h1, h2, rfl, rfl⟩
    exact .ref (t := nt A) rfl h1 h2

theorem en_written {A : String} {b : RuleBody} :
    Written enDefs false A b ↔ b ∈ (enDefs.filter fun d => d.name == A).flatMap (·.bodies) := by
  simp only [Written, List.mem_flatMap, List.mem_filter, beq_iff_eq]
  constructor
  · rintro ⟨d, h1, -, h2, h3⟩; exact ⟨d, ⟨h1, h2⟩, h3⟩
  · rintro ⟨d, ⟨h1, h2⟩, h3⟩
    refine ⟨d, h1, ?_, h2, h3⟩
    have : (enDefs.all fun d => !d.frame) = true := by decide +kernel
    simpa using List.all_eq_true.1 this d h1

/-- the alternatives of a rule -/
theorem enLang_alts {A : String} {l : List String} {v : Option Nat} (bs : List RuleBody)
    (hb : (enDefs.filter fun d => d.name == A).flatMap (·.bodies) = bs) :
    EnLang A l v ↔ ∃ b ∈ bs, ∃ vs, EnSeq b.terms l vs ∧ v = b.f.bind (fmrNum vs) := by
  subst hb
  constructor
  · rintro ⟨h1, h2⟩
    exact ⟨_, en_written.1 h1, _, h2, rfl⟩
  · rintro ⟨b, h1, vs, h2, rfl⟩
    exact .mk (en_written.2 h1) h2

theorem enSeq_same {A : String} {l : List String} {v : Option Nat} :
    (∃ vs, EnSeq (sameAlt A).terms l vs ∧ v = (sameAlt A).f.bind (fmrNum vs)) ↔ EnLang A l v := by
  have : (sameAlt A).terms = [nt A] := rfl
  simp only [this, enSeq_nt, enSeq_nil]
  constructor
  · rintro ⟨_, ⟨l1, l2, v', vs', h, ⟨rfl, rfl⟩, rfl, rfl⟩, rfl⟩
    rw [List.append_nil]
    exact h
  · intro h
    exact ⟨[v], ⟨l, [], v, [], h, ⟨rfl, rfl⟩, by simp, rfl⟩, sameAlt_f.symm⟩

/-- a rule with numbers only -/
theorem enLang_nums {A : String} {l : List String} {v : Option Nat} (tbl : List (String × Nat))
    (hi : ∀ p ∈ tbl, p.2 < 10 ^ 10 ∧ splitIn enSplits p.1 = [p.1])
    (h : (enDefs.filter fun d => d.name == A).flatMap (·.bodies) = tbl.map fun p => numAlt p.1 p.2) :
    EnLang A l v ↔ ∃ p ∈ tbl, l = [p.1] ∧ v = some p.2 := by
  rw [enLang_alts _ h]
  constructor
  · rintro ⟨b, hb, vs, h1, rfl⟩
    obtain ⟨p, hp, rfl⟩ := List.mem_map.1 hb
    refine ⟨p, hp, ?_, numAlt_f (hi p hp).1⟩
    rw [numAlt, enSeq_lit (hi p hp).2] at h1
    obtain ⟨l', vs', h2, rfl, -⟩ := h1
    rw [(enSeq_nil.1 h2).1]
  · rintro ⟨p, hp, rfl, rfl⟩
    exact ⟨_, List.mem_map.2 ⟨p, hp, rfl⟩, [none], (enSeq_lit (hi p hp).2).2 ⟨[], [], .nil, rfl, rfl⟩, (numAlt_f (hi p hp).1).symm⟩

theorem en_unit {l : List String} {v : Option Nat} : EnLang "unit" l v ↔ ∃ p ∈ enUnits, l = [p.1] ∧ v = some p.2 :=
  enLang_nums enUnits (by decide +kernel) rfl

theorem en_ten {l : List String} {v : Option Nat} : EnLang "ten" l v ↔ ∃ p ∈ enTeens, l = [p.1] ∧ v = some p.2 :=
  enLang_nums enTeens (by decide +kernel) rfl

theorem en_tens {l : List String} {v : Option Nat} : EnLang "tens" l v ↔ ∃ p ∈ enTens, l = [p.1] ∧ v = some p.2 :=
  enLang_nums enTens (by decide +kernel) rfl

/-- a word for a unit -/
structure UnitWord (e u : String) (c : Option Nat) : Prop where
  lang : ∀ l v, EnLang e l v ↔ l = [u] ∧ v = c

theorem unitWord_of {e u : String} {c : Nat} (hc : c < 10 ^ 10) (hu : splitIn enSplits u = [u])
    (h : (enDefs.filter fun d => d.name == e).flatMap (·.bodies) = [(u, c)].map fun p => numAlt p.1 p.2) : UnitWord e u (some c) := by
  refine ⟨fun l v => ?_⟩
  rw [enLang_nums [(u, c)] (by simpa using ⟨hc, hu⟩) h]
  simp

theorem en_e2 : UnitWord "e2" "hundred" (some 100) := unitWord_of (by decide) (by decide +kernel) rfl
theorem en_e3 : UnitWord "e3" "thousand" (some 1000) := unitWord_of (by decide) (by decide +kernel) rfl
theorem en_e6 : UnitWord "e6" "million" (some 1000000) := unitWord_of (by decide) (by decide +kernel) rfl
theorem en_e9 : UnitWord "e9" "billion" (some 1000000000) := unitWord_of (by decide) (by decide +kernel) rfl

/-- `nf.I(1000000000000)` evaluates to a text that is not printed with ten digits -/
theorem en_e12 : UnitWord "e12" "trillion" none := by
  refine ⟨fun l v => ?_⟩
  rw [enLang_alts [numAlt "trillion" 1000000000000] rfl]
  have hf : ∀ vs, (numAlt "trillion" 1000000000000).f.bind (fmrNum vs) = none := by
    intro vs
    have : ¬ TenDigits 1000000000000 := by decide
    simp [numAlt, fmrNum, argN, argNum, valNum, this]
  have hu : splitIn enSplits "trillion" = ["trillion"] := by decide +kernel
  simp only [List.mem_singleton, exists_eq_left, hf]
  constructor
  · rintro ⟨vs, h1, rfl⟩
    rw [numAlt, enSeq_lit hu] at h1
    obtain ⟨l', vs', h2, rfl, -⟩ := h1
    rw [(enSeq_nil.1 h2).1]
    exact ⟨rfl, rfl⟩
  · rintro ⟨rfl, rfl⟩
    exact ⟨[none], (enSeq_lit hu).2 ⟨[], [], .nil, rfl, rfl⟩, rfl⟩

/-- numbers with a unit -/
inductive Scaled (L : List String → Option Nat → Prop) (u : String) (c : Option Nat) : List String → Option Nat → Prop
  | less {l : List String} {v : Option Nat} : L l v → Scaled L u c l v
  | unit : Scaled L u c [u] c
  | times {l : List String} {v : Option Nat} : L l v → Scaled L u c (l ++ [u]) (smallOp (· * ·) v c)
  | rest {l l' : List String} {v v' : Option Nat} : L l v → L l' v' →
      Scaled L u c (l ++ u :: l') (smallOp (· + ·) (smallOp (· * ·) v c) v')
  | gap {l l' : List String} {v v' : Option Nat} : L l v → L l' v' →
      Scaled L u c (l ++ u :: "and" :: l') (smallOp (· + ·) (smallOp (· * ·) v c) v')

theorem en_scaled {A e B u : String} {c : Option Nat} (hu : UnitWord e u c)
    (h : (enDefs.filter fun d => d.name == A).flatMap (·.bodies) = scaleAlts e B) {l : List String} {v : Option Nat} :
    EnLang A l v ↔ Scaled (EnLang B) u c l v := by
  have hand : splitIn enSplits "and" = ["and"] := by decide +kernel
  rw [enLang_alts _ h]
  constructor
  · rintro ⟨b, hb, hv⟩
    simp only [scaleAlts, List.mem_cons, List.not_mem_nil, or_false] at hb
    rcases hb with rfl | rfl | rfl | rfl | rfl
    · exact .less (enSeq_same.1 hv)
    · obtain ⟨rfl, rfl⟩ := (hu.lang _ _).1 (enSeq_same.1 hv)
      exact .unit
    · obtain ⟨vs, h1, rfl⟩ := hv
      simp only [mulAlt, enSeq_nt, enSeq_nil, hu.lang] at h1
      obtain ⟨l1, l2, v1, vs', h1, ⟨l3, l4, v2, vs', ⟨rfl, rfl⟩, ⟨rfl, rfl⟩, rfl, rfl⟩, rfl, rfl⟩ := h1
      have := Scaled.times (u := u) (c := v2) h1
      simpa [mulAlt, fmrNum, argI, argNum, valNum] using this
    · obtain ⟨vs, h1, rfl⟩ := hv
      simp only [sumAlt, enSeq_nt, enSeq_nil, hu.lang] at h1
      obtain ⟨l1, l2, v1, vs', h1, ⟨l3, l4, v2, vs', ⟨rfl, rfl⟩, ⟨l5, l6, v3, vs', h3, ⟨rfl, rfl⟩, rfl, rfl⟩, rfl, rfl⟩, rfl, rfl⟩ := h1
      have := Scaled.rest (u := u) (c := v2) h1 h3
      simpa [sumAlt, fmrNum, argI, argNum, valNum, argF] using this
    · obtain ⟨vs, h1, rfl⟩ := hv
      simp only [sumAlt, enSeq_nt, enSeq_nil, enSeq_lit hand, hu.lang] at h1
      obtain ⟨l1, l2, v1, vs', h1, ⟨l3, l4, v2, vs', ⟨rfl, rfl⟩, ⟨l5, vs', ⟨l6, l7, v3, vs', h3, ⟨rfl, rfl⟩, rfl, rfl⟩, rfl, rfl⟩, rfl, rfl⟩,
        rfl, rfl⟩ := h1
      have := Scaled.gap (u := u) (c := v2) h1 h3
      simpa [sumAlt, fmrNum, argI, argNum, valNum, argF] using this
  · intro h
    cases h with
    | less h => exact ⟨_, by simp [scaleAlts], enSeq_same.2 h⟩
    | unit => exact ⟨sameAlt e, by simp [scaleAlts], enSeq_same.2 ((hu.lang _ _).2 ⟨rfl, rfl⟩)⟩
    | @times l v h =>
      refine ⟨mulAlt B e, by simp [scaleAlts], [v, c], ?_, by simp [mulAlt, fmrNum, argI, argNum, valNum]⟩
      simp only [mulAlt, enSeq_nt, enSeq_nil, hu.lang]
      exact ⟨_, _, _, _, h, ⟨_, _, _, _, ⟨rfl, rfl⟩, ⟨rfl, rfl⟩, rfl, rfl⟩, by simp, rfl⟩
    | @rest l l' v v' h h' =>
      refine ⟨sumAlt [nt B, nt e, nt B] (argI 3), by simp [scaleAlts], [v, c, v'], ?_, by
        simp [sumAlt, fmrNum, argI, argNum, valNum, argF]⟩
      simp only [sumAlt, enSeq_nt, enSeq_nil, hu.lang]
      exact ⟨_, _, _, _, h, ⟨_, _, _, _, ⟨rfl, rfl⟩, ⟨_, _, _, _, h', ⟨rfl, rfl⟩, rfl, rfl⟩, rfl, rfl⟩, by simp, rfl⟩
    | @gap l l' v v' h h' =>
      refine ⟨sumAlt [nt B, nt e, lit "and", nt B] (argI 4), by simp [scaleAlts], [v, c, none, v'], ?_, by
        simp [sumAlt, fmrNum, argI, argNum, valNum, argF]⟩
      simp only [sumAlt, enSeq_nt, enSeq_nil, enSeq_lit hand, hu.lang]
      exact ⟨_, _, _, _, h, ⟨_, _, _, _, ⟨rfl, rfl⟩, ⟨_, _, ⟨_, _, _, _, h', ⟨rfl, rfl⟩, rfl, rfl⟩, rfl, rfl⟩, rfl, rfl⟩, by simp, rfl⟩

/-! ## numerals -/

/-- The texts of a rule are not empty, do not begin with "and", and consist of these words. -/
def Plain (S : List String) (L : List String → Option Nat → Prop) : Prop :=
  ∀ l v, L l v → l ≠ [] ∧ l.head? ≠ some "and" ∧ ∀ x ∈ l, x ∈ S

theorem Scaled.plain {S : List String} {L : List String → Option Nat → Prop} {u : String} {c : Option Nat} (h : Plain S L) (hu : u ≠ "and") :
    Plain (u :: "and" :: S) (Scaled L u c) := by
  have head : ∀ {l r : List String}, l ≠ [] → (l ++ r).head? = l.head? := by
    intro l r hl
    obtain ⟨x, l, rfl⟩ := List.exists_cons_of_ne_nil hl
    rfl
  intro l v hl
  cases hl with
  | less h1 =>
    obtain ⟨h2, h3, h4⟩ := h _ _ h1
    exact ⟨h2, h3, fun x hx => by simp [h4 x hx]⟩
  | unit => exact ⟨by simp, by simpa using hu, by simp⟩
  | times h1 =>
    obtain ⟨h2, h3, h4⟩ := h _ _ h1
    refine ⟨by simp, by rwa [head h2], fun x hx => ?_⟩
    simp only [List.mem_append, List.mem_singleton] at hx
    rcases hx with hx | rfl
    · simp [h4 x hx]
    · simp
  | rest h1 h1' =>
    obtain ⟨h2, h3, h4⟩ := h _ _ h1
    obtain ⟨-, -, h4'⟩ := h _ _ h1'
    refine ⟨by simp, by rwa [head h2], fun x hx => ?_⟩
    simp only [List.mem_append, List.mem_cons] at hx
    rcases hx with hx | rfl | hx
    · simp [h4 x hx]
    · simp
    · simp [h4' x hx]
  | gap h1 h1' =>
    obtain ⟨h2, h3, h4⟩ := h _ _ h1
    obtain ⟨-, -, h4'⟩ := h _ _ h1'
    refine ⟨by simp, by rwa [head h2], fun x hx => ?_⟩
    simp only [List.mem_append, List.mem_cons] at hx
    rcases hx with hx | rfl | rfl | hx
    · simp [h4 x hx]
    · simp
    · simp
    · simp [h4' x hx]

/-- a list is divided by the first occurrence of a word -/
theorem split_word {u : String} {a a' r r' : List String} (h : a ++ u :: r = a' ++ u :: r') (ha : u ∉ a) (ha' : u ∉ a') :
    a = a' ∧ r = r' := by
  induction a generalizing a' with
  | nil =>
    cases a' with
    | nil => exact ⟨rfl, (List.cons.inj h).2⟩
    | cons x a' => exact absurd (.head _) ((List.cons.inj h).1 ▸ ha')
  | cons x a ih =>
    cases a' with
    | nil => exact absurd (.head _) ((List.cons.inj h).1 ▸ ha)
    | cons y a' =>
      obtain ⟨rfl, h5⟩ := List.cons.inj h
      obtain ⟨rfl, rfl⟩ := ih h5 (fun h => ha (.tail _ h)) (fun h => ha' (.tail _ h))
      exact ⟨rfl, rfl⟩

section
variable {S : List String} {L : List String → Option Nat → Prop} (hL : Plain S L) {u : String} (hu : u ∉ S) {c : Option Nat} {a b : List String}
  {v : Option Nat}
include hL hu

omit hL hu in
theorem Scaled.no_unit (ha : u ∉ a) (h : Scaled L u c a v) : L a v := by
  cases h with
  | less h => exact h
  | unit => exact absurd (by simp) ha
  | times => exact absurd (by simp) ha
  | rest => exact absurd (by simp) ha
  | gap => exact absurd (by simp) ha

theorem Scaled.only_unit (ha : u ∉ a) (hne : a ≠ []) (h : Scaled L u c (a ++ [u]) v) : ∃ v', L a v' ∧ v = smallOp (· * ·) v' c := by
  have hnot : ∀ {l v}, L l v → u ∉ l := fun h hm => hu ((hL _ _ h).2.2 u hm)
  generalize e : a ++ [u] = l at h
  cases h with
  | less h => exact absurd (by rw [← e]; simp) (hnot h)
  | unit =>
    have := (split_word (a' := []) e ha (by simp)).1
    exact absurd this hne
  | times h =>
    obtain ⟨rfl, -⟩ := split_word e ha (hnot h)
    exact ⟨_, h, rfl⟩
  | rest h h' =>
    obtain ⟨-, e⟩ := split_word e ha (hnot h)
    exact absurd e.symm (hL _ _ h').1
  | gap h h' =>
    obtain ⟨-, e⟩ := split_word e ha (hnot h)
    cases e

theorem Scaled.unit_rest (ha : u ∉ a) (hne : a ≠ []) {and : List String} (hand : and ∈ [[], ["and"]]) (hb : b ≠ [])
    (hb2 : b.head? ≠ some "and") (h : Scaled L u c (a ++ u :: (and ++ b)) v) :
    ∃ v1 v2, L a v1 ∧ L b v2 ∧ v = smallOp (· + ·) (smallOp (· * ·) v1 c) v2 := by
  have hnot : ∀ {l v}, L l v → u ∉ l := fun h hm => hu ((hL _ _ h).2.2 u hm)
  generalize e : a ++ u :: (and ++ b) = l at h
  cases h with
  | less h => exact absurd (by rw [← e]; simp) (hnot h)
  | unit =>
    have := (split_word (a' := []) e ha (by simp)).1
    exact absurd this hne
  | times h =>
    obtain ⟨-, e⟩ := split_word e ha (hnot h)
    exact absurd (List.append_eq_nil_iff.1 e).2 hb
  | rest h h' =>
    obtain ⟨rfl, rfl⟩ := split_word e ha (hnot h)
    simp only [List.mem_cons, List.not_mem_nil, or_false] at hand
    rcases hand with rfl | rfl
    · exact ⟨_, _, h, h', rfl⟩
    · exact absurd rfl (hL _ _ h').2.1
  | gap h h' =>
    obtain ⟨rfl, e5⟩ := split_word e ha (hnot h)
    simp only [List.mem_cons, List.not_mem_nil, or_false] at hand
    rcases hand with rfl | rfl
    · exact absurd (by rw [show b = _ from e5]; rfl) hb2
    · obtain rfl := (List.cons.inj e5).2
      exact ⟨_, _, h, h', rfl⟩

end

/-- The words are a text of the rule, and in every way to see this their value is `n`. -/
def Sure (L : List String → Option Nat → Prop) (l : List String) (n : Nat) : Prop := (∃ v, L l v) ∧ ∀ v, L l v → v = some n

theorem Sure.lang {L : List String → Option Nat → Prop} {l : List String} {n : Nat} (h : Sure L l n) : L l (some n) := by
  obtain ⟨⟨v, h1⟩, h2⟩ := h
  exact h2 v h1 ▸ h1

section
variable {S : List String} {L : List String → Option Nat → Prop} (hL : Plain S L) {u : String} (hu : u ∉ S) {c : Option Nat}
include hL hu

theorem Sure.less {l : List String} {n : Nat} (h : Sure L l n) : Sure (Scaled L u c) l n :=
  ⟨⟨_, .less h.lang⟩, fun v hv => h.2 v (hv.no_unit fun hm => hu ((hL _ _ h.lang).2.2 u hm))⟩

theorem Sure.times {l : List String} {m k : Nat} (h : Sure L l m) (hc : c = some k) (hm : Short m) (hk : Short k) (hmk : m * k < 2 ^ 64) :
    Sure (Scaled L u c) (l ++ [u]) (m * k) := by
  obtain ⟨h1, -, h2⟩ := hL _ _ h.lang
  refine ⟨⟨_, .times h.lang⟩, fun v hv => ?_⟩
  obtain ⟨v', h3, rfl⟩ := hv.only_unit hL hu (fun hm => hu (h2 u hm)) h1
  rw [h.2 v' h3, hc, smallOp_short hm hk hmk]

theorem Sure.rest {l l' and : List String} {m k n : Nat} (h : Sure L l m) (h' : Sure L l' n) (hand : and ∈ [[], ["and"]]) (hc : c = some k)
    (hm : Short m) (hk : Short k) (hmk : Short (m * k)) (hmk2 : m * k < 2 ^ 64) (hn : Short n) (hs : m * k + n < 2 ^ 64) :
    Sure (Scaled L u c) (l ++ u :: (and ++ l')) (m * k + n) := by
  obtain ⟨h1, -, h2⟩ := hL _ _ h.lang
  obtain ⟨h3, h4, -⟩ := hL _ _ h'.lang
  refine ⟨?_, fun v hv => ?_⟩
  · simp only [List.mem_cons, List.not_mem_nil, or_false] at hand
    rcases hand with rfl | rfl
    · exact ⟨_, .rest h.lang h'.lang⟩
    · exact ⟨_, .gap h.lang h'.lang⟩
  · obtain ⟨v1, v2, h5, h6, rfl⟩ := hv.unit_rest hL hu (fun hm => hu (h2 u hm)) h1 hand h3 h4
    rw [h.2 v1 h5, h'.2 v2 h6, hc, smallOp_short hm hk hmk2, smallOp_short hmk hn hs]

end

/-! ## the rules -/

theorem en_e1 {l : List String} {v : Option Nat} : EnLang "e1" l v ↔
    (∃ p ∈ enUnits ++ enTeens ++ enTens, l = [p.1] ∧ v = some p.2) ∨
    ∃ p ∈ enTens, ∃ q ∈ enUnits, ∃ hyphen ∈ [[], ["-"]], l = p.1 :: (hyphen ++ [q.1]) ∧ v = some (p.2 + q.2) := by
  have hhy : splitIn enSplits "-" = ["-"] := by decide +kernel
  have hsum : ∀ p ∈ enTens, ∀ q ∈ enUnits, smallOp (· + ·) (some p.2) (some q.2) = some (p.2 + q.2) := by decide +kernel
  rw [enLang_alts [sameAlt "unit", sameAlt "ten", sameAlt "tens", addAlt [nt "tens", nt "unit"] 1 2, addAlt [nt "tens", lit "-", nt "unit"] 1 3]
    rfl]
  constructor
  · rintro ⟨b, hb, hv⟩
    simp only [List.mem_cons, List.not_mem_nil, or_false] at hb
    rcases hb with rfl | rfl | rfl | rfl | rfl
    · obtain ⟨p, h1, h2⟩ := en_unit.1 (enSeq_same.1 hv)
      exact .inl ⟨p, by simp [h1], h2⟩
    · obtain ⟨p, h1, h2⟩ := en_ten.1 (enSeq_same.1 hv)
      exact .inl ⟨p, by simp [h1], h2⟩
    · obtain ⟨p, h1, h2⟩ := en_tens.1 (enSeq_same.1 hv)
      exact .inl ⟨p, by simp [h1], h2⟩
    · obtain ⟨vs, h1, rfl⟩ := hv
      simp only [addAlt, enSeq_nt, enSeq_nil, en_tens, en_unit] at h1
      obtain ⟨_, _, _, _, ⟨p, hp, rfl, rfl⟩, ⟨_, _, _, _, ⟨q, hq, rfl, rfl⟩, ⟨rfl, rfl⟩, rfl, rfl⟩, rfl, rfl⟩ := h1
      refine .inr ⟨p, hp, q, hq, [], by simp, rfl, ?_⟩
      rw [← hsum p hp q hq]
      simp [addAlt, fmrNum, argI, argNum, valNum]
    · obtain ⟨vs, h1, rfl⟩ := hv
      simp only [addAlt, enSeq_nt, enSeq_nil, enSeq_lit hhy, en_tens, en_unit] at h1
      obtain ⟨_, _, _, _, ⟨p, hp, rfl, rfl⟩, ⟨_, _, ⟨_, _, _, _, ⟨q, hq, rfl, rfl⟩, ⟨rfl, rfl⟩, rfl, rfl⟩, rfl, rfl⟩, rfl, rfl⟩ := h1
      refine .inr ⟨p, hp, q, hq, ["-"], by simp, rfl, ?_⟩
      rw [← hsum p hp q hq]
      simp [addAlt, fmrNum, argI, argNum, valNum]
  · rintro (⟨p, hp, h⟩ | ⟨p, hp, q, hq, hyphen, hh, rfl, rfl⟩)
    · simp only [List.mem_append] at hp
      rcases hp with (hp | hp) | hp
      · exact ⟨sameAlt "unit", by simp, enSeq_same.2 (en_unit.2 ⟨p, hp, h⟩)⟩
      · exact ⟨sameAlt "ten", by simp, enSeq_same.2 (en_ten.2 ⟨p, hp, h⟩)⟩
      · exact ⟨sameAlt "tens", by simp, enSeq_same.2 (en_tens.2 ⟨p, hp, h⟩)⟩
    · simp only [List.mem_cons, List.not_mem_nil, or_false] at hh
      rcases hh with rfl | rfl
      · refine ⟨addAlt [nt "tens", nt "unit"] 1 2, by simp, [some p.2, some q.2], ?_, ?_⟩
        · simp only [addAlt, enSeq_nt, enSeq_nil, en_tens, en_unit]
          exact ⟨_, _, _, _, ⟨p, hp, rfl, rfl⟩, ⟨_, _, _, _, ⟨q, hq, rfl, rfl⟩, ⟨rfl, rfl⟩, rfl, rfl⟩, rfl, rfl⟩
        · rw [← hsum p hp q hq]
          simp [addAlt, fmrNum, argI, argNum, valNum]
      · refine ⟨addAlt [nt "tens", lit "-", nt "unit"] 1 3, by simp, [some p.2, none, some q.2], ?_, ?_⟩
        · simp only [addAlt, enSeq_nt, enSeq_nil, enSeq_lit hhy, en_tens, en_unit]
          exact ⟨_, _, _, _, ⟨p, hp, rfl, rfl⟩, ⟨_, _, ⟨_, _, _, _, ⟨q, hq, rfl, rfl⟩, ⟨rfl, rfl⟩, rfl, rfl⟩, rfl, rfl⟩, rfl, rfl⟩
        · rw [← hsum p hp q hq]
          simp [addAlt, fmrNum, argI, argNum, valNum]

/-- the words below a hundred -/
def enSmallWords : List String := "-" :: (enUnits ++ enTeens ++ enTens).map (·.1)

theorem e1_plain : Plain enSmallWords (EnLang "e1") := by
  have h1 : ∀ p ∈ enUnits ++ enTeens ++ enTens, p.1 ≠ "and" ∧ p.1 ∈ enSmallWords := by decide +kernel
  intro l v h
  rcases en_e1.1 h with ⟨p, hp, rfl, -⟩ | ⟨p, hp, q, hq, hyphen, hh, rfl, -⟩
  · simpa using h1 p hp
  · have h2 := h1 p (by simp [hp])
    have h3 := h1 q (by simp [hq])
    have h4 : "-" ∈ enSmallWords := .head _
    simp only [List.mem_cons, List.not_mem_nil, or_false] at hh
    rcases hh with rfl | rfl <;> simp_all

/-- the rules with the first units: a hundred, and `k` powers of a thousand -/
def enRule : Nat → String
  | 0 => "e2s"
  | 1 => "e3s"
  | 2 => "e6s"
  | _ => "e9s"

def enWords : Nat → List String
  | 0 => "hundred" :: "and" :: enSmallWords
  | k + 1 => enScale k :: "and" :: enWords k

theorem en_level {k : Nat} (hk : k < 3) {l : List String} {v : Option Nat} :
    EnLang (enRule (k + 1)) l v ↔ Scaled (EnLang (enRule k)) (enScale k) (some (1000 ^ (k + 1))) l v := by
  match k, hk with
  | 0, _ => exact en_scaled en_e3 rfl
  | 1, _ => exact en_scaled en_e6 rfl
  | 2, _ => exact en_scaled en_e9 rfl

theorem e2s_iff {l : List String} {v : Option Nat} : EnLang "e2s" l v ↔ Scaled (EnLang "e1") "hundred" (some 100) l v :=
  en_scaled en_e2 rfl

theorem e12s_iff {l : List String} {v : Option Nat} : EnLang "e12s" l v ↔ Scaled (EnLang "e9s") "trillion" none l v :=
  en_scaled en_e12 rfl

theorem Plain.congr {S : List String} {L L' : List String → Option Nat → Prop} (h : Plain S L) (e : ∀ l v, L' l v ↔ L l v) : Plain S L' :=
  fun l v hl => h l v ((e l v).1 hl)

theorem Sure.congr {L L' : List String → Option Nat → Prop} {l : List String} {n : Nat} (h : Sure L l n) (e : ∀ l v, L' l v ↔ L l v) :
    Sure L' l n :=
  ⟨⟨_, (e _ _).2 h.lang⟩, fun v hv => h.2 v ((e _ _).1 hv)⟩

theorem en_plain : ∀ k ≤ 3, Plain (enWords k) (EnLang (enRule k))
  | 0, _ => (Scaled.plain e1_plain (by decide)).congr fun _ _ => e2s_iff
  | k + 1, h => (Scaled.plain (en_plain k (by omega)) (by match k, h with | 0, _ => decide | 1, _ => decide | 2, _ => decide)).congr
      fun _ _ => en_level (by omega)

theorem e1_sure {p : String × Nat} (hp : p ∈ enUnits ++ enTeens ++ enTens) : Sure (EnLang "e1") [p.1] p.2 := by
  have hone : ∀ p ∈ enUnits ++ enTeens ++ enTens, ∀ q ∈ enUnits ++ enTeens ++ enTens, p.1 = q.1 → p.2 = q.2 := by decide +kernel
  refine ⟨⟨_, en_e1.2 (.inl ⟨p, hp, rfl, rfl⟩)⟩, fun v hv => ?_⟩
  rcases en_e1.1 hv with ⟨q, hq, e, rfl⟩ | ⟨q, hq, r, hr, hyphen, hh, e, -⟩
  · rw [hone p hp q hq (List.cons.inj e).1]
  · exact absurd (List.cons.inj e).2 (by simp)

theorem tens_sure {n : Nat} {l : List String} (h : EnTens n l) : Sure (EnLang "e1") l n := by
  cases h with
  | @word s n h => exact e1_sure (p := (s, n)) (by simp only [enUnits, List.cons_append, List.mem_cons]; exact .inr h)
  | @both s t m n hyphen hm hn hh =>
    have hu : (t, n) ∈ enUnits := .tail _ hn
    have hone : ∀ p ∈ enTens, ∀ q ∈ enTens, p.1 = q.1 → p.2 = q.2 := by decide +kernel
    have hone' : ∀ p ∈ enUnits, ∀ q ∈ enUnits, p.1 = q.1 → p.2 = q.2 := by decide +kernel
    have hy : ∀ p ∈ enUnits, p.1 ≠ "-" := by decide +kernel
    refine ⟨⟨_, en_e1.2 (.inr ⟨_, hm, _, hu, hyphen, hh, rfl, rfl⟩)⟩, fun v hv => ?_⟩
    rcases en_e1.1 hv with ⟨q, hq, e, rfl⟩ | ⟨q, hq, r, hr, hyphen', hh', e, rfl⟩
    · exact absurd (List.cons.inj e).2 (by simp)
    · obtain ⟨e1, e2⟩ := List.cons.inj e
      have e3 : t = r.1 := by simpa using congrArg List.getLast? e2
      rw [← hone _ hm _ hq e1, ← hone' _ hu _ hr e3]

theorem hundreds_sure {n : Nat} {l : List String} (h : EnHundreds n l) : Sure (EnLang "e2s") l n := by
  have hu : "hundred" ∉ enSmallWords := by decide +kernel
  have hd : ∀ p ∈ enDigits, p.2 ≤ 9 := by decide
  have hsub : ∀ p ∈ enDigits, p ∈ enUnits ++ enTeens ++ enTens := by decide +kernel
  refine Sure.congr ?_ fun _ _ => e2s_iff
  cases h with
  | tens h => exact (tens_sure h).less e1_plain hu
  | @hundreds s d h =>
    have := hd _ h
    simp only at this
    exact (e1_sure (hsub _ h)).times e1_plain hu rfl (.inl (by simp only; omega)) (.inl (by omega)) (by simp only; omega)
  | @both s d n l and h h' hand =>
    have := hd _ h
    have h2 := h'.lt
    simp only at this
    exact (e1_sure (hsub _ h)).rest e1_plain hu (tens_sure h') hand rfl (.inl (by simp only; omega)) (.inl (by omega))
      (.inl (by simp only; omega)) (by simp only; omega) (.inl (by omega)) (by simp only; omega)

theorem scale_new {k : Nat} (hk : k < 3) : enScale k ∉ enWords k := by
  match k, hk with
  | 0, _ => decide +kernel
  | 1, _ => decide +kernel
  | 2, _ => decide +kernel

theorem hundreds_level {n : Nat} {l : List String} (h : EnHundreds n l) : ∀ k ≤ 3, Sure (EnLang (enRule k)) l n
  | 0, _ => hundreds_sure h
  | k + 1, hk => ((hundreds_level h k (by omega)).less (en_plain k (by omega)) (scale_new (by omega))).congr fun _ _ => en_level (by omega)

theorem block_short {k m n : Nat} (hk : k < 3) (hm : m < 1000) (hn : n < 1000 ^ (k + 1)) :
    Short (1000 ^ (k + 1)) ∧ Short (m * 1000 ^ (k + 1)) ∧ m * 1000 ^ (k + 1) < 2 ^ 64 ∧ Short n ∧ m * 1000 ^ (k + 1) + n < 2 ^ 64 := by
  unfold Short
  obtain rfl | rfl | rfl : k = 0 ∨ k = 1 ∨ k = 2 := by omega
  all_goals
    norm_num at hn ⊢
    omega

theorem blocks_sure {k n : Nat} {l : List String} (h : EnBlocks k n l) (hk : k ≤ 3) : Sure (EnLang (enRule k)) l n := by
  induction h with
  | hundreds h => exact hundreds_sure h
  | @less k n l _ ih => exact ((ih (by omega)).less (en_plain k (by omega)) (scale_new (by omega))).congr fun _ _ => en_level (by omega)
  | @block k m l h =>
    have hm := h.lt
    obtain ⟨h1, -, h3, -⟩ := block_short (k := k) (n := 0) (by omega) hm.2 (Nat.pow_pos (by omega))
    refine Sure.congr ((hundreds_level h k (by omega)).times (en_plain k (by omega)) (scale_new (by omega)) rfl (.inl (by omega)) h1 h3)
      fun _ _ => en_level (by omega)
  | @both k m n l l' and h h' hand ih =>
    have hm := h.lt
    obtain ⟨h1, h2, h3, h4, h5⟩ := block_short (k := k) (by omega) hm.2 h'.lt.2
    refine Sure.congr ((hundreds_level h k (by omega)).rest (en_plain k (by omega)) (scale_new (by omega)) (ih (by omega)) hand rfl
      (.inl (by omega)) h1 h2 h3 h4 h5) fun _ _ => en_level (by omega)

theorem numeral_e9s {n : Nat} {l : List String} (h : EnNumeral n l) : Sure (EnLang "e9s") l n := by
  cases h with
  | zero =>
    have h1 : Sure (EnLang "e1") ["zero"] 0 := e1_sure (p := ("zero", 0)) (by decide +kernel)
    have h2 : Sure (EnLang (enRule 0)) ["zero"] 0 := (h1.less e1_plain (by decide +kernel)).congr fun _ _ => e2s_iff
    have up : ∀ k < 3, Sure (EnLang (enRule k)) ["zero"] 0 → Sure (EnLang (enRule (k + 1))) ["zero"] 0 := fun k hk h =>
      (h.less (en_plain k (by omega)) (scale_new (by omega))).congr fun _ _ => en_level (by omega)
    exact up 2 (by omega) (up 1 (by omega) (up 0 (by omega) h2))
  | blocks h => exact blocks_sure h le_rfl

theorem numeral_ne {n : Nat} {l : List String} (h : EnNumeral n l) : l ≠ [] := (en_plain 3 le_rfl _ _ (numeral_e9s h).lang).1

theorem numeral_words {n : Nat} {l : List String} (h : EnNumeral n l) : ∀ x ∈ l, x ∈ enWords 3 :=
  (en_plain 3 le_rfl _ _ (numeral_e9s h).lang).2.2

/-- numerals have the value that they should have, and no other -/
theorem numeral_sure {n : Nat} {l : List String} (h : EnNumeral n l) : Sure (EnLang "number") l n := by
  have h9 := numeral_e9s h
  have h12 : Sure (EnLang "e12s") l n := (h9.less (en_plain 3 le_rfl) (by decide +kernel)).congr fun _ _ => e12s_iff
  have hpt : "point" ∉ l := by
    have : "point" ∉ enWords 3 := by decide +kernel
    exact fun hm => this ((en_plain 3 le_rfl _ _ h9.lang).2.2 _ hm)
  have hnum : ∀ {l v}, EnLang "en_number" l v ↔ EnLang "e12s" l v := by
    intro l v
    rw [enLang_alts [sameAlt "e12s"] rfl]
    simp only [List.mem_singleton, exists_eq_left]
    exact enSeq_same
  have hdec : ∀ {l v}, EnLang "en_decimal" l v → "point" ∈ l := by
    intro l v h
    rw [enLang_alts [⟨[lit "point", nt "numbers"], some (.mk "nf.math.decimal" [argI 2])⟩] rfl] at h
    obtain ⟨b, hb, vs, h1, -⟩ := h
    obtain rfl := List.mem_singleton.1 hb
    rw [enSeq_lit (by decide +kernel)] at h1
    obtain ⟨l', vs', -, rfl, -⟩ := h1
    exact .head _
  have halts : ∀ v, EnLang "number" l v ↔ ∃ b ∈ [sameAlt "en_number", sameAlt "en_decimal", addAlt [nt "en_number", nt "en_decimal"] 1 2,
    addAlt [nt "en_number", lit "and", nt "en_decimal"] 1 3], ∃ vs, EnSeq b.terms l vs ∧ v = b.f.bind (fmrNum vs) := fun v => enLang_alts _ rfl
  refine ⟨⟨some n, (halts _).2 ⟨sameAlt "en_number", by simp, enSeq_same.2 (hnum.2 h12.lang)⟩⟩, fun v hv => ?_⟩
  obtain ⟨b, hb, hv⟩ := (halts v).1 hv
  simp only [List.mem_cons, List.not_mem_nil, or_false] at hb
  rcases hb with rfl | rfl | rfl | rfl
  · exact h12.2 v (hnum.1 (enSeq_same.1 hv))
  · exact absurd (hdec (enSeq_same.1 hv)) hpt
  · obtain ⟨vs, h1, -⟩ := hv
    simp only [addAlt, enSeq_nt, enSeq_nil] at h1
    obtain ⟨_, _, _, _, -, ⟨_, _, _, _, h2, ⟨rfl, rfl⟩, rfl, rfl⟩, rfl, rfl⟩ := h1
    exact absurd (by simp [hdec h2]) hpt
  · obtain ⟨vs, h1, -⟩ := hv
    simp only [addAlt, enSeq_nt, enSeq_nil, enSeq_lit (show splitIn enSplits "and" = ["and"] by decide +kernel)] at h1
    obtain ⟨_, _, _, _, -, ⟨_, _, ⟨_, _, _, _, h2, ⟨rfl, rfl⟩, rfl, rfl⟩, rfl, rfl⟩, rfl, rfl⟩ := h1
    exact absurd (by simp [hdec h2]) hpt

end Fmr
