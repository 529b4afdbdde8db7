import Verif.Spec.EnglishParts
import Verif.Proofs.CalcLang
import Verif.Proofs.NumberEnLang
import Verif.Proofs.WordRules

/-!
# What the rules of examples/builtin/builtin.grammar derive
-/

namespace Fmr

/-! ## the definitions -/

def biUnits : List (String × Nat) :=
  [("zero", 0), ("o", 0), ("one", 1), ("a", 1), ("an", 1), ("two", 2), ("three", 3), ("four", 4), ("five", 5), ("six", 6), ("seven", 7),
    ("eight", 8), ("nine", 9)]

def biOrdUnits : List (String × Nat) :=
  [("first", 1), ("second", 2), ("third", 3), ("fourth", 4), ("fifth", 5), ("sixth", 6), ("seventh", 7), ("eighth", 8), ("ninth", 9)]

def biOrdTen : List (String × Nat) :=
  [("tenth", 10), ("eleventh", 11), ("twelfth", 12), ("thirteenth", 13), ("fourteenth", 14), ("fifteenth", 15), ("sixteenth", 16),
    ("seventeenth", 17), ("eighteenth", 18), ("nineteenth", 19)]

def biOrdTens : List (String × Nat) :=
  [("twentieth", 20), ("thirtieth", 30), ("fortieth", 40), ("fiftieth", 50), ("sixtieth", 60), ("seventieth", 70), ("eightieth", 80),
    ("ninetieth", 90)]

def biMags : List (String × Nat) :=
  [("hundred", 100), ("thousand", 1000), ("million", 1000000), ("billion", 1000000000), ("trillion", 1000000000000),
    ("quadrillion", 1000000000000000), ("quintillion", 1000000000000000000), ("sextillion", 1000000000000000000000),
    ("septillion", 1000000000000000000000000), ("octillion", 1000000000000000000000000000),
    ("nonillion", 1000000000000000000000000000000), ("decillion", 1000000000000000000000000000000000)]

def biBaseAlts : List RuleBody :=
  [sameAlt "cardinal_unit", sameAlt "cardinal_ten", sameAlt "cardinal_tens", addAlt [nt "cardinal_tens", nt "cardinal_unit"] 1 2,
    addAlt [nt "cardinal_tens", lit "and", nt "cardinal_unit"] 1 3, addAlt [nt "cardinal_tens", lit "-", nt "cardinal_unit"] 1 3,
    addAlt [nt "cardinal_tens", lit ",", nt "cardinal_unit"] 1 3]

def biMagAlts : List RuleBody :=
  [mulAlt "base_number" "magnitude", ⟨[nt "base_number", lit "-", nt "magnitude"], some (.mk "nf.math.mul" [argI 1, argI 3])⟩,
    mulAlt "magnitude_number" "magnitude"]

def biNumAlts : List RuleBody :=
  [sameAlt "section", addAlt [nt "section", nt "number"] 1 2, addAlt [nt "section", lit "and", nt "number"] 1 3]

def biDefs : List Def := [
  ⟨false, "cardinal_unit", biUnits.map fun p => numAlt p.1 p.2⟩,
  ⟨false, "cardinal_ten", enTeens.map fun p => numAlt p.1 p.2⟩,
  ⟨false, "ordinal_unit", biOrdUnits.map fun p => numAlt p.1 p.2⟩,
  ⟨false, "ordinal_ten", biOrdTen.map fun p => numAlt p.1 p.2⟩,
  ⟨false, "cardinal_tens", enTens.map fun p => numAlt p.1 p.2⟩,
  ⟨false, "ordinal_tens", biOrdTens.map fun p => numAlt p.1 p.2⟩,
  ⟨false, "magnitude", biMags.map fun p => numAlt p.1 p.2⟩,
  ⟨false, "base_number", biBaseAlts⟩,
  ⟨false, "magnitude_number", biMagAlts⟩,
  ⟨false, "section", [sameAlt "magnitude_number", sameAlt "base_number"]⟩,
  ⟨false, "number", biNumAlts⟩]

set_option maxRecDepth 100000 in
theorem bi_parts : PartsRead [] builtinParts biDefs := by
  unfold builtinParts biDefs
  repeat' first | exact .nil | refine .cons _ rfl (by decide +kernel) ?_

/-- the words of the literals -/
def biSplits : List (String × List String) :=
  ((biUnits ++ enTeens ++ biOrdUnits ++ biOrdTen ++ enTens ++ biOrdTens ++ biMags).map (·.1) ++ ["and", "-", ","]).map fun s => (s, [s])

def biNames : List String :=
  ["cardinal_unit", "cardinal_ten", "ordinal_unit", "ordinal_ten", "cardinal_tens", "ordinal_tens", "magnitude", "base_number",
    "magnitude_number", "section", "number"]

theorem bi_check : wordDefsOK biNames biSplits biDefs = true := by decide +kernel

/-! ## inversion of derivations -/

abbrev BiLang := WordLang (Written biDefs false) (splitIn biSplits) calcEv

theorem bi_frames : (biDefs.all fun d => !d.frame) = true := by decide +kernel

/-- the alternatives of a rule -/
theorem bi_alts {A : String} {l : List String} {v : Option Calc} (bs : List RuleBody)
    (hb : (biDefs.filter fun d => d.name == A).flatMap (·.bodies) = bs) : BiLang A l v ↔
      ∃ b ∈ bs, ∃ vs, WordSeq (Written biDefs false) (splitIn biSplits) calcEv b.terms l vs ∧ v = b.f.bind (calcEv vs) :=
  wordLang_alts bs bi_frames hb

/-- one of the parts is another rule -/
theorem bi_same {A : String} {l : List String} {v : Option Calc} :
    (∃ vs, WordSeq (Written biDefs false) (splitIn biSplits) calcEv (sameAlt A).terms l vs ∧ v = (sameAlt A).f.bind (calcEv vs)) ↔
      BiLang A l v := by
  have : (sameAlt A).terms = [nt A] := rfl
  simp only [this, wordSeq_nt, wordSeq_nil]
  constructor
  · rintro ⟨_, ⟨l1, l2, v', vs', h, ⟨rfl, rfl⟩, rfl, rfl⟩, rfl⟩
    rw [List.append_nil]
    simpa [sameAlt, calcEv, calcArg, argI] using h
  · intro h
    exact ⟨[v], ⟨l, [], v, [], h, ⟨rfl, rfl⟩, by simp, rfl⟩, by simp [sameAlt, calcEv, calcArg, argI]⟩

/-- a rule with numbers only -/
theorem bi_nums {A : String} {l : List String} {v : Option Calc} (tbl : List (String × Nat))
    (hi : ∀ p ∈ tbl, splitIn biSplits p.1 = [p.1])
    (h : (biDefs.filter fun d => d.name == A).flatMap (·.bodies) = tbl.map fun p => numAlt p.1 p.2) :
    BiLang A l v ↔ ∃ p ∈ tbl, l = [p.1] ∧ v = some (.num p.2) := by
  have hf : ∀ (p : String × Nat) vs, (numAlt p.1 p.2).f.bind (calcEv vs) = some (.num p.2) := by
    intro p vs
    simp [numAlt, calcEv, calcArg, argN]
  rw [bi_alts _ h]
  constructor
  · rintro ⟨b, hb, vs, h1, rfl⟩
    obtain ⟨p, hp, rfl⟩ := List.mem_map.1 hb
    refine ⟨p, hp, ?_, hf p vs⟩
    rw [numAlt, wordSeq_lit (hi p hp)] at h1
    obtain ⟨l', vs', h2, rfl, -⟩ := h1
    rw [(wordSeq_nil.1 h2).1]
  · rintro ⟨p, hp, rfl, rfl⟩
    exact ⟨_, List.mem_map.2 ⟨p, hp, rfl⟩, [none], (wordSeq_lit (hi p hp)).2 ⟨[], [], .nil, rfl, rfl⟩, (hf p _).symm⟩

theorem bi_unit {l : List String} {v : Option Calc} : BiLang "cardinal_unit" l v ↔ ∃ p ∈ biUnits, l = [p.1] ∧ v = some (.num p.2) :=
  bi_nums biUnits (by decide +kernel) rfl

theorem bi_ten {l : List String} {v : Option Calc} : BiLang "cardinal_ten" l v ↔ ∃ p ∈ enTeens, l = [p.1] ∧ v = some (.num p.2) :=
  bi_nums enTeens (by decide +kernel) rfl

theorem bi_tens {l : List String} {v : Option Calc} : BiLang "cardinal_tens" l v ↔ ∃ p ∈ enTens, l = [p.1] ∧ v = some (.num p.2) :=
  bi_nums enTens (by decide +kernel) rfl

theorem bi_mag {l : List String} {v : Option Calc} : BiLang "magnitude" l v ↔ ∃ p ∈ biMags, l = [p.1] ∧ v = some (.num p.2) :=
  bi_nums biMags (by decide +kernel) rfl

/-- the numbers below a hundred -/
inductive BiBase : List String → Calc → Prop
  | word {p : String × Nat} : p ∈ biUnits ++ enTeens ++ enTens → BiBase [p.1] (.num p.2)
  | both {p q : String × Nat} {sep : List String} : p ∈ enTens → q ∈ biUnits → sep ∈ [[], ["and"], ["-"], [","]] →
      BiBase (p.1 :: (sep ++ [q.1])) (.add (.num p.2) (.num q.2))

/-- numbers with units -/
inductive BiMag : List String → Calc → Prop
  | one {l h : List String} {c : Calc} {p : String × Nat} : BiBase l c → h ∈ [[], ["-"]] → p ∈ biMags →
      BiMag (l ++ (h ++ [p.1])) (.mul c (.num p.2))
  | more {l : List String} {c : Calc} {p : String × Nat} : BiMag l c → p ∈ biMags → BiMag (l ++ [p.1]) (.mul c (.num p.2))

inductive BiSec : List String → Calc → Prop
  | mag {l : List String} {c : Calc} : BiMag l c → BiSec l c
  | base {l : List String} {c : Calc} : BiBase l c → BiSec l c

inductive BiNum : List String → Calc → Prop
  | last {l : List String} {c : Calc} : BiSec l c → BiNum l c
  | more {l l' sep : List String} {c c' : Calc} : BiSec l c → sep ∈ [[], ["and"]] → BiNum l' c' → BiNum (l ++ (sep ++ l')) (.add c c')

theorem calcEv_add {ts : List Term} {a b : Int} {vs : List (Option Calc)} {x y : Calc} (ha : calcArg vs (argI a) = some x)
    (hb : calcArg vs (argI b) = some y) : (addAlt ts a b).f.bind (calcEv vs) = some (.add x y) := by
  simp [addAlt, calcEv, ha, hb, calcOp]

theorem bi_base {l : List String} {v : Option Calc} : BiLang "base_number" l v ↔ ∃ c, v = some c ∧ BiBase l c := by
  have hand : splitIn biSplits "and" = ["and"] := by decide +kernel
  have hhy : splitIn biSplits "-" = ["-"] := by decide +kernel
  have hco : splitIn biSplits "," = [","] := by decide +kernel
  rw [bi_alts biBaseAlts rfl]
  constructor
  · rintro ⟨b, hb, hv⟩
    simp only [biBaseAlts, List.mem_cons, List.not_mem_nil, or_false] at hb
    rcases hb with rfl | rfl | rfl | rfl | rfl | rfl | rfl
    · obtain ⟨p, h1, rfl, rfl⟩ := bi_unit.1 (bi_same.1 hv)
      exact ⟨_, rfl, .word (by simp [h1])⟩
    · obtain ⟨p, h1, rfl, rfl⟩ := bi_ten.1 (bi_same.1 hv)
      exact ⟨_, rfl, .word (by simp [h1])⟩
    · obtain ⟨p, h1, rfl, rfl⟩ := bi_tens.1 (bi_same.1 hv)
      exact ⟨_, rfl, .word (by simp [h1])⟩
    · obtain ⟨vs, h1, rfl⟩ := hv
      simp only [addAlt, wordSeq_nt, wordSeq_nil, bi_tens, bi_unit] at h1
      obtain ⟨_, _, _, _, ⟨p, hp, rfl, rfl⟩, ⟨_, _, _, _, ⟨q, hq, rfl, rfl⟩, ⟨rfl, rfl⟩, rfl, rfl⟩, rfl, rfl⟩ := h1
      exact ⟨_, calcEv_add rfl rfl, .both (sep := []) hp hq (by simp)⟩
    · obtain ⟨vs, h1, rfl⟩ := hv
      simp only [addAlt, wordSeq_nt, wordSeq_nil, wordSeq_lit hand, bi_tens, bi_unit] at h1
      obtain ⟨_, _, _, _, ⟨p, hp, rfl, rfl⟩, ⟨_, _, ⟨_, _, _, _, ⟨q, hq, rfl, rfl⟩, ⟨rfl, rfl⟩, rfl, rfl⟩, rfl, rfl⟩, rfl, rfl⟩ := h1
      exact ⟨_, calcEv_add rfl rfl, .both (sep := ["and"]) hp hq (by simp)⟩
    · obtain ⟨vs, h1, rfl⟩ := hv
      simp only [addAlt, wordSeq_nt, wordSeq_nil, wordSeq_lit hhy, bi_tens, bi_unit] at h1
      obtain ⟨_, _, _, _, ⟨p, hp, rfl, rfl⟩, ⟨_, _, ⟨_, _, _, _, ⟨q, hq, rfl, rfl⟩, ⟨rfl, rfl⟩, rfl, rfl⟩, rfl, rfl⟩, rfl, rfl⟩ := h1
      exact ⟨_, calcEv_add rfl rfl, .both (sep := ["-"]) hp hq (by simp)⟩
    · obtain ⟨vs, h1, rfl⟩ := hv
      simp only [addAlt, wordSeq_nt, wordSeq_nil, wordSeq_lit hco, bi_tens, bi_unit] at h1
      obtain ⟨_, _, _, _, ⟨p, hp, rfl, rfl⟩, ⟨_, _, ⟨_, _, _, _, ⟨q, hq, rfl, rfl⟩, ⟨rfl, rfl⟩, rfl, rfl⟩, rfl, rfl⟩, rfl, rfl⟩ := h1
      exact ⟨_, calcEv_add rfl rfl, .both (sep := [","]) hp hq (by simp)⟩
  · rintro ⟨c, rfl, h⟩
    cases h with
    | @word p hp =>
      simp only [List.mem_append] at hp
      rcases hp with (hp | hp) | hp
      · exact ⟨sameAlt "cardinal_unit", by simp [biBaseAlts], bi_same.2 (bi_unit.2 ⟨p, hp, rfl, rfl⟩)⟩
      · exact ⟨sameAlt "cardinal_ten", by simp [biBaseAlts], bi_same.2 (bi_ten.2 ⟨p, hp, rfl, rfl⟩)⟩
      · exact ⟨sameAlt "cardinal_tens", by simp [biBaseAlts], bi_same.2 (bi_tens.2 ⟨p, hp, rfl, rfl⟩)⟩
    | @both p q sep hp hq hs =>
      simp only [List.mem_cons, List.not_mem_nil, or_false] at hs
      rcases hs with rfl | rfl | rfl | rfl
      · refine ⟨addAlt [nt "cardinal_tens", nt "cardinal_unit"] 1 2, by simp [biBaseAlts], [some (.num p.2), some (.num q.2)], ?_,
          (calcEv_add rfl rfl).symm⟩
        simp only [addAlt, wordSeq_nt, wordSeq_nil, bi_tens, bi_unit]
        exact ⟨_, _, _, _, ⟨p, hp, rfl, rfl⟩, ⟨_, _, _, _, ⟨q, hq, rfl, rfl⟩, ⟨rfl, rfl⟩, rfl, rfl⟩, rfl, rfl⟩
      · refine ⟨addAlt [nt "cardinal_tens", lit "and", nt "cardinal_unit"] 1 3, by simp [biBaseAlts],
          [some (.num p.2), none, some (.num q.2)], ?_, (calcEv_add rfl rfl).symm⟩
        simp only [addAlt, wordSeq_nt, wordSeq_nil, wordSeq_lit hand, bi_tens, bi_unit]
        exact ⟨_, _, _, _, ⟨p, hp, rfl, rfl⟩, ⟨_, _, ⟨_, _, _, _, ⟨q, hq, rfl, rfl⟩, ⟨rfl, rfl⟩, rfl, rfl⟩, rfl, rfl⟩, rfl, rfl⟩
      · refine ⟨addAlt [nt "cardinal_tens", lit "-", nt "cardinal_unit"] 1 3, by simp [biBaseAlts],
          [some (.num p.2), none, some (.num q.2)], ?_, (calcEv_add rfl rfl).symm⟩
        simp only [addAlt, wordSeq_nt, wordSeq_nil, wordSeq_lit hhy, bi_tens, bi_unit]
        exact ⟨_, _, _, _, ⟨p, hp, rfl, rfl⟩, ⟨_, _, ⟨_, _, _, _, ⟨q, hq, rfl, rfl⟩, ⟨rfl, rfl⟩, rfl, rfl⟩, rfl, rfl⟩, rfl, rfl⟩
      · refine ⟨addAlt [nt "cardinal_tens", lit ",", nt "cardinal_unit"] 1 3, by simp [biBaseAlts],
          [some (.num p.2), none, some (.num q.2)], ?_, (calcEv_add rfl rfl).symm⟩
        simp only [addAlt, wordSeq_nt, wordSeq_nil, wordSeq_lit hco, bi_tens, bi_unit]
        exact ⟨_, _, _, _, ⟨p, hp, rfl, rfl⟩, ⟨_, _, ⟨_, _, _, _, ⟨q, hq, rfl, rfl⟩, ⟨rfl, rfl⟩, rfl, rfl⟩, rfl, rfl⟩, rfl, rfl⟩

theorem bi_base_ne {l : List String} {c : Calc} (h : BiBase l c) : l ≠ [] := by cases h <;> simp

theorem bi_mag_ne {l : List String} {c : Calc} (h : BiMag l c) : l ≠ [] := by cases h <;> simp

theorem bi_magNum_of : ∀ (k : Nat) {l : List String} {v : Option Calc}, l.length ≤ k → BiLang "magnitude_number" l v →
    ∃ c, v = some c ∧ BiMag l c := by
  have hhy : splitIn biSplits "-" = ["-"] := by decide +kernel
  intro k
  induction k with
  | zero =>
    intro l v hk h
    rw [bi_alts biMagAlts rfl] at h
    obtain ⟨b, hb, vs, hv, rfl⟩ := h
    simp only [biMagAlts, List.mem_cons, List.not_mem_nil, or_false] at hb
    obtain rfl := List.length_eq_zero_iff.1 (Nat.le_zero.1 hk)
    rcases hb with rfl | rfl | rfl
    · simp only [mulAlt, wordSeq_nt, wordSeq_nil, bi_mag] at hv
      obtain ⟨_, _, _, _, -, ⟨_, _, _, _, ⟨p, -, rfl, rfl⟩, -, rfl, -⟩, e, -⟩ := hv
      simp at e
    · simp only [wordSeq_nt, wordSeq_nil, wordSeq_lit hhy, bi_mag] at hv
      obtain ⟨_, _, _, _, -, ⟨_, _, -, rfl, -⟩, e, -⟩ := hv
      simp at e
    · simp only [mulAlt, wordSeq_nt, wordSeq_nil, bi_mag] at hv
      obtain ⟨_, _, _, _, -, ⟨_, _, _, _, ⟨p, -, rfl, rfl⟩, -, rfl, -⟩, e, -⟩ := hv
      simp at e
  | succ k ih =>
    intro l v hk h
    rw [bi_alts biMagAlts rfl] at h
    obtain ⟨b, hb, vs, hv, rfl⟩ := h
    simp only [biMagAlts, List.mem_cons, List.not_mem_nil, or_false] at hb
    rcases hb with rfl | rfl | rfl
    · simp only [mulAlt, wordSeq_nt, wordSeq_nil, bi_mag, bi_base] at hv
      obtain ⟨_, _, _, _, ⟨c, rfl, h1⟩, ⟨_, _, _, _, ⟨p, hp, rfl, rfl⟩, ⟨rfl, rfl⟩, rfl, rfl⟩, rfl, rfl⟩ := hv
      exact ⟨_, by simp [mulAlt, calcEv, calcArg, argI, calcOp], .one (h := []) h1 (by simp) hp⟩
    · simp only [wordSeq_nt, wordSeq_nil, wordSeq_lit hhy, bi_mag, bi_base] at hv
      obtain ⟨_, _, _, _, ⟨c, rfl, h1⟩, ⟨_, _, ⟨_, _, _, _, ⟨p, hp, rfl, rfl⟩, ⟨rfl, rfl⟩, rfl, rfl⟩, rfl, rfl⟩, rfl, rfl⟩ := hv
      exact ⟨_, by simp [calcEv, calcArg, argI, calcOp], .one (h := ["-"]) h1 (by simp) hp⟩
    · simp only [mulAlt, wordSeq_nt, wordSeq_nil, bi_mag] at hv
      obtain ⟨l1, _, v1, _, h1, ⟨_, _, _, _, ⟨p, hp, rfl, rfl⟩, ⟨rfl, rfl⟩, rfl, rfl⟩, rfl, rfl⟩ := hv
      simp only [List.append_nil, List.length_append, List.length_singleton] at hk
      obtain ⟨c, rfl, h2⟩ := ih (by omega) h1
      exact ⟨_, by simp [mulAlt, calcEv, calcArg, argI, calcOp], .more h2 hp⟩

theorem bi_magNum {l : List String} {v : Option Calc} : BiLang "magnitude_number" l v ↔ ∃ c, v = some c ∧ BiMag l c := by
  have hhy : splitIn biSplits "-" = ["-"] := by decide +kernel
  refine ⟨bi_magNum_of _ le_rfl, ?_⟩
  rintro ⟨c, rfl, h⟩
  induction h with
  | @one l h c p h1 h2 hp =>
    rw [bi_alts biMagAlts rfl]
    simp only [List.mem_cons, List.not_mem_nil, or_false] at h2
    rcases h2 with rfl | rfl
    · refine ⟨mulAlt "base_number" "magnitude", by simp [biMagAlts], [some c, some (.num p.2)], ?_, by
        simp [mulAlt, calcEv, calcArg, argI, calcOp]⟩
      simp only [mulAlt, wordSeq_nt, wordSeq_nil, bi_mag, bi_base]
      exact ⟨_, _, _, _, ⟨c, rfl, h1⟩, ⟨_, _, _, _, ⟨p, hp, rfl, rfl⟩, ⟨rfl, rfl⟩, rfl, rfl⟩, rfl, rfl⟩
    · refine ⟨⟨[nt "base_number", lit "-", nt "magnitude"], some (.mk "nf.math.mul" [argI 1, argI 3])⟩, by simp [biMagAlts],
        [some c, none, some (.num p.2)], ?_, by simp [calcEv, calcArg, argI, calcOp]⟩
      simp only [wordSeq_nt, wordSeq_nil, wordSeq_lit hhy, bi_mag, bi_base]
      exact ⟨_, _, _, _, ⟨c, rfl, h1⟩, ⟨_, _, ⟨_, _, _, _, ⟨p, hp, rfl, rfl⟩, ⟨rfl, rfl⟩, rfl, rfl⟩, rfl, rfl⟩, rfl, rfl⟩
  | @more l c p h1 hp ih =>
    rw [bi_alts biMagAlts rfl]
    refine ⟨mulAlt "magnitude_number" "magnitude", by simp [biMagAlts], [some c, some (.num p.2)], ?_, by
      simp [mulAlt, calcEv, calcArg, argI, calcOp]⟩
    simp only [mulAlt, wordSeq_nt, wordSeq_nil, bi_mag]
    exact ⟨_, _, _, _, ih, ⟨_, _, _, _, ⟨p, hp, rfl, rfl⟩, ⟨rfl, rfl⟩, rfl, rfl⟩, rfl, rfl⟩

theorem bi_section {l : List String} {v : Option Calc} : BiLang "section" l v ↔ ∃ c, v = some c ∧ BiSec l c := by
  rw [bi_alts [sameAlt "magnitude_number", sameAlt "base_number"] rfl]
  constructor
  · rintro ⟨b, hb, hv⟩
    simp only [List.mem_cons, List.not_mem_nil, or_false] at hb
    rcases hb with rfl | rfl
    · obtain ⟨c, rfl, h⟩ := bi_magNum.1 (bi_same.1 hv)
      exact ⟨c, rfl, .mag h⟩
    · obtain ⟨c, rfl, h⟩ := bi_base.1 (bi_same.1 hv)
      exact ⟨c, rfl, .base h⟩
  · rintro ⟨c, rfl, h⟩
    cases h with
    | mag h => exact ⟨_, .head _, bi_same.2 (bi_magNum.2 ⟨c, rfl, h⟩)⟩
    | base h => exact ⟨_, .tail _ (.head _), bi_same.2 (bi_base.2 ⟨c, rfl, h⟩)⟩

theorem bi_sec_ne {l : List String} {c : Calc} (h : BiSec l c) : l ≠ [] := by
  cases h with
  | mag h => exact bi_mag_ne h
  | base h => exact bi_base_ne h

theorem bi_number_of : ∀ (k : Nat) {l : List String} {v : Option Calc}, l.length ≤ k → BiLang "number" l v →
    ∃ c, v = some c ∧ BiNum l c := by
  have hand : splitIn biSplits "and" = ["and"] := by decide +kernel
  intro k
  induction k with
  | zero =>
    intro l v hk h
    rw [bi_alts biNumAlts rfl] at h
    obtain ⟨b, hb, hv⟩ := h
    simp only [biNumAlts, List.mem_cons, List.not_mem_nil, or_false] at hb
    obtain rfl := List.length_eq_zero_iff.1 (Nat.le_zero.1 hk)
    rcases hb with rfl | rfl | rfl
    · obtain ⟨c, rfl, h⟩ := bi_section.1 (bi_same.1 hv)
      exact ⟨c, rfl, .last h⟩
    · obtain ⟨vs, h1, rfl⟩ := hv
      simp only [addAlt, wordSeq_nt, wordSeq_nil, bi_section] at h1
      obtain ⟨_, _, _, _, ⟨c, rfl, h1⟩, -, e, -⟩ := h1
      exact absurd (List.append_eq_nil_iff.1 e.symm).1 (bi_sec_ne h1)
    · obtain ⟨vs, h1, rfl⟩ := hv
      simp only [addAlt, wordSeq_nt, wordSeq_nil, bi_section] at h1
      obtain ⟨_, _, _, _, ⟨c, rfl, h1⟩, -, e, -⟩ := h1
      exact absurd (List.append_eq_nil_iff.1 e.symm).1 (bi_sec_ne h1)
  | succ k ih =>
    intro l v hk h
    rw [bi_alts biNumAlts rfl] at h
    obtain ⟨b, hb, hv⟩ := h
    simp only [biNumAlts, List.mem_cons, List.not_mem_nil, or_false] at hb
    rcases hb with rfl | rfl | rfl
    · obtain ⟨c, rfl, h⟩ := bi_section.1 (bi_same.1 hv)
      exact ⟨c, rfl, .last h⟩
    · obtain ⟨vs, h1, rfl⟩ := hv
      simp only [addAlt, wordSeq_nt, wordSeq_nil, bi_section] at h1
      obtain ⟨l1, _, _, _, ⟨c, rfl, h1⟩, ⟨l2, _, v2, _, h2, ⟨rfl, rfl⟩, rfl, rfl⟩, rfl, rfl⟩ := h1
      have := List.length_pos_iff.2 (bi_sec_ne h1)
      simp only [List.append_nil, List.length_append] at hk
      obtain ⟨c', rfl, h3⟩ := ih (by omega) h2
      refine ⟨_, calcEv_add rfl rfl, ?_⟩
      rw [List.append_nil]
      exact .more (sep := []) h1 (by simp) h3
    · obtain ⟨vs, h1, rfl⟩ := hv
      simp only [addAlt, wordSeq_nt, wordSeq_nil, wordSeq_lit hand, bi_section] at h1
      obtain ⟨l1, _, _, _, ⟨c, rfl, h1⟩, ⟨_, _, ⟨l2, _, v2, _, h2, ⟨rfl, rfl⟩, rfl, rfl⟩, rfl, rfl⟩, rfl, rfl⟩ := h1
      simp only [List.append_nil, List.length_append, List.length_cons] at hk
      obtain ⟨c', rfl, h3⟩ := ih (by omega) h2
      refine ⟨_, calcEv_add rfl rfl, ?_⟩
      rw [List.append_nil]
      exact .more (sep := ["and"]) h1 (by simp) h3

/-- what the grammar derives -/
theorem bi_number {l : List String} {v : Option Calc} : BiLang "number" l v ↔ ∃ c, v = some c ∧ BiNum l c := by
  have hand : splitIn biSplits "and" = ["and"] := by decide +kernel
  refine ⟨bi_number_of _ le_rfl, ?_⟩
  rintro ⟨c, rfl, h⟩
  induction h with
  | @last l c h =>
    rw [bi_alts biNumAlts rfl]
    exact ⟨_, .head _, bi_same.2 (bi_section.2 ⟨c, rfl, h⟩)⟩
  | @more l l' sep c c' h1 h2 h3 ih =>
    rw [bi_alts biNumAlts rfl]
    simp only [List.mem_cons, List.not_mem_nil, or_false] at h2
    rcases h2 with rfl | rfl
    · refine ⟨addAlt [nt "section", nt "number"] 1 2, by simp [biNumAlts], [some c, some c'], ?_, (calcEv_add rfl rfl).symm⟩
      simp only [addAlt, wordSeq_nt, wordSeq_nil, bi_section]
      exact ⟨_, _, _, _, ⟨c, rfl, h1⟩, ⟨_, _, _, _, ih, ⟨rfl, rfl⟩, rfl, rfl⟩, by simp, rfl⟩
    · refine ⟨addAlt [nt "section", lit "and", nt "number"] 1 3, by simp [biNumAlts], [some c, none, some c'], ?_,
        (calcEv_add rfl rfl).symm⟩
      simp only [addAlt, wordSeq_nt, wordSeq_nil, wordSeq_lit hand, bi_section]
      exact ⟨_, _, _, _, ⟨c, rfl, h1⟩, ⟨_, _, ⟨_, _, _, _, ih, ⟨rfl, rfl⟩, rfl, rfl⟩, rfl, rfl⟩, by simp, rfl⟩

end Fmr
