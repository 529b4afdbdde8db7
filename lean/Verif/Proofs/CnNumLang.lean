import Verif.Spec.Numerals
import Verif.Proofs.NumberEnLang
import Verif.Proofs.WordRules

/-!
# What the rules of examples/builtin/cn_num.grammar derive
-/

namespace Fmr

/-! ## the definitions -/

def cnUnits : List (String × Nat) :=
  [("一", 1), ("二", 2), ("三", 3), ("四", 4), ("五", 5), ("六", 6), ("七", 7), ("八", 8), ("九", 9)]

def cnZeros : List (String × Nat) := [("零", 0), ("〇", 0)]

def cn10Alts : List RuleBody :=
  [sameAlt "cn_num_10", mulAlt "cn_num_unit" "cn_num_10", sumAlt [nt "cn_num_unit", nt "cn_num_10", nt "cn_num_unit"] (argI 3),
    sameAlt "cn_num_unit"]

def cn100Alts : List RuleBody :=
  [mulAlt "cn_num_unit" "cn_num_100", sumAlt [nt "cn_num_unit", nt "cn_num_100", nt "cn_num_10s"] (argI 3),
    sumAlt [nt "cn_num_unit", nt "cn_num_100", nt "cn_zero", nt "cn_num_unit"] (argI 4), sameAlt "cn_num_10s"]

def cn1000Alts : List RuleBody :=
  [mulAlt "cn_num_unit" "cn_num_1000", sumAlt [nt "cn_num_unit", nt "cn_num_1000", nt "cn_num_100s"] (argI 3),
    sumAlt [nt "cn_num_unit", nt "cn_num_1000", nt "cn_zero", nt "cn_num_unit"] (argI 4),
    sumAlt [nt "cn_num_unit", nt "cn_num_1000", nt "cn_zero", nt "cn_num_10s"] (argI 4), sameAlt "cn_num_100s"]

def cn10000Alts : List RuleBody :=
  [mulAlt "cn_num_1000s" "cn_num_10000", sumAlt [nt "cn_num_1000s", nt "cn_num_10000", nt "cn_num_1000s"] (argI 3),
    sameAlt "cn_num_1000s"]

def cnYiAlts : List RuleBody :=
  [mulAlt "cn_num_10000s" "cn_num_100000000", sumAlt [nt "cn_num_10000s", nt "cn_num_100000000", nt "cn_num_10000s"] (argI 3),
    sumAlt [nt "cn_num_10000s", nt "cn_num_100000000", nt "cn_zero", nt "cn_num_10000s"] (argI 4), sameAlt "cn_num_10000s"]

def cnDefs : List Def := [
  ⟨false, "cn_num_unit", cnUnits.map fun p => numAlt p.1 p.2⟩,
  ⟨false, "cn_zero", cnZeros.map fun p => numAlt p.1 p.2⟩,
  ⟨false, "cn_num_10", [("十", 10)].map fun p : String × Nat => numAlt p.1 p.2⟩,
  ⟨false, "cn_num_100", [("百", 100)].map fun p : String × Nat => numAlt p.1 p.2⟩,
  ⟨false, "cn_num_1000", [("千", 1000)].map fun p : String × Nat => numAlt p.1 p.2⟩,
  ⟨false, "cn_num_10000", [("万", 10000)].map fun p : String × Nat => numAlt p.1 p.2⟩,
  ⟨false, "cn_num_100000000", [("亿", 100000000)].map fun p : String × Nat => numAlt p.1 p.2⟩,
  ⟨false, "cn_num_10s", cn10Alts⟩,
  ⟨false, "cn_num_100s", cn100Alts⟩,
  ⟨false, "cn_num_1000s", cn1000Alts⟩,
  ⟨false, "cn_num_10000s", cn10000Alts⟩,
  ⟨false, "cn_num_yi", cnYiAlts⟩,
  ⟨false, "number", [sameAlt "cn_num_yi"]⟩]

set_option maxRecDepth 100000 in
theorem cn_parts : PartsRead [] cnNumParts cnDefs := by
  unfold cnNumParts cnDefs
  repeat' first | exact .nil | refine .cons _ rfl (by decide +kernel) ?_

/-- the words of the literals -/
def cnSplits : List (String × List String) :=
  ["一", "二", "三", "四", "五", "六", "七", "八", "九", "零", "〇", "十", "百", "千", "万", "亿"].map fun s => (s, [s])

def cnNames : List String :=
  ["cn_num_unit", "cn_zero", "cn_num_10", "cn_num_100", "cn_num_1000", "cn_num_10000", "cn_num_100000000", "cn_num_10s", "cn_num_100s",
    "cn_num_1000s", "cn_num_10000s", "cn_num_yi", "number"]

theorem cn_check : wordDefsOK cnNames cnSplits cnDefs = true := by decide +kernel

/-! ## inversion of derivations -/

abbrev CnLang := WordLang (Written cnDefs false) (splitIn cnSplits) fmrNum

theorem cn_frames : (cnDefs.all fun d => !d.frame) = true := by decide +kernel

/-- the alternatives of a rule -/
theorem cn_alts {A : String} {l : List String} {v : Option Nat} (bs : List RuleBody)
    (hb : (cnDefs.filter fun d => d.name == A).flatMap (·.bodies) = bs) : CnLang A l v ↔
      ∃ b ∈ bs, ∃ vs, WordSeq (Written cnDefs false) (splitIn cnSplits) fmrNum b.terms l vs ∧ v = b.f.bind (fmrNum vs) :=
  wordLang_alts bs cn_frames hb

/-- one of the parts is another rule -/
theorem cn_same {A : String} {l : List String} {v : Option Nat} :
    (∃ vs, WordSeq (Written cnDefs false) (splitIn cnSplits) fmrNum (sameAlt A).terms l vs ∧ v = (sameAlt A).f.bind (fmrNum vs)) ↔
      CnLang A l v := by
  have : (sameAlt A).terms = [nt A] := rfl
  simp only [this, wordSeq_nt, wordSeq_nil]
  constructor
  · rintro ⟨_, ⟨l1, l2, v', vs', h, ⟨rfl, rfl⟩, rfl, rfl⟩, rfl⟩
    rw [List.append_nil]
    simpa [sameAlt_f] using h
  · intro h
    exact ⟨[v], ⟨l, [], v, [], h, ⟨rfl, rfl⟩, by simp, rfl⟩, sameAlt_f.symm⟩

/-- a rule with numbers only -/
theorem cn_nums {A : String} {l : List String} {v : Option Nat} (tbl : List (String × Nat))
    (hi : ∀ p ∈ tbl, splitIn cnSplits p.1 = [p.1] ∧ p.2 < 10 ^ 10)
    (h : (cnDefs.filter fun d => d.name == A).flatMap (·.bodies) = tbl.map fun p => numAlt p.1 p.2) :
    CnLang A l v ↔ ∃ p ∈ tbl, l = [p.1] ∧ v = some p.2 := by
  rw [cn_alts _ h]
  constructor
  · rintro ⟨b, hb, vs, h1, rfl⟩
    obtain ⟨p, hp, rfl⟩ := List.mem_map.1 hb
    refine ⟨p, hp, ?_, numAlt_f (hi p hp).2⟩
    rw [numAlt, wordSeq_lit (hi p hp).1] at h1
    obtain ⟨l', vs', h2, rfl, -⟩ := h1
    rw [(wordSeq_nil.1 h2).1]
  · rintro ⟨p, hp, rfl, rfl⟩
    exact ⟨_, List.mem_map.2 ⟨p, hp, rfl⟩, [none], (wordSeq_lit (hi p hp).1).2 ⟨[], [], .nil, rfl, rfl⟩, (numAlt_f (hi p hp).2).symm⟩

theorem cn_one {A x : String} {n : Nat} {l : List String} {v : Option Nat} (hi : splitIn cnSplits x = [x] ∧ n < 10 ^ 10)
    (h : (cnDefs.filter fun d => d.name == A).flatMap (·.bodies) = [(x, n)].map fun p : String × Nat => numAlt p.1 p.2) :
    CnLang A l v ↔ l = [x] ∧ v = some n := by
  rw [cn_nums [(x, n)] (by intro p hp; rw [List.mem_singleton.1 hp]; exact hi) h]
  simp

theorem cn_unit {l : List String} {v : Option Nat} : CnLang "cn_num_unit" l v ↔ ∃ p ∈ cnUnits, l = [p.1] ∧ v = some p.2 :=
  cn_nums cnUnits (by decide +kernel) rfl

theorem cn_zero {l : List String} {v : Option Nat} : CnLang "cn_zero" l v ↔ ∃ p ∈ cnZeros, l = [p.1] ∧ v = some p.2 :=
  cn_nums cnZeros (by decide +kernel) rfl

theorem cn_10 {l : List String} {v : Option Nat} : CnLang "cn_num_10" l v ↔ l = ["十"] ∧ v = some 10 :=
  cn_one (by decide +kernel) rfl

theorem cn_100 {l : List String} {v : Option Nat} : CnLang "cn_num_100" l v ↔ l = ["百"] ∧ v = some 100 :=
  cn_one (by decide +kernel) rfl

theorem cn_1000 {l : List String} {v : Option Nat} : CnLang "cn_num_1000" l v ↔ l = ["千"] ∧ v = some 1000 :=
  cn_one (by decide +kernel) rfl

theorem cn_10000 {l : List String} {v : Option Nat} : CnLang "cn_num_10000" l v ↔ l = ["万"] ∧ v = some 10000 :=
  cn_one (by decide +kernel) rfl

theorem cn_100000000 {l : List String} {v : Option Nat} : CnLang "cn_num_100000000" l v ↔ l = ["亿"] ∧ v = some 100000000 :=
  cn_one (by decide +kernel) rfl

/-- the numbers below a hundred -/
inductive Cn10 : List String → Nat → Prop
  | ten : Cn10 ["十"] 10
  | tens {p : String × Nat} : p ∈ cnUnits → Cn10 [p.1, "十"] (p.2 * 10)
  | both {p q : String × Nat} : p ∈ cnUnits → q ∈ cnUnits → Cn10 [p.1, "十", q.1] (p.2 * 10 + q.2)
  | unit {p : String × Nat} : p ∈ cnUnits → Cn10 [p.1] p.2

inductive Cn100 : List String → Nat → Prop
  | hundred {p : String × Nat} : p ∈ cnUnits → Cn100 [p.1, "百"] (p.2 * 100)
  | more {p : String × Nat} {l : List String} {n : Nat} : p ∈ cnUnits → Cn10 l n → Cn100 (p.1 :: "百" :: l) (p.2 * 100 + n)
  | gap {p q z : String × Nat} : p ∈ cnUnits → z ∈ cnZeros → q ∈ cnUnits → Cn100 [p.1, "百", z.1, q.1] (p.2 * 100 + q.2)
  | less {l : List String} {n : Nat} : Cn10 l n → Cn100 l n

inductive Cn1000 : List String → Nat → Prop
  | thousand {p : String × Nat} : p ∈ cnUnits → Cn1000 [p.1, "千"] (p.2 * 1000)
  | more {p : String × Nat} {l : List String} {n : Nat} : p ∈ cnUnits → Cn100 l n → Cn1000 (p.1 :: "千" :: l) (p.2 * 1000 + n)
  | gap {p z : String × Nat} {l : List String} {n : Nat} : p ∈ cnUnits → z ∈ cnZeros → Cn10 l n →
      Cn1000 (p.1 :: "千" :: z.1 :: l) (p.2 * 1000 + n)
  | less {l : List String} {n : Nat} : Cn100 l n → Cn1000 l n

inductive Cn10000 : List String → Nat → Prop
  | myriad {l : List String} {n : Nat} : Cn1000 l n → Cn10000 (l ++ ["万"]) (n * 10000)
  | more {l l' : List String} {n m : Nat} : Cn1000 l n → Cn1000 l' m → Cn10000 (l ++ "万" :: l') (n * 10000 + m)
  | less {l : List String} {n : Nat} : Cn1000 l n → Cn10000 l n

inductive CnNum : List String → Nat → Prop
  | yi {l : List String} {n : Nat} : Cn10000 l n → CnNum (l ++ ["亿"]) (n * 100000000)
  | more {l l' : List String} {n m : Nat} : Cn10000 l n → Cn10000 l' m → CnNum (l ++ "亿" :: l') (n * 100000000 + m)
  | gap {z : String × Nat} {l l' : List String} {n m : Nat} : z ∈ cnZeros → Cn10000 l n → Cn10000 l' m →
      CnNum (l ++ "亿" :: z.1 :: l') (n * 100000000 + m)
  | less {l : List String} {n : Nat} : Cn10000 l n → CnNum l n

theorem cnUnits_lt {p : String × Nat} (h : p ∈ cnUnits) : 0 < p.2 ∧ p.2 < 10 := by
  have : ∀ p ∈ cnUnits, 0 < p.2 ∧ p.2 < 10 := by decide
  exact this p h

theorem cn10_lt {l : List String} {n : Nat} (h : Cn10 l n) : 0 < n ∧ n < 100 := by
  cases h with
  | ten => decide
  | tens h => have := cnUnits_lt h; omega
  | both h h' => have := cnUnits_lt h; have := cnUnits_lt h'; omega
  | unit h => have := cnUnits_lt h; omega

theorem cn100_lt {l : List String} {n : Nat} (h : Cn100 l n) : 0 < n ∧ n < 1000 := by
  cases h with
  | hundred h => have := cnUnits_lt h; omega
  | more h h' => have := cnUnits_lt h; have := cn10_lt h'; omega
  | gap h _ h' => have := cnUnits_lt h; have := cnUnits_lt h'; omega
  | less h => have := cn10_lt h; omega

theorem cn1000_lt {l : List String} {n : Nat} (h : Cn1000 l n) : 0 < n ∧ n < 10000 := by
  cases h with
  | thousand h => have := cnUnits_lt h; omega
  | more h h' => have := cnUnits_lt h; have := cn100_lt h'; omega
  | gap h _ h' => have := cnUnits_lt h; have := cn10_lt h'; omega
  | less h => have := cn100_lt h; omega

theorem cn10000_lt {l : List String} {n : Nat} (h : Cn10000 l n) : 0 < n ∧ n < 100000000 := by
  cases h with
  | myriad h => have := cn1000_lt h; omega
  | more h h' => have := cn1000_lt h; have := cn1000_lt h'; omega
  | less h => have := cn1000_lt h; omega

theorem cnNum_lt {l : List String} {n : Nat} (h : CnNum l n) : 0 < n ∧ n < 10 ^ 16 := by
  cases h with
  | yi h => have := cn10000_lt h; omega
  | more h h' => have := cn10000_lt h; have := cn10000_lt h'; omega
  | gap _ h h' => have := cn10000_lt h; have := cn10000_lt h'; omega
  | less h => have := cn10000_lt h; omega

/-! ## the rules with units -/

theorem cn_mul {A e : String} {l : List String} {v : Option Nat} :
    (∃ vs, WordSeq (Written cnDefs false) (splitIn cnSplits) fmrNum (mulAlt A e).terms l vs ∧ v = (mulAlt A e).f.bind (fmrNum vs)) ↔
      ∃ l1 l2 a b, CnLang A l1 a ∧ CnLang e l2 b ∧ l = l1 ++ l2 ∧ v = smallOp (· * ·) a b := by
  have hf : ∀ a b, (mulAlt A e).f.bind (fmrNum [a, b]) = smallOp (· * ·) a b := by
    intro a b
    simp [mulAlt, fmrNum, argI, argNum, valNum]
  have : (mulAlt A e).terms = [nt A, nt e] := rfl
  simp only [this, wordSeq_nt, wordSeq_nil]
  constructor
  · rintro ⟨_, ⟨l1, _, a, _, h1, ⟨l2, _, b, _, h2, ⟨rfl, rfl⟩, rfl, rfl⟩, rfl, rfl⟩, rfl⟩
    exact ⟨l1, l2, a, b, h1, h2, by simp, hf a b⟩
  · rintro ⟨l1, l2, a, b, h1, h2, rfl, rfl⟩
    exact ⟨[a, b], ⟨l1, l2, a, [b], h1, ⟨l2, [], b, [], h2, ⟨rfl, rfl⟩, by simp, rfl⟩, rfl, rfl⟩, (hf a b).symm⟩

theorem cn_sum {A e B : String} {l : List String} {v : Option Nat} :
    (∃ vs, WordSeq (Written cnDefs false) (splitIn cnSplits) fmrNum (sumAlt [nt A, nt e, nt B] (argI 3)).terms l vs ∧
      v = (sumAlt [nt A, nt e, nt B] (argI 3)).f.bind (fmrNum vs)) ↔
      ∃ l1 l2 l3 a b c, CnLang A l1 a ∧ CnLang e l2 b ∧ CnLang B l3 c ∧ l = l1 ++ (l2 ++ l3) ∧
        v = smallOp (· + ·) (smallOp (· * ·) a b) c := by
  have hf : ∀ a b c, (sumAlt [nt A, nt e, nt B] (argI 3)).f.bind (fmrNum [a, b, c]) = smallOp (· + ·) (smallOp (· * ·) a b) c := by
    intro a b c
    simp [sumAlt, fmrNum, argI, argNum, valNum, argF]
  have : (sumAlt [nt A, nt e, nt B] (argI 3)).terms = [nt A, nt e, nt B] := rfl
  simp only [this, wordSeq_nt, wordSeq_nil]
  constructor
  · rintro ⟨_, ⟨l1, _, a, _, h1, ⟨l2, _, b, _, h2, ⟨l3, _, c, _, h3, ⟨rfl, rfl⟩, rfl, rfl⟩, rfl, rfl⟩, rfl, rfl⟩, rfl⟩
    exact ⟨l1, l2, l3, a, b, c, h1, h2, h3, by simp, hf a b c⟩
  · rintro ⟨l1, l2, l3, a, b, c, h1, h2, h3, rfl, rfl⟩
    exact ⟨[a, b, c], ⟨l1, _, a, [b, c], h1, ⟨l2, _, b, [c], h2, ⟨l3, [], c, [], h3, ⟨rfl, rfl⟩, rfl, rfl⟩, rfl, rfl⟩,
      by simp, rfl⟩, (hf a b c).symm⟩

theorem cn_gap {A e Z B : String} {l : List String} {v : Option Nat} :
    (∃ vs, WordSeq (Written cnDefs false) (splitIn cnSplits) fmrNum (sumAlt [nt A, nt e, nt Z, nt B] (argI 4)).terms l vs ∧
      v = (sumAlt [nt A, nt e, nt Z, nt B] (argI 4)).f.bind (fmrNum vs)) ↔
      ∃ l1 l2 l3 l4 a b z c, CnLang A l1 a ∧ CnLang e l2 b ∧ CnLang Z l3 z ∧ CnLang B l4 c ∧ l = l1 ++ (l2 ++ (l3 ++ l4)) ∧
        v = smallOp (· + ·) (smallOp (· * ·) a b) c := by
  have hf : ∀ a b z c, (sumAlt [nt A, nt e, nt Z, nt B] (argI 4)).f.bind (fmrNum [a, b, z, c]) =
      smallOp (· + ·) (smallOp (· * ·) a b) c := by
    intro a b z c
    simp [sumAlt, fmrNum, argI, argNum, valNum, argF]
  have : (sumAlt [nt A, nt e, nt Z, nt B] (argI 4)).terms = [nt A, nt e, nt Z, nt B] := rfl
  simp only [this, wordSeq_nt, wordSeq_nil]
  constructor
  · rintro ⟨_, ⟨l1, _, a, _, h1, ⟨l2, _, b, _, h2, ⟨l3, _, z, _, h3, ⟨l4, _, c, _, h4, ⟨rfl, rfl⟩, rfl, rfl⟩, rfl, rfl⟩, rfl, rfl⟩, rfl, rfl⟩, rfl⟩
    exact ⟨l1, l2, l3, l4, a, b, z, c, h1, h2, h3, h4, by simp, hf a b z c⟩
  · rintro ⟨l1, l2, l3, l4, a, b, z, c, h1, h2, h3, h4, rfl, rfl⟩
    exact ⟨[a, b, z, c], ⟨l1, _, a, [b, z, c], h1, ⟨l2, _, b, [z, c], h2, ⟨l3, _, z, [c], h3, ⟨l4, [], c, [], h4, ⟨rfl, rfl⟩, rfl, rfl⟩, rfl, rfl⟩,
      rfl, rfl⟩, by simp, rfl⟩, (hf a b z c).symm⟩

theorem short_times {a k : Nat} (ha : a < 10 ^ 8) (hk : k ≤ 10000 ∧ a < 10000 ∨ k = 100000000) : Short a ∧ Short k ∧ Short (a * k) ∧
    a * k < 10 ^ 16 := by
  have h1 : a * k ≤ a * 100000000 := Nat.mul_le_mul_left a (by omega)
  rcases hk with ⟨hk, ha'⟩ | rfl
  · have h2 : a * k ≤ 10000 * 10000 := Nat.mul_le_mul (by omega) hk
    exact ⟨.inl (by omega), .inl (by omega), .inl (by omega), by omega⟩
  · exact ⟨.inl (by omega), .inl (by omega), .inr ⟨by omega, by omega⟩, by omega⟩

theorem mul_short {a k : Nat} (ha : a < 10 ^ 8) (hk : k ≤ 10000 ∧ a < 10000 ∨ k = 100000000) : smallOp (· * ·) (some a) (some k) = some (a * k) := by
  obtain ⟨h1, h2, -, h3⟩ := short_times ha hk
  exact smallOp_short h1 h2 (by omega)

theorem sum_short {a k c : Nat} (ha : a < 10 ^ 8) (hk : k ≤ 10000 ∧ a < 10000 ∨ k = 100000000) (hc : c < 10 ^ 8) :
    smallOp (· + ·) (smallOp (· * ·) (some a) (some k)) (some c) = some (a * k + c) := by
  rw [mul_short ha hk]
  obtain ⟨-, -, h1, h2⟩ := short_times ha hk
  exact smallOp_short h1 (.inl (by omega)) (by omega)

theorem cn_10s {l : List String} {v : Option Nat} : CnLang "cn_num_10s" l v ↔ ∃ n, v = some n ∧ Cn10 l n := by
  rw [cn_alts cn10Alts rfl]
  simp only [cn10Alts, List.exists_mem_cons_iff, List.not_mem_nil, false_and, exists_false, or_false, cn_same, cn_mul, cn_sum, cn_unit, cn_10]
  constructor
  · rintro (⟨rfl, rfl⟩ | ⟨_, _, _, _, ⟨p, hp, rfl, rfl⟩, ⟨rfl, rfl⟩, rfl, rfl⟩ |
      ⟨_, _, _, _, _, _, ⟨p, hp, rfl, rfl⟩, ⟨rfl, rfl⟩, ⟨q, hq, rfl, rfl⟩, rfl, rfl⟩ | ⟨p, hp, rfl, rfl⟩)
    · exact ⟨_, rfl, .ten⟩
    · have := cnUnits_lt hp
      exact ⟨_, mul_short (by omega) (.inl (by omega)), .tens hp⟩
    · have := cnUnits_lt hp
      have := cnUnits_lt hq
      exact ⟨_, sum_short (by omega) (.inl (by omega)) (by omega), .both hp hq⟩
    · exact ⟨_, rfl, .unit hp⟩
  · rintro ⟨n, rfl, h⟩
    cases h with
    | ten => exact .inl ⟨rfl, rfl⟩
    | @tens p hp =>
      have := cnUnits_lt hp
      exact .inr (.inl ⟨_, _, _, _, ⟨p, hp, rfl, rfl⟩, ⟨rfl, rfl⟩, rfl, (mul_short (by omega) (.inl (by omega))).symm⟩)
    | @both p q hp hq =>
      have := cnUnits_lt hp
      have := cnUnits_lt hq
      exact .inr (.inr (.inl ⟨_, _, _, _, _, _, ⟨p, hp, rfl, rfl⟩, ⟨rfl, rfl⟩, ⟨q, hq, rfl, rfl⟩, rfl,
        (sum_short (by omega) (.inl (by omega)) (by omega)).symm⟩))
    | @unit p hp => exact .inr (.inr (.inr ⟨p, hp, rfl, rfl⟩))

theorem cn_100s {l : List String} {v : Option Nat} : CnLang "cn_num_100s" l v ↔ ∃ n, v = some n ∧ Cn100 l n := by
  rw [cn_alts cn100Alts rfl]
  simp only [cn100Alts, List.exists_mem_cons_iff, List.not_mem_nil, false_and, exists_false, or_false, cn_same, cn_mul, cn_sum, cn_gap,
    cn_unit, cn_zero, cn_100, cn_10s]
  constructor
  · rintro (⟨_, _, _, _, ⟨p, hp, rfl, rfl⟩, ⟨rfl, rfl⟩, rfl, rfl⟩ |
      ⟨_, _, _, _, _, _, ⟨p, hp, rfl, rfl⟩, ⟨rfl, rfl⟩, ⟨n, rfl, hn⟩, rfl, rfl⟩ |
      ⟨_, _, _, _, _, _, _, _, ⟨p, hp, rfl, rfl⟩, ⟨rfl, rfl⟩, ⟨z, hz, rfl, rfl⟩, ⟨q, hq, rfl, rfl⟩, rfl, rfl⟩ | ⟨n, rfl, hn⟩)
    · have := cnUnits_lt hp
      exact ⟨_, mul_short (by omega) (.inl (by omega)), .hundred hp⟩
    · have := cnUnits_lt hp
      have := cn10_lt hn
      exact ⟨_, sum_short (by omega) (.inl (by omega)) (by omega), .more hp hn⟩
    · have := cnUnits_lt hp
      have := cnUnits_lt hq
      exact ⟨_, sum_short (by omega) (.inl (by omega)) (by omega), .gap hp hz hq⟩
    · exact ⟨_, rfl, .less hn⟩
  · rintro ⟨n, rfl, h⟩
    cases h with
    | @hundred p hp =>
      have := cnUnits_lt hp
      exact .inl ⟨_, _, _, _, ⟨p, hp, rfl, rfl⟩, ⟨rfl, rfl⟩, rfl, (mul_short (by omega) (.inl (by omega))).symm⟩
    | @more p l n hp hn =>
      have := cnUnits_lt hp
      have := cn10_lt hn
      exact .inr (.inl ⟨_, _, _, _, _, _, ⟨p, hp, rfl, rfl⟩, ⟨rfl, rfl⟩, ⟨n, rfl, hn⟩, rfl,
        (sum_short (by omega) (.inl (by omega)) (by omega)).symm⟩)
    | @gap p q z hp hz hq =>
      have := cnUnits_lt hp
      have := cnUnits_lt hq
      exact .inr (.inr (.inl ⟨_, _, _, _, _, _, _, _, ⟨p, hp, rfl, rfl⟩, ⟨rfl, rfl⟩, ⟨z, hz, rfl, rfl⟩, ⟨q, hq, rfl, rfl⟩, rfl,
        (sum_short (by omega) (.inl (by omega)) (by omega)).symm⟩))
    | less hn => exact .inr (.inr (.inr ⟨_, rfl, hn⟩))

theorem cn_1000s {l : List String} {v : Option Nat} : CnLang "cn_num_1000s" l v ↔ ∃ n, v = some n ∧ Cn1000 l n := by
  rw [cn_alts cn1000Alts rfl]
  simp only [cn1000Alts, List.exists_mem_cons_iff, List.not_mem_nil, false_and, exists_false, or_false, cn_same, cn_mul, cn_sum, cn_gap,
    cn_unit, cn_zero, cn_1000, cn_100s, cn_10s]
  constructor
  · rintro (⟨_, _, _, _, ⟨p, hp, rfl, rfl⟩, ⟨rfl, rfl⟩, rfl, rfl⟩ |
      ⟨_, _, _, _, _, _, ⟨p, hp, rfl, rfl⟩, ⟨rfl, rfl⟩, ⟨n, rfl, hn⟩, rfl, rfl⟩ |
      ⟨_, _, _, _, _, _, _, _, ⟨p, hp, rfl, rfl⟩, ⟨rfl, rfl⟩, ⟨z, hz, rfl, rfl⟩, ⟨q, hq, rfl, rfl⟩, rfl, rfl⟩ |
      ⟨_, _, _, _, _, _, _, _, ⟨p, hp, rfl, rfl⟩, ⟨rfl, rfl⟩, ⟨z, hz, rfl, rfl⟩, ⟨n, rfl, hn⟩, rfl, rfl⟩ | ⟨n, rfl, hn⟩)
    · have := cnUnits_lt hp
      exact ⟨_, mul_short (by omega) (.inl (by omega)), .thousand hp⟩
    · have := cnUnits_lt hp
      have := cn100_lt hn
      exact ⟨_, sum_short (by omega) (.inl (by omega)) (by omega), .more hp hn⟩
    · have := cnUnits_lt hp
      have := cnUnits_lt hq
      exact ⟨_, sum_short (by omega) (.inl (by omega)) (by omega), .gap hp hz (.unit hq)⟩
    · have := cnUnits_lt hp
      have := cn10_lt hn
      exact ⟨_, sum_short (by omega) (.inl (by omega)) (by omega), .gap hp hz hn⟩
    · exact ⟨_, rfl, .less hn⟩
  · rintro ⟨n, rfl, h⟩
    cases h with
    | @thousand p hp =>
      have := cnUnits_lt hp
      exact .inl ⟨_, _, _, _, ⟨p, hp, rfl, rfl⟩, ⟨rfl, rfl⟩, rfl, (mul_short (by omega) (.inl (by omega))).symm⟩
    | @more p l n hp hn =>
      have := cnUnits_lt hp
      have := cn100_lt hn
      exact .inr (.inl ⟨_, _, _, _, _, _, ⟨p, hp, rfl, rfl⟩, ⟨rfl, rfl⟩, ⟨n, rfl, hn⟩, rfl,
        (sum_short (by omega) (.inl (by omega)) (by omega)).symm⟩)
    | @gap p z l n hp hz hn =>
      have := cnUnits_lt hp
      have := cn10_lt hn
      exact .inr (.inr (.inr (.inl ⟨_, _, _, _, _, _, _, _, ⟨p, hp, rfl, rfl⟩, ⟨rfl, rfl⟩, ⟨z, hz, rfl, rfl⟩, ⟨n, rfl, hn⟩, rfl,
        (sum_short (by omega) (.inl (by omega)) (by omega)).symm⟩)))
    | less hn => exact .inr (.inr (.inr (.inr ⟨_, rfl, hn⟩)))

theorem cn_10000s {l : List String} {v : Option Nat} : CnLang "cn_num_10000s" l v ↔ ∃ n, v = some n ∧ Cn10000 l n := by
  rw [cn_alts cn10000Alts rfl]
  simp only [cn10000Alts, List.exists_mem_cons_iff, List.not_mem_nil, false_and, exists_false, or_false, cn_same, cn_mul, cn_sum,
    cn_10000, cn_1000s]
  constructor
  · rintro (⟨_, _, _, _, ⟨m, rfl, hm⟩, ⟨rfl, rfl⟩, rfl, rfl⟩ |
      ⟨_, _, _, _, _, _, ⟨m, rfl, hm⟩, ⟨rfl, rfl⟩, ⟨n, rfl, hn⟩, rfl, rfl⟩ | ⟨n, rfl, hn⟩)
    · have := cn1000_lt hm
      exact ⟨_, mul_short (by omega) (.inl (by omega)), .myriad hm⟩
    · have := cn1000_lt hm
      have := cn1000_lt hn
      exact ⟨_, sum_short (by omega) (.inl (by omega)) (by omega), .more hm hn⟩
    · exact ⟨_, rfl, .less hn⟩
  · rintro ⟨n, rfl, h⟩
    cases h with
    | @myriad l m hm =>
      have := cn1000_lt hm
      exact .inl ⟨_, _, _, _, ⟨m, rfl, hm⟩, ⟨rfl, rfl⟩, rfl, (mul_short (by omega) (.inl (by omega))).symm⟩
    | @more l l' m n hm hn =>
      have := cn1000_lt hm
      have := cn1000_lt hn
      exact .inr (.inl ⟨_, _, _, _, _, _, ⟨m, rfl, hm⟩, ⟨rfl, rfl⟩, ⟨n, rfl, hn⟩, rfl,
        (sum_short (by omega) (.inl (by omega)) (by omega)).symm⟩)
    | less hn => exact .inr (.inr ⟨_, rfl, hn⟩)

theorem cn_number {l : List String} {v : Option Nat} : CnLang "number" l v ↔ ∃ n, v = some n ∧ CnNum l n := by
  rw [cn_alts [sameAlt "cn_num_yi"] rfl]
  simp only [List.exists_mem_cons_iff, List.not_mem_nil, false_and, exists_false, or_false, cn_same]
  rw [cn_alts cnYiAlts rfl]
  simp only [cnYiAlts, List.exists_mem_cons_iff, List.not_mem_nil, false_and, exists_false, or_false, cn_same, cn_mul, cn_sum, cn_gap,
    cn_zero, cn_10000s, cn_100000000]
  constructor
  · rintro (⟨_, _, _, _, ⟨m, rfl, hm⟩, ⟨rfl, rfl⟩, rfl, rfl⟩ |
      ⟨_, _, _, _, _, _, ⟨m, rfl, hm⟩, ⟨rfl, rfl⟩, ⟨n, rfl, hn⟩, rfl, rfl⟩ |
      ⟨_, _, _, _, _, _, _, _, ⟨m, rfl, hm⟩, ⟨rfl, rfl⟩, ⟨z, hz, rfl, rfl⟩, ⟨n, rfl, hn⟩, rfl, rfl⟩ | ⟨n, rfl, hn⟩)
    · have := cn10000_lt hm
      exact ⟨_, mul_short (by omega) (.inr rfl), .yi hm⟩
    · have := cn10000_lt hm
      have := cn10000_lt hn
      exact ⟨_, sum_short (by omega) (.inr rfl) (by omega), .more hm hn⟩
    · have := cn10000_lt hm
      have := cn10000_lt hn
      exact ⟨_, sum_short (by omega) (.inr rfl) (by omega), .gap hz hm hn⟩
    · exact ⟨_, rfl, .less hn⟩
  · rintro ⟨n, rfl, h⟩
    cases h with
    | @yi l m hm =>
      have := cn10000_lt hm
      exact .inl ⟨_, _, _, _, ⟨m, rfl, hm⟩, ⟨rfl, rfl⟩, rfl, (mul_short (by omega) (.inr rfl)).symm⟩
    | @more l l' m n hm hn =>
      have := cn10000_lt hm
      have := cn10000_lt hn
      exact .inr (.inl ⟨_, _, _, _, _, _, ⟨m, rfl, hm⟩, ⟨rfl, rfl⟩, ⟨n, rfl, hn⟩, rfl,
        (sum_short (by omega) (.inr rfl) (by omega)).symm⟩)
    | @gap z l l' m n hz hm hn =>
      have := cn10000_lt hm
      have := cn10000_lt hn
      exact .inr (.inr (.inl ⟨_, _, _, _, _, _, _, _, ⟨m, rfl, hm⟩, ⟨rfl, rfl⟩, ⟨z, hz, rfl, rfl⟩, ⟨n, rfl, hn⟩, rfl,
        (sum_short (by omega) (.inr rfl) (by omega)).symm⟩))
    | less hn => exact .inr (.inr (.inr ⟨_, rfl, hn⟩))

end Fmr
