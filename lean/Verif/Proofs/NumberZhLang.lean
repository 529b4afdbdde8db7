import Verif.Spec.Numerals
import Verif.Proofs.NumberZh

/-!
# What the rules of grammars/number.zh.grammar derive
-/

namespace Fmr

inductive Sign where
  | D (d : Nat) | Z | T | H | K | W | Y | O
  deriving DecidableEq

open Sign in
/-- what the grammar makes of a character -/
def signTable : List (Char × Sign) :=
  [('零', Z), ('〇', Z), ('一', D 1), ('二', D 2), ('三', D 3), ('四', D 4), ('五', D 5), ('六', D 6), ('七', D 7), ('八', D 8),
    ('九', D 9), ('壹', D 1), ('贰', D 2), ('叁', D 3), ('肆', D 4), ('伍', D 5), ('陆', D 6), ('柒', D 7), ('捌', D 8),
    ('玖', D 9), ('两', D 2), ('俩', D 2), ('仨', D 3), ('十', T), ('拾', T), ('百', H), ('佰', H), ('千', K), ('仟', K),
    ('万', W), ('亿', Y)]

def sign (c : Char) : Sign := (signTable.lookup c).getD .O

theorem sign_mem {c : Char} {s : Sign} (h : sign c = s) (hs : s ≠ .O) : (c, s) ∈ signTable := by
  unfold sign at h
  cases hl : signTable.lookup c with
  | none => rw [hl] at h; exact absurd h.symm hs
  | some x =>
    rw [hl] at h
    obtain ⟨l1, l2, h7, _⟩ := List.lookup_eq_some_iff.1 hl
    rw [h7, ← h]
    simp

theorem sign_digit {c : Char} {d : Nat} (h : sign c = .D d) : 1 ≤ d ∧ d ≤ 9 := by
  have := sign_mem h (by simp)
  simp only [signTable, List.mem_cons, Prod.mk.injEq, Sign.D.injEq, reduceCtorEq, and_false, false_or, or_false, List.not_mem_nil] at this
  omega

/-! ## the rules, over signs -/

open Sign

inductive E1s : List Sign → Nat → Prop
  | ten : E1s [T] 10
  | teen {d : Nat} : d ≤ 9 → E1s [T, D d] (10 + d)
  | tens {d : Nat} : d ≤ 9 → E1s [D d, T] (d * 10)
  | both {d e : Nat} : d ≤ 9 → e ≤ 9 → E1s [D d, T, D e] (d * 10 + e)
  | unit {d : Nat} : d ≤ 9 → E1s [D d] d
  | zero : E1s [Z] 0

/-- a rule with a unit: `A` counts the unit `u`, which is `k` times ten; `B` is the remainder -/
inductive WithUnit (A : List Sign → Nat → Prop) (u : List Sign → Prop) (B : List Sign → Nat → Prop) (k : Nat) : List Sign → Nat → Prop
  | unit {a s : List Sign} {m : Nat} : A a m → u s → WithUnit A u B k (a ++ s) (m * (k * 10))
  | short {a s : List Sign} {m d : Nat} : A a m → u s → d ≤ 9 → WithUnit A u B k (a ++ (s ++ [D d])) (m * (k * 10) + k * d)
  | rest {a s b : List Sign} {m n : Nat} : A a m → u s → B b n → WithUnit A u B k (a ++ (s ++ b)) (m * (k * 10) + n)
  | gap {a s b : List Sign} {m n : Nat} : A a m → u s → B b n → WithUnit A u B k (a ++ (s ++ Z :: b)) (m * (k * 10) + n)
  | below {b : List Sign} {n : Nat} : B b n → WithUnit A u B k b n

inductive Digit : List Sign → Nat → Prop
  | mk {d : Nat} : d ≤ 9 → Digit [D d] d

abbrev E2s := WithUnit Digit (· = [H]) E1s 10
abbrev E3s := WithUnit Digit (· = [K]) E2s 100
abbrev E4s := WithUnit E3s (· = [W]) E3s 1000
abbrev E8s := WithUnit E4s (fun s => s = [Y] ∨ s = [W, W]) E4s 10000000

inductive ZhSigns : List Sign → Nat → Prop
  | number {s : List Sign} {n : Nat} : E8s s n → ZhSigns s n
  | hundred : ZhSigns [H] 100
  | thousand : ZhSigns [K] 1000
  | myriad : ZhSigns [W] 10000
  | yi : ZhSigns [Y] 100000000
  | yi' : ZhSigns [W, W] 100000000

theorem E1s.lt {s : List Sign} {n : Nat} (h : E1s s n) : n < 100 := by
  cases h <;> omega

theorem Digit.lt {s : List Sign} {n : Nat} (h : Digit s n) : n < 10 := by
  cases h; omega

theorem E2s.lt {s : List Sign} {n : Nat} (h : E2s s n) : n < 1000 := by
  cases h with
  | unit h => have := h.lt; omega
  | short h => have := h.lt; omega
  | rest h _ h' => have := h.lt; have := h'.lt; omega
  | gap h _ h' => have := h.lt; have := h'.lt; omega
  | below h' => have := h'.lt; omega

theorem E3s.lt {s : List Sign} {n : Nat} (h : E3s s n) : n < 10000 := by
  cases h with
  | unit h => have := h.lt; omega
  | short h => have := h.lt; omega
  | rest h _ h' => have := h.lt; have := E2s.lt h'; omega
  | gap h _ h' => have := h.lt; have := E2s.lt h'; omega
  | below h' => have := E2s.lt h'; omega

theorem E4s.lt {s : List Sign} {n : Nat} (h : E4s s n) : n < 100000000 := by
  cases h with
  | unit h => have := E3s.lt h; omega
  | short h => have := E3s.lt h; omega
  | rest h _ h' => have := E3s.lt h; have := E3s.lt h'; omega
  | gap h _ h' => have := E3s.lt h; have := E3s.lt h'; omega
  | below h' => have := E3s.lt h'; omega

/-! ## inversion of derivations -/

abbrev zhW : String → RuleBody → Prop := Written zhDefs false

theorem charLang_iff {W : String → RuleBody → Prop} {A : String} {l : List Char} {v : Option Nat} :
    CharLang W A l v ↔ ∃ b vs, W A b ∧ CharSeq W b.terms l vs ∧ v = b.f.bind (fmrNum vs) := by
  constructor
  · rintro ⟨h1, h2⟩
    exact ⟨_, _, h1, h2, rfl⟩
  · rintro ⟨b, vs, h1, h2, rfl⟩
    exact .mk h1 h2

theorem charSeq_nil {W : String → RuleBody → Prop} {l : List Char} {vs : List (Option Nat)} :
    CharSeq W [] l vs ↔ l = [] ∧ vs = [] := by
  constructor
  · intro h; cases h; exact ⟨rfl, rfl⟩
  · rintro ⟨rfl, rfl⟩; exact .nil

theorem charSeq_lit {W : String → RuleBody → Prop} {x : String} {ts : List Term} {l : List Char} {vs : List (Option Nat)} :
    CharSeq W (lit x :: ts) l vs ↔ ∃ l' vs', CharSeq W ts l' vs' ∧ l = x.toList ++ l' ∧ vs = none :: vs' := by
  constructor
  · intro h
    cases h with
    | lit h1 h2 => exact ⟨_, _, h2, rfl, rfl⟩
    | ref h1 => cases h1
  · rintro ⟨l', vs', h, rfl, rfl⟩
    exact .lit (t := lit x) rfl h

theorem charSeq_nt {W : String → RuleBody → Prop} {A : String} {ts : List Term} {l : List Char} {vs : List (Option Nat)} :
    CharSeq W (nt A :: ts) l vs ↔ ∃ l1 l2 v vs', CharLang W A l1 v ∧ CharSeq W ts l2 vs' ∧ l = l1 ++ l2 ∧ vs = v :: vs' := by
  constructor
  · intro h
    cases h with
    | lit h1 => cases h1
    | ref h1 h2 h3 => exact ⟨_, _, _, _, h2, h3, rfl, rfl⟩
  · rintro ⟨l1, l2, v, vs', h1, h2, rfl, rfl⟩
    exact .ref (t := nt A) rfl h1 h2

theorem lang_numAlt {x : String} {i : Int} {l : List Char} {vs : List (Option Nat)} {W : String → RuleBody → Prop} :
    CharSeq W (numAlt x i).terms l vs ↔ l = x.toList ∧ vs = [none] := by
  simp only [numAlt, charSeq_lit, charSeq_nil]
  constructor
  · rintro ⟨_, _, ⟨rfl, rfl⟩, rfl, rfl⟩; exact ⟨by simp, rfl⟩
  · rintro ⟨rfl, rfl⟩; exact ⟨[], [], ⟨rfl, rfl⟩, by simp, rfl⟩

theorem valNum_nat {i : Nat} {vs : List (Option Nat)} (hi : i < 10 ^ 10) : valNum vs "int" (.bigInt i) = some i := by
  have : TenDigits i := hi
  simp [valNum, this]

theorem numAlt_f {x : String} {i : Nat} {vs : List (Option Nat)} (hi : i < 10 ^ 10) :
    (numAlt x i).f.bind (fmrNum vs) = some i := by
  simp [numAlt, fmrNum, argN, argNum, valNum_nat hi]

theorem sameAlt_f {A : String} {v : Option Nat} : (sameAlt A).f.bind (fmrNum [v]) = v := by
  simp [sameAlt, fmrNum, argI, argNum, valNum]

/-- derivations by an alternative for a number -/
theorem lang_num {W : String → RuleBody → Prop} {x : String} {i : Nat} {l : List Char} {v : Option Nat} (hi : i < 10 ^ 10) :
    (∃ vs, CharSeq W (numAlt x i).terms l vs ∧ v = (numAlt x i).f.bind (fmrNum vs)) ↔ l = x.toList ∧ v = some i := by
  simp only [lang_numAlt, numAlt_f hi]
  constructor
  · rintro ⟨_, ⟨h1, _⟩, h2⟩; exact ⟨h1, h2⟩
  · rintro ⟨h1, h2⟩; exact ⟨_, ⟨h1, rfl⟩, h2⟩

theorem lang_same {W : String → RuleBody → Prop} {A : String} {l : List Char} {v : Option Nat} :
    (∃ vs, CharSeq W (sameAlt A).terms l vs ∧ v = (sameAlt A).f.bind (fmrNum vs)) ↔ CharLang W A l v := by
  have : (sameAlt A).terms = [nt A] := rfl
  simp only [this, charSeq_nt, charSeq_nil]
  constructor
  · rintro ⟨_, ⟨l1, l2, v', vs', h, ⟨rfl, rfl⟩, rfl, rfl⟩, rfl⟩
    simpa using h
  · intro h
    exact ⟨[v], ⟨l, [], v, [], h, ⟨rfl, rfl⟩, by simp, rfl⟩, sameAlt_f.symm⟩

/-- the alternatives of a rule -/
theorem charLang_alts {A : String} {l : List Char} {v : Option Nat} (bs : List RuleBody) (hb : ∀ b, zhW A b ↔ b ∈ bs) :
    CharLang zhW A l v ↔ ∃ b ∈ bs, ∃ vs, CharSeq zhW b.terms l vs ∧ v = b.f.bind (fmrNum vs) := by
  rw [charLang_iff]
  constructor
  · rintro ⟨b, vs, h1, h2, h3⟩; exact ⟨b, (hb b).1 h1, vs, h2, h3⟩
  · rintro ⟨b, h1, vs, h2, h3⟩; exact ⟨b, vs, (hb b).2 h1, h2, h3⟩

theorem zhW_iff {A : String} {b : RuleBody} : zhW A b ↔ b ∈ (zhDefs.filter fun d => d.name == A).flatMap (·.bodies) := by
  simp only [Written, List.mem_flatMap, List.mem_filter, beq_iff_eq]
  constructor
  · rintro ⟨d, h1, -, h2, h3⟩; exact ⟨d, ⟨h1, h2⟩, h3⟩
  · rintro ⟨d, ⟨h1, h2⟩, h3⟩
    refine ⟨d, h1, ?_, h2, h3⟩
    have : ∀ d ∈ zhDefs, d.frame = false := by
      intro d hd
      simp only [zhDefs, List.mem_cons, List.not_mem_nil, or_false] at hd
      rcases hd with h | h | h | h | h | h | h | h | h | h | h | h | h | h | h | h | h <;> rw [h]
    exact this d h1

/-- a rule with numbers only -/
theorem lang_nums {A : String} {l : List Char} {v : Option Nat} (tbl : List (String × Nat)) (hi : ∀ p ∈ tbl, p.2 < 10 ^ 10)
    (h : (zhDefs.filter fun d => d.name == A).flatMap (·.bodies) = tbl.map fun p => numAlt p.1 p.2) :
    CharLang zhW A l v ↔ ∃ p ∈ tbl, l = p.1.toList ∧ v = some p.2 := by
  rw [charLang_alts _ (fun b => zhW_iff), h]
  constructor
  · rintro ⟨b, hb, hv⟩
    obtain ⟨p, hp, rfl⟩ := List.mem_map.1 hb
    exact ⟨p, hp, (lang_num (hi p hp)).1 hv⟩
  · rintro ⟨p, hp, hv⟩
    exact ⟨_, List.mem_map.2 ⟨p, hp, rfl⟩, (lang_num (hi p hp)).2 hv⟩

theorem lang_unit {l : List Char} {v : Option Nat} :
    CharLang zhW "cn_unit" l v ↔ ∃ c d, l = [c] ∧ sign c = D d ∧ v = some d := by
  rw [lang_nums [("一", 1), ("二", 2), ("三", 3), ("四", 4), ("五", 5), ("六", 6), ("七", 7), ("八", 8), ("九", 9), ("壹", 1),
    ("贰", 2), ("叁", 3), ("肆", 4), ("伍", 5), ("陆", 6), ("柒", 7), ("捌", 8), ("玖", 9), ("两", 2), ("俩", 2), ("仨", 3)] (by decide) rfl]
  constructor
  · rintro ⟨p, hp, rfl, rfl⟩
    refine ⟨p.1.toList.headD ' ', p.2, ?_⟩
    revert p
    decide
  · rintro ⟨c, d, rfl, h, rfl⟩
    have := sign_mem h (by simp)
    simp only [signTable, List.mem_cons, Prod.mk.injEq, Sign.D.injEq, reduceCtorEq, and_false, false_or, or_false, List.not_mem_nil] at this
    rcases this with ⟨rfl, rfl⟩ | ⟨rfl, rfl⟩ | ⟨rfl, rfl⟩ | ⟨rfl, rfl⟩ | ⟨rfl, rfl⟩ | ⟨rfl, rfl⟩ | ⟨rfl, rfl⟩ | ⟨rfl, rfl⟩ |
      ⟨rfl, rfl⟩ | ⟨rfl, rfl⟩ | ⟨rfl, rfl⟩ | ⟨rfl, rfl⟩ | ⟨rfl, rfl⟩ | ⟨rfl, rfl⟩ | ⟨rfl, rfl⟩ | ⟨rfl, rfl⟩ | ⟨rfl, rfl⟩ |
      ⟨rfl, rfl⟩ | ⟨rfl, rfl⟩ | ⟨rfl, rfl⟩ | ⟨rfl, rfl⟩ <;> decide

/-- a rule for two characters with the same sign -/
theorem lang_pair {A : String} {x y : Char} {s : Sign} {k : Nat} (hk : k < 10 ^ 10) (hs : s ≠ .O) (hx : sign x = s) (hy : sign y = s)
    (h : (zhDefs.filter fun d => d.name == A).flatMap (·.bodies) =
      [(String.singleton x, k), (String.singleton y, k)].map fun p => numAlt p.1 p.2)
    (hm : ∀ p ∈ signTable, p.2 = s → p.1 = x ∨ p.1 = y) {l : List Char} {v : Option Nat} :
    CharLang zhW A l v ↔ ∃ c, l = [c] ∧ sign c = s ∧ v = some k := by
  rw [lang_nums _ (by simpa using hk) h]
  constructor
  · rintro ⟨p, hp, rfl, rfl⟩
    simp only [List.mem_cons, List.not_mem_nil, or_false] at hp
    rcases hp with rfl | rfl
    · exact ⟨x, by simp, hx, rfl⟩
    · exact ⟨y, by simp, hy, rfl⟩
  · rintro ⟨c, rfl, h1, rfl⟩
    rcases hm _ (sign_mem h1 hs) rfl with h | h
    · simp only at h; subst h; exact ⟨_, .head _, by simp, rfl⟩
    · simp only at h; subst h; exact ⟨_, .tail _ (.head _), by simp, rfl⟩

theorem lang_zero {l : List Char} {v : Option Nat} :
    CharLang zhW "cn_zero" l v ↔ ∃ c, l = [c] ∧ sign c = Z ∧ v = some 0 :=
  lang_pair (x := '零') (y := '〇') (by decide) (by decide) (by decide) (by decide) rfl (by decide)

theorem lang_e1 {l : List Char} {v : Option Nat} :
    CharLang zhW "cn_e1" l v ↔ ∃ c, l = [c] ∧ sign c = T ∧ v = some 10 :=
  lang_pair (x := '十') (y := '拾') (by decide) (by decide) (by decide) (by decide) rfl (by decide)

theorem lang_e2 {l : List Char} {v : Option Nat} :
    CharLang zhW "cn_e2" l v ↔ ∃ c, l = [c] ∧ sign c = H ∧ v = some 100 :=
  lang_pair (x := '百') (y := '佰') (by decide) (by decide) (by decide) (by decide) rfl (by decide)

theorem lang_e3 {l : List Char} {v : Option Nat} :
    CharLang zhW "cn_e3" l v ↔ ∃ c, l = [c] ∧ sign c = K ∧ v = some 1000 :=
  lang_pair (x := '千') (y := '仟') (by decide) (by decide) (by decide) (by decide) rfl (by decide)

theorem lang_e4 {l : List Char} {v : Option Nat} :
    CharLang zhW "cn_e4" l v ↔ l = ['万'] ∧ v = some 10000 := by
  rw [lang_nums [("万", 10000)] (by decide) rfl]
  simp

theorem lang_e8 {l : List Char} {v : Option Nat} :
    CharLang zhW "cn_e8" l v ↔ (l = ['亿'] ∨ l = ['万', '万']) ∧ v = some 100000000 := by
  rw [lang_nums [("亿", 100000000), ("万万", 100000000)] (by decide) rfl]
  simp only [List.mem_cons, List.not_mem_nil, or_false, exists_eq_or_imp, exists_eq_left]
  constructor
  · rintro (⟨rfl, h⟩ | ⟨rfl, h⟩)
    · exact ⟨.inl rfl, h⟩
    · exact ⟨.inr rfl, h⟩
  · rintro ⟨rfl | rfl, h⟩
    · exact .inl ⟨rfl, h⟩
    · exact .inr ⟨rfl, h⟩

theorem lang_none {A : String} (h : (zhDefs.filter fun d => d.name == A).flatMap (·.bodies) = []) {l : List Char} {v : Option Nat} :
    ¬ CharLang zhW A l v := by
  rw [charLang_alts _ (fun b => zhW_iff), h]
  rintro ⟨b, hb, _⟩
  cases hb

theorem lang_numeric {l : List Char} {v : Option Nat} : ¬ CharLang zhW "numeric" l v := lang_none rfl

theorem smallOp_short {f : Nat → Nat → Nat} {x y : Nat} (hx : Short x) (hy : Short y) (h : f x y < 2 ^ 64) :
    smallOp f (some x) (some y) = some (f x y) := by
  rw [smallOp, if_pos ⟨hx, hy, h⟩]

theorem smallOp_some {f : Nat → Nat → Nat} {x y : Nat} (hx : x < 10 ^ 10) (hy : y < 10 ^ 10) (h : f x y < 10 ^ 10) :
    smallOp f (some x) (some y) = some (f x y) :=
  smallOp_short (.inl hx) (.inl hy) (by omega)

/-- the alternatives of a rule with a unit -/
inductive UnitLang (A e B : String) (k : Nat) : List Char → Option Nat → Prop
  | unit {a s : List Char} {m u : Option Nat} : CharLang zhW A a m → CharLang zhW e s u →
      UnitLang A e B k (a ++ s) (smallOp (· * ·) m u)
  | short {a s b : List Char} {m u d : Option Nat} : CharLang zhW A a m → CharLang zhW e s u → CharLang zhW "cn_unit" b d →
      UnitLang A e B k (a ++ (s ++ b)) (smallOp (· + ·) (smallOp (· * ·) m u) (smallOp (· * ·) (some k) d))
  | rest {a s b : List Char} {m u n : Option Nat} : CharLang zhW A a m → CharLang zhW e s u → CharLang zhW B b n →
      UnitLang A e B k (a ++ (s ++ b)) (smallOp (· + ·) (smallOp (· * ·) m u) n)
  | gap {a s z b : List Char} {m u o n : Option Nat} : CharLang zhW A a m → CharLang zhW e s u → CharLang zhW "cn_zero" z o →
      CharLang zhW B b n → UnitLang A e B k (a ++ (s ++ (z ++ b))) (smallOp (· + ·) (smallOp (· * ·) m u) n)
  | below {b : List Char} {n : Option Nat} : CharLang zhW B b n → UnitLang A e B k b n

theorem lang_unitAlts {A e B : String} {k : Nat} {l : List Char} {v : Option Nat} (hk : k < 10 ^ 10) :
    (∃ b ∈ unitAlts A e B k, ∃ vs, CharSeq zhW b.terms l vs ∧ v = b.f.bind (fmrNum vs)) ↔ UnitLang A e B k l v := by
  constructor
  · rintro ⟨b, hb, hv⟩
    simp only [unitAlts, List.mem_cons, List.not_mem_nil, or_false] at hb
    rcases hb with rfl | rfl | rfl | rfl | rfl
    · obtain ⟨vs, h1, rfl⟩ := hv
      simp only [mulAlt, charSeq_nt, charSeq_nil] at h1
      obtain ⟨l1, l2, v1, vs', h1, ⟨l3, l4, v2, vs', h2, ⟨rfl, rfl⟩, rfl, rfl⟩, rfl, rfl⟩ := h1
      have := UnitLang.unit (B := B) (k := k) h1 h2
      simpa [mulAlt, fmrNum, argI, argNum, valNum] using this
    · obtain ⟨vs, h1, rfl⟩ := hv
      simp only [sumAlt, charSeq_nt, charSeq_nil] at h1
      obtain ⟨l1, l2, v1, vs', h1, ⟨l3, l4, v2, vs', h2, ⟨l5, l6, v3, vs', h3, ⟨rfl, rfl⟩, rfl, rfl⟩, rfl, rfl⟩, rfl, rfl⟩ := h1
      have := UnitLang.short (B := B) (k := k) h1 h2 h3
      have hk' : TenDigits k := hk
      simpa [sumAlt, fmrNum, argI, argNum, valNum, argF, argN, hk'] using this
    · obtain ⟨vs, h1, rfl⟩ := hv
      simp only [sumAlt, charSeq_nt, charSeq_nil] at h1
      obtain ⟨l1, l2, v1, vs', h1, ⟨l3, l4, v2, vs', h2, ⟨l5, l6, v3, vs', h3, ⟨rfl, rfl⟩, rfl, rfl⟩, rfl, rfl⟩, rfl, rfl⟩ := h1
      have := UnitLang.rest (B := B) (k := k) h1 h2 h3
      simpa [sumAlt, fmrNum, argI, argNum, valNum, argF, argN] using this
    · obtain ⟨vs, h1, rfl⟩ := hv
      simp only [sumAlt, charSeq_nt, charSeq_nil] at h1
      obtain ⟨l1, l2, v1, vs', h1, ⟨l3, l4, v2, vs', h2, ⟨l5, l6, v3, vs', h3, ⟨l7, l8, v4, vs', h4, ⟨rfl, rfl⟩, rfl, rfl⟩, rfl, rfl⟩,
        rfl, rfl⟩, rfl, rfl⟩ := h1
      have := UnitLang.gap (B := B) (k := k) h1 h2 h3 h4
      simpa [sumAlt, fmrNum, argI, argNum, valNum, argF, argN] using this
    · exact .below (lang_same.1 hv)
  · intro h
    cases h with
    | unit h1 h2 =>
      refine ⟨mulAlt A e, by simp [unitAlts], _, charSeq_nt.2 ⟨_, _, _, _, h1, charSeq_nt.2 ⟨_, _, _, _, h2, .nil, rfl, rfl⟩, by simp, rfl⟩, ?_⟩
      simp [mulAlt, fmrNum, argI, argNum, valNum]
    | short h1 h2 h3 =>
      refine ⟨_, .tail _ (.head _), _, charSeq_nt.2 ⟨_, _, _, _, h1, charSeq_nt.2 ⟨_, _, _, _, h2, charSeq_nt.2 ⟨_, _, _, _, h3, .nil, rfl, rfl⟩, rfl, rfl⟩, by simp, rfl⟩, ?_⟩
      have hk' : TenDigits k := hk
      simp [sumAlt, fmrNum, argI, argNum, valNum, argF, argN, hk']
    | rest h1 h2 h3 =>
      refine ⟨_, .tail _ (.tail _ (.head _)), _, charSeq_nt.2 ⟨_, _, _, _, h1, charSeq_nt.2 ⟨_, _, _, _, h2, charSeq_nt.2 ⟨_, _, _, _, h3, .nil, rfl, rfl⟩, rfl, rfl⟩, by simp, rfl⟩, ?_⟩
      simp [sumAlt, fmrNum, argI, argNum, valNum, argF]
    | gap h1 h2 h3 h4 =>
      refine ⟨_, .tail _ (.tail _ (.tail _ (.head _))), _, charSeq_nt.2 ⟨_, _, _, _, h1, charSeq_nt.2 ⟨_, _, _, _, h2, charSeq_nt.2 ⟨_, _, _, _, h3, charSeq_nt.2 ⟨_, _, _, _, h4, .nil, rfl, rfl⟩, rfl, rfl⟩, rfl, rfl⟩, by simp, rfl⟩, ?_⟩
      simp [sumAlt, fmrNum, argI, argNum, valNum, argF]
    | below h =>
      exact ⟨sameAlt B, by simp [unitAlts], lang_same.2 h⟩

theorem lang_e2s {l : List Char} {v : Option Nat} : CharLang zhW "cn_e2s" l v ↔ UnitLang "cn_unit" "cn_e2" "cn_e1s" 10 l v := by
  rw [charLang_alts (unitAlts "cn_unit" "cn_e2" "cn_e1s" 10) (fun b => zhW_iff)]
  exact lang_unitAlts (k := 10) (by omega)

theorem lang_e3s {l : List Char} {v : Option Nat} : CharLang zhW "cn_e3s" l v ↔ UnitLang "cn_unit" "cn_e3" "cn_e2s" 100 l v := by
  rw [charLang_alts (unitAlts "cn_unit" "cn_e3" "cn_e2s" 100) (fun b => zhW_iff)]
  exact lang_unitAlts (k := 100) (by omega)

theorem lang_withNumeric {A e B : String} {k : Nat} {l : List Char} {v : Option Nat} (hk : k < 10 ^ 10) :
    (∃ b ∈ unitAlts A e B k ++ [mulAlt "numeric" e], ∃ vs, CharSeq zhW b.terms l vs ∧ v = b.f.bind (fmrNum vs)) ↔
      UnitLang A e B k l v := by
  rw [← lang_unitAlts hk]
  constructor
  · rintro ⟨b, hb, vs, h1, h2⟩
    rcases List.mem_append.1 hb with hb | hb
    · exact ⟨b, hb, vs, h1, h2⟩
    · rw [List.mem_singleton] at hb
      subst hb
      simp only [mulAlt, charSeq_nt] at h1
      obtain ⟨_, _, _, _, h, _⟩ := h1
      exact absurd h lang_numeric
  · rintro ⟨b, hb, h⟩
    exact ⟨b, List.mem_append_left _ hb, h⟩

theorem lang_e4s {l : List Char} {v : Option Nat} : CharLang zhW "cn_e4s" l v ↔ UnitLang "cn_e3s" "cn_e4" "cn_e3s" 1000 l v := by
  rw [charLang_alts (unitAlts "cn_e3s" "cn_e4" "cn_e3s" 1000 ++ [mulAlt "numeric" "cn_e4"]) (fun b => zhW_iff)]
  exact lang_withNumeric (k := 1000) (by omega)

theorem lang_e8s {l : List Char} {v : Option Nat} : CharLang zhW "cn_e8s" l v ↔ UnitLang "cn_e4s" "cn_e8" "cn_e4s" 10000000 l v := by
  rw [charLang_alts (unitAlts "cn_e4s" "cn_e8" "cn_e4s" 10000000 ++ [mulAlt "numeric" "cn_e8"]) (fun b => zhW_iff)]
  exact lang_withNumeric (k := 10000000) (by omega)

/-! ## characters and signs -/

/-- the rule is described by the relation over signs, and its numbers are exact -/
def Sounds (A : String) (R : List Sign → Nat → Prop) : Prop :=
  ∀ l v, CharLang zhW A l v → ∃ n, R (l.map sign) n ∧ v = some n

def Covers (A : String) (R : List Sign → Nat → Prop) : Prop :=
  ∀ l n, R (l.map sign) n → ∃ v, CharLang zhW A l v

theorem map_eq_singleton {l : List Char} {s : Sign} (h : l.map sign = [s]) : ∃ c, l = [c] ∧ sign c = s := by
  cases l with
  | nil => cases h
  | cons c l =>
    cases l with
    | nil => exact ⟨c, rfl, by simpa using h⟩
    | cons _ _ => cases h

theorem digit_sounds : Sounds "cn_unit" Digit := by
  intro l v h
  obtain ⟨c, d, rfl, hd, rfl⟩ := lang_unit.1 h
  exact ⟨d, by rw [List.map_singleton, hd]; exact .mk (sign_digit hd).2, rfl⟩

theorem digit_covers : Covers "cn_unit" Digit := by
  intro l n h
  generalize hs : l.map sign = s at h
  cases h with
  | mk hd =>
    obtain ⟨c, rfl, hc⟩ := map_eq_singleton hs
    exact ⟨some n, lang_unit.2 ⟨c, n, rfl, hc, rfl⟩⟩

theorem e1s_alts {l : List Char} {v : Option Nat} : CharLang zhW "cn_e1s" l v ↔
    ∃ b ∈ [sameAlt "cn_e1", ⟨[nt "cn_e1", nt "cn_unit"], some (.mk "nf.math.sum" [argI 1, argI 2])⟩,
      mulAlt "cn_unit" "cn_e1", sumAlt [nt "cn_unit", nt "cn_e1", nt "cn_unit"] (argI 3), sameAlt "cn_unit", sameAlt "cn_zero"],
      ∃ vs, CharSeq zhW b.terms l vs ∧ v = b.f.bind (fmrNum vs) :=
  charLang_alts _ (fun _ => zhW_iff)

theorem e1s_sounds : Sounds "cn_e1s" E1s := by
  intro l v h
  obtain ⟨b, hb, hv⟩ := e1s_alts.1 h
  simp only [List.mem_cons, List.not_mem_nil, or_false] at hb
  rcases hb with rfl | rfl | rfl | rfl | rfl | rfl
  · obtain ⟨c, rfl, hc, rfl⟩ := lang_e1.1 (lang_same.1 hv)
    exact ⟨10, by rw [List.map_singleton, hc]; exact .ten, rfl⟩
  · obtain ⟨vs, h1, rfl⟩ := hv
    simp only [charSeq_nt, charSeq_nil] at h1
    obtain ⟨l1, l2, v1, vs', h1, ⟨l3, l4, v2, vs', h2, ⟨rfl, rfl⟩, rfl, rfl⟩, rfl, rfl⟩ := h1
    obtain ⟨c, rfl, hc, rfl⟩ := lang_e1.1 h1
    obtain ⟨c', d, rfl, hd, rfl⟩ := lang_unit.1 h2
    have := (sign_digit hd).2
    refine ⟨10 + d, by simpa [hc, hd] using E1s.teen this, ?_⟩
    have h3 : smallOp (· + ·) (some 10) (some d) = some (10 + d) := smallOp_some (by omega) (by omega) (by omega)
    simpa [fmrNum, argI, argNum, valNum] using h3
  · obtain ⟨vs, h1, rfl⟩ := hv
    simp only [mulAlt, charSeq_nt, charSeq_nil] at h1
    obtain ⟨l1, l2, v1, vs', h1, ⟨l3, l4, v2, vs', h2, ⟨rfl, rfl⟩, rfl, rfl⟩, rfl, rfl⟩ := h1
    obtain ⟨c', d, rfl, hd, rfl⟩ := lang_unit.1 h1
    obtain ⟨c, rfl, hc, rfl⟩ := lang_e1.1 h2
    have := (sign_digit hd).2
    refine ⟨d * 10, by simpa [hc, hd] using E1s.tens this, ?_⟩
    have h3 : smallOp (· * ·) (some d) (some 10) = some (d * 10) := smallOp_some (by omega) (by omega) (by omega)
    simpa [mulAlt, fmrNum, argI, argNum, valNum] using h3
  · obtain ⟨vs, h1, rfl⟩ := hv
    simp only [sumAlt, charSeq_nt, charSeq_nil] at h1
    obtain ⟨l1, l2, v1, vs', h1, ⟨l3, l4, v2, vs', h2, ⟨l5, l6, v3, vs', h3, ⟨rfl, rfl⟩, rfl, rfl⟩, rfl, rfl⟩, rfl, rfl⟩ := h1
    obtain ⟨c', d, rfl, hd, rfl⟩ := lang_unit.1 h1
    obtain ⟨c, rfl, hc, rfl⟩ := lang_e1.1 h2
    obtain ⟨c'', e, rfl, he, rfl⟩ := lang_unit.1 h3
    have := (sign_digit hd).2
    have := (sign_digit he).2
    refine ⟨d * 10 + e, by simpa [hc, hd, he] using E1s.both (sign_digit hd).2 (sign_digit he).2, ?_⟩
    have h3 : smallOp (· * ·) (some d) (some 10) = some (d * 10) := smallOp_some (by omega) (by omega) (by omega)
    have h4 : smallOp (· + ·) (some (d * 10)) (some e) = some (d * 10 + e) := smallOp_some (by omega) (by omega) (by omega)
    rw [← h3] at h4
    simpa [sumAlt, fmrNum, argI, argNum, valNum, argF] using h4
  · obtain ⟨c', d, rfl, hd, rfl⟩ := lang_unit.1 (lang_same.1 hv)
    exact ⟨d, by rw [List.map_singleton, hd]; exact .unit (sign_digit hd).2, rfl⟩
  · obtain ⟨c, rfl, hc, rfl⟩ := lang_zero.1 (lang_same.1 hv)
    exact ⟨0, by rw [List.map_singleton, hc]; exact .zero, rfl⟩

theorem map_eq_cons {l : List Char} {s : Sign} {ss : List Sign} (h : l.map sign = s :: ss) :
    ∃ c l', l = c :: l' ∧ sign c = s ∧ l'.map sign = ss := by
  cases l with
  | nil => cases h
  | cons c l =>
    rw [List.map_cons, List.cons.injEq] at h
    exact ⟨c, l, rfl, h.1, h.2⟩

theorem e1s_covers : Covers "cn_e1s" E1s := by
  intro l n h
  generalize hs : l.map sign = s at h
  cases h with
  | ten =>
    obtain ⟨c, rfl, hc⟩ := map_eq_singleton hs
    exact ⟨_, e1s_alts.2 ⟨_, .head _, lang_same.2 (lang_e1.2 ⟨c, rfl, hc, rfl⟩)⟩⟩
  | teen _ =>
    obtain ⟨c, l', rfl, hc, hs⟩ := map_eq_cons hs
    obtain ⟨c', rfl, hc'⟩ := map_eq_singleton hs
    exact ⟨_, e1s_alts.2 ⟨_, .tail _ (.head _), _, charSeq_nt.2 ⟨[c], [c'], _, _, lang_e1.2 ⟨c, rfl, hc, rfl⟩,
      charSeq_nt.2 ⟨_, _, _, _, lang_unit.2 ⟨c', _, rfl, hc', rfl⟩, .nil, rfl, rfl⟩, rfl, rfl⟩, rfl⟩⟩
  | tens _ =>
    obtain ⟨c, l', rfl, hc, hs⟩ := map_eq_cons hs
    obtain ⟨c', rfl, hc'⟩ := map_eq_singleton hs
    exact ⟨_, e1s_alts.2 ⟨_, .tail _ (.tail _ (.head _)), _, charSeq_nt.2 ⟨[c], [c'], _, _, lang_unit.2 ⟨c, _, rfl, hc, rfl⟩,
      charSeq_nt.2 ⟨_, _, _, _, lang_e1.2 ⟨c', rfl, hc', rfl⟩, .nil, rfl, rfl⟩, rfl, rfl⟩, rfl⟩⟩
  | both _ _ =>
    obtain ⟨c, l', rfl, hc, hs⟩ := map_eq_cons hs
    obtain ⟨c', l', rfl, hc', hs⟩ := map_eq_cons hs
    obtain ⟨c'', rfl, hc''⟩ := map_eq_singleton hs
    exact ⟨_, e1s_alts.2 ⟨_, .tail _ (.tail _ (.tail _ (.head _))), _, charSeq_nt.2 ⟨[c], [c', c''], _, _,
      lang_unit.2 ⟨c, _, rfl, hc, rfl⟩, charSeq_nt.2 ⟨[c'], [c''], _, _, lang_e1.2 ⟨c', rfl, hc', rfl⟩,
      charSeq_nt.2 ⟨_, _, _, _, lang_unit.2 ⟨c'', _, rfl, hc'', rfl⟩, .nil, rfl, rfl⟩, rfl, rfl⟩, rfl, rfl⟩, rfl⟩⟩
  | unit _ =>
    obtain ⟨c, rfl, hc⟩ := map_eq_singleton hs
    exact ⟨_, e1s_alts.2 ⟨_, .tail _ (.tail _ (.tail _ (.tail _ (.head _)))), lang_same.2 (lang_unit.2 ⟨c, _, rfl, hc, rfl⟩)⟩⟩
  | zero =>
    obtain ⟨c, rfl, hc⟩ := map_eq_singleton hs
    exact ⟨_, e1s_alts.2 ⟨_, .tail _ (.tail _ (.tail _ (.tail _ (.tail _ (.head _))))), lang_same.2 (lang_zero.2 ⟨c, rfl, hc, rfl⟩)⟩⟩

section
variable {A e B : String} {k : Nat} {R S : List Sign → Nat → Prop} {u : List Sign → Prop}

theorem unit_sounds (hA : Sounds A R) (hB : Sounds B S) (he : ∀ l v, CharLang zhW e l v → u (l.map sign) ∧ v = some (k * 10))
    (hR : ∀ s n, R s n → n < 10 ^ 10 ∧ Short (n * (k * 10))) (hT : ∀ s n, S s n → n < 10 ^ 10) (hk : k * 10 < 10 ^ 10) :
    ∀ l v, UnitLang A e B k l v → ∃ n, WithUnit R u S k (l.map sign) n ∧ v = some n := by
  intro l v h
  have lt : ∀ {n : Nat}, Short n → n < 10 ^ 17 := fun h => by unfold Short at h; omega
  cases h with
  | unit g1 g2 =>
    obtain ⟨m, h1, rfl⟩ := hA _ _ g1
    obtain ⟨h2, rfl⟩ := he _ _ g2
    rw [List.map_append]
    have := lt (hR _ _ h1).2
    exact ⟨_, .unit h1 h2, smallOp_short (.inl (hR _ _ h1).1) (.inl hk) (by omega)⟩
  | short g1 g2 g3 =>
    obtain ⟨m, h1, rfl⟩ := hA _ _ g1
    obtain ⟨h2, rfl⟩ := he _ _ g2
    obtain ⟨c, d, rfl, hd, rfl⟩ := lang_unit.1 g3
    simp only [List.map_append, List.map_singleton, hd]
    refine ⟨_, .short h1 h2 (sign_digit hd).2, ?_⟩
    have := lt (hR _ _ h1).2
    have hd9 := (sign_digit hd).2
    have : k * d ≤ k * 10 := Nat.mul_le_mul_left _ (by omega)
    rw [smallOp_short (.inl (hR _ _ h1).1) (.inl hk) (by omega), smallOp_some (by omega) (by omega) (by omega)]
    exact smallOp_short (hR _ _ h1).2 (.inl (by omega)) (by omega)
  | rest g1 g2 g3 =>
    obtain ⟨m, h1, rfl⟩ := hA _ _ g1
    obtain ⟨h2, rfl⟩ := he _ _ g2
    obtain ⟨n, h3, rfl⟩ := hB _ _ g3
    simp only [List.map_append]
    refine ⟨_, .rest h1 h2 h3, ?_⟩
    have := lt (hR _ _ h1).2
    have := hT _ _ h3
    rw [smallOp_short (.inl (hR _ _ h1).1) (.inl hk) (by omega)]
    exact smallOp_short (hR _ _ h1).2 (.inl (by omega)) (by omega)
  | gap g1 g2 hz g3 =>
    obtain ⟨m, h1, rfl⟩ := hA _ _ g1
    obtain ⟨h2, rfl⟩ := he _ _ g2
    obtain ⟨c, rfl, hc, rfl⟩ := lang_zero.1 hz
    obtain ⟨n, h3, rfl⟩ := hB _ _ g3
    simp only [List.map_append, List.singleton_append, List.map_cons, hc]
    refine ⟨_, .gap h1 h2 h3, ?_⟩
    have := lt (hR _ _ h1).2
    have := hT _ _ h3
    rw [smallOp_short (.inl (hR _ _ h1).1) (.inl hk) (by omega)]
    exact smallOp_short (hR _ _ h1).2 (.inl (by omega)) (by omega)
  | below g3 =>
    obtain ⟨n, h3, rfl⟩ := hB _ _ g3
    exact ⟨n, .below h3, rfl⟩

theorem unit_covers (hA : Covers A R) (hB : Covers B S) (he : ∀ l, u (l.map sign) → ∃ v, CharLang zhW e l v) {l : List Char} {n : Nat}
    (h : WithUnit R u S k (l.map sign) n) : ∃ v, UnitLang A e B k l v := by
  generalize hs : l.map sign = s at h
  cases h with
  | unit h1 h2 =>
    obtain ⟨a, b, rfl, rfl, rfl⟩ := List.map_eq_append_iff.1 hs
    obtain ⟨_, h1⟩ := hA _ _ h1
    obtain ⟨_, h2⟩ := he _ h2
    exact ⟨_, .unit h1 h2⟩
  | short h1 h2 h3 =>
    obtain ⟨a, x, rfl, rfl, hx⟩ := List.map_eq_append_iff.1 hs
    obtain ⟨b, y, rfl, rfl, hy⟩ := List.map_eq_append_iff.1 hx
    obtain ⟨c, rfl, hc⟩ := map_eq_singleton hy
    obtain ⟨_, h1⟩ := hA _ _ h1
    obtain ⟨_, h2⟩ := he _ h2
    exact ⟨_, .short h1 h2 (lang_unit.2 ⟨c, _, rfl, hc, rfl⟩)⟩
  | rest h1 h2 h3 =>
    obtain ⟨a, x, rfl, rfl, hx⟩ := List.map_eq_append_iff.1 hs
    obtain ⟨b, y, rfl, rfl, rfl⟩ := List.map_eq_append_iff.1 hx
    obtain ⟨_, h1⟩ := hA _ _ h1
    obtain ⟨_, h2⟩ := he _ h2
    obtain ⟨_, h3⟩ := hB _ _ h3
    exact ⟨_, .rest h1 h2 h3⟩
  | gap h1 h2 h3 =>
    obtain ⟨a, x, rfl, rfl, hx⟩ := List.map_eq_append_iff.1 hs
    obtain ⟨b, y, rfl, rfl, hy⟩ := List.map_eq_append_iff.1 hx
    obtain ⟨z, c, rfl, hz, rfl⟩ := map_eq_cons hy
    obtain ⟨_, h1⟩ := hA _ _ h1
    obtain ⟨_, h2⟩ := he _ h2
    obtain ⟨_, h3⟩ := hB _ _ h3
    exact ⟨_, .gap h1 h2 (lang_zero.2 ⟨z, rfl, hz, rfl⟩) h3⟩
  | below h3 =>
    subst hs
    obtain ⟨_, h3⟩ := hB _ _ h3
    exact ⟨_, .below h3⟩

end

theorem e2s_sounds : Sounds "cn_e2s" E2s := by
  intro l v h
  exact unit_sounds (u := (· = [H])) digit_sounds e1s_sounds (fun l v h => by
    obtain ⟨c, rfl, hc, rfl⟩ := lang_e2.1 h
    exact ⟨by rw [List.map_singleton, hc], rfl⟩) (fun _ _ h => by have := h.lt; exact ⟨by omega, .inl (by omega)⟩)
    (fun _ _ h => by have := E1s.lt h; omega) (by omega) _ _ (lang_e2s.1 h)

theorem e2s_covers : Covers "cn_e2s" E2s := by
  intro l n h
  obtain ⟨v, h⟩ := unit_covers digit_covers e1s_covers (fun l h => by
    obtain ⟨c, rfl, hc⟩ := map_eq_singleton h
    exact ⟨_, lang_e2.2 ⟨c, rfl, hc, rfl⟩⟩) h
  exact ⟨v, lang_e2s.2 h⟩

theorem e3s_sounds : Sounds "cn_e3s" E3s := by
  intro l v h
  exact unit_sounds (u := (· = [K])) digit_sounds e2s_sounds (fun l v h => by
    obtain ⟨c, rfl, hc, rfl⟩ := lang_e3.1 h
    exact ⟨by rw [List.map_singleton, hc], rfl⟩) (fun _ _ h => by have := h.lt; exact ⟨by omega, .inl (by omega)⟩)
    (fun _ _ h => by have := E2s.lt h; omega) (by omega) _ _ (lang_e3s.1 h)

theorem e3s_covers : Covers "cn_e3s" E3s := by
  intro l n h
  obtain ⟨v, h⟩ := unit_covers digit_covers e2s_covers (fun l h => by
    obtain ⟨c, rfl, hc⟩ := map_eq_singleton h
    exact ⟨_, lang_e3.2 ⟨c, rfl, hc, rfl⟩⟩) h
  exact ⟨v, lang_e3s.2 h⟩

theorem e4s_sounds : Sounds "cn_e4s" E4s := by
  intro l v h
  exact unit_sounds (u := (· = [W])) e3s_sounds e3s_sounds (fun l v h => by
    obtain ⟨rfl, rfl⟩ := lang_e4.1 h
    exact ⟨by decide, rfl⟩) (fun _ _ h => by have := E3s.lt h; exact ⟨by omega, .inl (by omega)⟩)
    (fun _ _ h => by have := E3s.lt h; omega) (by omega) _ _ (lang_e4s.1 h)

theorem sign_W {c : Char} (h : sign c = W) : c = '万' := by
  have := sign_mem h (by simp)
  simpa [signTable] using this

theorem sign_Y {c : Char} (h : sign c = Y) : c = '亿' := by
  have := sign_mem h (by simp)
  simpa [signTable] using this

theorem e4s_covers : Covers "cn_e4s" E4s := by
  intro l n h
  obtain ⟨v, h⟩ := unit_covers e3s_covers e3s_covers (fun l h => by
    obtain ⟨c, rfl, hc⟩ := map_eq_singleton h
    rw [sign_W hc]
    exact ⟨_, lang_e4.2 ⟨rfl, rfl⟩⟩) h
  exact ⟨v, lang_e4s.2 h⟩

theorem e8s_sounds : Sounds "cn_e8s" E8s := by
  intro l v h
  exact unit_sounds e4s_sounds e4s_sounds (fun l v h => by
    obtain ⟨rfl | rfl, rfl⟩ := lang_e8.1 h
    · exact ⟨.inl (by decide), rfl⟩
    · exact ⟨.inr (by decide), rfl⟩) (fun _ _ h => by have := E4s.lt h; exact ⟨by omega, .inr ⟨by omega, by omega⟩⟩)
    (fun _ _ h => by have := E4s.lt h; omega) (by omega) _ _ (lang_e8s.1 h)

theorem e8s_covers : Covers "cn_e8s" E8s := by
  intro l n h
  obtain ⟨v, h⟩ := unit_covers e4s_covers e4s_covers (fun l h => by
    rcases h with h | h
    · obtain ⟨c, rfl, hc⟩ := map_eq_singleton h
      rw [sign_Y hc]
      exact ⟨_, lang_e8.2 ⟨.inl rfl, rfl⟩⟩
    · obtain ⟨c, l, rfl, hc, h⟩ := map_eq_cons h
      obtain ⟨c', rfl, hc'⟩ := map_eq_singleton h
      rw [sign_W hc, sign_W hc']
      exact ⟨_, lang_e8.2 ⟨.inr rfl, rfl⟩⟩) h
  exact ⟨v, lang_e8s.2 h⟩

theorem decimal_point {l : List Char} {v : Option Nat} (h : CharLang zhW "cn_decimal" l v) : '点' ∈ l := by
  rw [charLang_alts [⟨[lit "点", nt "numbers"], some (.mk "nf.math.decimal" [argI 2])⟩] (fun b => zhW_iff)] at h
  obtain ⟨b, hb, vs, h1, -⟩ := h
  rw [List.mem_singleton] at hb
  subst hb
  rw [charSeq_lit] at h1
  obtain ⟨l', vs', -, rfl, -⟩ := h1
  simp

theorem number_alts {l : List Char} {v : Option Nat} : CharLang zhW "number" l v ↔
    ∃ b ∈ [sameAlt "cn_e8s", sameAlt "cn_decimal",
      ⟨[nt "cn_e8s", nt "cn_decimal"], some (.mk "nf.math.sum" [argI 1, argI 2])⟩,
      sameAlt "cn_e2", sameAlt "cn_e3", sameAlt "cn_e4", sameAlt "cn_e8"],
      ∃ vs, CharSeq zhW b.terms l vs ∧ v = b.f.bind (fmrNum vs) :=
  charLang_alts _ (fun _ => zhW_iff)

theorem number_sounds {l : List Char} {v : Option Nat} (hp : '点' ∉ l) (h : CharLang zhW "number" l v) :
    ∃ n, ZhSigns (l.map sign) n ∧ v = some n := by
  obtain ⟨b, hb, hv⟩ := number_alts.1 h
  simp only [List.mem_cons, List.not_mem_nil, or_false] at hb
  rcases hb with rfl | rfl | rfl | rfl | rfl | rfl | rfl
  · obtain ⟨n, h1, h2⟩ := e8s_sounds _ _ (lang_same.1 hv)
    exact ⟨n, .number h1, h2⟩
  · exact absurd (decimal_point (lang_same.1 hv)) hp
  · obtain ⟨vs, h1, rfl⟩ := hv
    simp only [charSeq_nt] at h1
    obtain ⟨l1, l2, v1, vs', h1, ⟨l3, l4, v2, vs', h2, -, rfl, -⟩, rfl, -⟩ := h1
    exact absurd (by simp [decimal_point h2]) hp
  · obtain ⟨c, rfl, hc, rfl⟩ := lang_e2.1 (lang_same.1 hv)
    exact ⟨_, by rw [List.map_singleton, hc]; exact .hundred, rfl⟩
  · obtain ⟨c, rfl, hc, rfl⟩ := lang_e3.1 (lang_same.1 hv)
    exact ⟨_, by rw [List.map_singleton, hc]; exact .thousand, rfl⟩
  · obtain ⟨rfl, rfl⟩ := lang_e4.1 (lang_same.1 hv)
    exact ⟨_, .myriad, rfl⟩
  · obtain ⟨rfl | rfl, rfl⟩ := lang_e8.1 (lang_same.1 hv)
    · exact ⟨_, .yi, rfl⟩
    · exact ⟨_, .yi', rfl⟩

theorem number_covers {l : List Char} {n : Nat} (h : E8s (l.map sign) n) : ∃ v, CharLang zhW "number" l v := by
  obtain ⟨v, h⟩ := e8s_covers l n h
  exact ⟨v, number_alts.2 ⟨_, .head _, lang_same.2 h⟩⟩

end Fmr
