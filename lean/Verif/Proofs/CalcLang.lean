import Verif.Spec.Calc
import Verif.Model.ShippedMore
import Verif.Proofs.OneFile
import Verif.Props.Arith

/-!
# Sums in words: the functions, and the grammar of examples/arithmetic
-/

namespace Fmr

/-! ## integers with a signed zero -/

/-- The number is the integer; the sign of zero does not matter. -/
structure BF.IsInt (f : BF) (x : ℤ) : Prop where
  abs : f.abs = (x.natAbs : ℚ)
  sign : x ≠ 0 → f.neg = decide (x < 0)

theorem BF.IsInt.cases {f : BF} {x : ℤ} (h : f.IsInt x) : f = BF.ofInt x ∨ (x = 0 ∧ f.abs = 0) := by
  by_cases h0 : x = 0
  · exact .inr ⟨h0, by rw [h.abs, h0]; rfl⟩
  · refine .inl ?_
    obtain ⟨n, a⟩ := f
    have h1 := h.abs
    have h2 := h.sign h0
    simp only at h1 h2
    rw [h1, h2]
    rfl

theorem isInt_zero {f : BF} (h : f.abs = 0) : f.IsInt 0 := ⟨by rw [h]; rfl, fun h => absurd rfl h⟩

theorem isInt_ofInt (x : ℤ) : (BF.ofInt x).IsInt x := ⟨rfl, fun _ => rfl⟩

theorem scan_writes (ext : String → Option BF) {s : String} {x : ℤ} (h : WritesInt s x) (hx : x.natAbs < 10 ^ 10) :
    ∃ f, scanBF ext s = some f ∧ f.IsInt x := by
  rcases h with rfl | ⟨rfl, rfl⟩
  · exact ⟨_, scanBF_small ext (by omega), isInt_ofInt x⟩
  · have e : "-0".toList = signChars true ++ ['0'] := by decide
    have := scanBF_signed ext (x := "-0") (neg := true) (s := ['0']) (n := 0) (k := 0) e ⟨'0', [], rfl, by decide⟩ (by decide)
    exact ⟨_, this, isInt_zero (by simp [round64_zero])⟩

theorem text_writes {f : BF} {x : ℤ} (h : f.IsInt x) (hx : x.natAbs < 10 ^ 10) : WritesInt f.text x := by
  rcases h.cases with rfl | ⟨rfl, h0⟩
  · left
    have := (text_int_iff x).2 hx
    rw [round64_nat (by omega)] at this
    exact this
  · obtain ⟨n, a⟩ := f
    simp only at h0
    subst h0
    cases n
    · exact .inl (String.toList_inj.1 (by rw [text_zero]; decide))
    · exact .inr ⟨rfl, String.toList_inj.1 (by rw [text_zero]; decide)⟩

theorem IsInt.add {f g : BF} {x y : ℤ} (hf : f.IsInt x) (hg : g.IsInt y) (hx : x.natAbs < 10 ^ 10) (hy : y.natAbs < 10 ^ 10) :
    (f.add g).IsInt (x + y) := by
  rcases hf.cases with rfl | ⟨rfl, h0⟩
  · rcases hg.cases with rfl | ⟨rfl, h0⟩
    · rw [add_ofInt (by omega) (by omega), round64_nat (by omega)]
      exact ⟨rfl, fun _ => rfl⟩
    · rw [add_zero]
      unfold BF.add
      by_cases h1 : (BF.ofInt x).abs = 0
      · rw [if_pos ⟨h1, h0⟩]
        have : x = 0 := by
          have h1 : (x.natAbs : ℚ) = 0 := h1
          rw [Nat.cast_eq_zero] at h1
          omega
        subst this
        exact isInt_zero rfl
      · rw [if_neg (fun h => h1 h.1), if_neg h1, if_pos h0]
        exact hf
  · rw [zero_add]
    unfold BF.add
    by_cases h1 : g.abs = 0
    · rw [if_pos ⟨h0, h1⟩]
      have : y = 0 := by
        rw [hg.abs, Nat.cast_eq_zero] at h1
        omega
      subst this
      exact isInt_zero rfl
    · rw [if_neg (fun h => h1 h.2), if_pos h0]
      exact hg

theorem IsInt.negate {f : BF} {x : ℤ} (hf : f.IsInt x) : f.negate.IsInt (-x) := by
  refine ⟨by rw [Int.natAbs_neg]; exact hf.abs, fun h => ?_⟩
  have := hf.sign (by omega)
  show (!f.neg) = _
  rw [this]
  by_cases hx : x < 0 <;> simp [hx] <;> omega

theorem IsInt.mul {f g : BF} {x y : ℤ} (hf : f.IsInt x) (hg : g.IsInt y) (h : (x * y).natAbs < 10 ^ 10) : (f.mul g).IsInt (x * y) := by
  unfold BF.mul
  refine ⟨?_, fun h0 => ?_⟩
  · simp only
    rw [hf.abs, hg.abs, ← Nat.cast_mul, ← Int.natAbs_mul, round64_nat (by omega)]
  · rw [mul_ne_zero_iff] at h0
    simp only
    rw [hf.sign h0.1, hg.sign h0.2]
    rcases lt_or_gt_of_ne h0.1 with hx0 | hx0 <;> rcases lt_or_gt_of_ne h0.2 with hy0 | hy0
    · have := mul_pos_of_neg_of_neg hx0 hy0
      simp [hx0, hy0]; omega
    · have := mul_neg_of_neg_of_pos hx0 hy0
      simp [hx0, this]; omega
    · have := mul_neg_of_pos_of_neg hx0 hy0
      simp [hy0, this]; omega
    · have := mul_pos hx0 hy0
      have a1 : ¬ x < 0 := by omega
      have a2 : ¬ y < 0 := by omega
      have a3 : ¬ x * y < 0 := by omega
      simp [a1, a2, a3]

section
variable (ext : String → Option BF) {s t : String} {x y : ℤ} (hs : WritesInt s x) (ht : WritesInt t y) (hx : x.natAbs < 10 ^ 10)
  (hy : y.natAbs < 10 ^ 10)
include hs hx

theorem neg_writes : WritesInt (mathNeg ext s) (-x) := by
  obtain ⟨f, h1, h2⟩ := scan_writes ext hs hx
  unfold mathNeg
  rw [h1]
  exact text_writes (IsInt.negate h2) (by rwa [Int.natAbs_neg])

include ht hy

theorem sum_writes (h : (x + y).natAbs < 10 ^ 10) : WritesInt (mathSum ext s t) (x + y) := by
  obtain ⟨f, h1, h2⟩ := scan_writes ext hs hx
  obtain ⟨g, h3, h4⟩ := scan_writes ext ht hy
  unfold mathSum mathCalc
  rw [h1, h3]
  exact text_writes (IsInt.add h2 h4 hx hy) h

theorem sub_writes (h : (x - y).natAbs < 10 ^ 10) : WritesInt (mathSub ext s t) (x - y) := by
  obtain ⟨f, h1, h2⟩ := scan_writes ext hs hx
  obtain ⟨g, h3, h4⟩ := scan_writes ext ht hy
  unfold mathSub mathCalc
  rw [h1, h3]
  exact text_writes (IsInt.add h2 (IsInt.negate h4) hx (by rwa [Int.natAbs_neg])) h

theorem mul_writes (h : (x * y).natAbs < 10 ^ 10) : WritesInt (mathMul ext s t) (x * y) := by
  obtain ⟨f, h1, h2⟩ := scan_writes ext hs hx
  obtain ⟨g, h3, h4⟩ := scan_writes ext ht hy
  unfold mathMul mathCalc
  rw [h1, h3]
  exact text_writes (IsInt.mul h2 h4 h) h

end

/-! ## the functions -/

/-- `Call` (funcs.go:17-27) reaches the functions that math_funcs.go:10-15 registers. -/
structure HasCalc (w : NodeWorld) (ext : String → Option BF) : Prop where
  sum : ∀ x y, w.call "nf.math.sum" [.str (utf8 x), .str (utf8 y)] = .ok (.str (utf8 (mathSum ext x y)))
  sub : ∀ x y, w.call "nf.math.sub" [.str (utf8 x), .str (utf8 y)] = .ok (.str (utf8 (mathSub ext x y)))
  mul : ∀ x y, w.call "nf.math.mul" [.str (utf8 x), .str (utf8 y)] = .ok (.str (utf8 (mathMul ext x y)))
  neg : ∀ x, w.call "nf.math.neg" [.str (utf8 x)] = .ok (.str (utf8 (mathNeg ext x)))

theorem intercalate_one (a : String) : ", ".intercalate [a] = a := rfl

theorem intercalate_two (a b : String) : ", ".intercalate [a, b] = a ++ ", " ++ b := rfl

/-- the expression that two parts give -/
def calcOp (C : Calc → Calc → Calc) (a b : Option Calc) : Option Calc :=
  match a, b with
  | some x, some y => some (C x y)
  | _, _ => none

/-- the expression that an argument gives: constants and parts -/
def calcArg (vs : List (Option Calc)) : Arg → Option Calc
  | .mk t (.bigInt i) => if t = "int" ∧ 0 ≤ i then some (.num i.toNat) else none
  | .mk t (.int i) => if t = "index" ∧ 0 < i then (vs[(i - 1).toNat]?).join else none
  | _ => none

/-- the expression that a function gives -/
def calcEv (vs : List (Option Calc)) : FMR → Option Calc
  | .mk fn [a] => if fn = "nf.I" then calcArg vs a else if fn = "nf.math.neg" then (calcArg vs a).map .neg else none
  | .mk fn [a, b] =>
    if fn = "nf.math.sum" then calcOp .add (calcArg vs a) (calcArg vs b)
    else if fn = "nf.math.sub" then calcOp .sub (calcArg vs a) (calcArg vs b)
    else if fn = "nf.math.mul" then calcOp .mul (calcArg vs a) (calcArg vs b)
    else none
  | _ => none

/-- the expression is printed as `c` and evaluates to its value -/
def CalcIs (w : NodeWorld) (e : Expr) (c : Calc) : Prop :=
  e.print w = c.js ∧ (c.Fits → c.value.natAbs < 10 ^ 10 ∧ ∃ s, e.value w = .ok (.str (utf8 s)) ∧ WritesInt s c.value)

theorem calcOp_some {C : Calc → Calc → Calc} {a b : Option Calc} {z : Calc} (h : calcOp C a b = some z) :
    ∃ x y, a = some x ∧ b = some y ∧ z = C x y := by
  cases a with
  | none => cases h
  | some x =>
    cases b with
    | none => cases h
    | some y => exact ⟨x, y, rfl, rfl, (Option.some.inj h).symm⟩

theorem calcEv_sound {w : NodeWorld} {ext : String → Option BF} (hm : HasCalc w ext) : EvSound calcEv (CalcIs w) := by
  intro nl record ms vs hp f x hf
  have harg : ∀ a x, calcArg vs a = some x → ∃ e, argSays nl record ms a = some e ∧ CalcIs w e x := by
    intro a x ha
    obtain ⟨t, v⟩ := a
    cases v with
    | bigInt i =>
      rw [calcArg] at ha
      split at ha
      · next hi =>
        cases ha
        have hi' : (i.toNat : ℤ) = i := Int.toNat_of_nonneg hi.2
        have ht : toString i = toString i.toNat := by
          rw [← hi']
          rfl
        refine ⟨_, by rw [argSays, valSays, if_pos hi.1], by rw [Expr.print, Calc.js, ht], fun hfit => ⟨hfit, toString i, by rw [Expr.value], .inl ?_⟩⟩
        rw [Calc.value, hi']
      · cases ha
    | int i =>
      rw [calcArg] at ha
      split at ha
      · next hi =>
        cases hv : vs[(i - 1).toNat]? with
        | none => rw [hv] at ha; cases ha
        | some o =>
          rw [hv] at ha
          have : o = some x := ha
          subst this
          obtain ⟨e, h1, h2⟩ := hp _ _ hv
          refine ⟨e, ?_, h2⟩
          rw [argSays, valSays, if_pos hi.1, indexSays, if_neg (by omega), if_pos hi.2, h1]
          rfl
      · cases ha
    | str _ => cases ha
    | bigFloat _ => cases ha
    | fmr _ => cases ha
    | nilFmr => cases ha
    | other _ => cases ha
  have two : ∀ {fn : String} {a b : Arg} {g : ℤ → ℤ → ℤ} {C : Calc → Calc → Calc} {m : String → String → String}, fn ≠ "nf.I" →
      (∀ a b, (C a b).js = fn ++ "(" ++ (a.js ++ ", " ++ b.js) ++ ")") →
      (∀ a b, (C a b).value = g a.value b.value) →
      (∀ a b, (C a b).Fits → a.Fits ∧ b.Fits ∧ (g a.value b.value).natAbs < 10 ^ 10) →
      (∀ s t x y, WritesInt s x → WritesInt t y → x.natAbs < 10 ^ 10 → y.natAbs < 10 ^ 10 → (g x y).natAbs < 10 ^ 10 →
        WritesInt (m s t) (g x y)) →
      (∀ s t, w.call fn [.str (utf8 s), .str (utf8 t)] = .ok (.str (utf8 (m s t)))) →
      calcOp C (calcArg vs a) (calcArg vs b) = some x → ∃ e, funcSays nl record ms (.mk fn [a, b]) = some e ∧ CalcIs w e x := by
    intro fn a b g C m hfn hjs hval hfit hg hcall h
    obtain ⟨y, z, h1, h2, rfl⟩ := calcOp_some h
    obtain ⟨e, h4, h5, h6⟩ := harg a y h1
    obtain ⟨e', h4', h5', h6'⟩ := harg b z h2
    refine ⟨.call fn [e, e'], ?_, ?_, fun hf => ?_⟩
    · rw [funcSays.eq_def]
      simp only [if_neg hfn, argsSay, h4, h4', Option.bind_some, Option.map_some]
    · rw [hjs, Expr.print, printAll, printAll, printAll, h5, h5', intercalate_two]
    · obtain ⟨k1, k2, k3⟩ := hfit _ _ hf
      obtain ⟨h7, s, h8, h9⟩ := h6 k1
      obtain ⟨h7', s', h8', h9'⟩ := h6' k2
      rw [hval]
      refine ⟨k3, _, ?_, hg s s' _ _ h9 h9' h7 h7' k3⟩
      simp only [Expr.value, values, h8, h8', Out.bind_ok, Out.pure_eq, hcall]
  obtain ⟨fn, args⟩ := f
  match args, hf with
  | [], hg' => cases hg'
  | [a], hg' =>
    rw [calcEv] at hg'
    split_ifs at hg' with h1 h2
    · rw [funcSays, if_pos h1]
      exact harg a x hg'
    · obtain ⟨y, h3, rfl⟩ := Option.map_eq_some_iff.1 hg'
      obtain ⟨e, h4, h5, h6⟩ := harg a y h3
      subst h2
      refine ⟨.call "nf.math.neg" [e], ?_, ?_, fun hf => ?_⟩
      · rw [funcSays.eq_def]
        simp only [if_neg h1, argsSay, h4, Option.bind_some, Option.map_some]
      · rw [Calc.js, Expr.print, printAll, printAll, h5, intercalate_one]
        rfl
      · obtain ⟨h7, s, h8, h9⟩ := h6 hf
        refine ⟨by rwa [Calc.value, Int.natAbs_neg], _, ?_, neg_writes ext h9 h7⟩
        simp only [Expr.value, values, h8, Out.bind_ok, Out.pure_eq, hm.neg]
  | [a, b], hg' =>
    have js : ∀ (f : String) (a b : Calc), f ++ "(" ++ a.js ++ ", " ++ b.js ++ ")" = f ++ "(" ++ (a.js ++ ", " ++ b.js) ++ ")" := by
      intro f a b
      simp only [String.append_assoc]
    rw [calcEv] at hg'
    split_ifs at hg' with h1 h2 h3
    · subst h1
      exact two (C := .add) (g := fun x y => x + y) (by decide) (fun a b => js "nf.math.sum" a b) (fun _ _ => rfl) (fun _ _ h => h) (fun s t x y => sum_writes ext) hm.sum hg'
    · subst h2
      exact two (C := .sub) (g := fun x y => x - y) (by decide) (fun a b => js "nf.math.sub" a b) (fun _ _ => rfl) (fun _ _ h => h) (fun s t x y => sub_writes ext) hm.sub hg'
    · subst h3
      exact two (C := .mul) (g := fun x y => x * y) (by decide) (fun a b => js "nf.math.mul" a b) (fun _ _ => rfl) (fun _ _ h => h) (fun s t x y => mul_writes ext) hm.mul hg'
  | a :: b :: c :: l, hg' => cases hg'

/-! ## the grammar -/

def arOp (x fn : String) : RuleBody := ⟨[nt "number", lit x, nt "number"], some (.mk fn [argI 1, argI 3])⟩

def arNeg (x : String) : RuleBody := ⟨[lit x, nt "number"], some (.mk "nf.math.neg" [argI 2])⟩

/-- the alternatives of examples/arithmetic/arithmetic.grammar -/
def arAlts : List RuleBody :=
  numberNames.map (fun p => numAlt p.1 p.2) ++
  [arOp "minus" "nf.math.sub", arOp "减" "nf.math.sub", arOp "plus" "nf.math.sum", arOp "add" "nf.math.sum", arOp "加" "nf.math.sum",
    arOp "times" "nf.math.mul", arOp "multiply by" "nf.math.mul", arOp "乘" "nf.math.mul", arNeg "minus", arNeg "负"]

def arDefs : List Def := [⟨false, "number", arAlts⟩]

set_option maxRecDepth 100000 in
theorem ar_parts : PartsRead [] arithmeticParts arDefs := by
  unfold arithmeticParts arDefs
  repeat' first | exact .nil | refine .cons _ rfl (by decide +kernel) ?_

/-- the words of the literals -/
def arSplits : List (String × List String) :=
  numberNames.map (fun p => (p.1, [p.1])) ++
  [("minus", ["minus"]), ("减", ["减"]), ("plus", ["plus"]), ("add", ["add"]), ("加", ["加"]), ("times", ["times"]),
    ("multiply by", ["multiply", "by"]), ("乘", ["乘"]), ("负", ["负"])]

theorem ar_check : wordDefsOK ["number"] arSplits arDefs = true := by decide +kernel

/-- the texts of the grammar -/
abbrev ArLang := WordLang (Written arDefs false) (splitIn arSplits) calcEv

theorem ar_written {A : String} {b : RuleBody} : Written arDefs false A b ↔ A = "number" ∧ b ∈ arAlts := by
  refine ⟨?_, fun ⟨h1, h2⟩ => ⟨_, List.mem_singleton_self _, rfl, h1.symm, h2⟩⟩
  rintro ⟨d, h1, -, h2, h3⟩
  rw [arDefs, List.mem_singleton] at h1
  subst h1
  exact ⟨h2.symm, h3⟩

theorem seq_op {x fn : String} {l : List String} {vs : List (Option Calc)}
    (h : WordSeq (Written arDefs false) (splitIn arSplits) calcEv (arOp x fn).terms l vs) :
    ∃ l1 l2 v1 v2, l = l1 ++ splitIn arSplits x ++ l2 ∧ vs = [v1, none, v2] ∧ ArLang "number" l1 v1 ∧ ArLang "number" l2 v2 := by
  cases h with
  | lit h => cases h
  | ref _ h1 h2 =>
    cases h2 with
    | ref h => cases h
    | lit _ h3 =>
      cases h3 with
      | lit h => cases h
      | ref _ h4 h5 =>
        cases h5
        exact ⟨_, _, _, _, by simp [lit], rfl, h1, h4⟩

theorem seq_neg {x : String} {l : List String} {vs : List (Option Calc)}
    (h : WordSeq (Written arDefs false) (splitIn arSplits) calcEv (arNeg x).terms l vs) :
    ∃ l1 v1, l = splitIn arSplits x ++ l1 ∧ vs = [none, v1] ∧ ArLang "number" l1 v1 := by
  cases h with
  | ref h => cases h
  | lit _ h3 =>
    cases h3 with
    | lit h => cases h
    | ref _ h4 h5 =>
      cases h5
      exact ⟨_, _, by simp [lit], rfl, h4⟩

theorem seq_num {x : String} {n : Nat} {l : List String} {vs : List (Option Calc)}
    (h : WordSeq (Written arDefs false) (splitIn arSplits) calcEv (numAlt x n).terms l vs) : l = splitIn arSplits x := by
  cases h with
  | ref h => cases h
  | lit _ h3 =>
    cases h3
    simp [lit]

theorem ar_op {x fn : String} {l1 l2 : List String} {v1 v2 : Option Calc} (hb : arOp x fn ∈ arAlts) (h1 : ArLang "number" l1 v1)
    (h2 : ArLang "number" l2 v2) : ∃ v, ArLang "number" (l1 ++ splitIn arSplits x ++ l2) v := by
  refine ⟨_, .mk (b := arOp x fn) (vs := [v1, none, v2]) (ar_written.2 ⟨rfl, hb⟩) ?_⟩
  rw [List.append_assoc]
  refine .ref (t := nt "number") rfl h1 (.lit (t := lit x) rfl ?_)
  rw [← List.append_nil l2]
  exact .ref (t := nt "number") rfl h2 .nil

theorem ar_neg {x : String} {l1 : List String} {v1 : Option Calc} (hb : arNeg x ∈ arAlts) (h1 : ArLang "number" l1 v1) :
    ∃ v, ArLang "number" (splitIn arSplits x ++ l1) v := by
  refine ⟨_, .mk (b := arNeg x) (vs := [none, v1]) (ar_written.2 ⟨rfl, hb⟩) (.lit (t := lit x) rfl ?_)⟩
  rw [← List.append_nil l1]
  exact .ref (t := nt "number") rfl h1 .nil

/-- The numbers of the grammar are the expressions in words. -/
theorem reads_lang {ws : List String} {c : Calc} (h : ReadsAs ws c) : ∃ v, ArLang "number" ws v := by
  have op : ∀ (x fn : String) {l l' : List String}, arOp x fn ∈ arAlts → (∃ v, ArLang "number" l v) → (∃ v, ArLang "number" l' v) →
      ∃ v, ArLang "number" (l ++ splitIn arSplits x ++ l') v := fun x fn l l' h ⟨_, h1⟩ ⟨_, h2⟩ => ar_op h h1 h2
  have neg : ∀ (x : String) {l : List String}, arNeg x ∈ arAlts → (∃ v, ArLang "number" l v) →
      ∃ v, ArLang "number" (splitIn arSplits x ++ l) v := fun x l h ⟨_, h1⟩ => ar_neg h h1
  induction h with
  | @num s n h =>
    have e : splitIn arSplits s = [s] := by
      have : ∀ p ∈ numberNames, splitIn arSplits p.1 = [p.1] := by decide +kernel
      exact this _ h
    refine ⟨_, .mk (b := numAlt s n) (vs := [none]) (ar_written.2 ⟨rfl, List.mem_append_left _ (List.mem_map_of_mem (f := fun p => numAlt p.1 p.2) h)⟩) ?_⟩
    have : [s] = splitIn arSplits (lit s).value ++ [] := by rw [List.append_nil]; exact e.symm
    rw [this]
    exact .lit rfl .nil
  | add h _ _ h1 h2 =>
    simp only [List.mem_cons, List.not_mem_nil, or_false] at h
    rcases h with rfl | rfl | rfl
    · exact op "plus" "nf.math.sum" (by simp [arAlts]) h1 h2
    · exact op "add" "nf.math.sum" (by simp [arAlts]) h1 h2
    · exact op "加" "nf.math.sum" (by simp [arAlts]) h1 h2
  | sub h _ _ h1 h2 =>
    simp only [List.mem_cons, List.not_mem_nil, or_false] at h
    rcases h with rfl | rfl
    · exact op "minus" "nf.math.sub" (by simp [arAlts]) h1 h2
    · exact op "减" "nf.math.sub" (by simp [arAlts]) h1 h2
  | mul h _ _ h1 h2 =>
    simp only [List.mem_cons, List.not_mem_nil, or_false] at h
    rcases h with rfl | rfl | rfl
    · exact op "times" "nf.math.mul" (by simp [arAlts]) h1 h2
    · exact op "multiply by" "nf.math.mul" (by simp [arAlts]) h1 h2
    · exact op "乘" "nf.math.mul" (by simp [arAlts]) h1 h2
  | neg h _ h1 =>
    simp only [List.mem_cons, List.not_mem_nil, or_false] at h
    rcases h with rfl | rfl
    · exact neg "minus" (by simp [arAlts]) h1
    · exact neg "负" (by simp [arAlts]) h1

theorem lang_reads : ∀ (n : Nat) {ws : List String} {v : Option Calc}, ws.length ≤ n → ArLang "number" ws v →
    ∃ c, ReadsAs ws c ∧ v = some c
  | n, ws, v, hn, h => by
    have ih : ∀ (m : Nat) {ws : List String} {v : Option Calc}, m < n → ws.length ≤ m → ArLang "number" ws v →
      ∃ c, ReadsAs ws c ∧ v = some c := fun m _ _ _ h2 h3 => lang_reads m h2 h3
    cases h with
    | @mk _ b _ vs hb hs =>
      have hb := (ar_written.1 hb).2
      rw [arAlts, List.mem_append] at hb
      have op : ∀ (x fn : String) (C : Calc → Calc → Calc) (hw : List String), b = arOp x fn → splitIn arSplits x = hw →
          hw ≠ [] → (∀ vs, calcEv vs (.mk fn [argI 1, argI 3]) = calcOp C (calcArg vs (argI 1)) (calcArg vs (argI 3))) →
          (∀ l l' a b, ReadsAs l a → ReadsAs l' b → ReadsAs (l ++ hw ++ l') (C a b)) →
          ∃ c, ReadsAs ws c ∧ b.f.bind (calcEv vs) = some c := by
        intro x fn C hw hbx hsx hne hev hr
        subst hbx
        obtain ⟨l1, l2, v1, v2, e, rfl, h1, h2⟩ := seq_op hs
        rw [hsx] at e
        have : 0 < hw.length := List.length_pos_iff.2 hne
        have hl := congrArg List.length e
        simp only [List.length_append] at hl
        obtain ⟨c1, g1, rfl⟩ := ih (n - 1) (by omega) (by omega) h1
        obtain ⟨c2, g2, rfl⟩ := ih (n - 1) (by omega) (by omega) h2
        refine ⟨C c1 c2, by rw [e]; exact hr _ _ _ _ g1 g2, ?_⟩
        show calcEv _ (.mk fn [argI 1, argI 3]) = _
        rw [hev]
        have e1 : calcArg [some c1, none, some c2] (argI 1) = some c1 := by simp [calcArg, argI]
        have e2 : calcArg [some c1, none, some c2] (argI 3) = some c2 := by simp [calcArg, argI]
        rw [e1, e2, calcOp]
      have neg : ∀ (x : String), b = arNeg x → splitIn arSplits x = [x] → (∀ l a, ReadsAs l a → ReadsAs ([x] ++ l) (.neg a)) →
          ∃ c, ReadsAs ws c ∧ b.f.bind (calcEv vs) = some c := by
        intro x hbx hsx hr
        subst hbx
        obtain ⟨l1, v1, e, rfl, h1⟩ := seq_neg hs
        rw [hsx] at e
        have hl := congrArg List.length e
        simp only [List.length_append, List.length_singleton] at hl
        obtain ⟨c1, g1, rfl⟩ := ih (n - 1) (by omega) (by omega) h1
        refine ⟨.neg c1, by rw [e]; exact hr _ _ g1, ?_⟩
        have e1 : calcArg [none, some c1] (argI 2) = some c1 := by simp [calcArg, argI]
        rw [arNeg, Option.bind_some, calcEv, if_neg (by decide), if_pos rfl, e1]
        rfl
      rcases hb with hb | hb
      · obtain ⟨p, hp, rfl⟩ := List.mem_map.1 hb
        have e := seq_num hs
        have : ∀ p ∈ numberNames, splitIn arSplits p.1 = [p.1] := by decide +kernel
        rw [this p hp] at e
        refine ⟨.num p.2, by rw [e]; exact .num hp, ?_⟩
        rw [numAlt, Option.bind_some, calcEv, if_pos rfl]
        simp [calcArg, argN]
      · have hsub : ∀ vs, calcEv vs (.mk "nf.math.sub" [argI 1, argI 3]) = calcOp .sub (calcArg vs (argI 1)) (calcArg vs (argI 3)) :=
          fun _ => rfl
        have hsum : ∀ vs, calcEv vs (.mk "nf.math.sum" [argI 1, argI 3]) = calcOp .add (calcArg vs (argI 1)) (calcArg vs (argI 3)) :=
          fun _ => rfl
        have hmul : ∀ vs, calcEv vs (.mk "nf.math.mul" [argI 1, argI 3]) = calcOp .mul (calcArg vs (argI 1)) (calcArg vs (argI 3)) :=
          fun _ => rfl
        simp only [List.mem_cons, List.not_mem_nil, or_false] at hb
        rcases hb with hb | hb | hb | hb | hb | hb | hb | hb | hb | hb
        · exact op _ _ .sub ["minus"] hb (by decide +kernel) (by simp) hsub (fun _ _ _ _ => .sub (by decide))
        · exact op _ _ .sub ["减"] hb (by decide +kernel) (by simp) hsub (fun _ _ _ _ => .sub (by decide))
        · exact op _ _ .add ["plus"] hb (by decide +kernel) (by simp) hsum (fun _ _ _ _ => .add (by decide))
        · exact op _ _ .add ["add"] hb (by decide +kernel) (by simp) hsum (fun _ _ _ _ => .add (by decide))
        · exact op _ _ .add ["加"] hb (by decide +kernel) (by simp) hsum (fun _ _ _ _ => .add (by decide))
        · exact op _ _ .mul ["times"] hb (by decide +kernel) (by simp) hmul (fun _ _ _ _ => .mul (by decide))
        · exact op _ _ .mul ["multiply", "by"] hb (by decide +kernel) (by simp) hmul (fun _ _ _ _ => .mul (by decide))
        · exact op _ _ .mul ["乘"] hb (by decide +kernel) (by simp) hmul (fun _ _ _ _ => .mul (by decide))
        · exact neg "minus" hb (by decide +kernel) (fun _ _ => .neg (op := ["minus"]) (by decide))
        · exact neg "负" hb (by decide +kernel) (fun _ _ => .neg (op := ["负"]) (by decide))
termination_by n => n

end Fmr
