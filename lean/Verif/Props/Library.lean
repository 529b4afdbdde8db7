import Verif.Model.Call
import Verif.Props.Called
import Verif.Props.Prime
import Verif.Props.Div
import Verif.Props.Pow
import Verif.Props.CalcWitness

/-!
# C95: calls of the functions of the library

`Call` goes through a table of functions by name. What `Eval` gives for each of them, and that the contracts of the other
properties follow from the table.
-/

namespace Fmr

theorem gives_unique {f : GoFunc} {vs : List Value} {r r' : Value} (h : f.Gives vs r) (h' : f.Gives vs r') : r = r' := by
  cases h with
  | variadic => cases h'; rfl
  | one x =>
    generalize e : [Value.str (utf8 x)] = l at h'
    cases h' with
    | one y =>
      simp only [List.cons.injEq, Value.str.injEq, and_true] at e
      rw [utf8_injective e]
  | two x y =>
    generalize e : [Value.str (utf8 x), Value.str (utf8 y)] = l at h'
    cases h' with
    | two x' y' =>
      simp only [List.cons.injEq, Value.str.injEq, and_true] at e
      rw [utf8_injective e.1, utf8_injective e.2]

theorem builtinCall_gives {lib : FuncLib} {misfit : String → List Value → Out Value} {fn : String} {f : GoFunc} {vs : List Value}
    {r : Value} (h : (builtinFuncs lib).lookup fn = some f) (hg : f.Gives vs r) : builtinCall lib misfit fn vs = .ok r := by
  have hex : ∃ r, f.Gives vs r := ⟨r, hg⟩
  rw [builtinCall, h]
  simp only [dif_pos hex]
  rw [gives_unique hex.choose_spec hg]

/-- The node methods call the functions of the library. -/
def CallsLibrary (w : NodeWorld) (lib : FuncLib) : Prop :=
  ∃ misfit, w.call = builtinCall lib misfit

section
variable {w : NodeWorld} {lib : FuncLib} (hw : CallsLibrary w lib)
include hw

theorem CallsLibrary.call {fn : String} {f : GoFunc} {vs : List Value} {r : Value} (h : (builtinFuncs lib).lookup fn = some f)
    (hg : f.Gives vs r) : w.call fn vs = .ok r := by
  obtain ⟨m, e⟩ := hw
  rw [e]
  exact builtinCall_gives h hg

/-- C95: The names that can be called are those listed as registered, and each has a call that returns. -/
theorem C95_names (fn : String) : (fn ∉ registered → ∀ vs, w.call fn vs = .err) ∧ (fn ∈ registered → ∃ vs r, w.call fn vs = .ok r) := by
  have hk : (builtinFuncs lib).map (·.1) = registered := rfl
  constructor
  · intro h vs
    obtain ⟨m, e⟩ := hw
    have hl : (builtinFuncs lib).lookup fn = none := by
      rw [List.lookup_eq_none_iff]
      intro p hp
      rw [bne_iff_ne]
      rintro rfl
      exact h (hk ▸ List.mem_map_of_mem hp)
    rw [e, builtinCall, hl]
  · intro h
    have hl : ∃ f, (builtinFuncs lib).lookup fn = some f := by
      cases hl : (builtinFuncs lib).lookup fn with
      | some f => exact ⟨f, rfl⟩
      | none =>
        rw [List.lookup_eq_none_iff] at hl
        rw [← hk] at h
        obtain ⟨p, hp, rfl⟩ := List.mem_map.1 h
        exact absurd (hl p hp) (by simp)
    obtain ⟨f, hl⟩ := hl
    cases f with
    | variadic f => exact ⟨[], _, hw.call hl (.variadic [])⟩
    | one f => exact ⟨_, _, hw.call hl (.one "")⟩
    | two f => exact ⟨_, _, hw.call hl (.two "" "")⟩

/-- C95: the assumptions about `Call` that other properties make follow from the table. -/
theorem C95_contracts : HasBuiltins w lib.sprint ∧ HasMath w lib.bigFloat ∧ HasCalc w lib.bigFloat ∧ CallsOnly w registered :=
  ⟨⟨fun vs => hw.call rfl (.variadic vs), fun vs => hw.call rfl (.variadic vs)⟩,
    ⟨fun x y => hw.call rfl (.two x y), fun x y => hw.call rfl (.two x y)⟩,
    ⟨fun x y => hw.call rfl (.two x y), fun x y => hw.call rfl (.two x y), fun x y => hw.call rfl (.two x y),
      fun x => hw.call rfl (.one x)⟩,
    fun fn vs h => (C95_names hw fn).1 h vs⟩

/-- C95: `Eval` of a node that stands for a call gives the result of the function. -/
theorem C95_eval {p : Parsed} {n : Node} {fn : String} {es : List Expr} {vs : List Value} {r : Value}
    (h : Means w p n (.call fn es)) (hv : values w es = .ok vs) {f : GoFunc} (hf : (fn, f) ∈ builtinFuncs lib) (hr : f.Gives vs r) :
    n.eval w p = .ok r := by
  have hl : (builtinFuncs lib).lookup fn = some f := by
    simp only [builtinFuncs, List.mem_cons, List.not_mem_nil, or_false, Prod.mk.injEq] at hf
    rcases hf with ⟨rfl, rfl⟩ | ⟨rfl, rfl⟩ | ⟨rfl, rfl⟩ | ⟨rfl, rfl⟩ | ⟨rfl, rfl⟩ | ⟨rfl, rfl⟩ | ⟨rfl, rfl⟩ | ⟨rfl, rfl⟩ | ⟨rfl, rfl⟩ |
      ⟨rfl, rfl⟩ | ⟨rfl, rfl⟩ <;> rfl
  rw [(C42_same_expression w p n _ h).2, Expr.value, hv]
  exact hw.call hl hr

end

theorem scanInt_writes {s : String} {x : ℤ} (h : WritesInt s x) : goScanInt s = some x := by
  rcases h with rfl | ⟨rfl, rfl⟩
  · exact goScanInt_toString x
  · decide +kernel

/-- the answer to a question -/
def Answers (r : String) (P : Prop) : Prop := (r = "true" ∧ P) ∨ (r = "false" ∧ ¬ P)

section
variable {w : NodeWorld} {lib : FuncLib} (hw : CallsLibrary w lib) {s t : String} {x y : ℤ} (hs : WritesInt s x) (ht : WritesInt t y)
include hw hs

/-- C95: questions about an integer of any size: parity; and primality below 2^64. -/
theorem C95_questions (hpp : PrimeContract lib.probablyPrime) :
    (∃ r, w.call "nf.math.even" [.str (utf8 s)] = .ok (.str (utf8 r)) ∧ Answers r (Even x)) ∧
    (∃ r, w.call "nf.math.odd" [.str (utf8 s)] = .ok (.str (utf8 r)) ∧ Answers r (Odd x)) ∧
    (x < 2 ^ 64 → ∃ r, w.call "nf.math.prime" [.str (utf8 s)] = .ok (.str (utf8 r)) ∧ Answers r (∃ n : ℕ, x = n ∧ n.Prime)) := by
  have hsc := scanInt_writes hs
  refine ⟨⟨_, hw.call rfl (.one s), ?_⟩, ⟨_, hw.call rfl (.one s), ?_⟩, fun hx => ⟨_, hw.call rfl (.one s), ?_⟩⟩
  · simp only [even, hsc]
    by_cases h : bit0 x = 0
    · rw [if_pos h]; exact .inl ⟨rfl, (bit0_even x).1 h⟩
    · rw [if_neg h]; exact .inr ⟨rfl, fun he => h ((bit0_even x).2 he)⟩
  · simp only [odd, hsc]
    by_cases h : bit0 x = 1
    · rw [if_pos h]; exact .inl ⟨rfl, Int.not_even_iff_odd.1 ((bit0_odd x).1 h)⟩
    · rw [if_neg h]; exact .inr ⟨rfl, fun ho => h ((bit0_odd x).2 (Int.not_even_iff_odd.2 ho))⟩
  · simp only [prime, hsc]
    by_cases h : lib.probablyPrime x = true
    · rw [if_pos h]
      refine .inl ⟨rfl, ?_⟩
      have h0 := hpp.positive x h
      obtain ⟨n, rfl⟩ : ∃ n : ℕ, x = n := ⟨x.toNat, by omega⟩
      exact ⟨n, rfl, hpp.exact n (by exact_mod_cast hx) h⟩
    · rw [if_neg h]
      refine .inr ⟨rfl, ?_⟩
      rintro ⟨n, rfl, hn⟩
      exact h (hpp.accepts n hn)

include ht

/-- C95: calculations with integers of at most ten digits. -/
theorem C95_integers (hx : x.natAbs < 10 ^ 10) (hy : y.natAbs < 10 ^ 10) :
    ((x + y).natAbs < 10 ^ 10 → ∃ r, w.call "nf.math.sum" [.str (utf8 s), .str (utf8 t)] = .ok (.str (utf8 r)) ∧ WritesInt r (x + y)) ∧
    ((x - y).natAbs < 10 ^ 10 → ∃ r, w.call "nf.math.sub" [.str (utf8 s), .str (utf8 t)] = .ok (.str (utf8 r)) ∧ WritesInt r (x - y)) ∧
    ((x * y).natAbs < 10 ^ 10 → ∃ r, w.call "nf.math.mul" [.str (utf8 s), .str (utf8 t)] = .ok (.str (utf8 r)) ∧ WritesInt r (x * y)) ∧
    ∃ r, w.call "nf.math.neg" [.str (utf8 s)] = .ok (.str (utf8 r)) ∧ WritesInt r (-x) :=
  ⟨fun h => ⟨_, hw.call rfl (.two s t), sum_writes _ hs ht hx hy h⟩, fun h => ⟨_, hw.call rfl (.two s t), sub_writes _ hs ht hx hy h⟩,
    fun h => ⟨_, hw.call rfl (.two s t), mul_writes _ hs ht hx hy h⟩, ⟨_, hw.call rfl (.one s), neg_writes _ hs hx⟩⟩

end

section
variable {w : NodeWorld} {lib : FuncLib} (hw : CallsLibrary w lib) (x y : ℤ)
include hw

/-- C95: quotients and powers of integers. -/
theorem C95_fractions :
    (y ≠ 0 → |x| ≤ 4500000000 → |y| < 2 ^ 53 →
      ∃ r, w.call "nf.math.div" [.str (utf8 (toString x)), .str (utf8 (toString y))] = .ok (.str (utf8 r)) ∧ Rounded6 r ((x : ℚ) / y)) ∧
    ∀ n : ℕ, 0 < n → n < 2 ^ 53 → x.natAbs ^ n < 2 ^ 53 →
      w.call "nf.math.pow" [.str (utf8 (toString x)), .str (utf8 (toString (n : ℤ)))] = .ok (.str (utf8 (toString (x ^ n) ++ ".000000"))) := by
  refine ⟨fun h1 h2 h3 => ⟨_, hw.call rfl (.two _ _), C62_partial _ h1 h2 h3⟩, fun n h1 h2 h3 => ?_⟩
  rw [← C87_partial lib.frac lib.float h1 h2 ⟨x.natAbs ^ n, 0, h3, by simp⟩ (lt_of_lt_of_le h3 (Nat.pow_le_pow_right Nat.zero_lt_two (by omega)))]
  exact hw.call rfl (.two _ _)

end

/-! ## a setting in which all assumptions hold -/

open Classical in
noncomputable def someLib : FuncLib where
  sprint _ := ""
  bigFloat _ := none
  float _ := none
  frac _ _ := 0
  probablyPrime z := decide (∃ n : ℕ, z = n ∧ n.Prime)

noncomputable def libNode : NodeWorld := { wPlain with call := builtinCall someLib fun _ _ => .err }

theorem libNode_calls : CallsLibrary libNode someLib := ⟨_, rfl⟩

open Classical in
theorem someLib_prime : PrimeContract someLib.probablyPrime :=
  ⟨fun n hn => decide_eq_true ⟨n, rfl, hn⟩, fun z h => by
    obtain ⟨n, rfl, hn⟩ := of_decide_eq_true h
    exact_mod_cast hn.pos, fun n _ h => by
    obtain ⟨m, e, hm⟩ := of_decide_eq_true h
    have : n = m := by exact_mod_cast e
    exact this ▸ hm⟩

/-- C95: seven is prime, and three and four are seven -/
example : (∃ r, libNode.call "nf.math.prime" [.str (utf8 "7")] = .ok (.str (utf8 r)) ∧ Answers r (∃ n : ℕ, (7 : ℤ) = n ∧ n.Prime)) ∧
    ∃ r, libNode.call "nf.math.sum" [.str (utf8 "3"), .str (utf8 "4")] = .ok (.str (utf8 r)) ∧ WritesInt r (3 + 4) :=
  ⟨(C95_questions libNode_calls (x := 7) (.inl (by decide +kernel)) someLib_prime).2.2 (by norm_num),
    (C95_integers libNode_calls (x := 3) (y := 4) (.inl (by decide +kernel)) (.inl (by decide +kernel)) (by decide) (by decide)).1 (by decide)⟩

/-- C95: the contract of C84 and the calls that return hold together -/
example : CallsReturn libNode ∧ HasCalc libNode someLib.bigFloat := by
  refine ⟨fun fn vs => ?_, (C95_contracts libNode_calls).2.2.1⟩
  show Settled (builtinCall someLib (fun _ _ => .err) fn vs)
  rw [builtinCall]
  split
  · exact .err
  · split
    · exact .ok
    · exact .err

end Fmr
