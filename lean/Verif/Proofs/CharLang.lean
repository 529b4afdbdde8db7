import Verif.Proofs.ArithExp
import Verif.Proofs.WordParse

/-!
# Grammars over single characters with arithmetic

For grammars whose terms are references and literals, over documents whose tokens are single characters: the texts of a
rule together with the number that its functions give.
-/

namespace Fmr

set_option linter.unusedSectionVars false

/-- an operation on numbers of at most ten significant digits, with a result of at most 64 bits -/
def smallOp (f : Nat → Nat → Nat) (a b : Option Nat) : Option Nat :=
  match a, b with
  | some x, some y => if Short x ∧ Short y ∧ f x y < 2 ^ 64 then some (f x y) else none
  | _, _ => none

/-- at most ten digits -/
def TenDigits (n : Nat) : Prop := n < 10 ^ 10

instance (n : Nat) : Decidable (TenDigits n) := by unfold TenDigits; infer_instance

section
variable (vs : List (Option Nat))

mutual
/-- the number that a function gives: `nf.I`, `nf.math.sum` and `nf.math.mul` of constants and parts -/
def fmrNum : FMR → Option Nat
  | .mk fn args =>
    match args with
    | [a] => if fn = "nf.I" then argNum a else none
    | [a, b] =>
      if fn = "nf.math.sum" then smallOp (· + ·) (argNum a) (argNum b)
      else if fn = "nf.math.mul" then smallOp (· * ·) (argNum a) (argNum b)
      else none
    | _ => none
def argNum : Arg → Option Nat
  | .mk t v => valNum t v
def valNum (t : String) : Val → Option Nat
  | .bigInt i => if t = "int" ∧ 0 ≤ i ∧ TenDigits i.toNat then some i.toNat else none
  | .int i => if t = "index" ∧ 0 < i then (vs[(i - 1).toNat]?).join else none
  | .fmr f => if t = "func" then fmrNum f else none
  | _ => none
end

end

section
variable (W : String → RuleBody → Prop)

mutual
/-- the rule derives the characters, and its function gives the number -/
inductive CharLang : String → List Char → Option Nat → Prop
  | mk {A : String} {b : RuleBody} {l : List Char} {vs : List (Option Nat)} : W A b → CharSeq b.terms l vs →
      CharLang A l (b.f.bind (fmrNum vs))
/-- the terms derive the characters -/
inductive CharSeq : List Term → List Char → List (Option Nat) → Prop
  | nil : CharSeq [] [] []
  | lit {t : Term} {ts : List Term} {l : List Char} {vs : List (Option Nat)} : t.type = .terminal → CharSeq ts l vs →
      CharSeq (t :: ts) (t.value.toList ++ l) (none :: vs)
  | ref {t : Term} {ts : List Term} {l l' : List Char} {v : Option Nat} {vs : List (Option Nat)} : t.type = .nonterminal →
      CharLang t.value l v → CharSeq ts l' vs → CharSeq (t :: ts) (l ++ l') (v :: vs)
end

end

/-- `Call` (funcs.go:17-27) reaches the functions `sum` and `mul` that math_funcs.go:10-13 registers. -/
structure HasMath (w : NodeWorld) (ext : String → Option BF) : Prop where
  sum : ∀ x y, w.call "nf.math.sum" [.str (utf8 x), .str (utf8 y)] = .ok (.str (utf8 (mathSum ext x y)))
  mul : ∀ x y, w.call "nf.math.mul" [.str (utf8 x), .str (utf8 y)] = .ok (.str (utf8 (mathMul ext x y)))

/-- the meaning is the number, printed with ten significant digits -/
def IsNum (w : NodeWorld) (m : Option Expr) (n : Nat) : Prop :=
  ∃ e, m = some e ∧ e.value w = .ok (.str (utf8 (numText n)))

section
variable {w : NodeWorld} {ext : String → Option BF} (hm : HasMath w ext)

theorem toString_natCast (n : Nat) : toString ((n : Nat) : Int) = toString n := rfl

include hm

theorem call_sum {x y : Nat} (hx : Short x) (hy : Short y) (h : x + y < 2 ^ 64) :
    w.call "nf.math.sum" [.str (utf8 (numText x)), .str (utf8 (numText y))] = .ok (.str (utf8 (numText (x + y)))) := by
  rw [hm.sum, sum_printed ext hx hy h]

theorem call_mul {x y : Nat} (hx : Short x) (hy : Short y) (h : x * y < 2 ^ 64) :
    w.call "nf.math.mul" [.str (utf8 (numText x)), .str (utf8 (numText y))] = .ok (.str (utf8 (numText (x * y)))) := by
  rw [hm.mul, mul_printed ext hx hy h]

theorem smallOp_sum {a b : Option Nat} {ma mb : Option Expr} {n : Nat} (ha : ∀ n, a = some n → IsNum w ma n)
    (hb : ∀ n, b = some n → IsNum w mb n) (h : smallOp (· + ·) a b = some n) :
    IsNum w (ma.bind fun e => mb.bind fun e' => some (.call "nf.math.sum" [e, e'])) n := by
  cases a with
  | none => cases h
  | some x =>
    cases b with
    | none => cases h
    | some y =>
      simp only [smallOp] at h
      split at h
      · next hxy =>
        cases h
        obtain ⟨e, rfl, h1⟩ := ha x rfl
        obtain ⟨e', rfl, h2⟩ := hb y rfl
        refine ⟨_, rfl, ?_⟩
        simp only [Expr.value, values, h1, h2, Out.bind_ok, Out.pure_eq, call_sum hm hxy.1 hxy.2.1 hxy.2.2]
      · cases h

theorem smallOp_mul {a b : Option Nat} {ma mb : Option Expr} {n : Nat} (ha : ∀ n, a = some n → IsNum w ma n)
    (hb : ∀ n, b = some n → IsNum w mb n) (h : smallOp (· * ·) a b = some n) :
    IsNum w (ma.bind fun e => mb.bind fun e' => some (.call "nf.math.mul" [e, e'])) n := by
  cases a with
  | none => cases h
  | some x =>
    cases b with
    | none => cases h
    | some y =>
      simp only [smallOp] at h
      split at h
      · next hxy =>
        cases h
        obtain ⟨e, rfl, h1⟩ := ha x rfl
        obtain ⟨e', rfl, h2⟩ := hb y rfl
        refine ⟨_, rfl, ?_⟩
        simp only [Expr.value, values, h1, h2, Out.bind_ok, Out.pure_eq, call_mul hm hxy.1 hxy.2.1 hxy.2.2]
      · cases h

variable {nl : String} {record : Value} {ms : List (Option Expr)} {vs : List (Option Nat)}
  (hp : ∀ i n : Nat, vs[i]? = some (some n) → ∃ m, ms[i]? = some m ∧ IsNum w m n)
include hp

mutual
theorem fmrNum_sound : ∀ (f : FMR) (n : Nat), fmrNum vs f = some n → IsNum w (funcSays nl record ms f) n
  | .mk fn args, n, h => by
    rw [fmrNum.eq_def] at h
    simp only at h
    split at h
    · next a =>
      split at h
      · next hf =>
        rw [funcSays, if_pos hf]
        exact argNum_sound a n h
      · cases h
    · next a b =>
      split at h
      · next hf =>
        subst hf
        have := smallOp_sum hm (fun n => argNum_sound a n) (fun n => argNum_sound b n) h
        rw [funcSays.eq_def]
        simp only [if_neg (show ¬ ("nf.math.sum" = "nf.I") by decide)]
        simp only [argsSay]
        obtain ⟨e, h1, h2⟩ := this
        refine ⟨e, ?_, h2⟩
        cases ha : argSays nl record ms a with
        | none => rw [ha] at h1; cases h1
        | some x =>
          rw [ha] at h1
          cases hb : argSays nl record ms b with
          | none => rw [hb] at h1; cases h1
          | some y =>
            rw [hb] at h1
            exact h1
      · split at h
        · next hf =>
          subst hf
          have := smallOp_mul hm (fun n => argNum_sound a n) (fun n => argNum_sound b n) h
          rw [funcSays.eq_def]
          simp only [if_neg (show ¬ ("nf.math.mul" = "nf.I") by decide)]
          simp only [argsSay]
          obtain ⟨e, h1, h2⟩ := this
          refine ⟨e, ?_, h2⟩
          cases ha : argSays nl record ms a with
          | none => rw [ha] at h1; cases h1
          | some x =>
            rw [ha] at h1
            cases hb : argSays nl record ms b with
            | none => rw [hb] at h1; cases h1
            | some y =>
              rw [hb] at h1
              exact h1
        · cases h
    · cases h
theorem argNum_sound : ∀ (a : Arg) (n : Nat), argNum vs a = some n → IsNum w (argSays nl record ms a) n
  | .mk t v, n, h => by
    rw [argNum] at h
    rw [argSays]
    exact valNum_sound t v n h
theorem valNum_sound (t : String) : ∀ (v : Val) (n : Nat), valNum vs t v = some n → IsNum w (valSays nl record ms t v) n
  | .bigInt i, n, h => by
    rw [valNum] at h
    split at h
    · next hi =>
      cases h
      rw [valSays, if_pos hi.1]
      refine ⟨_, rfl, ?_⟩
      rw [Expr.value, printed_small hi.2.2, ← toString_natCast, Int.toNat_of_nonneg hi.2.1]
    · cases h
  | .int i, n, h => by
    rw [valNum] at h
    split at h
    · next hi =>
      rw [valSays, if_pos hi.1, indexSays, if_neg (by omega), if_pos hi.2]
      cases hv : vs[(i - 1).toNat]? with
      | none => rw [hv] at h; cases h
      | some o =>
        rw [hv] at h
        have : o = some n := h
        subst this
        obtain ⟨m, h1, h2⟩ := hp _ _ hv
        rw [h1]
        exact h2
    · cases h
  | .fmr f, n, h => by
    rw [valNum] at h
    split at h
    · next hi =>
      rw [valSays, if_pos hi]
      exact fmrNum_sound f n h
    · cases h
  | .str _, _, h => by rw [valNum.eq_def] at h; cases h
  | .bigFloat _, _, h => by rw [valNum.eq_def] at h; cases h
  | .nilFmr, _, h => by rw [valNum.eq_def] at h; cases h
  | .other _, _, h => by rw [valNum.eq_def] at h; cases h
end

end

/-- the tokens of a literal are its characters -/
def charWords (s : String) : List String := s.toList.map String.singleton

/-- the token for a character -/
def charTerm (c : Char) : Term := wordTerm (String.singleton c)

/-- References, and literals without flags whose tokens are their characters. -/
def CharTerms (annot : String → Option (List Token)) (W : String → RuleBody → Prop) (names : List String) : Prop :=
  ∀ A b, W A b → ∀ t ∈ b.terms, (t.type = .nonterminal ∧ t.value ∈ names) ∨
    (t.type = .terminal ∧ readTerm annot t = t.value.toList.map charTerm)

theorem CharTerms.words {annot : String → Option (List Token)} {W : String → RuleBody → Prop} {names : List String}
    (h : CharTerms annot W names) : WordTerms annot charWords W names := by
  intro A b hb t ht
  refine (h A b hb t ht).imp_right fun h => ⟨h.1, ?_⟩
  rw [h.2, charWords, List.map_map]
  rfl

theorem singleton_inj {c c' : Char} (h : String.singleton c = String.singleton c') : c = c' := by
  have := congrArg String.toList h
  simpa using this

theorem singletons_inj {l l' : List Char} (h : l.map String.singleton = l'.map String.singleton) : l = l' :=
  List.map_injective_iff.2 (fun _ _ => singleton_inj) h

section
variable {W : String → RuleBody → Prop}

mutual
theorem CharLang.word : ∀ {A : String} {l : List Char} {v : Option Nat}, CharLang W A l v →
    WordLang W charWords fmrNum A (l.map String.singleton) v
  | _, _, _, .mk h1 h2 => .mk h1 h2.word
theorem CharSeq.word : ∀ {ts : List Term} {l : List Char} {vs : List (Option Nat)}, CharSeq W ts l vs →
    WordSeq W charWords fmrNum ts (l.map String.singleton) vs
  | _, _, _, .nil => .nil
  | _, _, _, .lit h1 h2 => by
    rw [List.map_append]
    exact .lit h1 h2.word
  | _, _, _, .ref h1 h2 h3 => by
    rw [List.map_append]
    exact .ref h1 h2.word h3.word
end

mutual
theorem WordLang.char : ∀ {A : String} {l : List String} {v : Option Nat}, WordLang W charWords fmrNum A l v →
    ∃ cs, l = cs.map String.singleton ∧ CharLang W A cs v
  | _, _, _, .mk h1 h2 => by
    obtain ⟨cs, h3, h4⟩ := h2.char
    exact ⟨cs, h3, .mk h1 h4⟩
theorem WordSeq.char : ∀ {ts : List Term} {l : List String} {vs : List (Option Nat)}, WordSeq W charWords fmrNum ts l vs →
    ∃ cs, l = cs.map String.singleton ∧ CharSeq W ts cs vs
  | _, _, _, .nil => ⟨[], rfl, .nil⟩
  | _, _, _, .lit h1 h2 => by
    obtain ⟨cs, rfl, h4⟩ := h2.char
    exact ⟨_, (List.map_append ..).symm, .lit h1 h4⟩
  | _, _, _, .ref h1 h2 h3 => by
    obtain ⟨cs, rfl, h4⟩ := h2.char
    obtain ⟨cs', rfl, h5⟩ := h3.char
    exact ⟨_, (List.map_append ..).symm, .ref h1 h4 h5⟩
end

end

/-- the functions give the numbers -/
theorem fmrNum_ev {w : NodeWorld} {ext : String → Option BF} (hm : HasMath w ext) :
    EvSound fmrNum (fun e n => e.value w = .ok (.str (utf8 (numText n)))) := by
  intro nl record ms vs h f n hf
  refine fmrNum_sound hm (ms := ms) (vs := vs) (fun i n hi => ?_) f n hf
  obtain ⟨e, h1, h2⟩ := h i n hi
  exact ⟨_, h1, e, rfl, h2⟩

end Fmr
