import Verif.Model.Shipped
import Verif.Proofs.CharLang

/-!
# The definitions of grammars/number.zh.grammar
-/

namespace Fmr

/-! ## comparing definitions -/

mutual
def FMR.same : FMR → FMR → Bool
  | .mk f as, .mk g bs => f == g && argsSame as bs
def argsSame : List Arg → List Arg → Bool
  | [], [] => true
  | a :: as, b :: bs => a.same b && argsSame as bs
  | _, _ => false
def Arg.same : Arg → Arg → Bool
  | .mk t v, .mk t' v' => t == t' && v.same v'
def Val.same : Val → Val → Bool
  | .str s, .str s' => s == s'
  | .bigInt i, .bigInt i' => i == i'
  | .bigFloat i, .bigFloat i' => i == i'
  | .int i, .int i' => i == i'
  | .fmr f, .fmr f' => f.same f'
  | _, _ => false
end

mutual
theorem FMR.same_eq : ∀ {a b : FMR}, a.same b = true → a = b
  | .mk f as, .mk g bs, h => by
    rw [FMR.same, Bool.and_eq_true, beq_iff_eq] at h
    rw [h.1, argsSame_eq h.2]
theorem argsSame_eq : ∀ {a b : List Arg}, argsSame a b = true → a = b
  | [], [], _ => rfl
  | a :: as, b :: bs, h => by
    rw [argsSame, Bool.and_eq_true] at h
    rw [Arg.same_eq h.1, argsSame_eq h.2]
  | [], _ :: _, h => by rw [argsSame.eq_def] at h; cases h
  | _ :: _, [], h => by rw [argsSame.eq_def] at h; cases h
theorem Arg.same_eq : ∀ {a b : Arg}, a.same b = true → a = b
  | .mk t v, .mk t' v', h => by
    rw [Arg.same, Bool.and_eq_true, beq_iff_eq] at h
    rw [h.1, Val.same_eq h.2]
theorem Val.same_eq : ∀ {a b : Val}, a.same b = true → a = b
  | .fmr f, b, h => by
    cases b <;> first | (rw [Val.same.eq_def] at h; cases h) | skip
    rw [Val.same] at h
    rw [FMR.same_eq h]
  | .str _, b, h => by
    rw [Val.same.eq_def] at h
    cases b <;> simp at h
    rw [h]
  | .bigInt _, b, h => by
    rw [Val.same.eq_def] at h
    cases b <;> simp at h
    rw [h]
  | .bigFloat _, b, h => by
    rw [Val.same.eq_def] at h
    cases b <;> simp at h
    rw [h]
  | .int _, b, h => by
    rw [Val.same.eq_def] at h
    cases b <;> simp at h
    rw [h]
  | .nilFmr, b, h => by
    rw [Val.same.eq_def] at h
    cases b <;> simp at h
  | .other _, b, h => by
    rw [Val.same.eq_def] at h
    cases b <;> simp at h
end

def Term.same (a b : Term) : Bool := a.value == b.value && a.type == b.type && a.meta == b.meta

def listSame {α : Type} (f : α → α → Bool) : List α → List α → Bool
  | [], [] => true
  | a :: as, b :: bs => f a b && listSame f as bs
  | _, _ => false

theorem listSame_eq {α : Type} {f : α → α → Bool} (hf : ∀ a b, f a b = true → a = b) :
    ∀ {as bs : List α}, listSame f as bs = true → as = bs
  | [], [], _ => rfl
  | a :: as, b :: bs, h => by
    rw [listSame, Bool.and_eq_true] at h
    rw [hf a b h.1, listSame_eq hf h.2]
  | [], _ :: _, h => by cases h
  | _ :: _, [], h => by cases h

def RuleBody.same (a b : RuleBody) : Bool :=
  listSame Term.same a.terms b.terms &&
  match a.f, b.f with
  | none, none => true
  | some f, some g => f.same g
  | _, _ => false

theorem RuleBody.same_eq {a b : RuleBody} (h : a.same b = true) : a = b := by
  obtain ⟨ts, f⟩ := a
  obtain ⟨ts', f'⟩ := b
  rw [RuleBody.same, Bool.and_eq_true] at h
  have h1 := listSame_eq (f := Term.same) (fun a b h => by
    obtain ⟨x, y, z⟩ := a
    obtain ⟨x', y', z'⟩ := b
    simp only [Term.same, Bool.and_eq_true, beq_iff_eq] at h
    rw [h.1.1, h.1.2, h.2]) h.1
  simp only at h1
  rw [h1]
  have h2 := h.2
  cases f <;> cases f' <;> simp at h2
  · rfl
  · rw [FMR.same_eq h2]

def Def.same (a b : Def) : Bool := a.frame == b.frame && a.name == b.name && listSame RuleBody.same a.bodies b.bodies

theorem Def.same_eq {a b : Def} (h : a.same b = true) : a = b := by
  obtain ⟨x, y, z⟩ := a
  obtain ⟨x', y', z'⟩ := b
  simp only [Def.same, Bool.and_eq_true, beq_iff_eq] at h
  rw [h.1.1, h.1.2, listSame_eq (fun _ _ => RuleBody.same_eq) h.2]

/-! ## joining texts -/

theorem DefsSyn.append {w : LexWorld} {l l' : List Char} {ds ds' : List Def} {ρ ρ' ρ'' : List (String × String)}
    (h : DefsSyn w l ds ρ ρ') (h' : DefsSyn w l' ds' ρ' ρ'') : DefsSyn w (l ++ l') (ds ++ ds') ρ ρ'' := by
  induction h with
  | nil hg =>
    cases h' with
    | nil hg' => exact .nil (hg.append hg')
    | cons hg' h1 h2 =>
      rw [← List.append_assoc]
      exact .cons (hg.append hg') h1 h2
  | cons hg h1 h2 ih =>
    simp only [List.append_assoc, List.cons_append]
    exact .cons hg h1 (ih h')

/-- the text reads as the definition -/
def readsAs (fl : List (String × Rat)) (l : List Char) (d : Def) : Bool :=
  !l.contains runeError &&
  match rdDefs fl 100 l with
  | some [x] => x.same d
  | _ => false

/-- each part reads as the definition -/
inductive PartsRead (fl : List (String × Rat)) : List String → List Def → Prop
  | nil : PartsRead fl [] []
  | cons {p : String} {ps : List String} {d : Def} {ds : List Def} (l : List Char) (h : p = String.ofList l)
      (h' : readsAs fl l d = true) (hs : PartsRead fl ps ds) : PartsRead fl (p :: ps) (d :: ds)

theorem PartsRead.sound {w : LexWorld} {fl : List (String × Rat)} (hw : PlainLex w fl) {ps : List String} {ds : List Def}
    (hp : PlainText w (ps.map String.toList).flatten) (h : PartsRead fl ps ds) :
    DefsSyn w (ps.map String.toList).flatten ds [] [] := by
  induction h with
  | nil => exact .nil (.spaces (by intro c hc; cases hc))
  | cons l h h' hs ih =>
    rw [List.map_cons, List.flatten_cons] at hp ⊢
    rw [h, String.toList_ofList] at hp ⊢
    have hp1 : PlainText w l := fun c hc => hp c (List.mem_append_left _ hc)
    rw [readsAs, Bool.and_eq_true] at h'
    replace h' := h'.2
    split at h'
    · next x e =>
      rw [← Def.same_eq h']
      exact DefsSyn.append (rdDefs_sound hw hp1 e []) (ih hp.right)
    · cases h'

theorem PartsRead.clean {fl : List (String × Rat)} {ps : List String} {ds : List Def} (h : PartsRead fl ps ds) :
    runeError ∉ (ps.map String.toList).flatten := by
  induction h with
  | nil => simp
  | cons l h h' hs ih =>
    rw [readsAs, Bool.and_eq_true] at h'
    replace h' := h'.1
    rw [List.map_cons, List.flatten_cons, List.mem_append, not_or, h, String.toList_ofList]
    exact ⟨by simpa using h', ih⟩

/-! ## the definitions -/

def lit (x : String) : Term := ⟨x, .terminal, .nil⟩

def argI (i : Int) : Arg := .mk "index" (.int i)

def argN (i : Int) : Arg := .mk "int" (.bigInt i)

def argF (fn : String) (a b : Arg) : Arg := .mk "func" (.fmr (.mk fn [a, b]))

/-- an alternative that is the number `i` -/
def numAlt (x : String) (i : Int) : RuleBody := ⟨[lit x], some (.mk "nf.I" [argN i])⟩

/-- an alternative that means the same as its first part -/
def sameAlt (A : String) : RuleBody := ⟨[nt A], some (.mk "nf.I" [argI 1])⟩

def mulAlt (A B : String) : RuleBody := ⟨[nt A, nt B], some (.mk "nf.math.mul" [argI 1, argI 2])⟩

/-- a number, a unit, and something of which `k` is meant -/
def sumAlt (ts : List Term) (a : Arg) : RuleBody := ⟨ts, some (.mk "nf.math.sum" [argF "nf.math.mul" (argI 1) (argI 2), a])⟩

/-- the rule for numbers with the unit `e`, where `A` counts the unit, `B` is the remainder, and `k` is a tenth of the unit -/
def unitAlts (A e B : String) (k : Int) : List RuleBody :=
  [mulAlt A e, sumAlt [nt A, nt e, nt "cn_unit"] (argF "nf.math.mul" (argN k) (argI 3)), sumAlt [nt A, nt e, nt B] (argI 3),
    sumAlt [nt A, nt e, nt "cn_zero", nt B] (argI 4), sameAlt B]

def zhDefs : List Def := [
  ⟨false, "cn_unit", [numAlt "一" 1, numAlt "二" 2, numAlt "三" 3, numAlt "四" 4, numAlt "五" 5, numAlt "六" 6, numAlt "七" 7,
    numAlt "八" 8, numAlt "九" 9, numAlt "壹" 1, numAlt "贰" 2, numAlt "叁" 3, numAlt "肆" 4, numAlt "伍" 5, numAlt "陆" 6,
    numAlt "柒" 7, numAlt "捌" 8, numAlt "玖" 9, numAlt "两" 2, numAlt "俩" 2, numAlt "仨" 3]⟩,
  ⟨false, "cn_zero", [numAlt "零" 0, numAlt "〇" 0]⟩,
  ⟨false, "cn_digit", [sameAlt "cn_unit", sameAlt "cn_zero", sameAlt "digits"]⟩,
  ⟨false, "numbers", [sameAlt "cn_digit", ⟨[nt "cn_digit", nt "numbers"], some (.mk "nf.util.concat" [argI 1, argI 2])⟩]⟩,
  ⟨false, "cn_e1", [numAlt "十" 10, numAlt "拾" 10]⟩,
  ⟨false, "cn_e2", [numAlt "百" 100, numAlt "佰" 100]⟩,
  ⟨false, "cn_e3", [numAlt "千" 1000, numAlt "仟" 1000]⟩,
  ⟨false, "cn_e4", [numAlt "万" 10000]⟩,
  ⟨false, "cn_e8", [numAlt "亿" 100000000, numAlt "万万" 100000000]⟩,
  ⟨false, "cn_e1s", [sameAlt "cn_e1", ⟨[nt "cn_e1", nt "cn_unit"], some (.mk "nf.math.sum" [argI 1, argI 2])⟩,
    mulAlt "cn_unit" "cn_e1", sumAlt [nt "cn_unit", nt "cn_e1", nt "cn_unit"] (argI 3), sameAlt "cn_unit", sameAlt "cn_zero"]⟩,
  ⟨false, "cn_e2s", unitAlts "cn_unit" "cn_e2" "cn_e1s" 10⟩,
  ⟨false, "cn_e3s", unitAlts "cn_unit" "cn_e3" "cn_e2s" 100⟩,
  ⟨false, "cn_e4s", unitAlts "cn_e3s" "cn_e4" "cn_e3s" 1000 ++ [mulAlt "numeric" "cn_e4"]⟩,
  ⟨false, "cn_e8s", unitAlts "cn_e4s" "cn_e8" "cn_e4s" 10000000 ++ [mulAlt "numeric" "cn_e8"]⟩,
  ⟨false, "cn_decimal", [⟨[lit "点", nt "numbers"], some (.mk "nf.math.decimal" [argI 2])⟩]⟩,
  ⟨false, "number", [sameAlt "cn_e8s", sameAlt "cn_decimal",
    ⟨[nt "cn_e8s", nt "cn_decimal"], some (.mk "nf.math.sum" [argI 1, argI 2])⟩]⟩,
  ⟨false, "number", [sameAlt "cn_e2", sameAlt "cn_e3", sameAlt "cn_e4", sameAlt "cn_e8"]⟩]

set_option maxRecDepth 100000 in
theorem zh_parts : PartsRead [] numberZhParts zhDefs := by
  unfold numberZhParts zhDefs
  repeat' first | exact .nil | refine .cons _ rfl (by decide +kernel) ?_

/-- The text of number.zh.grammar consists of these definitions. -/
theorem zh_syntax {w : LexWorld} (hw : PlainLex w []) (hp : PlainText w numberZh) : DefsSyn w numberZh zhDefs [] [] :=
  zh_parts.sound hw hp

end Fmr
