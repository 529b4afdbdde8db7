import Verif.Model.Funcs
import Verif.Spec.Trees
import Verif.Proofs.PrintInj
import Mathlib.Algebra.Group.Int.Even

/-!
# C46 the built-in functions, C47 the integer tests
-/

namespace Fmr

/-! ## C46 -/

/-- **C46** for the functions themselves. -/
theorem C46_list (items : List Value) : fmrList items = items := rfl

/-- **C46** no arguments, or a first argument printed as the empty string: nil. -/
theorem C46_entity_nil (sprint : Value → String) (items : List Value) :
    fmrEntity sprint items = none ↔ ∀ x, items.head? = some x → sprint x = "" := by
  cases items with
  | nil => simp [fmrEntity]
  | cons x rest =>
    simp only [fmrEntity, List.head?_cons, Option.some.injEq, forall_eq']
    split
    · simp [*]
    · split <;> simp [*]

/-- **C46** otherwise a map with one entry: the printed first argument, and the remaining arguments. -/
theorem C46_entity (sprint : Value → String) (x : Value) (rest : List Value) (h : sprint x ≠ "") :
    ∃ v, fmrEntity sprint (x :: rest) = some [(sprint x, v)] ∧
      (rest = [] → v = .nil) ∧ (rest ≠ [] → v = .list rest) := by
  by_cases hr : rest = []
  · subst hr
    exact ⟨.nil, by simp [fmrEntity, h], fun _ => rfl, fun hn => absurd rfl hn⟩
  · exact ⟨.list rest, by simp [fmrEntity, h, hr], fun hn => absurd hn hr, fun _ => rfl⟩

/-- the arguments of the function of a `(list<x>)` node evaluate to the values of the children -/
theorem semEvals_indices (w : NodeWorld) (self : Self) (p : Parsed) : ∀ (cs pre : List Node),
    semEvals w self (kidsOf w p (pre ++ cs))
      ((List.range' pre.length cs.length).map (fun (i : Nat) => .mk "index" (.int (i + 1)))) =
    mapOut (Node.eval w p) cs
  | [], pre => by simp [semEvals, mapOut]
  | c :: cs, pre => by
    have hk : ∀ (l : List Node), kidsOf w p l = l.map (fun n => some (n.kid w p)) := by
      intro l
      induction l with
      | nil => rfl
      | cons a l ih => simp [kidsOf, ih]
    have ih := semEvals_indices w self p cs (pre ++ [c])
    simp only [List.append_assoc, List.singleton_append, List.length_append, List.length_singleton] at ih
    simp only [List.length_cons, List.range'_succ, List.map_cons, semEvals, semEval, evalVal]
    have hidx : indexEval self (kidsOf w p (pre ++ c :: cs)) ((pre.length : Int) + 1) = c.eval w p := by
      have hlen : (kidsOf w p (pre ++ c :: cs)).length = pre.length + (cs.length + 1) := by
        rw [hk]; simp
      have hget : (kidsOf w p (pre ++ c :: cs))[((pre.length : Int) + 1 - 1).toNat]? =
          some (some (c.kid w p)) := by
        rw [hk, show ((pre.length : Int) + 1 - 1).toNat = pre.length by omega]
        simp
      unfold indexEval
      rw [if_neg (by rw [hlen]; omega), if_neg (by omega), hget]
      rfl
    rw [if_pos trivial, hidx, ih, mapOut]

theorem forest_length {env : Env} {L : Lang} : ∀ {ts a b ns}, ForestOK env L ts a b ns → ns.length = ts.length
  | _, _, _, _, .nil => rfl
  | _, _, _, _, .cons _ h => by simp [forest_length h]

theorem eval_listBody (w : NodeWorld) (p : Parsed) (sprint : Value → String) (hw : HasBuiltins w sprint)
    {n : Node} {x : String} (h : n.value.rb = some (listBody x n.children.length)) :
    n.eval w p = (do let vs ← mapOut (Node.eval w p) n.children; pure (.list vs)) := by
  obtain ⟨v, cs⟩ := n
  simp only [Node.value, Node.children] at h ⊢
  have hs := semEvals_indices w (nodeSelf w p v) p cs []
  simp only [List.nil_append, List.length_nil] at hs
  rw [Node.eval, Node.kid]
  simp only [h, listBody, evalWith, fmrEval]
  rw [if_neg (by decide), List.range_eq_range', hs]
  simp only [hw.list, fmrList]
  rfl

/-- **C46** for nodes: a node of a `(list<x>)` term evaluates to the list of the values of its items, in
order. Every other outcome is that of the first item that has one. -/
theorem C46_list_node {env : Env} {L : Lang} {t : Term} {a b : Nat} {n : Node} (w : NodeWorld) (p : Parsed)
    (sprint : Value → String) (hw : HasBuiltins w sprint) (ht : t.type = .list) (hn : TreeOK env L t a b n) :
    n.eval w p = (do let vs ← mapOut (Node.eval w p) n.children; pure (.list vs)) := by
  cases hn with
  | terminal h => rw [ht] at h; cases h
  | any h => rw [ht] at h; cases h
  | nonterminal h => rw [ht] at h; cases h
  | list _ _ _ _ hrb _ _ hf =>
    refine eval_listBody (x := t.value) w p sprint hw ?_
    rw [forest_length hf, List.length_replicate]
    exact hrb

/-- **C46** what a call of `fmr.entity` evaluates to: a map with at most one entry, and without one exactly if there
is no first argument or it prints as nothing. -/
theorem C46_entity_call {w : NodeWorld} {sprint : Value → String} (hw : HasBuiltins w sprint) (vs : List Value) :
    ∃ m, w.call "fmr.entity" vs = .ok (.map m) ∧ m.length ≤ 1 ∧ (m = [] ↔ ∀ x, vs.head? = some x → sprint x = "") ∧
      ∀ e ∈ m, ∃ x rest, vs = x :: rest ∧ e.1 = sprint x := by
  rw [hw.entity, ← C46_entity_nil]
  cases vs with
  | nil => exact ⟨[], rfl, by simp, by simp [fmrEntity], by simp⟩
  | cons x rest =>
    by_cases h : sprint x = ""
    · have e : fmrEntity sprint (x :: rest) = none := by simp [fmrEntity, h]
      rw [e]
      exact ⟨[], rfl, by simp, by simp, by simp⟩
    · obtain ⟨v, e, -⟩ := C46_entity sprint x rest h
      rw [e]
      exact ⟨_, rfl, by simp, by simp, fun e he => ⟨x, rest, rfl, by rw [List.mem_singleton.1 he]⟩⟩

/-- a world with the built-in functions and nothing else -/
def builtinWorld : NodeWorld where
  isPrint _ := true
  decode _ := []
  join l := String.join l
  floatStr _ := ""
  call fn vs :=
    if fn = "fmr.list" then .ok (.list (fmrList vs))
    else if fn = "fmr.entity" then
      .ok (entityValue (fmrEntity (fun v => match v with | .str _ => "s" | _ => "") vs))
    else .err
  marshal _ := ""

example : HasBuiltins builtinWorld (fun v => match v with | .str _ => "s" | _ => "") :=
  ⟨fun _ => rfl, fun _ => rfl⟩

example : fmrEntity (fun v => match v with | .str _ => "s" | _ => "") [.str [], .nil, .nil] =
    some [("s", .list [.nil, .nil])] := rfl
example : fmrEntity (fun v => match v with | .str _ => "s" | _ => "") [.nil, .nil] = none := rfl

/-! ## C47 -/

theorem bit0_even (n : Int) : bit0 n = 0 ↔ Even n := by
  rw [bit0, Int.even_iff]; omega

theorem bit0_odd (n : Int) : bit0 n = 1 ↔ ¬ Even n := by
  rw [bit0, Int.even_iff]; omega

/-- **C47** `even` and `odd` answer by the parity of the integer that was scanned, whatever the scanner. -/
theorem C47_scanned (scan : String → Option Int) (x : String) :
    (even scan x = "true" ↔ ∃ n, scan x = some n ∧ Even n) ∧
    (odd scan x = "true" ↔ ∃ n, scan x = some n ∧ ¬ Even n) ∧
    (even scan x = "true" ∨ even scan x = "false") ∧ (odd scan x = "true" ∨ odd scan x = "false") := by
  unfold even odd
  cases h : scan x with
  | none => simp
  | some n =>
    simp only [Option.some.injEq, exists_eq_left', ← bit0_even]
    have : bit0 n = 0 ∨ bit0 n = 1 := by unfold bit0; omega
    rcases this with h | h <;> simp [h]

/-- **C47** never both; exactly one of them if the argument scans, none otherwise. -/
theorem C47_exclusive (scan : String → Option Int) (x : String) :
    ¬ (even scan x = "true" ∧ odd scan x = "true") ∧
    ((even scan x = "true" ∨ odd scan x = "true") ↔ (scan x).isSome) := by
  obtain ⟨he, ho, -, -⟩ := C47_scanned scan x
  rw [he, ho]
  cases h : scan x with
  | none => simp
  | some n =>
    simp only [Option.some.injEq, exists_eq_left', Option.isSome_some, iff_true]
    exact ⟨fun ⟨a, b⟩ => b a, em _⟩

/-- The full claim: the answer is "true" just for the decimal texts of even (odd) integers. -/
def C47_statement : Prop :=
  ∀ x : String, (even goScanInt x = "true" ↔ ∃ n : Int, x = toString n ∧ Even n) ∧
    (odd goScanInt x = "true" ↔ ∃ n : Int, x = toString n ∧ ¬ Even n) ∧
    ¬ (even goScanInt x = "true" ∧ odd goScanInt x = "true")

/-- what follows the number is not looked at -/
theorem C47_trailing : even goScanInt "2x" = "true" := by decide +kernel

/-- a leading zero makes the number octal: of "09" only the "0" is read, of "011" nine, of "019" one -/
theorem C47_leading_zero : even goScanInt "09" = "true" ∧ odd goScanInt "011" = "true" ∧
    goScanInt "010" = some 8 ∧ goScanInt "019" = some 1 := by
  decide +kernel

/-- **C47** as stated is false of the code: `even("2x")` is "true". -/
theorem C47_false : ¬ C47_statement := by
  intro h
  obtain ⟨n, hn, -⟩ := (h "2x").1.1 C47_trailing
  have hx : 'x' ∈ (toString n).toList := by rw [← hn]; decide
  rcases int_chars hx with h | h <;> exact absurd h (by decide)

theorem isDigit_bounds {c : Char} (h : c.isDigit = true) : '0' ≤ c ∧ c ≤ '9' := by
  simpa [Char.isDigit, Char.le_def] using h

theorem digitVal_of_isDigit {c : Char} (h : c.isDigit = true) :
    c.toNat < 128 ∧ c ≠ '_' ∧ goDigitVal c = c.toNat - '0'.toNat ∧ goDigitVal c < 10 := by
  have hb := isDigit_bounds h
  have h9 : c.toNat ≤ 57 := hb.2
  have h0 : 48 ≤ c.toNat := hb.1
  have hv : goDigitVal c = c.toNat - '0'.toNat := by rw [goDigitVal, if_pos hb]
  refine ⟨by omega, ?_, hv, ?_⟩
  · rintro rfl; exact absurd h (by decide)
  · rw [hv, show '0'.toNat = 48 from rfl]; omega

theorem natScanLoop_digits {bad : Bool} : ∀ {ds : List Char} {acc count : Nat} {prev : Prev},
    (∀ c ∈ ds, c.isDigit = true) → natScanLoop 10 acc count prev bad ds =
      some (Nat.ofDigitChars 10 ds acc, count + ds.length, if ds = [] then prev else .digit, bad)
  | [], acc, count, prev, _ => by simp [natScanLoop]
  | c :: cs, acc, count, prev, h => by
    obtain ⟨h1, h2, h3, h4⟩ := digitVal_of_isDigit (h c (by simp))
    rw [natScanLoop, if_neg (by omega), if_neg h2, if_neg (by omega),
      natScanLoop_digits (fun d hd => h d (by simp [hd]))]
    rw [Nat.ofDigitChars_cons, h3, Nat.mul_comm acc 10]
    simp only [List.length_cons, reduceCtorEq, if_false, Option.some.injEq, Prod.mk.injEq, true_and, and_true]
    refine ⟨by omega, ?_⟩
    split <;> rfl

theorem toDigits_head : ∀ (n : Nat), 0 < n → (Nat.toDigits 10 n).head? ≠ some '0' := by
  intro n
  induction n using Nat.strongRecOn with
  | ind n ih =>
    intro hn
    by_cases hb : n < 10
    · rw [Nat.toDigits_of_lt_base hb]
      have : ∀ m : Fin 10, 0 < m.val → [m.val.digitChar].head? ≠ some '0' := by decide
      exact this ⟨n, hb⟩ hn
    · rw [Nat.toDigits_of_base_le (by decide) (by omega)]
      have hd : 0 < n / 10 := by omega
      have := ih (n / 10) (by omega) hd
      obtain ⟨c, l, hl⟩ := List.exists_cons_of_ne_nil (l := Nat.toDigits 10 (n / 10)) Nat.toDigits_ne_nil
      rw [hl] at this ⊢
      simpa using this

theorem natScan_toDigits (n : Nat) : natScan (Nat.toDigits 10 n) = some n := by
  by_cases hn : n = 0
  · subst hn; decide
  · have hh := toDigits_head n (by omega)
    have hds : ∀ c ∈ Nat.toDigits 10 n, c.isDigit = true := fun c hc => digit_toDigits hc
    have hof : Nat.ofDigitChars 10 (Nat.toDigits 10 n) 0 = n := Nat.ofDigitChars_ten_toDigits
    generalize Nat.toDigits 10 n = ds at hh hds hof
    have hne : ds ≠ [] := by rintro rfl; exact hn hof.symm
    rw [natScan.eq_def]
    simp only []
    split
    · exact absurd rfl hh
    · exact absurd rfl hh
    · rw [natScanLoop_digits hds, hof]
      simp [hne]

/-- the scanner reads back what `(*big.Int).String` prints -/
theorem goScanInt_toString (n : Int) : goScanInt (toString n) = some n := by
  rw [goScanInt, int_toList]
  split_ifs with h
  · have hds : ∀ c ∈ Nat.toDigits 10 n.toNat, c.isDigit = true := fun c hc => digit_toDigits hc
    have hs := natScan_toDigits n.toNat
    obtain ⟨c, l, hl⟩ := List.exists_cons_of_ne_nil (l := Nat.toDigits 10 n.toNat) Nat.toDigits_ne_nil
    rw [hl] at hds hs ⊢
    have hc := digitVal_of_isDigit (hds c (by simp))
    have hcb := isDigit_bounds (hds c (by simp))
    have hsp : goIsSpace c = false := by
      have h0 : 48 ≤ c.toNat := hcb.1
      have h9 : c.toNat ≤ 57 := hcb.2
      simp only [goIsSpace, Bool.or_eq_false_iff, Bool.and_eq_false_iff, decide_eq_false_iff_not]
      omega
    rw [List.dropWhile_cons_of_neg (by simp [hsp])]
    split
    · rename_i heq
      simp only [List.cons.injEq] at heq
      rw [heq.1] at hcb; exact absurd hcb.1 (by decide)
    · rename_i heq
      simp only [List.cons.injEq] at heq
      rw [heq.1] at hcb; exact absurd hcb.1 (by decide)
    · rw [hs]; simp [Int.toNat_of_nonneg h]
  · rw [List.dropWhile_cons_of_neg (by decide)]
    simp only [natScan_toDigits]
    rw [Option.map_some, Int.toNat_of_nonneg (by omega), Int.neg_neg]

/-- **C47**, part that holds: on the decimal text of an integer the answer is its parity, and no text makes
both true. What is missing is that other texts give "false" (`C47_false`). -/
theorem C47_partial (n : Int) :
    (even goScanInt (toString n) = "true" ↔ Even n) ∧ (odd goScanInt (toString n) = "true" ↔ ¬ Even n) ∧
    (∀ x : String, ¬ (even goScanInt x = "true" ∧ odd goScanInt x = "true")) := by
  obtain ⟨he, ho, -, -⟩ := C47_scanned goScanInt (toString n)
  rw [goScanInt_toString] at he ho
  simp only [Option.some.injEq, exists_eq_left'] at he ho
  exact ⟨he, ho, fun x => (C47_exclusive goScanInt x).1⟩

/-- a text without any digit is never even or odd -/
example : even goScanInt "abc" = "false" ∧ odd goScanInt "" = "false" ∧ odd goScanInt "-7" = "true" ∧
    even goScanInt " 1_0" = "true" ∧ even goScanInt "1__0" = "false" := by
  decide +kernel

end Fmr
