import Mathlib.Data.List.Induction
import Verif.Spec.Syntax
import Verif.Model.Lexer

/-!
# Numbers: the loop of `getInt` computes what digits stand for
-/

namespace Fmr

/-- one step of the loop -/
def intStep (i : Int) (c : Char) : Int :=
  if i = -1 then ((c.toNat - '0'.toNat : Nat) : Int) else wrap64 (i * 10 + (c.toNat - '0'.toNat : Nat))

theorem intValue_snoc (p : List Char) (c : Char) :
    intValue (p ++ [c]) = wrap64 (intValue p * 10 + (c.toNat - '0'.toNat : Nat)) := by
  have e : Nat.ofDigitChars 10 (p ++ [c]) 0 = 10 * Nat.ofDigitChars 10 p 0 + (c.toNat - '0'.toNat) := by
    rw [Nat.ofDigitChars_append, Nat.ofDigitChars_cons, Nat.ofDigitChars_nil]
  unfold intValue wrap64
  rw [e, ← Int.bmod_add_bmod, Int.bmod_mul_bmod, Int.bmod_add_bmod]
  congr 1
  push_cast
  omega

theorem intValue_one {c : Char} (h : c ≤ '9') : intValue [c] = ((c.toNat - '0'.toNat : Nat) : Int) := by
  have h9 : c.toNat ≤ 57 := by
    have := Char.le_def.1 h
    rwa [UInt32.le_iff_toNat_le] at this
  have h0 : '0'.toNat = 48 := rfl
  unfold intValue
  rw [Nat.ofDigitChars_cons, Nat.ofDigitChars_nil, Int.bmod_eq_of_le] <;> omega

theorem intValue_small {ds : List Char} (h : Nat.ofDigitChars 10 ds 0 < 2 ^ 63) : intValue ds = Nat.ofDigitChars 10 ds 0 := by
  unfold intValue
  rw [Int.bmod_eq_of_le] <;> omega

theorem noRestart_prefix {p q : List Char} (h : NoRestart (p ++ q)) : NoRestart p := by
  intro p1 p2 e h1 h2
  exact h p1 (p2 ++ q) (by rw [e, List.append_assoc]) h1 (by simp [h2])

theorem noRestart_snoc {p : List Char} {c : Char} (h : NoRestart p) (h1 : intValue p ≠ -1) : NoRestart (p ++ [c]) := by
  intro p1 p2 e h2 h3
  obtain ⟨r, d, rfl⟩ := List.eq_nil_or_concat p2 |>.resolve_left h3
  rw [List.concat_eq_append, ← List.append_assoc] at e
  obtain ⟨e1, -⟩ := List.append_inj' e rfl
  by_cases hr : r = []
  · subst hr
    rw [List.append_nil] at e1
    exact e1 ▸ h1
  · exact h p1 r e1 h2 hr

theorem noRestart_one (c : Char) : NoRestart [c] := by
  intro p q e h1 h2
  match p, q with
  | [], _ => exact absurd rfl h1
  | _, [] => exact absurd rfl h2
  | _ :: _, _ :: _ => simp at e

/-- without restart the loop computes the value -/
theorem fold_value {ds : List Char} (hd : ∀ c ∈ ds, '0' ≤ c ∧ c ≤ '9') (hne : ds ≠ []) (h : NoRestart ds) :
    ds.foldl intStep (-1) = intValue ds := by
  induction ds using List.reverseRecOn with
  | nil => exact absurd rfl hne
  | append_singleton p c ih =>
    rw [List.foldl_append, List.foldl_cons, List.foldl_nil]
    by_cases hp : p = []
    · subst hp
      rw [List.nil_append, intValue_one (hd c (by simp)).2]
      simp [intStep]
    · rw [ih (fun d hd' => hd d (List.mem_append_left _ hd')) hp (noRestart_prefix h), intStep,
        if_neg (h p [c] rfl hp (by simp)), intValue_snoc]

theorem IntOf.fold {ds : List Char} {v : Int} (h : IntOf ds v) (hd : ∀ c ∈ ds, '0' ≤ c ∧ c ≤ '9') :
    ds.foldl intStep (-1) = v := by
  induction h with
  | all h1 h2 => exact fold_value hd h1 h2
  | rest h1 h2 h3 _ ih =>
    rw [List.foldl_append, fold_value (fun c hc => hd c (List.mem_append_left _ hc)) h1 h2, h3]
    exact ih fun c hc => hd c (List.mem_append_right _ hc)

theorem IntOf.ne_nil {ds : List Char} {v : Int} (h : IntOf ds v) : ds ≠ [] := by
  cases h with
  | all h => exact h
  | rest h => simp [h]

/-- all digits stand for a number -/
theorem intOf_fold : ∀ (n : Nat) (p q : List Char), q.length ≤ n → (∀ c ∈ p ++ q, '0' ≤ c ∧ c ≤ '9') → NoRestart p → p ≠ [] →
    IntOf (p ++ q) (q.foldl intStep (p.foldl intStep (-1)))
  | _, p, [], _, hd, hp, hne => by
    rw [List.append_nil] at hd ⊢
    rw [List.foldl_nil, fold_value hd hne hp]
    exact .all hne hp
  | 0, _, _ :: _, hn, _, _, _ => by simp at hn
  | n + 1, p, c :: q, hn, hd, hp, hne => by
    rw [List.length_cons] at hn
    have hv := fold_value (fun c hc => hd c (List.mem_append_left _ hc)) hne hp
    by_cases h : intValue p = -1
    · refine .rest hne hp h ?_
      rw [hv, h]
      exact intOf_fold n [c] q (by omega) (fun d hd' => hd d (List.mem_append_right _ hd')) (noRestart_one c) (by simp)
    · have := intOf_fold n (p ++ [c]) q (by omega) (by simpa using hd) (noRestart_snoc hp h) (by simp)
      rw [List.foldl_append] at this
      simpa using this

theorem num_fold {ds : List Char} (hd : ∀ c ∈ ds, '0' ≤ c ∧ c ≤ '9') (hne : ds ≠ []) (h : ds.foldl intStep (-1) ≠ -1) :
    Num ds (ds.foldl intStep (-1)) := by
  obtain ⟨c, t, rfl⟩ := List.exists_cons_of_ne_nil hne
  refine ⟨hd, ?_, h⟩
  exact intOf_fold t.length [c] t (Nat.le_refl _) hd (noRestart_one c) (by simp)

/-- a number below 2^63 stands for itself -/
theorem num_small {ds : List Char} (hne : ds ≠ []) (hd : ∀ c ∈ ds, '0' ≤ c ∧ c ≤ '9') (h : Nat.ofDigitChars 10 ds 0 < 2 ^ 63) :
    Num ds (Nat.ofDigitChars 10 ds 0 : Nat) := by
  have hle : ∀ (q : List Char) (k : Nat), k ≤ Nat.ofDigitChars 10 q k := by
    intro q
    induction q with
    | nil => intro k; simp
    | cons c q ih =>
      intro k
      rw [Nat.ofDigitChars_cons]
      exact Nat.le_trans (by omega) (ih _)
  refine ⟨hd, ?_, by omega⟩
  rw [← intValue_small h]
  refine .all hne fun p q e _ _ => ?_
  have : Nat.ofDigitChars 10 p 0 ≤ Nat.ofDigitChars 10 ds 0 := by
    rw [e, Nat.ofDigitChars_append]
    exact hle _ _
  rw [intValue_small (by omega)]
  omega

/-- a single digit stands for itself -/
theorem num_digit {c : Char} {n : Nat} (h : '0' ≤ c ∧ c ≤ '9') (hn : Nat.ofDigitChars 10 [c] 0 = n) (hlt : n < 2 ^ 63) : Num [c] n :=
  hn ▸ num_small (by simp) (by simpa using h) (hn ▸ hlt)

end Fmr
