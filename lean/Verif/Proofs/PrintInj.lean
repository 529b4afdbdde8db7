import Verif.Spec.Expr
import Verif.Proofs.Quote

/-!
# Printed expressions can be read back
-/

namespace Fmr

/-- the characters that end a word -/
def Special (c : Char) : Prop := c = '(' ∨ c = ',' ∨ c = ')'

theorem word_split : ∀ {u v x y : List Char}, (∀ c ∈ u, ¬ Special c) → (∀ c ∈ v, ¬ Special c) →
    (∀ c, x.head? = some c → Special c) → (∀ c, y.head? = some c → Special c) → u ++ x = v ++ y →
    u = v ∧ x = y
  | [], [], _, _, _, _, _, _, h => ⟨rfl, by simpa using h⟩
  | [], c :: v, x, y, _, hv, hx, _, h => by
    simp only [List.nil_append] at h
    exact absurd (hx c (by simp [h])) (hv c (by simp))
  | c :: u, [], x, y, hu, _, _, hy, h => by
    simp only [List.nil_append] at h
    exact absurd (hy c (by simp [← h])) (hu c (by simp))
  | c :: u, d :: v, x, y, hu, hv, hx, hy, h => by
    simp only [List.cons_append, List.cons.injEq] at h
    obtain ⟨h1, h2⟩ := word_split (fun c hc => hu c (by simp [hc])) (fun c hc => hv c (by simp [hc])) hx hy h.2
    exact ⟨by rw [h.1, h1], h2⟩

theorem nat_repr_inj {m n : Nat} (h : Nat.toDigits 10 m = Nat.toDigits 10 n) : m = n := by
  have := congrArg (fun l => Nat.ofDigitChars 10 l 0) h
  simpa only [Nat.ofDigitChars_ten_toDigits] using this

theorem int_toList (i : Int) : (toString i).toList =
    if 0 ≤ i then Nat.toDigits 10 i.toNat else '-' :: Nat.toDigits 10 (-i).toNat := by
  rw [Int.toString_eq_repr, Int.repr_eq_if]
  split
  · rw [Nat.toList_repr]
  · rw [String.toList_append, Nat.toList_repr]; rfl

theorem digit_toDigits {c : Char} {n : Nat} (h : c ∈ Nat.toDigits 10 n) : c.isDigit = true :=
  Nat.isDigit_of_mem_toDigits (by decide) (by decide) h

theorem int_chars {i : Int} {c : Char} (h : c ∈ (toString i).toList) : c = '-' ∨ c.isDigit = true := by
  rw [int_toList] at h
  split at h
  · exact .inr (digit_toDigits h)
  · rcases List.mem_cons.1 h with rfl | h
    · exact .inl rfl
    · exact .inr (digit_toDigits h)

theorem int_word {i : Int} {c : Char} (h : c ∈ (toString i).toList) : ¬ Special c ∧ c ≠ '"' := by
  rcases int_chars h with rfl | h
  · simp [Special]
  · refine ⟨?_, ?_⟩
    · rintro (rfl | rfl | rfl) <;> exact absurd h (by decide)
    · rintro rfl; exact absurd h (by decide)

theorem int_ne_nil (i : Int) : (toString i).toList ≠ [] := by
  rw [int_toList]
  split
  · exact Nat.toDigits_ne_nil
  · simp

theorem int_str_inj {i j : Int} (h : (toString i).toList = (toString j).toList) : i = j := by
  rw [int_toList, int_toList] at h
  have hm : ∀ n, Nat.toDigits 10 n ≠ '-' :: Nat.toDigits 10 (-j).toNat := by
    intro n hn
    have : ('-' : Char) ∈ Nat.toDigits 10 n := by rw [hn]; simp
    exact absurd (digit_toDigits this) (by decide)
  have hm' : ∀ n, '-' :: Nat.toDigits 10 (-i).toNat ≠ Nat.toDigits 10 n := by
    intro n hn
    have : ('-' : Char) ∈ Nat.toDigits 10 n := by rw [← hn]; simp
    exact absurd (digit_toDigits this) (by decide)
  split at h
  · split at h
    · have := nat_repr_inj h; omega
    · exact absurd h (hm _)
  · split at h
    · exact absurd h (hm' _)
    · simp only [List.cons.injEq, true_and] at h
      have := nat_repr_inj h; omega

/-- what may follow an expression -/
def Stops (r : List Char) : Prop := ∀ c, r.head? = some c → c = ',' ∨ c = ')'

theorem call_toList (w : NodeWorld) (fn : String) (es : List Expr) (r : List Char) :
    ((Expr.call fn es).print w).toList ++ r =
      fn.toList ++ '(' :: ((", ".intercalate (printAll w es)).toList ++ ')' :: r) := by
  simp [Expr.print, String.toList_append]

/-- what follows the first argument -/
def argsRest (w : NodeWorld) (r : List Char) : List Expr → List Char
  | [] => ')' :: r
  | f :: fs => ',' :: ' ' :: ((", ".intercalate (printAll w (f :: fs))).toList ++ ')' :: r)

theorem args_toList (w : NodeWorld) (e : Expr) (es : List Expr) (r : List Char) :
    ((", ".intercalate (printAll w (e :: es))).toList ++ ')' :: r) = (e.print w).toList ++ argsRest w r es := by
  cases es with
  | nil => simp [printAll, argsRest]
  | cons f fs => simp [printAll, argsRest]

theorem args_stops (w : NodeWorld) (es : List Expr) (r : List Char) : Stops (argsRest w r es) := by
  cases es <;> intro c hc <;> simp [argsRest] at hc <;> simp [← hc]

theorem argsRest_inj {w : NodeWorld} {r t : List Char} {es fs : List Expr}
    (h : argsRest w r es = argsRest w t fs) : (es = [] ∧ fs = [] ∧ r = t) ∨
    ((", ".intercalate (printAll w es)).toList ++ ')' :: r) =
      ((", ".intercalate (printAll w fs)).toList ++ ')' :: t) := by
  cases es with
  | nil =>
    cases fs with
    | nil => simpa [argsRest] using h
    | cons f fs => simp [argsRest] at h
  | cons e es =>
    cases fs with
    | nil => simp [argsRest] at h
    | cons f fs =>
      simp only [argsRest, List.cons.injEq, true_and] at h
      exact .inr h

theorem quote_head (isPrint : Char → Bool) (s : String) :
    ∃ t, (quoteStr isPrint s).toList = '"' :: t := ⟨_, by simp only [quoteStr, quoteRunes, String.toList_ofList]; rfl⟩

/-- an expression that is not a string literal: a word, and then `(` or what follows -/
theorem word_head {fn : String} (h : FnOK fn) (t : List Char) : (fn.toList ++ '(' :: t).head? ≠ some '"' := by
  cases hl : fn.toList with
  | nil => simp
  | cons c l =>
    have := h.2
    rw [hl] at this
    simpa using this

theorem fn_word {fn : String} (h : FnOK fn) : ∀ c ∈ fn.toList, ¬ Special c := by
  intro c hc
  obtain ⟨h1, h2, h3⟩ := h.1 c hc
  rintro (rfl | rfl | rfl) <;> contradiction

theorem print_head {w : NodeWorld} {e : Expr} (h : e.Plain) (r : List Char) :
    ∃ c t, (e.print w).toList ++ r = c :: t ∧ c ≠ ')' := by
  cases e with
  | str s => obtain ⟨t, ht⟩ := quote_head w.isPrint s; exact ⟨'"', _, by simp [Expr.print, ht]; rfl, by decide⟩
  | leaf s _ => obtain ⟨t, ht⟩ := quote_head w.isPrint s; exact ⟨'"', _, by simp [Expr.print, ht]; rfl, by decide⟩
  | int i =>
    cases hl : (toString i).toList with
    | nil => exact absurd hl (int_ne_nil i)
    | cons c t =>
      refine ⟨c, t ++ r, by simp only [Expr.print, hl, List.cons_append], ?_⟩
      have := (int_word (i := i) (c := c) (by rw [hl]; simp)).1
      rintro rfl; exact this (.inr (.inr rfl))
  | call fn es =>
    rw [call_toList]
    cases hl : fn.toList with
    | nil => exact ⟨'(', _, by simp; rfl, by decide⟩
    | cons c t =>
      refine ⟨c, _, by rw [List.cons_append], ?_⟩
      have := fn_word h.1 c (by rw [hl]; simp)
      rintro rfl; exact this (.inr (.inr rfl))
  | float _ => exact absurd h (by simp [Expr.Plain])
  | ctx _ => exact absurd h (by simp [Expr.Plain])
  | empty => exact absurd h (by simp [Expr.Plain])

theorem stops_special {r : List Char} (h : Stops r) : ∀ c, r.head? = some c → Special c :=
  fun c hc => .inr (h c hc)

theorem str_print_prefix {w : NodeWorld} {s : String} {f : Expr} (hf : f.Plain) {r t : List Char}
    (h : (quoteStr w.isPrint s).toList ++ r = (f.print w).toList ++ t) : .str s = f.asPrinted ∧ r = t := by
  obtain ⟨u, hu⟩ := quote_head w.isPrint s
  cases f with
  | str s' =>
    obtain ⟨rfl, h2⟩ := quoteStr_prefix w.isPrint h
    exact ⟨rfl, h2⟩
  | leaf s' _ =>
    obtain ⟨rfl, h2⟩ := quoteStr_prefix w.isPrint h
    exact ⟨rfl, h2⟩
  | int i =>
    cases hl : (toString i).toList with
    | nil => exact absurd hl (int_ne_nil i)
    | cons c t =>
      simp only [hu, Expr.print, hl, List.cons_append, List.cons.injEq] at h
      exact absurd h.1.symm (int_word (i := i) (c := c) (by rw [hl]; simp)).2
  | call fn es =>
    rw [call_toList, hu] at h
    have := word_head hf.1 ((", ".intercalate (printAll w es)).toList ++ ')' :: t)
    rw [← h] at this
    simp at this
  | float _ => exact absurd hf (by simp [Expr.Plain])
  | ctx _ => exact absurd hf (by simp [Expr.Plain])
  | empty => exact absurd hf (by simp [Expr.Plain])

mutual
theorem print_prefix (w : NodeWorld) (e f : Expr) (r t : List Char) (he : e.Plain) (hf : f.Plain)
    (hr : Stops r) (ht : Stops t) (h : (e.print w).toList ++ r = (f.print w).toList ++ t) :
    e.asPrinted = f.asPrinted ∧ r = t := by
  cases e with
  | str s =>
    rw [Expr.print] at h
    exact str_print_prefix hf h
  | leaf s _ =>
    rw [Expr.print] at h
    exact str_print_prefix hf h
  | int i =>
    cases f with
    | str s =>
      obtain ⟨h1, h2⟩ := str_print_prefix he h.symm
      exact ⟨h1.symm, h2.symm⟩
    | leaf s _ =>
      obtain ⟨h1, h2⟩ := str_print_prefix he h.symm
      exact ⟨h1.symm, h2.symm⟩
    | int j =>
      obtain ⟨h1, h2⟩ := word_split (fun c hc => (int_word hc).1) (fun c hc => (int_word hc).1)
        (stops_special hr) (stops_special ht) h
      exact ⟨by rw [int_str_inj h1], h2⟩
    | call fn es =>
      rw [call_toList] at h
      obtain ⟨h1, h2⟩ := word_split (fun c hc => (int_word hc).1) (fn_word hf.1)
        (stops_special hr) (by simp [Special]) h
      exact absurd (hr '(' (by rw [h2]; rfl)) (by decide)
    | float _ => exact absurd hf (by simp [Expr.Plain])
    | ctx _ => exact absurd hf (by simp [Expr.Plain])
    | empty => exact absurd hf (by simp [Expr.Plain])
  | call fn es =>
    cases f with
    | str s =>
      obtain ⟨h1, h2⟩ := str_print_prefix he h.symm
      exact ⟨h1.symm, h2.symm⟩
    | leaf s _ =>
      obtain ⟨h1, h2⟩ := str_print_prefix he h.symm
      exact ⟨h1.symm, h2.symm⟩
    | int j =>
      rw [call_toList] at h
      obtain ⟨h1, h2⟩ := word_split (fn_word he.1) (fun c hc => (int_word hc).1) (by simp [Special])
        (stops_special ht) h
      exact absurd (ht '(' (by rw [← h2]; rfl)) (by decide)
    | call gn fs =>
      rw [call_toList, call_toList] at h
      obtain ⟨h1, h2⟩ := word_split (fn_word he.1) (fn_word hf.1) (by simp [Special]) (by simp [Special]) h
      simp only [List.cons.injEq, true_and] at h2
      obtain ⟨h3, h4⟩ := args_prefix w es fs r t he.2 hf.2 h2
      refine ⟨?_, h4⟩
      simp only [Expr.asPrinted, h3, String.toList_inj.1 h1]
    | float _ => exact absurd hf (by simp [Expr.Plain])
    | ctx _ => exact absurd hf (by simp [Expr.Plain])
    | empty => exact absurd hf (by simp [Expr.Plain])
  | float _ => exact absurd he (by simp [Expr.Plain])
  | ctx _ => exact absurd he (by simp [Expr.Plain])
  | empty => exact absurd he (by simp [Expr.Plain])
  termination_by sizeOf e
theorem args_prefix (w : NodeWorld) (es fs : List Expr) (r t : List Char) (he : AllPlain es) (hf : AllPlain fs)
    (h : ((", ".intercalate (printAll w es)).toList ++ ')' :: r) =
      ((", ".intercalate (printAll w fs)).toList ++ ')' :: t)) :
    asPrintedAll es = asPrintedAll fs ∧ r = t := by
  match es, fs, he, hf, h with
  | [], [], _, _, h => simpa [printAll, asPrintedAll] using h
  | [], f :: fs, _, hf, h =>
    rw [args_toList] at h
    obtain ⟨c, u, h1, h2⟩ := print_head (w := w) hf.1 (argsRest w t fs)
    rw [h1] at h
    simp [printAll] at h
    exact absurd h.1.symm h2
  | e :: es, [], he, _, h =>
    rw [args_toList] at h
    obtain ⟨c, u, h1, h2⟩ := print_head (w := w) he.1 (argsRest w r es)
    rw [h1] at h
    simp [printAll] at h
    exact absurd h.1 h2
  | e :: es, f :: fs, he, hf, h =>
    rw [args_toList, args_toList] at h
    obtain ⟨h1, h2⟩ := print_prefix w e f _ _ he.1 hf.1 (args_stops w es r) (args_stops w fs t) h
    rcases argsRest_inj h2 with ⟨rfl, rfl, h3⟩ | h3
    · exact ⟨by simp [asPrintedAll, h1], h3⟩
    · obtain ⟨h4, h5⟩ := args_prefix w es fs r t he.2 hf.2 h3
      exact ⟨by rw [asPrintedAll, asPrintedAll, h1, h4], h5⟩
  termination_by sizeOf es
end

theorem print_inj (w : NodeWorld) {e f : Expr} (he : e.Plain) (hf : f.Plain) (h : e.print w = f.print w) :
    e.asPrinted = f.asPrinted :=
  (print_prefix w e f [] [] he hf (by simp [Stops]) (by simp [Stops]) (by rw [h])).1

end Fmr
