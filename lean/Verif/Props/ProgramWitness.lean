import Verif.Props.Program
import Verif.Props.CalcWitness
import Verif.Proofs.PrintInj

/-!
# C88: a setting in which all assumptions hold, and the refutation
-/

namespace Fmr

/-! ## the text of an expression determines it -/

theorem digits_apart {d d' x y : List Char} (hd : ∀ c ∈ d, c.isDigit = true) (hd' : ∀ c ∈ d', c.isDigit = true)
    (hx : ∀ c t, x = c :: t → c.isDigit = false) (hy : ∀ c t, y = c :: t → c.isDigit = false) (h : d ++ x = d' ++ y) : d = d' ∧ x = y := by
  induction d generalizing d' with
  | nil =>
    cases d' with
    | nil => exact ⟨rfl, h⟩
    | cons c d' =>
      have h1 := hx c _ h
      rw [hd' c List.mem_cons_self] at h1
      cases h1
  | cons a d ih =>
    cases d' with
    | nil =>
      have h1 := hy a _ h.symm
      rw [hd a List.mem_cons_self] at h1
      cases h1
    | cons c d' =>
      rw [List.cons_append, List.cons_append, List.cons.injEq] at h
      obtain ⟨h1, h2⟩ := ih (fun c hc => hd c (List.mem_cons_of_mem _ hc)) (fun c hc => hd' c (List.mem_cons_of_mem _ hc)) h.2
      exact ⟨by rw [h.1, h1], h2⟩

theorem js_num (n : Nat) : (Calc.num n).js.toList = Nat.toDigits 10 n := by
  show (toString n).toList = _
  simp [toString]

theorem js_add (a b : Calc) : (Calc.add a b).js.toList =
    ['n', 'f', '.', 'm', 'a', 't', 'h', '.', 's', 'u', 'm', '('] ++ (a.js.toList ++ ([',', ' '] ++ (b.js.toList ++ [')']))) := by
  simp [Calc.js]

theorem js_sub (a b : Calc) : (Calc.sub a b).js.toList =
    ['n', 'f', '.', 'm', 'a', 't', 'h', '.', 's', 'u', 'b', '('] ++ (a.js.toList ++ ([',', ' '] ++ (b.js.toList ++ [')']))) := by
  simp [Calc.js]

theorem js_mul (a b : Calc) : (Calc.mul a b).js.toList =
    ['n', 'f', '.', 'm', 'a', 't', 'h', '.', 'm', 'u', 'l', '('] ++ (a.js.toList ++ ([',', ' '] ++ (b.js.toList ++ [')']))) := by
  simp [Calc.js]

theorem js_neg (a : Calc) : (Calc.neg a).js.toList =
    ['n', 'f', '.', 'm', 'a', 't', 'h', '.', 'n', 'e', 'g', '('] ++ (a.js.toList ++ [')']) := by
  simp [Calc.js]

theorem js_apart (c c' : Calc) (x y : List Char) (hx : ∀ a t, x = a :: t → a.isDigit = false)
    (hy : ∀ a t, y = a :: t → a.isDigit = false) (h : c.js.toList ++ x = c'.js.toList ++ y) : c = c' ∧ x = y := by
  have hne : ∀ n r s, ¬ (Nat.toDigits 10 n ++ r = 'n' :: s) := by
    intro n r s e
    cases hd : Nat.toDigits 10 n with
    | nil => exact Nat.toDigits_ne_nil hd
    | cons a l =>
      rw [hd, List.cons_append, List.cons.injEq] at e
      have := digit_toDigits (c := a) (n := n) (by rw [hd]; exact List.mem_cons_self)
      rw [e.1] at this
      exact absurd this (by decide)
  have hc : ∀ z a t, ',' :: z = a :: t → a.isDigit = false := by
    intro z a t e
    rw [← (List.cons.inj e).1]
    decide
  have hp : ∀ z a t, ')' :: z = a :: t → a.isDigit = false := by
    intro z a t e
    rw [← (List.cons.inj e).1]
    decide
  induction c generalizing c' x y with
  | num n =>
    cases c' with
    | num m =>
      rw [js_num, js_num] at h
      obtain ⟨h1, h2⟩ := digits_apart (fun _ => digit_toDigits) (fun _ => digit_toDigits) hx hy h
      exact ⟨by rw [nat_repr_inj h1], h2⟩
    | add => rw [js_num, js_add] at h; exact absurd h (hne _ _ _)
    | sub => rw [js_num, js_sub] at h; exact absurd h (hne _ _ _)
    | mul => rw [js_num, js_mul] at h; exact absurd h (hne _ _ _)
    | neg => rw [js_num, js_neg] at h; exact absurd h (hne _ _ _)
  | add a b iha ihb =>
    cases c' with
    | num m => rw [js_num, js_add] at h; exact absurd h.symm (hne _ _ _)
    | add a' b' =>
      simp only [js_add, List.append_assoc, List.append_cancel_left_eq] at h
      obtain ⟨rfl, h1⟩ := iha _ _ _ (hc _) (hc _) h
      have h1 := (List.cons.inj (List.cons.inj h1).2).2
      obtain ⟨rfl, h2⟩ := ihb _ _ _ (hp _) (hp _) h1
      exact ⟨rfl, (List.cons.inj h2).2⟩
    | sub => rw [js_add, js_sub] at h; simp at h
    | mul => rw [js_add, js_mul] at h; simp at h
    | neg => rw [js_add, js_neg] at h; simp at h
  | sub a b iha ihb =>
    cases c' with
    | num m => rw [js_num, js_sub] at h; exact absurd h.symm (hne _ _ _)
    | sub a' b' =>
      simp only [js_sub, List.append_assoc, List.append_cancel_left_eq] at h
      obtain ⟨rfl, h1⟩ := iha _ _ _ (hc _) (hc _) h
      have h1 := (List.cons.inj (List.cons.inj h1).2).2
      obtain ⟨rfl, h2⟩ := ihb _ _ _ (hp _) (hp _) h1
      exact ⟨rfl, (List.cons.inj h2).2⟩
    | add => rw [js_add, js_sub] at h; simp at h
    | mul => rw [js_sub, js_mul] at h; simp at h
    | neg => rw [js_sub, js_neg] at h; simp at h
  | mul a b iha ihb =>
    cases c' with
    | num m => rw [js_num, js_mul] at h; exact absurd h.symm (hne _ _ _)
    | mul a' b' =>
      simp only [js_mul, List.append_assoc, List.append_cancel_left_eq] at h
      obtain ⟨rfl, h1⟩ := iha _ _ _ (hc _) (hc _) h
      have h1 := (List.cons.inj (List.cons.inj h1).2).2
      obtain ⟨rfl, h2⟩ := ihb _ _ _ (hp _) (hp _) h1
      exact ⟨rfl, (List.cons.inj h2).2⟩
    | add => rw [js_add, js_mul] at h; simp at h
    | sub => rw [js_sub, js_mul] at h; simp at h
    | neg => rw [js_mul, js_neg] at h; simp at h
  | neg a iha =>
    cases c' with
    | num m => rw [js_num, js_neg] at h; exact absurd h.symm (hne _ _ _)
    | neg a' =>
      simp only [js_neg, List.append_assoc, List.append_cancel_left_eq] at h
      obtain ⟨rfl, h1⟩ := iha _ _ _ (hp _) (hp _) h
      exact ⟨rfl, (List.cons.inj h1).2⟩
    | add => rw [js_add, js_neg] at h; simp at h
    | sub => rw [js_sub, js_neg] at h; simp at h
    | mul => rw [js_mul, js_neg] at h; simp at h

theorem js_inj {c c' : Calc} (h : c.js = c'.js) : c = c' :=
  (js_apart c c' [] [] (by simp) (by simp) (by rw [h])).1

/-! ## an engine -/

open Classical in
/-- an engine that knows expressions, and nothing else -/
noncomputable def calcJs : Js Unit Int where
  new := ()
  run _ s := ((), if h : ∃ c : Calc, c.js = s then some h.choose.value else some 0)
  str x := utf8 (toString x)
  exported x := utf8 (toString x)
  failed := utf8 "<nil>"

theorem calcJs_calc : JsCalc calcJs (fun _ => True) := by
  intro v c _ _
  have h : ∃ c' : Calc, c'.js = c.js := ⟨c, rfl⟩
  refine ⟨(), c.value, toString c.value, ?_, trivial, rfl, .inl rfl⟩
  show ((), _) = _
  rw [dif_pos h, js_inj h.choose_spec]

/-- texts are annotated as this document; newlines are trimmed -/
def lineWorld (ws : List String) : World := { wordWorld ws with trim := fun t => t.filter (· ≠ 10) }

theorem lineWorld_ok {ws names : List String} (h : ws ≠ []) (h2 : "ɣ" ∉ ws) {t : Bytes} (ht : ws.length ≤ (t.filter (· ≠ 10)).length) :
    HasWords (lineWorld ws) "" t (wordDoc ws) ws names := by
  obtain ⟨h3, h4, h5, h6, h7, h8⟩ := wordWorld_ok (names := names) h h2
  refine ⟨⟨?_, .plain rfl, h3.word⟩, ⟨h4.1, h4.2, h4.3, h4.4, h4.5, h4.6⟩, ⟨fun a ha => ?_, h5.2⟩, h6, h7, h8⟩
  · intro e
    have e : t.filter (· ≠ 10) = [] := e
    rw [e] at ht
    exact h (List.length_eq_zero_iff.1 (Nat.le_zero.1 ht))
  · have h9 := h5.1 a ha
    have h10 : (wordDoc ws).text.length = ws.length := by simp [wordDoc]
    have h11 : (t.filter (· ≠ 10)).length ≤ t.length := List.length_filter_le _ _
    omega

/-- an input for a program whose grammar is the shipped one -/
noncomputable def calcStart (fuel depth : Nat) : Start :=
  { load := arLoad, loadFuel := fuel, depth := depth, grammar := "arithmetic.grammar", registry := [], script := some "", input := none }

theorem calcStart_runs : ∃ fuel depth, ∀ ws, ArithmeticRuns (lineWorld ws) calcNode (fun _ => none) calcJs (calcStart fuel depth) := by
  obtain ⟨fuel, depth, ld, st, h⟩ := ar_loads
  refine ⟨fuel, depth, fun ws => ⟨arLoad_ok _, ⟨ld, st, h⟩, fun _ _ _ _ _ => .refl _, calcNode_calls, calcNode_calc, _, calcJs_calc, "", ?_⟩⟩
  by_cases h : ∃ c : Calc, c.js = ""
  · exact ⟨(), h.choose.value, rfl, by show ((), _) = _; rw [dif_pos h], trivial⟩
  · exact ⟨(), 0, rfl, by show ((), _) = _; rw [dif_neg h], trivial⟩

theorem line_seven {t : Bytes} (h : 3 ≤ (t.filter (· ≠ 10)).length) :
    LineRead (lineWorld ["seven", "minus", "three"]) (fun _ => ["seven", "minus", "three"]) t := by
  refine ⟨⟨_, lineWorld_ok (by decide) (by decide) h⟩, fun i k c hc => (reads_small hc).2 ?_⟩
  rw [List.length_take, List.length_drop]
  simp only [List.length_cons, List.length_nil]
  omega

/-- C88: all assumptions hold together: two lines that say "seven minus three", and half a line after them -/
example : ∃ s, ArithmeticRuns (lineWorld ["seven", "minus", "three"]) calcNode (fun _ => none) calcJs s ∧
    ∃ N, ∀ fuel ≥ N, ∃ out,
      arithmeticMain (lineWorld ["seven", "minus", "three"]) calcNode calcJs fuel (s.reading [65, 66, 67, 10, 67, 66, 65, 10, 66]) =
        (out, none) ∧
      CalcAnswers (fun _ => ["seven", "minus", "three"]) [[65, 66, 67, 10], [67, 66, 65, 10]] out := by
  obtain ⟨fuel, depth, h⟩ := calcStart_runs
  refine ⟨_, h _, C88_partial (h _) (ls := [[65, 66, 67], [67, 66, 65]]) (rest := [66]) ⟨rfl, by decide, by decide⟩ fun l hl => line_seven ?_⟩
  rcases List.mem_cons.1 hl with rfl | hl
  · decide
  · obtain rfl := List.mem_singleton.1 hl
    decide

/-- C88: the assumptions of the theorems about blank lines hold together -/
example (ws : List String) : (lineWorld ws).trim ([] ++ [10]) = [] ∧ (lineWorld ws).trim [] = [] ∧
    SplitLines [65, 10, 10, 66, 10] ([[65]] ++ [] :: [[66]]) [] :=
  ⟨rfl, rfl, rfl, by decide, by decide⟩

/-- C88: the full statement is false: the only line of the input is not answered if it does not end with a newline. -/
theorem C88_false : ¬ C88_statement := by
  intro hst
  obtain ⟨fuel, depth, h⟩ := calcStart_runs
  obtain ⟨N, hN⟩ := hst _ _ _ _ _ _ _ (h ["seven", "minus", "three"]) (fun _ => ["seven", "minus", "three"]) [65, 66, 67] [] [65, 66, 67]
    ⟨rfl, by simp, by decide⟩ (fun t ht => by
      obtain rfl : t = [65, 66, 67] := by simpa using ht
      exact line_seven (by decide))
  obtain ⟨N', hN'⟩ := C88_partial (h ["seven", "minus", "three"]) (words := fun _ => ["seven", "minus", "three"]) (inp := [65, 66, 67]) (ls := [])
    (rest := [65, 66, 67]) ⟨rfl, by simp, by decide⟩ (by simp)
  obtain ⟨out, h1, h2⟩ := hN (max N N') (by omega)
  obtain ⟨out', h3, h4⟩ := hN' (max N N') (by omega)
  rw [h1] at h3
  obtain rfl := (Prod.mk.inj h3).1
  cases h4
  have key : ∀ {words l o}, CalcAnswers words [l] o → o ≠ [] := by
    intro words l o h
    cases h with
    | cons g1 g2 =>
      obtain ⟨fs, -, rfl⟩ := g1
      simp [utf8_append, show utf8 "\n" = [10] by decide +kernel]
  rw [if_neg (by simp), List.map_nil, List.nil_append] at h2
  exact key h2 rfl

end Fmr
