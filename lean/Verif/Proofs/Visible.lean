import Verif.Spec.Visible
import Verif.Proofs.PrintInj

/-!
# The printed text determines what can be seen of an expression
-/

namespace Fmr

mutual
/-- the text of what can be seen -/
def Visible.text (pr : Char → Bool) : Visible → List Char
  | .str s => (quoteStr pr s).toList
  | .num t => t.toList
  | .obj t => t.toList
  | .call fn es => fn.toList ++ '(' :: (argsText pr es ++ [')'])
/-- the texts of arguments with `, ` between them -/
def argsText (pr : Char → Bool) : List Visible → List Char
  | [] => []
  | e :: es => e.text pr ++ moreText pr es
/-- the same with `, ` before each of them -/
def moreText (pr : Char → Bool) : List Visible → List Char
  | [] => []
  | e :: es => ',' :: ' ' :: (e.text pr ++ moreText pr es)
end

mutual
/-- the texts of numbers and objects and the names of functions can be told apart -/
def Visible.OK : Visible → Prop
  | .str _ => True
  | .num t => NumberText t
  | .obj t => ObjectText t
  | .call fn es => (FnOK fn ∧ fn.toList.head? ≠ some '{') ∧ AllOK es
def AllOK : List Visible → Prop
  | [] => True
  | e :: es => e.OK ∧ AllOK es
end

theorem moreText_eq (w : NodeWorld) (es : List Expr)
    (h : ∀ e ∈ es, (e.print w).toList = (e.visible w).text w.isPrint) :
    ∀ s : String, (", ".intercalate (s :: printAll w es)).toList = s.toList ++ moreText w.isPrint (visibleAll w es) := by
  induction es with
  | nil => intro s; simp [printAll, visibleAll, moreText]
  | cons e es ih =>
    intro s
    have h1 := ih (fun f hf => h f (List.mem_cons_of_mem _ hf)) (e.print w)
    have h2 := h e (by simp)
    rw [printAll, visibleAll, moreText, ← h2, ← h1]
    simp [String.intercalate_cons_cons]

mutual
theorem visible_text (w : NodeWorld) : ∀ e : Expr, (e.print w).toList = (e.visible w).text w.isPrint
  | .str s => by rw [Expr.print, Expr.visible, Visible.text]
  | .int i => by rw [Expr.print, Expr.visible, Visible.text]
  | .float q => by rw [Expr.print, Expr.visible, Visible.text]
  | .leaf nl o => by rw [Expr.print, Expr.visible, Visible.text]
  | .ctx v => by rw [Expr.print, Expr.visible, Visible.text]
  | .empty => by rw [Expr.print, Expr.visible, Visible.text]
  | .call fn es => by
    have h := call_toList w fn es []
    rw [List.append_nil] at h
    rw [h, Expr.visible, Visible.text]
    congr 2
    cases es with
    | nil => simp [printAll, visibleAll, argsText]
    | cons e es =>
      rw [printAll, moreText_eq w es (visible_texts w es), visible_text w e, visibleAll, argsText]
theorem visible_texts (w : NodeWorld) : ∀ es : List Expr, ∀ e ∈ es, (e.print w).toList = (e.visible w).text w.isPrint
  | [], _, h => absurd h List.not_mem_nil
  | e :: es, f, h => by
    have h1 := visible_text w e
    rcases List.mem_cons.1 h with h | h
    · rw [h]; exact h1
    · exact visible_texts w es f h
end

mutual
theorem legible_ok (w : NodeWorld) : ∀ e : Expr, e.Legible w → (e.visible w).OK
  | .str s, _ => by rw [Expr.visible, Visible.OK]; trivial
  | .int i, _ => by
    rw [Expr.visible, Visible.OK]
    refine ⟨fun h => int_ne_nil i (by rw [h]; rfl), fun c hc => ?_⟩
    obtain ⟨h1, h2⟩ := int_word hc
    refine ⟨?_, ?_, ?_, h2, ?_⟩
    · rintro rfl; exact h1 (.inl rfl)
    · rintro rfl; exact h1 (.inr (.inl rfl))
    · rintro rfl; exact h1 (.inr (.inr rfl))
    · rintro rfl
      rcases int_chars hc with h | h
      · exact absurd h (by decide)
      · exact absurd h (by decide)
  | .float q, h => by rw [Expr.Legible] at h; rw [Expr.visible, Visible.OK]; exact h
  | .leaf nl o, _ => by rw [Expr.visible, Visible.OK]; trivial
  | .ctx v, h => by rw [Expr.Legible] at h; rw [Expr.visible, Visible.OK]; exact h
  | .empty, h => by rw [Expr.Legible] at h; exact h.elim
  | .call fn es, h => by
    rw [Expr.Legible] at h
    rw [Expr.visible, Visible.OK]
    exact ⟨h.1, legible_oks w es h.2⟩
theorem legible_oks (w : NodeWorld) : ∀ es : List Expr, AllLegible w es → AllOK (visibleAll w es)
  | [], _ => by rw [visibleAll, AllOK]; trivial
  | e :: es, h => by
    rw [AllLegible] at h
    rw [visibleAll, AllOK]
    exact ⟨legible_ok w e h.1, legible_oks w es h.2⟩
end

theorem afterObject_append : ∀ (n : Nat) (d : Nat) (q : Bool) (l r s : List Char), l.length ≤ n →
    afterObject d q l = some s → afterObject d q (l ++ r) = some (s ++ r)
  | _, d, q, [], r, s, _, h => by cases q <;> simp [afterObject] at h
  | 0, _, _, c :: cs, _, _, hn, _ => by simp at hn
  | n+1, d, true, c :: cs, r, s, hn, h => by
    have hl : cs.length ≤ n := by simpa using hn
    rw [List.cons_append]
    by_cases h1 : c = '\\'
    · subst h1
      cases cs with
      | nil => simp [afterObject] at h
      | cons b cs =>
        rw [afterObject.eq_def] at h ⊢
        simp only [if_true, List.cons_append] at h ⊢
        exact afterObject_append n d true cs r s (by simp at hl; omega) h
    · rw [afterObject.eq_def] at h ⊢
      simp only [h1, if_false] at h ⊢
      by_cases h2 : c = '"'
      · simp only [h2, if_true] at h ⊢
        exact afterObject_append n d false cs r s hl h
      · simp only [h2, if_false] at h ⊢
        exact afterObject_append n d true cs r s hl h
  | n+1, d, false, c :: cs, r, s, hn, h => by
    have hl : cs.length ≤ n := by simpa using hn
    rw [List.cons_append]
    rw [afterObject.eq_def] at h ⊢
    dsimp only at h ⊢
    by_cases h1 : c = '"'
    · simp only [h1, if_true] at h ⊢
      exact afterObject_append n d true cs r s hl h
    · simp only [h1, if_false] at h ⊢
      by_cases h2 : c = '{'
      · simp only [h2, if_true] at h ⊢
        exact afterObject_append n (d+1) false cs r s hl h
      · simp only [h2, if_false] at h ⊢
        by_cases h3 : c = '}'
        · simp only [h3, if_true] at h ⊢
          by_cases h4 : d ≤ 1
          · simp only [h4, if_true, Option.some.injEq] at h ⊢
            rw [h]
          · simp only [h4, if_false] at h ⊢
            exact afterObject_append n (d-1) false cs r s hl h
        · simp only [h3, if_false] at h ⊢
          exact afterObject_append n d false cs r s hl h

/-- the text of an object does not begin the text of another one -/
theorem objectText_prefix {a b : String} (ha : ObjectText a) (hb : ObjectText b) {r t : List Char}
    (h : a.toList ++ r = b.toList ++ t) : a = b ∧ r = t := by
  obtain ⟨x, hx, ex⟩ := ha
  obtain ⟨y, hy, ey⟩ := hb
  rw [hx, hy, List.cons_append, List.cons_append, List.cons.injEq] at h
  have h1 := afterObject_append _ 1 false x r [] (Nat.le_refl _) ex
  have h2 := afterObject_append _ 1 false y t [] (Nat.le_refl _) ey
  rw [h.2, h2, Option.some.injEq, List.nil_append, List.nil_append] at h1
  subst h1
  have h3 := List.append_cancel_right h.2
  exact ⟨String.toList_inj.1 (by rw [hx, hy, h3]), rfl⟩

/-- how the text of something visible begins -/
inductive Kind where
  | quote | brace | word
  deriving DecidableEq

def kindOf : Option Char → Kind
  | some '"' => .quote
  | some '{' => .brace
  | _ => .word

def Visible.kind : Visible → Kind
  | .str _ => .quote
  | .obj _ => .brace
  | _ => .word

theorem kindOf_word {c : Option Char} (h1 : c ≠ some '"') (h2 : c ≠ some '{') : kindOf c = .word := by
  unfold kindOf
  split
  · exact absurd rfl h1
  · exact absurd rfl h2
  · rfl

theorem kind_text (pr : Char → Bool) : ∀ {e : Visible}, e.OK → ∀ r : List Char,
    kindOf (e.text pr ++ r).head? = e.kind ∧ (e.text pr ++ r).head? ≠ some ')'
  | .str s, _, r => by
    obtain ⟨t, ht⟩ := quote_head pr s
    rw [Visible.text, ht, List.cons_append]
    exact ⟨rfl, by simp⟩
  | .obj s, h, r => by
    rw [Visible.OK] at h
    obtain ⟨t, ht, _⟩ := h
    rw [Visible.text, ht, List.cons_append]
    exact ⟨rfl, by simp⟩
  | .num s, h, r => by
    rw [Visible.OK] at h
    obtain ⟨h1, h2⟩ := h
    rw [Visible.text]
    cases hl : s.toList with
    | nil => exact absurd (String.toList_inj.1 (by rw [hl]; rfl)) h1
    | cons c t =>
      obtain ⟨_, _, k3, k4, k5⟩ := h2 c (by rw [hl]; simp)
      rw [List.cons_append, List.head?_cons]
      exact ⟨kindOf_word (by simpa using k4) (by simpa using k5), by simpa using k3⟩
  | .call fn es, h, r => by
    rw [Visible.OK] at h
    obtain ⟨⟨h1, h2⟩, _⟩ := h
    rw [Visible.text]
    cases hl : fn.toList with
    | nil => exact ⟨rfl, by simp⟩
    | cons c t =>
      have h3 := h1.2
      have h4 := (h1.1 c (by rw [hl]; simp)).2.2
      rw [hl] at h2 h3
      rw [List.cons_append, List.cons_append, List.head?_cons]
      exact ⟨kindOf_word h3 h2, by simpa using h4⟩

theorem number_word {t : String} (h : NumberText t) : ∀ c ∈ t.toList, ¬ Special c := by
  intro c hc
  obtain ⟨h1, h2, h3, _⟩ := h.2 c hc
  rintro (rfl | rfl | rfl) <;> contradiction

theorem more_stops (pr : Char → Bool) (es : List Visible) (r : List Char) : Stops (moreText pr es ++ ')' :: r) := by
  cases es <;> intro c hc <;> simp [moreText] at hc <;> simp [← hc]

mutual
theorem visible_prefix (pr : Char → Bool) : ∀ (e f : Visible) (r t : List Char), e.OK → f.OK → Stops r →
    Stops t → e.text pr ++ r = f.text pr ++ t → e = f ∧ r = t
  | .str s, f, r, t, he, hf, _, _, h => by
    have hk := (kind_text pr he r).1
    rw [h, (kind_text pr hf t).1] at hk
    cases f with
    | str s' =>
      rw [Visible.text, Visible.text] at h
      obtain ⟨rfl, h2⟩ := quoteStr_prefix pr h
      exact ⟨rfl, h2⟩
    | _ => cases hk
  | .obj s, f, r, t, he, hf, _, _, h => by
    have hk := (kind_text pr he r).1
    rw [h, (kind_text pr hf t).1] at hk
    cases f with
    | obj s' =>
      rw [Visible.OK] at he
      rw [Visible.OK] at hf
      rw [Visible.text, Visible.text] at h
      obtain ⟨rfl, h2⟩ := objectText_prefix he hf h
      exact ⟨rfl, h2⟩
    | _ => cases hk
  | .num s, f, r, t, he, hf, hr, ht, h => by
    have hk := (kind_text pr he r).1
    rw [h, (kind_text pr hf t).1] at hk
    cases f with
    | num s' =>
      rw [Visible.OK] at he
      rw [Visible.OK] at hf
      rw [Visible.text, Visible.text] at h
      obtain ⟨h1, h2⟩ := word_split (number_word he) (number_word hf) (stops_special hr) (stops_special ht) h
      exact ⟨by rw [String.toList_inj.1 h1], h2⟩
    | call fn es =>
      rw [Visible.OK] at he
      rw [Visible.OK] at hf
      rw [Visible.text, Visible.text, List.append_assoc, List.cons_append] at h
      obtain ⟨h1, h2⟩ := word_split (number_word he) (fn_word hf.1.1) (stops_special hr) (by simp [Special]) h
      exact absurd (hr '(' (by rw [h2]; rfl)) (by decide)
    | str _ => cases hk
    | obj _ => cases hk
  | .call fn es, f, r, t, he, hf, hr, ht, h => by
    have hk := (kind_text pr he r).1
    rw [h, (kind_text pr hf t).1] at hk
    cases f with
    | num s =>
      rw [Visible.OK] at he
      rw [Visible.OK] at hf
      rw [Visible.text, Visible.text, List.append_assoc, List.cons_append] at h
      obtain ⟨h1, h2⟩ := word_split (fn_word he.1.1) (number_word hf) (by simp [Special]) (stops_special ht) h
      exact absurd (ht '(' (by rw [← h2]; rfl)) (by decide)
    | call gn fs =>
      rw [Visible.OK] at he
      rw [Visible.OK] at hf
      rw [Visible.text, Visible.text] at h
      simp only [List.append_assoc, List.cons_append, List.nil_append] at h
      obtain ⟨h1, h2⟩ := word_split (fn_word he.1.1) (fn_word hf.1.1) (by simp [Special]) (by simp [Special]) h
      simp only [List.cons.injEq, true_and] at h2
      obtain ⟨h3, h4⟩ := visibleArgs_prefix pr es fs r t he.2 hf.2 h2
      exact ⟨by rw [h3, String.toList_inj.1 h1], h4⟩
    | str _ => cases hk
    | obj _ => cases hk
theorem visibleArgs_prefix (pr : Char → Bool) : ∀ (es fs : List Visible) (r t : List Char), AllOK es → AllOK fs →
    argsText pr es ++ ')' :: r = argsText pr fs ++ ')' :: t → es = fs ∧ r = t
  | [], [], r, t, _, _, h => by simpa [argsText] using h
  | [], g :: gs, r, t, _, hg, h => by
    rw [AllOK] at hg
    rw [argsText, argsText, List.nil_append, List.append_assoc] at h
    have := (kind_text pr hg.1 (moreText pr gs ++ ')' :: t)).2
    rw [← h] at this
    simp at this
  | g :: gs, [], r, t, hg, _, h => by
    rw [AllOK] at hg
    rw [argsText, argsText, List.nil_append, List.append_assoc] at h
    have := (kind_text pr hg.1 (moreText pr gs ++ ')' :: r)).2
    rw [h] at this
    simp at this
  | a :: as, b :: bs, r, t, ha, hb, h => by
    rw [AllOK] at ha hb
    rw [argsText, argsText, List.append_assoc, List.append_assoc] at h
    obtain ⟨k1, k2⟩ := visible_prefix pr a b _ _ ha.1 hb.1 (more_stops pr as r) (more_stops pr bs t) h
    obtain ⟨k3, k4⟩ := more_prefix pr as bs r t ha.2 hb.2 k2
    exact ⟨by rw [k1, k3], k4⟩
theorem more_prefix (pr : Char → Bool) : ∀ (es fs : List Visible) (r t : List Char), AllOK es → AllOK fs →
    moreText pr es ++ ')' :: r = moreText pr fs ++ ')' :: t → es = fs ∧ r = t
  | [], [], r, t, _, _, h => by simpa [moreText] using h
  | [], f :: fs, r, t, _, _, h => by simp [moreText] at h
  | e :: es, [], r, t, _, _, h => by simp [moreText] at h
  | e :: es, f :: fs, r, t, he, hf, h => by
    rw [AllOK] at he hf
    rw [moreText, moreText] at h
    simp only [List.cons_append, List.cons.injEq, true_and, List.append_assoc] at h
    obtain ⟨k1, k2⟩ := visible_prefix pr e f _ _ he.1 hf.1 (more_stops pr es r) (more_stops pr fs t) h
    obtain ⟨k3, k4⟩ := more_prefix pr es fs r t he.2 hf.2 k2
    exact ⟨by rw [k1, k3], k4⟩
end

/-- two legible expressions print alike exactly if the same can be seen of them -/
theorem print_iff_visible (w : NodeWorld) {e f : Expr} (he : e.Legible w) (hf : f.Legible w) :
    e.print w = f.print w ↔ e.visible w = f.visible w := by
  constructor
  · intro h
    refine (visible_prefix w.isPrint _ _ [] [] (legible_ok w e he) (legible_ok w f hf) (by simp [Stops])
      (by simp [Stops]) ?_).1
    rw [← visible_text, ← visible_text, h]
  · intro h
    refine String.toList_inj.1 ?_
    rw [visible_text, visible_text, h]

end Fmr
