import Verif.Spec.NumeralGaps
import Verif.Proofs.CnNumLang
import Mathlib.Tactic.IntervalCases

/-!
# How examples/builtin/cn_num.grammar reads Chinese numerals
-/

namespace Fmr

/-! ## every text has at most one value -/

theorem cnUnits_inj {p q : String × Nat} (hp : p ∈ cnUnits) (hq : q ∈ cnUnits) (h : p.1 = q.1) : p.2 = q.2 := by
  have : ∀ p ∈ cnUnits, ∀ q ∈ cnUnits, p.1 = q.1 → p.2 = q.2 := by decide +kernel
  exact this p hp q hq h

theorem cnUnits_ne {p : String × Nat} (hp : p ∈ cnUnits) : p.1 ∉ ["十", "百", "千", "万", "亿", "零", "〇"] := by
  have : ∀ p ∈ cnUnits, p.1 ∉ ["十", "百", "千", "万", "亿", "零", "〇"] := by decide +kernel
  exact this p hp

theorem cnZeros_ne {p : String × Nat} (hp : p ∈ cnZeros) : p.1 ∈ ["零", "〇"] := by
  have : ∀ p ∈ cnZeros, p.1 ∈ ["零", "〇"] := by decide +kernel
  exact this p hp

/-- the first word is 十 or a digit, and the others are neither 万 nor 亿 -/
structure CnWords (no : List String) (l : List String) : Prop where
  head : ∃ x r, l = x :: r ∧ (x = "十" ∨ ∃ p ∈ cnUnits, x = p.1)
  no : ∀ x ∈ l, x ∉ no

theorem cn10_words {l : List String} {n : Nat} (h : Cn10 l n) : CnWords ["百", "千", "万", "亿"] l := by
  have t1 : ∀ p ∈ cnUnits, p.1 ∉ ["百", "千", "万", "亿"] := by decide +kernel
  have t2 : "十" ∉ ["百", "千", "万", "亿"] := by decide +kernel
  cases h with
  | ten => exact ⟨⟨_, _, rfl, .inl rfl⟩, by simpa using t2⟩
  | @tens p hp => exact ⟨⟨_, _, rfl, .inr ⟨p, hp, rfl⟩⟩, by intro x hx; simp only [List.mem_cons, List.not_mem_nil, or_false] at hx; rcases hx with rfl | rfl; exacts [t1 p hp, t2]⟩
  | @both p q hp hq => exact ⟨⟨_, _, rfl, .inr ⟨p, hp, rfl⟩⟩, by intro x hx; simp only [List.mem_cons, List.not_mem_nil, or_false] at hx; rcases hx with rfl | rfl | rfl; exacts [t1 p hp, t2, t1 q hq]⟩
  | @unit p hp => exact ⟨⟨_, _, rfl, .inr ⟨p, hp, rfl⟩⟩, by intro x hx; rw [List.mem_singleton.1 hx]; exact t1 p hp⟩

theorem cn100_words {l : List String} {n : Nat} (h : Cn100 l n) : CnWords ["千", "万", "亿"] l := by
  have t1 : ∀ p ∈ cnUnits, p.1 ∉ ["千", "万", "亿"] := by decide +kernel
  have t2 : "百" ∉ ["千", "万", "亿"] := by decide +kernel
  have t3 : ∀ p ∈ cnZeros, p.1 ∉ ["千", "万", "亿"] := by decide +kernel
  cases h with
  | @hundred p hp => exact ⟨⟨_, _, rfl, .inr ⟨p, hp, rfl⟩⟩, by intro x hx; simp only [List.mem_cons, List.not_mem_nil, or_false] at hx; rcases hx with rfl | rfl; exacts [t1 p hp, t2]⟩
  | @more p l n hp hn =>
    refine ⟨⟨_, _, rfl, .inr ⟨p, hp, rfl⟩⟩, fun x hx => ?_⟩
    simp only [List.mem_cons] at hx
    rcases hx with rfl | rfl | hx
    exacts [t1 p hp, t2, fun h => (cn10_words hn).no x hx (.tail _ h)]
  | @gap p q z hp hz hq => exact ⟨⟨_, _, rfl, .inr ⟨p, hp, rfl⟩⟩, by intro x hx; simp only [List.mem_cons, List.not_mem_nil, or_false] at hx; rcases hx with rfl | rfl | rfl | rfl; exacts [t1 p hp, t2, t3 z hz, t1 q hq]⟩
  | less h => exact ⟨(cn10_words h).head, fun x hx h' => (cn10_words h).no x hx (.tail _ h')⟩

theorem cn1000_words {l : List String} {n : Nat} (h : Cn1000 l n) : CnWords ["万", "亿"] l := by
  have t1 : ∀ p ∈ cnUnits, p.1 ∉ ["万", "亿"] := by decide +kernel
  have t2 : "千" ∉ ["万", "亿"] := by decide +kernel
  have t3 : ∀ p ∈ cnZeros, p.1 ∉ ["万", "亿"] := by decide +kernel
  cases h with
  | @thousand p hp => exact ⟨⟨_, _, rfl, .inr ⟨p, hp, rfl⟩⟩, by intro x hx; simp only [List.mem_cons, List.not_mem_nil, or_false] at hx; rcases hx with rfl | rfl; exacts [t1 p hp, t2]⟩
  | @more p l n hp hn =>
    refine ⟨⟨_, _, rfl, .inr ⟨p, hp, rfl⟩⟩, fun x hx => ?_⟩
    simp only [List.mem_cons] at hx
    rcases hx with rfl | rfl | hx
    exacts [t1 p hp, t2, fun h => (cn100_words hn).no x hx (.tail _ h)]
  | @gap p z l n hp hz hn =>
    refine ⟨⟨_, _, rfl, .inr ⟨p, hp, rfl⟩⟩, fun x hx => ?_⟩
    simp only [List.mem_cons] at hx
    rcases hx with rfl | rfl | rfl | hx
    exacts [t1 p hp, t2, t3 z hz, fun h => (cn10_words hn).no x hx (.tail _ (.tail _ h))]
  | less h => exact ⟨(cn100_words h).head, fun x hx h' => (cn100_words h).no x hx (.tail _ h')⟩

theorem CnWords.ne {no l : List String} (h : CnWords no l) : l ≠ [] := by
  obtain ⟨x, r, rfl, -⟩ := h.head
  simp

theorem CnWords.begin {no l : List String} (h : CnWords no l) {x : String} {r : List String} (e : l = x :: r) : x ∉ ["百", "千", "万", "亿", "零", "〇"] := by
  obtain ⟨y, r', e', hy⟩ := h.head
  obtain ⟨rfl, -⟩ := List.cons.inj (e.symm.trans e')
  rcases hy with rfl | ⟨p, hp, rfl⟩
  · decide +kernel
  · exact fun h => cnUnits_ne hp (.tail _ h)

theorem cn10000_words {l : List String} {n : Nat} (h : Cn10000 l n) : CnWords ["亿"] l := by
  have t : "万" ∉ ["亿"] := by decide +kernel
  cases h with
  | myriad h =>
    obtain ⟨⟨x, r, rfl, hx⟩, h2⟩ := cn1000_words h
    refine ⟨⟨_, _, rfl, hx⟩, fun y hy => ?_⟩
    rcases List.mem_append.1 hy with hy | hy
    · exact fun h => h2 y hy (.tail _ h)
    · rw [List.mem_singleton.1 hy]; exact t
  | more h h' =>
    obtain ⟨⟨x, r, rfl, hx⟩, h2⟩ := cn1000_words h
    refine ⟨⟨_, _, rfl, hx⟩, fun y hy => ?_⟩
    rcases List.mem_append.1 hy with hy | hy
    · exact fun h => h2 y hy (.tail _ h)
    · rcases List.mem_cons.1 hy with rfl | hy
      · exact t
      · exact fun h => (cn1000_words h').no y hy (.tail _ h)
  | less h => exact ⟨(cn1000_words h).head, fun x hx h' => (cn1000_words h).no x hx (.tail _ h')⟩

theorem cn10_fun {l l' : List String} {n m : Nat} (h : Cn10 l n) (h' : Cn10 l' m) (e : l = l') : n = m := by
  have ht : ∀ {p : String × Nat}, p ∈ cnUnits → p.1 ≠ "十" := fun hp h => cnUnits_ne hp (by simp [h])
  cases h with
  | ten =>
    cases h' with
    | ten => rfl
    | tens hp => simp at e
    | both hp hq => simp at e
    | unit hp => exact absurd (List.cons.inj e).1.symm (ht hp)
  | tens hp =>
    cases h' with
    | ten => simp at e
    | tens hp' => rw [cnUnits_inj hp hp' (List.cons.inj e).1]
    | both hp hq => simp at e
    | unit hp => simp at e
  | both hp hq =>
    cases h' with
    | ten => simp at e
    | tens hp' => simp at e
    | both hp' hq' =>
      simp only [List.cons.injEq, true_and, and_true] at e
      rw [cnUnits_inj hp hp' e.1, cnUnits_inj hq hq' e.2]
    | unit hp => simp at e
  | unit hp =>
    cases h' with
    | ten => exact absurd (List.cons.inj e).1 (ht hp)
    | tens hp' => simp at e
    | both hp hq => simp at e
    | unit hp' => exact cnUnits_inj hp hp' (List.cons.inj e).1

theorem cn100_fun {l l' : List String} {n m : Nat} (h : Cn100 l n) (h' : Cn100 l' m) (e : l = l') : n = m := by
  have hl : ∀ {l : List String} {n : Nat}, Cn10 l n → "百" ∉ l := fun h h' => (cn10_words h).no _ h' (by decide +kernel)
  have hz : ∀ {l : List String} {n : Nat} {z : String × Nat} {x : List String}, Cn10 l n → z ∈ cnZeros → l ≠ z.1 :: x := by
    intro l n z x h hz e
    have := (cn10_words h).begin e
    have := cnZeros_ne hz
    simp only [List.mem_cons, List.not_mem_nil, or_false] at *
    tauto
  cases h with
  | hundred hp =>
    cases h' with
    | hundred hp' => rw [cnUnits_inj hp hp' (List.cons.inj e).1]
    | more hp' hn =>
      simp only [List.cons.injEq, true_and] at e
      exact absurd e.2.symm (cn10_words hn).ne
    | gap hp' _ hq => simp at e
    | less h => exact absurd (by rw [← e]; simp) (hl h)
  | more hp hn =>
    cases h' with
    | hundred hp' =>
      simp only [List.cons.injEq, true_and] at e
      exact absurd e.2 (cn10_words hn).ne
    | more hp' hn' =>
      simp only [List.cons.injEq, true_and] at e
      rw [cnUnits_inj hp hp' e.1, cn10_fun hn hn' e.2]
    | gap hp' hz' hq =>
      simp only [List.cons.injEq, true_and] at e
      exact absurd e.2 (hz hn hz')
    | less h => exact absurd (by rw [← e]; simp) (hl h)
  | gap hp hz' hq =>
    cases h' with
    | hundred hp' => simp at e
    | more hp' hn =>
      simp only [List.cons.injEq, true_and] at e
      exact absurd e.2.symm (hz hn hz')
    | gap hp' hz'' hq' =>
      simp only [List.cons.injEq, true_and, and_true] at e
      rw [cnUnits_inj hp hp' e.1, cnUnits_inj hq hq' e.2.2]
    | less h => exact absurd (by rw [← e]; simp) (hl h)
  | less h =>
    cases h' with
    | hundred hp' => exact absurd (by rw [e]; simp) (hl h)
    | more hp' hn => exact absurd (by rw [e]; simp) (hl h)
    | gap hp' hz' hq => exact absurd (by rw [e]; simp) (hl h)
    | less h' => exact cn10_fun h h' e

theorem cn1000_fun {l l' : List String} {n m : Nat} (h : Cn1000 l n) (h' : Cn1000 l' m) (e : l = l') : n = m := by
  have hl : ∀ {l : List String} {n : Nat}, Cn100 l n → "千" ∉ l := fun h h' => (cn100_words h).no _ h' (by decide +kernel)
  have hz : ∀ {l : List String} {n : Nat} {z : String × Nat} {x : List String}, Cn100 l n → z ∈ cnZeros → l ≠ z.1 :: x := by
    intro l n z x h hz e
    have := (cn100_words h).begin e
    have := cnZeros_ne hz
    simp only [List.mem_cons, List.not_mem_nil, or_false] at *
    tauto
  cases h with
  | thousand hp =>
    cases h' with
    | thousand hp' => rw [cnUnits_inj hp hp' (List.cons.inj e).1]
    | more hp' hn =>
      simp only [List.cons.injEq, true_and] at e
      exact absurd e.2.symm (cn100_words hn).ne
    | gap hp' _ hq => simp at e
    | less h => exact absurd (by rw [← e]; simp) (hl h)
  | more hp hn =>
    cases h' with
    | thousand hp' =>
      simp only [List.cons.injEq, true_and] at e
      exact absurd e.2 (cn100_words hn).ne
    | more hp' hn' =>
      simp only [List.cons.injEq, true_and] at e
      rw [cnUnits_inj hp hp' e.1, cn100_fun hn hn' e.2]
    | gap hp' hz' hq =>
      simp only [List.cons.injEq, true_and] at e
      exact absurd e.2 (hz hn hz')
    | less h => exact absurd (by rw [← e]; simp) (hl h)
  | gap hp hz' hq =>
    cases h' with
    | thousand hp' => simp at e
    | more hp' hn =>
      simp only [List.cons.injEq, true_and] at e
      exact absurd e.2.symm (hz hn hz')
    | gap hp' hz'' hq' =>
      simp only [List.cons.injEq, true_and] at e
      rw [cnUnits_inj hp hp' e.1, cn10_fun hq hq' e.2.2]
    | less h => exact absurd (by rw [← e]; simp) (hl h)
  | less h =>
    cases h' with
    | thousand hp' => exact absurd (by rw [e]; simp) (hl h)
    | more hp' hn => exact absurd (by rw [e]; simp) (hl h)
    | gap hp' hz' hq => exact absurd (by rw [e]; simp) (hl h)
    | less h' => exact cn100_fun h h' e

/-- a word divides a text in one way -/
theorem cut_once {x : String} {a b a' b' : List String} (h : x ∉ a) (h' : x ∉ a') (e : a ++ x :: b = a' ++ x :: b') : a = a' ∧ b = b' :=
  split_word e h h'

theorem cn10000_fun {l l' : List String} {n m : Nat} (h : Cn10000 l n) (h' : Cn10000 l' m) (e : l = l') : n = m := by
  have hl : ∀ {l : List String} {n : Nat}, Cn1000 l n → "万" ∉ l := fun h h' => (cn1000_words h).no _ h' (by decide +kernel)
  cases h with
  | myriad h1 =>
    cases h' with
    | myriad h1' => rw [cn1000_fun h1 h1' (cut_once (hl h1) (hl h1') e).1]
    | more h1' h2' => exact absurd (cut_once (hl h1) (hl h1') e).2.symm (cn1000_words h2').ne
    | less h => exact absurd (by rw [← e]; simp) (hl h)
  | more h1 h2 =>
    cases h' with
    | myriad h1' => exact absurd (cut_once (hl h1) (hl h1') e).2 (cn1000_words h2).ne
    | more h1' h2' =>
      obtain ⟨e1, e2⟩ := cut_once (hl h1) (hl h1') e
      rw [cn1000_fun h1 h1' e1, cn1000_fun h2 h2' e2]
    | less h => exact absurd (by rw [← e]; simp) (hl h)
  | less h =>
    cases h' with
    | myriad h1' => exact absurd (by rw [e]; simp) (hl h)
    | more h1' h2' => exact absurd (by rw [e]; simp) (hl h)
    | less h' => exact cn1000_fun h h' e

theorem cnNum_fun {l l' : List String} {n m : Nat} (h : CnNum l n) (h' : CnNum l' m) (e : l = l') : n = m := by
  have hl : ∀ {l : List String} {n : Nat}, Cn10000 l n → "亿" ∉ l := fun h h' => (cn10000_words h).no _ h' (by decide +kernel)
  have hz : ∀ {l : List String} {n : Nat} {z : String × Nat} {x : List String}, Cn10000 l n → z ∈ cnZeros → l ≠ z.1 :: x := by
    intro l n z x h hz e
    have := (cn10000_words h).begin e
    have := cnZeros_ne hz
    simp only [List.mem_cons, List.not_mem_nil, or_false] at *
    tauto
  cases h with
  | yi h1 =>
    cases h' with
    | yi h1' => rw [cn10000_fun h1 h1' (cut_once (hl h1) (hl h1') e).1]
    | more h1' h2' => exact absurd (cut_once (hl h1) (hl h1') e).2.symm (cn10000_words h2').ne
    | gap _ h1' h2' => exact absurd (cut_once (hl h1) (hl h1') e).2.symm (by simp)
    | less h => exact absurd (by rw [← e]; simp) (hl h)
  | more h1 h2 =>
    cases h' with
    | yi h1' => exact absurd (cut_once (hl h1) (hl h1') e).2 (cn10000_words h2).ne
    | more h1' h2' =>
      obtain ⟨e1, e2⟩ := cut_once (hl h1) (hl h1') e
      rw [cn10000_fun h1 h1' e1, cn10000_fun h2 h2' e2]
    | gap hz' h1' h2' => exact absurd (cut_once (hl h1) (hl h1') e).2 (hz h2 hz')
    | less h => exact absurd (by rw [← e]; simp) (hl h)
  | gap hz' h1 h2 =>
    cases h' with
    | yi h1' => exact absurd (cut_once (hl h1) (hl h1') e).2 (by simp)
    | more h1' h2' => exact absurd (cut_once (hl h1) (hl h1') e).2.symm (hz h2' hz')
    | gap hz'' h1' h2' =>
      obtain ⟨e1, e2⟩ := cut_once (hl h1) (hl h1') e
      rw [cn10000_fun h1 h1' e1, cn10000_fun h2 h2' (List.cons.inj e2).2]
    | less h => exact absurd (by rw [← e]; simp) (hl h)
  | less h =>
    cases h' with
    | yi h1' => exact absurd (by rw [e]; simp) (hl h)
    | more h1' h2' => exact absurd (by rw [e]; simp) (hl h)
    | gap _ h1' h2' => exact absurd (by rw [e]; simp) (hl h)
    | less h' => exact cn10000_fun h h' e

/-! ## what cannot be read -/

/-- after 十 in front there is no digit -/
def NoTeen (l : List String) : Prop := ∀ x r, l = "十" :: x :: r → ∀ p ∈ cnUnits, x ≠ p.1

theorem NoTeen.append {l r : List String} (h : NoTeen l) (hl : l ≠ []) (hr : ∀ y s, r = y :: s → ∀ p ∈ cnUnits, y ≠ p.1) : NoTeen (l ++ r) := by
  intro x s e
  match l, hl with
  | [y], _ => exact hr x s (List.cons.inj e).2
  | y :: y' :: l, _ =>
    simp only [List.cons_append, List.cons.injEq] at e
    obtain ⟨rfl, rfl, rfl⟩ := e
    exact h _ _ rfl

theorem noTeen_unit {p : String × Nat} {l : List String} (hp : p ∈ cnUnits) : NoTeen (p.1 :: l) := by
  intro x r e
  exact absurd (List.cons.inj e).1 fun h => cnUnits_ne hp (by simp [h])

theorem cn1000_noTeen {l : List String} {n : Nat} (h : Cn1000 l n) : NoTeen l := by
  cases h with
  | thousand hp => exact noTeen_unit hp
  | more hp _ => exact noTeen_unit hp
  | gap hp _ _ => exact noTeen_unit hp
  | less h =>
    cases h with
    | hundred hp => exact noTeen_unit hp
    | more hp _ => exact noTeen_unit hp
    | gap hp _ _ => exact noTeen_unit hp
    | less h =>
      cases h with
      | ten => intro x r e; simp at e
      | tens hp => exact noTeen_unit hp
      | both hp _ => exact noTeen_unit hp
      | unit hp => exact noTeen_unit hp

theorem unit_word_ne {s : String} (hs : s ∈ ["万", "亿"]) {y : String} {r t : List String} (e : s :: t = y :: r) : ∀ p ∈ cnUnits, y ≠ p.1 := by
  rintro p hp rfl
  obtain ⟨rfl, -⟩ := List.cons.inj e
  refine cnUnits_ne hp ?_
  simp only [List.mem_cons, List.not_mem_nil, or_false] at hs ⊢
  tauto

theorem cn10000_noTeen {l : List String} {n : Nat} (h : Cn10000 l n) : NoTeen l := by
  cases h with
  | myriad h => exact (cn1000_noTeen h).append (cn1000_words h).ne fun y s e => unit_word_ne (by simp) e
  | more h _ => exact (cn1000_noTeen h).append (cn1000_words h).ne fun y s e => unit_word_ne (by simp) e
  | less h => exact cn1000_noTeen h

theorem cnNum_noTeen {l : List String} {n : Nat} (h : CnNum l n) : NoTeen l := by
  cases h with
  | yi h => exact (cn10000_noTeen h).append (cn10000_words h).ne fun y s e => unit_word_ne (by simp) e
  | more h _ => exact (cn10000_noTeen h).append (cn10000_words h).ne fun y s e => unit_word_ne (by simp) e
  | gap _ h _ => exact (cn10000_noTeen h).append (cn10000_words h).ne fun y s e => unit_word_ne (by simp) e
  | less h => exact cn10000_noTeen h

/-- no 零 right after a 万 -/
def NoGap (l : List String) : Prop := ∀ a b, l ≠ a ++ "万" :: "零" :: b

theorem noGap_of {l : List String} (h : "万" ∉ l) : NoGap l := by
  rintro a b rfl
  simp at h

/-- two texts without gaps, if the second does not begin with 零 or the first does not end with 万 -/
theorem NoGap.append {l r : List String} (h : NoGap l) (h' : NoGap r) (hj : (∀ s, r ≠ "零" :: s) ∨ ∀ s, l ≠ s ++ ["万"]) : NoGap (l ++ r) := by
  intro a b e
  rcases List.append_eq_append_iff.1 e with ⟨c, rfl, e'⟩ | ⟨c, rfl, e'⟩
  · exact h' c b e'
  · match c with
    | [] => exact h' [] b e'.symm
    | [x] =>
      simp only [List.cons_append, List.nil_append, List.cons.injEq] at e'
      obtain ⟨rfl, e'⟩ := e'
      rcases hj with hj | hj
      · exact hj _ e'.symm
      · exact hj a rfl
    | x :: y :: c =>
      simp only [List.cons_append, List.cons.injEq] at e'
      obtain ⟨rfl, rfl, -⟩ := e'
      exact h a c rfl

theorem CnWords.noZero {no l : List String} (h : CnWords no l) : ∀ s, l ≠ "零" :: s := fun _ e => h.begin e (by simp)

theorem noGap_unit {s : String} : NoGap [s] := by
  rintro a b e
  have := congrArg List.length e
  simp at this
  omega

theorem cn10000_noGap {l : List String} {n : Nat} (h : Cn10000 l n) : NoGap l := by
  have hl : ∀ {l : List String} {n : Nat}, Cn1000 l n → "万" ∉ l := fun h h' => (cn1000_words h).no _ h' (by decide +kernel)
  cases h with
  | myriad h => exact (noGap_of (hl h)).append noGap_unit (.inl (by simp))
  | @more l l' n m h h' =>
    rw [show l ++ "万" :: l' = (l ++ ["万"]) ++ l' by simp]
    exact ((noGap_of (hl h)).append noGap_unit (.inl (by simp))).append (noGap_of (hl h')) (.inl (cn1000_words h').noZero)
  | less h => exact noGap_of (hl h)

theorem cnNum_noGap {l : List String} {n : Nat} (h : CnNum l n) : NoGap l := by
  have key : ∀ {l : List String} {n : Nat}, Cn10000 l n → NoGap (l ++ ["亿"]) := fun h => (cn10000_noGap h).append noGap_unit (.inl (by simp))
  have hend : ∀ (l s : List String), l ++ ["亿"] ≠ s ++ ["万"] := fun l s e => by simpa using congrArg List.getLast? e
  cases h with
  | yi h => exact key h
  | @more l l' n m h h' =>
    rw [show l ++ "亿" :: l' = (l ++ ["亿"]) ++ l' by simp]
    exact (key h).append (cn10000_noGap h') (.inl (cn10000_words h').noZero)
  | @gap z l l' n m hz h h' =>
    rw [show l ++ "亿" :: z.1 :: l' = ((l ++ ["亿"]) ++ [z.1]) ++ l' by simp]
    exact ((key h).append noGap_unit (.inr (hend l))).append (cn10000_noGap h') (.inl (cn10000_words h').noZero)
  | less h => exact cn10000_noGap h

/-! ## the numerals -/

/-- the characters as words -/
def chars (l : List Char) : List String := l.map String.singleton

@[simp] theorem chars_nil : chars [] = [] := rfl
@[simp] theorem chars_cons (c : Char) (l : List Char) : chars (c :: l) = String.singleton c :: chars l := rfl
@[simp] theorem chars_append (a b : List Char) : chars (a ++ b) = chars a ++ chars b := by simp [chars]

theorem cn_digit_unit {d : Nat} (h0 : 0 < d) (h : d < 10) : (String.singleton (zhDigit d), d) ∈ cnUnits := by
  interval_cases d <;> decide +kernel

theorem ones_read {n : Nat} (h0 : 0 < n) (h : n < 10) : chars (zhOnes n) = [String.singleton (zhDigit n)] := by
  rw [zhOnes, if_neg (by omega)]
  rfl

theorem tens_read {n : Nat} (h0 : 0 < n) (h : n < 100) : Cn10 (chars (zhTens false n)) n := by
  have e10 : String.singleton '十' = "十" := by decide
  unfold zhTens
  split
  · rw [ones_read h0 (by omega)]
    exact .unit (cn_digit_unit h0 (by omega))
  · have hd := cn_digit_unit (d := n / 10) (by omega) (by omega)
    simp only [Bool.false_and, Bool.false_eq_true, if_false, chars_append, chars_cons, chars_nil, e10, List.cons_append, List.nil_append]
    by_cases h1 : n % 10 = 0
    · have := Cn10.tens hd
      rw [zhOnes, if_pos h1]
      rwa [show n / 10 * 10 = n by omega] at this
    · have := Cn10.both hd (cn_digit_unit (d := n % 10) (by omega) (by omega))
      rw [ones_read (by omega) (by omega)]
      rwa [show n / 10 * 10 + n % 10 = n by omega] at this

theorem hundreds_read {n : Nat} (h0 : 0 < n) (h : n < 1000) : Cn100 (chars (zhHundreds false n)) n := by
  have e100 : String.singleton '百' = "百" := by decide
  have e0 : String.singleton '零' = "零" := by decide
  unfold zhHundreds
  split
  · exact .less (tens_read h0 (by omega))
  · have hd := cn_digit_unit (d := n / 100) (by omega) (by omega)
    simp only [chars_cons, e100]
    split
    · have := Cn100.hundred hd
      rwa [show n / 100 * 100 = n by omega] at this
    · split
      · rw [chars_cons, ones_read (by omega) (by omega), e0]
        have := Cn100.gap (z := ("零", 0)) hd (by simp [cnZeros]) (cn_digit_unit (d := n % 100) (by omega) (by omega))
        rwa [show n / 100 * 100 + n % 100 = n by omega] at this
      · have := Cn100.more hd (tens_read (n := n % 100) (by omega) (by omega))
        rwa [show n / 100 * 100 + n % 100 = n by omega] at this

theorem thousands_read {n : Nat} (h0 : 0 < n) (h : n < 10000) : Cn1000 (chars (zhThousands false n)) n := by
  have e1000 : String.singleton '千' = "千" := by decide
  have e0 : String.singleton '零' = "零" := by decide
  unfold zhThousands
  split
  · exact .less (hundreds_read h0 (by omega))
  · have hd := cn_digit_unit (d := n / 1000) (by omega) (by omega)
    simp only [chars_cons, e1000]
    split
    · have := Cn1000.thousand hd
      rwa [show n / 1000 * 1000 = n by omega] at this
    · split
      · rw [chars_cons, e0]
        have := Cn1000.gap (z := ("零", 0)) hd (by simp [cnZeros]) (tens_read (n := n % 1000) (by omega) (by omega))
        rwa [show n / 1000 * 1000 + n % 1000 = n by omega] at this
      · have := Cn1000.more hd (hundreds_read (n := n % 1000) (by omega) (by omega))
        rwa [show n / 1000 * 1000 + n % 1000 = n by omega] at this

/-- 十 and a digit in front, or read -/
theorem thousands_short (short : Bool) {n : Nat} (h0 : 0 < n) (h : n < 10000) : (short = true ∧ TeenStart (zhThousands short n)) ∨ Cn1000 (chars (zhThousands short n)) n := by
  cases short with
  | false => exact .inr (thousands_read h0 h)
  | true =>
    by_cases h1 : n < 100
    · have e : zhThousands true n = zhTens true n := by
        rw [zhThousands, if_pos (by omega), zhHundreds, if_pos (by omega)]
      rw [e]
      by_cases h2 : n / 10 = 1
      · by_cases h3 : n = 10
        · subst h3
          exact .inr (.less (.less .ten))
        · have : n < 20 := by omega
          have : 10 < n := by omega
          left
          refine ⟨rfl, zhDigit (n - 10), ?_, [], ?_⟩
          · interval_cases n <;> decide
          · interval_cases n <;> decide
      · have e2 : zhTens true n = zhTens false n := by
          unfold zhTens
          simp [h2]
        rw [e2]
        exact .inr (.less (.less (tens_read h0 h1)))
    · have e : zhThousands true n = zhThousands false n := by
        unfold zhThousands
        by_cases h2 : n / 1000 = 0
        · rw [if_pos h2, if_pos h2]
          unfold zhHundreds
          have h3 : ¬ n / 100 = 0 := by omega
          rw [if_neg h3, if_neg h3]
        · rw [if_neg h2, if_neg h2]
      rw [e]
      exact .inr (thousands_read h0 h)

theorem teen_append {l : List Char} (h : TeenStart l) (r : List Char) : TeenStart (l ++ r) := by
  obtain ⟨d, hd, s, rfl⟩ := h
  exact ⟨d, hd, s ++ r, rfl⟩

/-- up to a gap after 万, the text is that of another number, which is read -/
structure GapStop (zh : Nat → List Char) (R : List String → Nat → Prop) (n m : Nat) : Prop where
  pos : 0 < m
  less : m < n
  read : R (chars (zh m)) m
  myriad : ∃ s, zh m = s ++ ['万']
  gap : ∃ r, zh n = zh m ++ '零' :: r

theorem myriads_short (short : Bool) {n : Nat} (h0 : 0 < n) (h : n < 100000000) :
    (short = true ∧ TeenStart (zhMyriads short n)) ∨ Cn10000 (chars (zhMyriads short n)) n ∨
      GapStop (zhMyriads short) Cn10000 n (n / 10000 * 10000) := by
  have e10000 : String.singleton '万' = "万" := by decide
  by_cases h1 : n / 10000 = 0
  · rw [show zhMyriads short n = zhThousands short n by rw [zhMyriads, if_pos h1]]
    rcases thousands_short short h0 (by omega) with h2 | h2
    · exact .inl h2
    · exact .inr (.inl (.less h2))
  · rcases thousands_short short (n := n / 10000) (by omega) (by omega) with h2 | h2
    · left
      rw [zhMyriads, if_neg h1]
      exact ⟨h2.1, teen_append h2.2 _⟩
    · right
      by_cases h3 : n % 10000 = 0
      · left
        have := Cn10000.myriad h2
        rw [show n / 10000 * 10000 = n by omega] at this
        rw [zhMyriads, if_neg h1, if_pos h3]
        simpa [e10000] using this
      · by_cases h4 : n % 10000 < 1000
        · right
          have e : zhMyriads short (n / 10000 * 10000) = zhThousands short (n / 10000) ++ ['万'] := by
            rw [zhMyriads, show n / 10000 * 10000 / 10000 = n / 10000 by omega, if_neg h1, if_pos (by omega)]
          refine ⟨by omega, by omega, ?_, ⟨_, e⟩, zhHundreds false (n % 10000), ?_⟩
          · rw [e]
            simpa [e10000] using Cn10000.myriad h2
          · rw [e, zhMyriads, if_neg h1, if_neg h3, if_pos h4]
            simp
        · left
          have := Cn10000.more h2 (thousands_read (n := n % 10000) (by omega) (by omega))
          rw [show n / 10000 * 10000 + n % 10000 = n by omega] at this
          rw [zhMyriads, if_neg h1, if_neg h3, if_neg h4]
          simpa [e10000] using this

theorem number_short (short : Bool) {n : Nat} (h0 : 0 < n) (h : n < 10 ^ 16) :
    (short = true ∧ TeenStart (zhNumber short n)) ∨ CnNum (chars (zhNumber short n)) n ∨ ∃ m, GapStop (zhNumber short) CnNum n m := by
  have eyi : String.singleton '亿' = "亿" := by decide
  have e0 : String.singleton '零' = "零" := by decide
  have hsmall : ∀ {m : Nat}, 0 < m → m < 100000000 → zhNumber short m = zhMyriads short m := by
    intro m h1 h2
    rw [zhNumber, if_neg (by omega), if_pos (by omega)]
  by_cases h1 : n / 100000000 = 0
  · rw [hsmall h0 (by omega)]
    rcases myriads_short short h0 (by omega) with h2 | h2 | ⟨h2, h3, h4, h5, h6⟩
    · exact .inl h2
    · exact .inr (.inl (.less h2))
    · refine .inr (.inr ⟨_, h2, h3, ?_, ?_, ?_⟩)
      · rw [hsmall h2 (by omega)]; exact .less h4
      · rw [hsmall h2 (by omega)]; exact h5
      · rw [hsmall h2 (by omega), hsmall h0 (by omega)]; exact h6
  · have e : ∀ {k : Nat}, k / 100000000 = n / 100000000 → zhNumber short k = zhMyriads short (n / 100000000) ++ '亿' ::
        (if k % 100000000 = 0 then [] else if k % 100000000 < 10000000 then '零' :: zhMyriads false (k % 100000000)
          else zhMyriads false (k % 100000000)) := by
      intro k hk
      rw [zhNumber, if_neg (by rintro rfl; omega), hk, if_neg h1]
    rcases myriads_short short (n := n / 100000000) (by omega) (by omega) with h2 | h2 | ⟨h2, h3, h4, h5, r, h6⟩
    · left
      rw [e rfl]
      exact ⟨h2.1, teen_append h2.2 _⟩
    · right
      by_cases h3 : n % 100000000 = 0
      · left
        have := CnNum.yi h2
        rw [show n / 100000000 * 100000000 = n by omega] at this
        rw [e rfl, if_pos h3]
        simpa [eyi] using this
      · rcases myriads_short false (n := n % 100000000) (by omega) (by omega) with ⟨h4, -⟩ | h4 | ⟨g1, g2, g3, ⟨s, g4⟩, r, g5⟩
        · cases h4
        · left
          rw [e rfl, if_neg h3]
          split
          · have := CnNum.gap (z := ("零", 0)) (by simp [cnZeros]) h2 h4
            rw [show n / 100000000 * 100000000 + n % 100000000 = n by omega] at this
            simpa [eyi, e0] using this
          · have := CnNum.more h2 h4
            rw [show n / 100000000 * 100000000 + n % 100000000 = n by omega] at this
            simpa [eyi] using this
        · right
          generalize hm : n % 100000000 / 10000 * 10000 = m at g1 g2 g3 g4 g5
          have hdiv : (n / 100000000 * 100000000 + m) / 100000000 = n / 100000000 := by omega
          have hmod : (n / 100000000 * 100000000 + m) % 100000000 = m := by omega
          have em := e hdiv
          rw [hmod, if_neg (by omega)] at em
          refine ⟨n / 100000000 * 100000000 + m, by omega, by omega, ?_, ?_, r, ?_⟩
          · rw [em]
            split
            · simpa [eyi, e0] using CnNum.gap (z := ("零", 0)) (by simp [cnZeros]) h2 g3
            · simpa [eyi] using CnNum.more h2 g3
          · rw [em]
            split
            · exact ⟨zhMyriads short (n / 100000000) ++ '亿' :: '零' :: s, by rw [g4]; simp⟩
            · exact ⟨zhMyriads short (n / 100000000) ++ '亿' :: s, by rw [g4]; simp⟩
          · rw [em, e rfl, if_neg h3, g5]
            by_cases h7 : n % 100000000 < 10000000
            · rw [if_pos h7, if_pos (by omega)]; simp
            · rw [if_neg h7, if_neg (by omega)]; simp
    · refine .inr (.inr ⟨_, h2, by omega, ?_, ?_, ?_⟩)
      · rw [hsmall h2 (by omega)]; exact .less h4
      · rw [hsmall h2 (by omega)]; exact h5
      · rw [hsmall h2 (by omega), e rfl, h6, List.append_assoc]
        exact ⟨_, rfl⟩

theorem cnNum_begin {l : List String} {n : Nat} (h : CnNum l n) {x : String} {r : List String} (e : l = x :: r) : x ≠ "零" := by
  rintro rfl
  have key : ∀ {l : List String} {n : Nat}, Cn10000 l n → ∀ {t : List String}, l ++ t ≠ "零" :: r := by
    intro l n h t e
    obtain ⟨y, s, rfl, hy⟩ := (cn10000_words h).head
    obtain ⟨rfl, -⟩ := List.cons.inj e
    exact (cn10000_words h).begin rfl (by simp)
  cases h with
  | yi h => exact key h e
  | more h _ => exact key h e
  | gap _ h _ => exact key h e
  | less h => exact key h (t := []) (by rw [List.append_nil, e])

theorem cnNum_ne {l : List String} {n : Nat} (h : CnNum l n) : l ≠ [] := by
  cases h with
  | yi h => simp
  | more h _ => simp
  | gap _ h _ => simp
  | less h => exact (cn10000_words h).ne

/-! ## prefixes -/

theorem chars_take (l : List Char) (k : Nat) : chars (l.take k) = (chars l).take k := by simp [chars]

theorem chars_inj {a b : List Char} (h : chars a = chars b) : a = b := by
  refine List.map_injective_iff.2 (fun x y e => ?_) h
  have := congrArg String.toList e
  simpa using this

/-- with 十 and a digit in front, nothing longer than 十 is read -/
theorem teen_prefix {l : List Char} (h : TeenStart l) {k n : Nat} (hk : CnNum ((chars l).take k) n) : k ≤ 1 := by
  obtain ⟨d, hd, r, rfl⟩ := h
  by_contra hlt
  obtain ⟨k, rfl⟩ : ∃ j, k = j + 2 := ⟨k - 2, by omega⟩
  have hd' : ∃ p ∈ cnUnits, String.singleton d = p.1 := by
    simp only [List.mem_cons, List.not_mem_nil, or_false] at hd
    rcases hd with rfl | rfl | rfl | rfl | rfl | rfl | rfl | rfl | rfl <;> decide +kernel
  obtain ⟨p, hp, e⟩ := hd'
  refine cnNum_noTeen hk (String.singleton d) ((chars r).take k) ?_ p hp e
  have e10 : String.singleton '十' = "十" := by decide
  simp [e10]

/-- nothing is read beyond a gap after 万 -/
theorem gap_prefix {a b : List Char} {k n : Nat} (hk : CnNum ((chars (a ++ '万' :: '零' :: b)).take k) n) : k ≤ a.length + 1 := by
  by_contra hlt
  obtain ⟨k, rfl⟩ : ∃ j, k = a.length + 2 + j := ⟨k - (a.length + 2), by omega⟩
  refine cnNum_noGap hk (chars a) ((chars b).take k) ?_
  have e1 : String.singleton '万' = "万" := by decide
  have e2 : String.singleton '零' = "零" := by decide
  rw [← chars_take, show a ++ '万' :: '零' :: b = (a ++ ['万', '零']) ++ b by simp,
    List.take_append, List.take_of_length_le (by simp)]
  simp [e1, e2, chars_take]

theorem whole_ok {l : List Char} {n : Nat} (h : CnNum (chars l) n) : ¬ TeenStart l ∧ ¬ MyriadGap l := by
  constructor
  · intro ht
    have := teen_prefix ht (k := l.length) (n := n) (by rwa [List.take_of_length_le (by simp [chars])])
    obtain ⟨d, -, r, rfl⟩ := ht
    simp at this
  · rintro ⟨a, b, rfl⟩
    have := gap_prefix (a := a) (b := b) (k := (a ++ '万' :: '零' :: b).length) (n := n) (by rwa [List.take_of_length_le (by simp [chars])])
    simp at this

end Fmr
