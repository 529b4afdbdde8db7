import Verif.Proofs.BuiltinLang

/-!
# How examples/builtin/builtin.grammar reads numerals
-/

namespace Fmr

/-- the numbers of one word -/
def biWords : List (String × Nat) := biUnits ++ enTeens ++ enTens

def IsMag (w : String) : Prop := ∃ p ∈ biMags, w = p.1

instance (w : String) : Decidable (IsMag w) := by unfold IsMag; infer_instance

/-- a word with which a number can begin -/
def IsHead (w : String) : Prop := ∃ p ∈ biWords, w = p.1

theorem head_apart {w : String} (h : IsHead w) : ¬ IsMag w ∧ w ≠ "and" ∧ w ≠ "-" ∧ w ≠ "," := by
  have : ∀ p ∈ biWords, ¬ IsMag p.1 ∧ p.1 ≠ "and" ∧ p.1 ≠ "-" ∧ p.1 ≠ "," := by decide +kernel
  obtain ⟨p, hp, rfl⟩ := h
  exact this p hp

theorem and_not_mag : ¬ IsMag "and" ∧ ¬ IsMag "-" ∧ ¬ IsMag "," := by decide +kernel

theorem sep_not_mag {sep : List String} (h : sep ∈ [[], ["and"], ["-"], [","]]) : ∀ x ∈ sep, ¬ IsMag x := by
  obtain ⟨h1, h2, h3⟩ := and_not_mag
  simp only [List.mem_cons, List.not_mem_nil, or_false] at h
  rcases h with rfl | rfl | rfl | rfl <;> simp [*]

theorem head_unit {p : String × Nat} (h : p ∈ biUnits) : IsHead p.1 := ⟨p, by simp [biWords, h], rfl⟩

theorem head_tens {p : String × Nat} (h : p ∈ enTens) : IsHead p.1 := ⟨p, by simp [biWords, h], rfl⟩

theorem digit_unit {p : String × Nat} (h : p ∈ enDigits) : p ∈ biUnits := by
  have : ∀ p ∈ enDigits, p ∈ biUnits := by decide +kernel
  exact this p h

theorem words_inj {p q : String × Nat} (hp : p ∈ biWords) (hq : q ∈ biWords) (h : p.1 = q.1) : p = q := by
  have : ∀ p ∈ biWords, ∀ q ∈ biWords, p.1 = q.1 → p = q := by decide +kernel
  exact this p hp q hq h

theorem mags_inj {p q : String × Nat} (hp : p ∈ biMags) (hq : q ∈ biMags) (h : p.1 = q.1) : p = q := by
  have : ∀ p ∈ biMags, ∀ q ∈ biMags, p.1 = q.1 → p = q := by decide +kernel
  exact this p hp q hq h

theorem magList_inj : ∀ {ps qs : List (String × Nat)}, (∀ p ∈ ps, p ∈ biMags) → (∀ p ∈ qs, p ∈ biMags) →
    ps.map (·.1) = qs.map (·.1) → ps = qs
  | [], [], _, _, _ => rfl
  | [], _ :: _, _, _, h => by cases h
  | _ :: _, [], _, _, h => by cases h
  | p :: ps, q :: qs, hp, hq, h => by
    obtain ⟨h1, h2⟩ := List.cons.inj h
    rw [mags_inj (hp p (.head _)) (hq q (.head _)) h1,
      magList_inj (fun p h => hp p (.tail _ h)) (fun p h => hq p (.tail _ h)) h2]

/-! ## the shape of the texts -/

theorem base_shape {l : List String} {c : Calc} (h : BiBase l c) : (∃ x r, l = x :: r ∧ IsHead x) ∧ ∀ x ∈ l, ¬ IsMag x := by
  cases h with
  | @word p hp => exact ⟨⟨_, _, rfl, p, hp, rfl⟩, by simpa using (head_apart ⟨p, hp, rfl⟩).1⟩
  | @both p q sep hp hq hs =>
    refine ⟨⟨_, _, rfl, head_tens hp⟩, fun x hx => ?_⟩
    simp only [List.mem_cons, List.mem_append, List.not_mem_nil, or_false] at hx
    rcases hx with rfl | hx | rfl
    · exact (head_apart (head_tens hp)).1
    · exact sep_not_mag hs x hx
    · exact (head_apart (head_unit hq)).1

theorem mag_shape {l : List String} {c : Calc} (h : BiMag l c) : ∃ b cb, ∃ h ∈ [[], ["-"]], ∃ ps : List (String × Nat), ps ≠ [] ∧
    (∀ p ∈ ps, p ∈ biMags) ∧ BiBase b cb ∧ l = b ++ h ++ ps.map (·.1) ∧ c.value = cb.value * ((ps.map (·.2)).prod : Nat) := by
  induction h with
  | @one l h c p h1 h2 hp => exact ⟨l, c, h, h2, [p], by simp, by simpa using hp, h1, by simp, by simp [Calc.value]⟩
  | @more l c p h1 hp ih =>
    obtain ⟨b, cb, h, hh, ps, -, h3, h4, rfl, h5⟩ := ih
    refine ⟨b, cb, h, hh, ps ++ [p], by simp, ?_, h4, by simp, ?_⟩
    · intro q hq
      rcases List.mem_append.1 hq with hq | hq
      · exact h3 q hq
      · rwa [List.mem_singleton.1 hq]
    · simp only [Calc.value, h5, List.map_append, List.map_cons, List.map_nil, List.prod_append, List.prod_cons, List.prod_nil, mul_one,
        Nat.cast_mul, mul_assoc]

theorem sec_head {l : List String} {c : Calc} (h : BiSec l c) : ∃ x r, l = x :: r ∧ IsHead x := by
  cases h with
  | base h => exact (base_shape h).1
  | mag h =>
    obtain ⟨b, cb, h, -, ps, -, -, h1, rfl, -⟩ := mag_shape h
    obtain ⟨x, r, rfl, hx⟩ := (base_shape h1).1
    exact ⟨x, _, rfl, hx⟩

theorem num_head {l : List String} {c : Calc} (h : BiNum l c) : ∃ x r, l = x :: r ∧ IsHead x := by
  cases h with
  | last h => exact sec_head h
  | more h =>
    obtain ⟨x, r, rfl, hx⟩ := sec_head h
    exact ⟨x, _, rfl, hx⟩

/-- after a unit there are only units -/
theorem sec_after {x y : List String} {m : String} {c : Calc} (hm : IsMag m) (h : BiSec (x ++ m :: y) c) : ∀ z ∈ y, IsMag z := by
  generalize e : x ++ m :: y = l at h
  cases h with
  | base h => exact absurd hm ((base_shape h).2 m (by rw [← e]; simp))
  | mag hmag =>
    obtain ⟨b, cb, h, hh, ps, -, hps, h1, rfl, -⟩ := mag_shape hmag
    have hno : ∀ z ∈ b ++ h, ¬ IsMag z := by
      intro z hz
      rcases List.mem_append.1 hz with hz | hz
      · exact (base_shape h1).2 z hz
      · refine sep_not_mag ?_ z hz
        simp only [List.mem_cons, List.not_mem_nil, or_false] at hh ⊢
        rcases hh with rfl | rfl <;> simp
    rcases List.append_eq_append_iff.1 e with ⟨t, h2, h3⟩ | ⟨t, h2, h3⟩
    · cases t with
      | nil =>
        intro z hz
        have : z ∈ ps.map (·.1) := by
          rw [← List.nil_append (ps.map _), ← h3]
          exact .tail _ hz
        obtain ⟨p, hp, rfl⟩ := List.mem_map.1 this
        exact ⟨p, hps p hp, rfl⟩
      | cons u t =>
        have : u = m := (List.cons.inj h3).1.symm
        subst this
        exact absurd hm (hno u (by rw [h2]; simp))
    · intro z hz
      have : z ∈ ps.map (·.1) := by rw [h3]; simp [hz]
      obtain ⟨p, hp, rfl⟩ := List.mem_map.1 this
      exact ⟨p, hps p hp, rfl⟩

/-- After a unit that no unit follows, a number can be cut. -/
theorem num_cut {a b and : List String} {m x : String} {c : Calc} (hm : IsMag m) (hx : IsHead x) (hand : and ∈ [[], ["and"]])
    (h : BiNum (a ++ m :: (and ++ x :: b)) c) :
    ∃ c1 c2, BiNum (a ++ [m]) c1 ∧ BiNum (x :: b) c2 ∧ c.value = c1.value + c2.value := by
  obtain ⟨hx1, hx2, -, -⟩ := head_apart hx
  have hmand : m ≠ "and" := fun e => and_not_mag.1 (e ▸ hm)
  have tail : ∀ {z r}, and ++ x :: b = z :: r → ¬ IsMag z := by
    intro z r e
    simp only [List.mem_cons, List.not_mem_nil, or_false] at hand
    rcases hand with rfl | rfl
    · exact (List.cons.inj e).1 ▸ hx1
    · exact (List.cons.inj e).1 ▸ and_not_mag.1
  obtain ⟨z, r, hz⟩ : ∃ z r, and ++ x :: b = z :: r := List.exists_cons_of_ne_nil (by simp)
  generalize e : a ++ m :: (and ++ x :: b) = l at h
  induction h generalizing a with
  | @last l c h =>
    subst e
    exact absurd (sec_after hm h z (by rw [hz]; exact .head _)) (tail hz)
  | @more l l' sep c c' h1 h2 h3 ih =>
    obtain ⟨y, s, rfl, hy⟩ := num_head h3
    obtain ⟨-, hy2, -, -⟩ := head_apart hy
    rw [List.append_cons] at e
    rcases List.append_eq_append_iff.1 e with ⟨t, e1, e2⟩ | ⟨t, e1, e2⟩
    · cases t with
      | nil =>
        rw [List.append_nil] at e1
        subst e1
        refine ⟨c, c', .last h1, ?_, rfl⟩
        rw [List.nil_append] at e2
        simp only [List.mem_cons, List.not_mem_nil, or_false] at hand h2
        rcases hand with rfl | rfl <;> rcases h2 with rfl | rfl
        · rw [show x :: b = y :: s from e2]
          exact h3
        · exact absurd (List.cons.inj e2).1 hx2
        · exact absurd (List.cons.inj e2).1.symm hy2
        · rw [show x :: b = y :: s from (List.cons.inj e2).2]
          exact h3
      | cons u t =>
        subst e1
        rw [List.append_assoc, List.singleton_append] at h1
        have e3 : and ++ x :: b = u :: (t ++ (sep ++ y :: s)) := e2
        exact absurd (sec_after hm h1 u (.head _)) (tail e3)
    · have key : ∀ r2, r2 ++ (and ++ x :: b) = y :: s → ∀ r, a ++ [m] = r ++ r2 → r2 ≠ [] →
          (∀ {c2}, BiNum r2 c2 → BiNum (r ++ r2) (.add c c2)) →
          ∃ c1 c2, BiNum (a ++ [m]) c1 ∧ BiNum (x :: b) c2 ∧ (c.add c').value = c1.value + c2.value := by
        intro r2 h5 r h6 h7 h8
        obtain ⟨a', rfl⟩ : ∃ a', r2 = a' ++ [m] := by
          rcases List.eq_nil_or_concat r2 with h9 | ⟨a', m', h9⟩
          · exact absurd h9 h7
          · subst h9
            rw [List.concat_eq_append] at h6
            have := congrArg List.getLast? h6
            rw [← List.append_assoc] at this
            simp only [List.getLast?_append, List.getLast?_singleton, Option.some_or] at this
            exact ⟨a', by rw [Option.some.inj this, List.concat_eq_append]⟩
        obtain ⟨c1, c2, g1, g2, g3⟩ := ih (a := a') (by rw [← h5]; simp)
        refine ⟨_, c2, by rw [h6]; exact h8 g1, g2, ?_⟩
        simp only [Calc.value, g3, add_assoc]
      simp only [List.mem_cons, List.not_mem_nil, or_false] at h2
      rcases h2 with rfl | rfl
      · rw [List.nil_append] at e2
        by_cases ht : t = []
        · subst ht
          rw [List.append_nil] at e1
          rw [List.nil_append] at e2
          refine ⟨c, c', .last (by rw [e1]; exact h1), ?_, rfl⟩
          simp only [List.mem_cons, List.not_mem_nil, or_false] at hand
          rcases hand with rfl | rfl
          · rw [← show y :: s = x :: b from e2]
            exact h3
          · exact absurd (List.cons.inj e2).1 hy2
        · exact key t e2.symm l e1 ht fun {c2} g => by simpa using BiNum.more (sep := []) h1 (by simp) g
      · cases t with
        | nil =>
          rw [List.append_nil] at e1
          rw [List.nil_append] at e2
          refine ⟨c, c', .last (by rw [e1]; exact h1), ?_, rfl⟩
          simp only [List.mem_cons, List.not_mem_nil, or_false] at hand
          rcases hand with rfl | rfl
          · exact absurd (List.cons.inj e2).1.symm hx2
          · rw [show x :: b = y :: s from (List.cons.inj e2).2.symm]
            exact h3
        | cons u t =>
          obtain ⟨rfl, e3⟩ := List.cons.inj e2
          refine key t e3.symm (l ++ ["and"]) (by rw [e1]; simp) ?_ fun {c2} g => by
            simpa using BiNum.more (sep := ["and"]) h1 (by simp) g
          rintro rfl
          have := congrArg List.getLast? e1
          simp only [List.getLast?_append, List.getLast?_singleton, Option.some_or] at this
          exact hmand (Option.some.inj this)

/-- a number can be continued -/
theorem num_join {a b and : List String} {c1 c2 : Calc} (hand : and ∈ [[], ["and"]]) (h1 : BiNum a c1) (h2 : BiNum b c2) :
    ∃ c, BiNum (a ++ (and ++ b)) c ∧ c.value = c1.value + c2.value := by
  induction h1 with
  | last h => exact ⟨_, .more h hand h2, rfl⟩
  | more h hs _ ih =>
    obtain ⟨c, h3, h4⟩ := ih
    refine ⟨_, by simpa using BiNum.more h hs h3, ?_⟩
    simp only [Calc.value, h4, add_assoc]

/-! ## counts -/

section
variable {e : List String} (he : ∀ x ∈ e, ¬ IsMag x) {ps : List (String × Nat)} (hps : ∀ p ∈ ps, p ∈ biMags)
include he hps

theorem split_mags {b : List String} (hb : ∀ x ∈ b, ¬ IsMag x) {qs : List (String × Nat)} (hqs : ∀ p ∈ qs, p ∈ biMags)
    (h : e ++ ps.map (·.1) = b ++ qs.map (·.1)) : e = b ∧ ps = qs := by
  have hm : ∀ {ps : List (String × Nat)}, (∀ p ∈ ps, p ∈ biMags) → ∀ x ∈ ps.map (·.1), IsMag x := by
    intro ps hps x hx
    obtain ⟨p, hp, rfl⟩ := List.mem_map.1 hx
    exact ⟨p, hps p hp, rfl⟩
  rcases List.append_eq_append_iff.1 h with ⟨t, h1, h2⟩ | ⟨t, h1, h2⟩
  · cases t with
    | nil =>
      rw [List.append_nil] at h1
      exact ⟨h1.symm, magList_inj hps hqs (by simpa using h2)⟩
    | cons u t => exact absurd (hm hps u (by rw [h2]; simp)) (hb u (by rw [h1]; simp))
  · cases t with
    | nil =>
      rw [List.append_nil] at h1
      exact ⟨h1, magList_inj hps hqs (by simpa using h2.symm)⟩
    | cons u t => exact absurd (hm hqs u (by rw [h2]; simp)) (he u (by rw [h1]; simp))

/-- a section with these units -/
theorem sec_count (hl : ∀ b, e ≠ b ++ ["-"]) {c : Calc} (h : BiSec (e ++ ps.map (·.1)) c) :
    ∃ cb, BiBase e cb ∧ c.value = cb.value * ((ps.map (·.2)).prod : Nat) := by
  generalize el : e ++ ps.map (·.1) = l at h
  cases h with
  | base h =>
    obtain ⟨rfl, rfl⟩ := split_mags he hps (base_shape h).2 (qs := []) (by simp) (by simpa using el)
    exact ⟨c, h, by simp⟩
  | mag h =>
    obtain ⟨b, cb, h, hh, qs, -, hqs, h1, rfl, h2⟩ := mag_shape h
    have hb := (base_shape h1).2
    simp only [List.mem_cons, List.not_mem_nil, or_false] at hh
    rcases hh with rfl | rfl
    · obtain ⟨rfl, rfl⟩ := split_mags he hps hb hqs (by simpa using el)
      exact ⟨cb, h1, h2⟩
    · obtain ⟨h3, -⟩ := split_mags he hps (b := b ++ ["-"]) (by
        intro x hx
        rcases List.mem_append.1 hx with hx | hx
        · exact hb x hx
        · rw [List.mem_singleton.1 hx]; exact and_not_mag.2.1) hqs el
      exact absurd h3 (hl b)

/-- a number with these units: one section, or small numbers before it -/
theorem num_count {c : Calc} (h : BiNum (e ++ ps.map (·.1)) c) : BiSec (e ++ ps.map (·.1)) c ∨
    ∃ e1 sep e2 c1 c2, e = e1 ++ (sep ++ e2) ∧ BiBase e1 c1 ∧ sep ∈ [[], ["and"]] ∧ BiNum (e2 ++ ps.map (·.1)) c2 ∧ e2 ≠ [] ∧
      c.value = c1.value + c2.value := by
  have hm : ∀ x ∈ ps.map (·.1), IsMag x := by
    intro x hx
    obtain ⟨p, hp, rfl⟩ := List.mem_map.1 hx
    exact ⟨p, hps p hp, rfl⟩
  generalize el : e ++ ps.map (·.1) = l at h
  cases h with
  | last h => exact .inl h
  | @more l l' sep c c' h1 h2 h3 =>
    obtain ⟨x, r, rfl, hx⟩ := num_head h3
    have hx1 := (head_apart hx).1
    rcases List.append_eq_append_iff.1 el with ⟨t, e1, e2⟩ | ⟨t, e1, e2⟩
    · exact absurd (hm x (by rw [e2]; simp)) hx1
    · rcases List.append_eq_append_iff.1 e2 with ⟨u, g1, g2⟩ | ⟨u, g1, g2⟩
      · refine .inr ⟨l, sep, u, c, c', by rw [e1, g1], ?_, h2, by rwa [← g2], ?_, rfl⟩
        · cases h1 with
          | base h => exact h
          | mag h =>
            obtain ⟨b, cb, h, -, qs, hne, hqs, -, rfl, -⟩ := mag_shape h
            obtain ⟨q, qs, rfl⟩ := List.exists_cons_of_ne_nil hne
            exact absurd ⟨q, hqs q (.head _), rfl⟩ (he q.1 (by rw [e1]; simp))
        · rintro rfl
          exact absurd (hm x (by rw [show ps.map (·.1) = x :: r by simpa using g2.symm]; simp)) hx1
      · exact absurd (hm x (by rw [g2]; simp)) hx1

end

theorem base_one {s : String} {n : Nat} (hs : (s, n) ∈ biWords) {c : Calc} (h : BiBase [s] c) : c.value = n := by
  generalize e : [s] = l at h
  cases h with
  | @word p hp =>
    rw [← words_inj hs hp (List.cons.inj e).1]
    rfl
  | both => simp at e

theorem base_two {p q : String × Nat} (hp : p ∈ enTens) (hq : q ∈ biUnits) {sep : List String} (hs : sep ∈ [[], ["-"]]) {c : Calc}
    (h : BiBase (p.1 :: (sep ++ [q.1])) c) : c.value = p.2 + q.2 := by
  obtain ⟨-, -, a1, -⟩ := head_apart (head_unit hq)
  generalize e : p.1 :: (sep ++ [q.1]) = l at h
  cases h with
  | word => simp at e
  | @both p' q' sep' hp' hq' hs' =>
    obtain ⟨e1, e2⟩ := List.cons.inj e
    obtain ⟨-, e3⟩ := List.append_inj' e2 rfl
    rw [words_inj (p := p') (q := p) (by simp [biWords, hp']) (by simp [biWords, hp]) e1.symm,
      words_inj (p := q') (q := q) (by simp [biWords, hq']) (by simp [biWords, hq]) (List.cons.inj e3).1.symm]
    rfl

/-- one word with units -/
theorem one_count {s : String} {n : Nat} (hs : (s, n) ∈ biWords) {ps : List (String × Nat)} (hps : ∀ p ∈ ps, p ∈ biMags) {c : Calc}
    (h : BiNum ([s] ++ ps.map (·.1)) c) : c.value = n * ((ps.map (·.2)).prod : Nat) := by
  have hh := head_apart ⟨_, hs, rfl⟩
  have he : ∀ x ∈ [s], ¬ IsMag x := by simpa using hh.1
  rcases num_count he hps h with h | ⟨e1, sep, e2, c1, c2, e, h1, -, -, h2, -⟩
  · obtain ⟨cb, h1, h2⟩ := sec_count he hps (fun b e => hh.2.2.1 (by
      have := congrArg List.getLast? e
      simpa using this)) h
    rw [h2, base_one hs h1]
  · have := congrArg List.length e
    have := List.length_pos_iff.2 h2
    have := List.length_pos_iff.2 (bi_base_ne h1)
    simp at *
    omega

/-- a number below a hundred with units: all of it is counted, or the tens stand for themselves -/
theorem tens_count {e : List String} {n : Nat} (h : EnTens n e) {ps : List (String × Nat)} (hps : ∀ p ∈ ps, p ∈ biMags) {c : Calc}
    (hc : BiNum (e ++ ps.map (·.1)) c) : c.value = n * ((ps.map (·.2)).prod : Nat) ∨
    ∃ p ∈ enTens, ∃ q ∈ enDigits, e = [p.1, q.1] ∧ n = p.2 + q.2 ∧ c.value = p.2 + q.2 * ((ps.map (·.2)).prod : Nat) := by
  cases h with
  | @word s n h =>
    refine .inl (one_count ?_ hps hc)
    have : ∀ p ∈ enDigits ++ enTeens ++ enTens, p ∈ biWords := by decide +kernel
    exact this _ h
  | @both s t m n hy hm hn hh =>
    have hs := head_apart (head_tens hm)
    have ht := head_apart (head_unit (digit_unit hn))
    have he : ∀ x ∈ s :: (hy ++ [t]), ¬ IsMag x := by
      intro x hx
      simp only [List.mem_cons, List.mem_append, List.not_mem_nil, or_false] at hx hh
      rcases hx with rfl | hx | rfl
      · exact hs.1
      · rcases hh with rfl | rfl
        · cases hx
        · rw [List.mem_singleton.1 hx]; exact and_not_mag.2.1
      · exact ht.1
    rcases num_count he hps hc with h | ⟨e1, sep, e2, c1, c2, e, h1, h2, h3, h4, h5⟩
    · obtain ⟨cb, g1, g2⟩ := sec_count he hps (fun b e => ht.2.2.1 (by
        rw [← List.cons_append] at e
        exact (List.cons.inj (List.append_inj' e rfl).2).1)) h
      refine .inl ?_
      rw [g2, base_two (p := (s, m)) (q := (t, n)) hm (digit_unit hn) hh g1]
      simp
    · simp only [List.mem_cons, List.not_mem_nil, or_false] at h2 hh
      cases e1 with
      | nil => exact absurd rfl (bi_base_ne h1)
      | cons u e1 =>
        obtain ⟨rfl, e'⟩ := List.cons.inj e
        clear e hc he
        cases e1 with
        | nil =>
          rcases hh with rfl | rfl
          · rcases h2 with rfl | rfl
            · replace e' : _ = e2 := e'
              subst e'
              refine .inr ⟨_, hm, _, hn, rfl, rfl, ?_⟩
              rw [h5, base_one (n := m) (by simp [biWords, hm]) h1, one_count (n := n) (by simp [biWords, digit_unit hn]) hps h3]
            · exact absurd (List.cons.inj e').1 ht.2.1
          · rcases h2 with rfl | rfl
            · replace e' : _ = e2 := e'
              subst e'
              obtain ⟨x, r, e, hx⟩ := num_head h3
              exact absurd (List.cons.inj e).1.symm (head_apart hx).2.2.1
            · exact absurd (List.cons.inj e').1 (by decide)
        | cons u' e1 =>
          have hlen := congrArg List.length (show _ = u' :: (e1 ++ (sep ++ e2)) from e')
          have hpos := List.length_pos_iff.2 h4
          rcases hh with rfl | rfl
          · simp only [List.length_append, List.length_cons, List.length_nil] at hlen; omega
          · simp only [List.length_append, List.length_cons, List.length_nil] at hlen
            obtain rfl : e1 = [] := List.length_eq_zero_iff.1 (by omega)
            obtain rfl : u' = "-" := (List.cons.inj e').1.symm
            generalize el : [s, "-"] = l at h1
            cases h1 with
            | word => simp at el
            | @both p q sep hp hq hs' =>
              have := congrArg List.getLast? el
              simp only [List.getLast?_cons_cons, List.getLast?_singleton, ← List.cons_append, List.getLast?_append, Option.some_or] at this
              exact absurd (Option.some.inj this).symm (head_apart (head_unit hq)).2.2.1

/-! ## numerals -/

theorem tens_begin {n : Nat} {l : List String} (h : EnTens n l) : ∃ x r, l = x :: r ∧ IsHead x := by
  have h1 : ∀ p ∈ enDigits ++ enTeens ++ enTens, p ∈ biWords := by decide +kernel
  cases h with
  | @word s n h => exact ⟨_, _, rfl, (s, n), h1 _ h, rfl⟩
  | both h => exact ⟨_, _, rfl, head_tens h⟩

theorem hundreds_begin {n : Nat} {l : List String} (h : EnHundreds n l) : ∃ x r, l = x :: r ∧ IsHead x := by
  cases h with
  | tens h => exact tens_begin h
  | hundreds h => exact ⟨_, _, rfl, head_unit (digit_unit h)⟩
  | both h => exact ⟨_, _, rfl, head_unit (digit_unit h)⟩

theorem counted_begin {k n : Nat} {l : List String} {cs : List (List String)} (h : EnCounted k n l cs) : ∃ x r, l = x :: r ∧ IsHead x := by
  induction h with
  | hundreds h => exact hundreds_begin h
  | less _ ih => exact ih
  | block h =>
    obtain ⟨x, r, rfl, hx⟩ := hundreds_begin h
    exact ⟨x, _, rfl, hx⟩
  | both h =>
    obtain ⟨x, r, rfl, hx⟩ := hundreds_begin h
    exact ⟨x, _, rfl, hx⟩

theorem hundred_mag : IsMag "hundred" := by decide +kernel

theorem digit_word {s : String} {d : Nat} (h : (s, d) ∈ enDigits) : (s, d) ∈ biWords ∧ 0 < d := by
  have h3 : ∀ p ∈ enDigits, 0 < p.2 := by decide
  exact ⟨by simp [biWords, digit_unit h], h3 _ h⟩

/-- the second word of a number below a hundred is not "hundred" -/
theorem tens_not_mixed {n : Nat} {l : List String} (h : EnTens n l) : ¬ MixedCount l := by
  rintro ⟨s, x, r, e⟩
  cases h with
  | word h => simp at e
  | @both s t m n hy hm hn hh =>
    simp only [List.mem_cons, List.not_mem_nil, or_false] at hh
    rcases hh with rfl | rfl
    · simp at e
    · exact absurd (List.cons.inj (List.cons.inj e).2).1 (by decide)

theorem both_mixed {s : String} {l and : List String} (hl : l ≠ []) (hand : and ∈ [[], ["and"]]) : MixedCount (s :: "hundred" :: (and ++ l)) := by
  obtain ⟨x, r, rfl⟩ := List.exists_cons_of_ne_nil hl
  simp only [List.mem_cons, List.not_mem_nil, or_false] at hand
  rcases hand with rfl | rfl
  · exact ⟨s, x, r, rfl⟩
  · exact ⟨s, "and", x :: r, rfl⟩

theorem hundred_apart {s : String} : ¬ OpenCount [s, "hundred"] ∧ ¬ MixedCount [s, "hundred"] := by
  have h1 : ∀ p ∈ enDigits, p.1 ≠ "hundred" := by decide +kernel
  constructor
  · rintro ⟨p, -, q, hq, e⟩
    exact h1 q hq (List.cons.inj (List.cons.inj e).2).1.symm
  · rintro ⟨s, x, r, e⟩
    simp at e

section
variable {ps : List (String × Nat)} (hps : ∀ p ∈ ps, p ∈ biMags)
include hps

/-- How a number below a thousand is read before units: `y` is counted, and `x` stands for itself. -/
theorem hundreds_count {m : Nat} {l : List String} (h : EnHundreds m l) {c : Calc} (hc : BiNum (l ++ ps.map (·.1)) c) :
    ∃ x y : Nat, c.value = x + y * ((ps.map (·.2)).prod : Nat) ∧ x + y = m ∧ (¬ OpenCount l → ¬ MixedCount l → x = 0) ∧
      (MixedCount l → 0 < x) := by
  have htens : ∀ {n : Nat} {l : List String}, EnTens n l → ∀ {c : Calc}, BiNum (l ++ ps.map (·.1)) c →
      ∃ x y : Nat, c.value = x + y * ((ps.map (·.2)).prod : Nat) ∧ x + y = n ∧ (¬ OpenCount l → x = 0) := by
    intro n l h c hc
    rcases tens_count h hps hc with h1 | ⟨p, hp, q, hq, rfl, rfl, h1⟩
    · exact ⟨0, n, by rw [h1]; simp, by simp, fun _ => rfl⟩
    · exact ⟨p.2, q.2, h1, rfl, fun h => absurd ⟨p, hp, q, hq, rfl⟩ h⟩
  cases h with
  | tens h =>
    obtain ⟨x, y, h1, h2, h3⟩ := htens h hc
    exact ⟨x, y, h1, h2, fun h _ => h3 h, fun hm => absurd hm (tens_not_mixed h)⟩
  | @hundreds s d h =>
    have := one_count (digit_word h).1 (ps := ("hundred", 100) :: ps) (by
      intro p hp
      rcases List.mem_cons.1 hp with rfl | hp
      · exact .head _
      · exact hps p hp) hc
    refine ⟨0, d * 100, ?_, by simp, fun _ _ => rfl, fun h => absurd h hundred_apart.2⟩
    rw [this]
    simp [mul_assoc]
  | @both s d n l and hd h hand =>
    obtain ⟨x, r, rfl, hx⟩ := tens_begin h
    obtain ⟨c1, c2, g1, g2, g3⟩ := num_cut (a := [s]) (b := r ++ ps.map (·.1)) hundred_mag hx hand (by simpa using hc)
    have g4 := one_count (digit_word hd).1 (ps := [("hundred", 100)]) (by intro p hp; rw [List.mem_singleton.1 hp]; exact .head _) g1
    obtain ⟨y, z, h1, h2, -⟩ := htens h g2
    have := (digit_word hd).2
    refine ⟨d * 100 + y, z, ?_, by omega, fun _ hm => absurd (both_mixed (by simp) hand) hm, fun _ => by omega⟩
    rw [g3, g4, h1]
    simp [add_assoc]

/-- a section -/
theorem sec_reads {e : List String} {cb : Calc} (h : BiBase e cb) :
    ∃ c, BiSec (e ++ ps.map (·.1)) c ∧ c.value = cb.value * ((ps.map (·.2)).prod : Nat) := by
  have key : ∀ ps : List (String × Nat), (∀ p ∈ ps, p ∈ biMags) → ps ≠ [] →
      ∃ c, BiMag (e ++ ps.map (·.1)) c ∧ c.value = cb.value * ((ps.map (·.2)).prod : Nat) := by
    intro ps
    induction ps using List.reverseRecOn with
    | nil => exact fun _ h => absurd rfl h
    | append_singleton ps p ih =>
      intro hps _
      by_cases hne : ps = []
      · subst hne
        exact ⟨_, .one (h := []) h (by simp) (hps p (by simp)), by simp [Calc.value]⟩
      · obtain ⟨c, h1, h2⟩ := ih (fun q hq => hps q (by simp [hq])) hne
        refine ⟨.mul c (.num p.2), ?_, ?_⟩
        · rw [List.map_append, ← List.append_assoc]
          exact .more h1 (hps p (by simp))
        · simp only [Calc.value, h2, List.map_append, List.map_cons, List.map_nil, List.prod_append, List.prod_cons, List.prod_nil,
            mul_one, Nat.cast_mul, mul_assoc]
  by_cases hne : ps = []
  · subst hne
    exact ⟨cb, by simpa using BiSec.base h, by simp⟩
  · obtain ⟨c, h1, h2⟩ := key ps hps hne
    exact ⟨c, .mag h1, h2⟩

theorem tens_base {n : Nat} {l : List String} (h : EnTens n l) : ∃ cb, BiBase l cb ∧ cb.value = n := by
  have h1 : ∀ p ∈ enDigits ++ enTeens ++ enTens, p ∈ biWords := by decide +kernel
  cases h with
  | @word s n h => exact ⟨_, .word (h1 _ h), rfl⟩
  | @both s t m n hy hm hn hh =>
    refine ⟨_, .both (p := (s, m)) (q := (t, n)) hm (digit_unit hn) ?_, rfl⟩
    simp only [List.mem_cons, List.not_mem_nil, or_false] at hh ⊢
    rcases hh with rfl | rfl <;> simp

/-- A number below a thousand is read before units; without hundreds and more, it can be counted as a whole; otherwise, and
with two words without hyphen, it can be counted in part. -/
theorem hundreds_reads {m : Nat} {l : List String} (h : EnHundreds m l) :
    (∃ c, BiNum (l ++ ps.map (·.1)) c) ∧ (¬ MixedCount l → ∃ c, BiNum (l ++ ps.map (·.1)) c ∧ c.value = m * ((ps.map (·.2)).prod : Nat)) ∧
    (OpenCount l ∨ MixedCount l → ∃ x y : Nat, 0 < x ∧ x + y = m ∧
      ∃ c, BiNum (l ++ ps.map (·.1)) c ∧ c.value = x + y * ((ps.map (·.2)).prod : Nat)) := by
  have htens : ∀ {n : Nat} {l : List String}, EnTens n l → ∃ c, BiNum (l ++ ps.map (·.1)) c ∧ c.value = n * ((ps.map (·.2)).prod : Nat) := by
    intro n l h
    obtain ⟨cb, h1, h2⟩ := tens_base hps h
    obtain ⟨c, h3, h4⟩ := sec_reads hps h1
    exact ⟨c, .last h3, by rw [h4, h2]⟩
  cases h with
  | tens h =>
    obtain ⟨c, h1, h2⟩ := htens h
    refine ⟨⟨c, h1⟩, fun _ => ⟨c, h1, h2⟩, ?_⟩
    rintro (⟨p, hp, q, hq, rfl⟩ | hm)
    · have hn : m = p.2 + q.2 := by
        have := (tens_base hps h)
        obtain ⟨cb, g1, g2⟩ := this
        have := base_two (sep := []) hp (digit_unit hq) (by simp) g1
        omega
      obtain ⟨c', g1, g2⟩ := sec_reads hps (BiBase.word (p := q) (by simp [digit_unit hq]))
      have g3 := BiNum.more (sep := []) (.base (.word (p := p) (by simp [hp]))) (by simp) (.last g1)
      refine ⟨p.2, q.2, ?_, hn.symm, _, g3, ?_⟩
      · have h3 : ∀ p ∈ enTens, 0 < p.2 := by decide
        exact h3 p hp
      · rw [Calc.value, g2]
        rfl
    · exact absurd hm (tens_not_mixed h)
  | @hundreds s d h =>
    obtain ⟨c, h1, h2⟩ := sec_reads (ps := ("hundred", 100) :: ps) (by
      intro p hp
      rcases List.mem_cons.1 hp with rfl | hp
      · exact .head _
      · exact hps p hp) (BiBase.word (digit_word h).1)
    refine ⟨⟨c, .last h1⟩, fun _ => ⟨c, .last h1, ?_⟩, ?_⟩
    · rw [h2]
      simp [Calc.value, mul_assoc]
    · rintro (h | h)
      · exact absurd h hundred_apart.1
      · exact absurd h hundred_apart.2
  | @both s d n l and hd h hand =>
    obtain ⟨x, r, hl, -⟩ := tens_begin h
    have hmix := both_mixed (s := s) (l := l) (by rw [hl]; simp) hand
    obtain ⟨c2, h1, h2⟩ := htens h
    obtain ⟨c1, h3, h4⟩ := sec_reads (ps := [("hundred", 100)]) (by intro p hp; rw [List.mem_singleton.1 hp]; exact .head _)
      (BiBase.word (digit_word hd).1)
    obtain ⟨c, h5, h6⟩ := num_join hand (.last h3) h1
    have h7 : BiNum (s :: "hundred" :: (and ++ l) ++ ps.map (·.1)) c := by simpa using h5
    refine ⟨⟨c, h7⟩, fun h => absurd hmix h, fun _ => ⟨d * 100, n, ?_, rfl, c, h7, ?_⟩⟩
    · have := (digit_word hd).2
      omega
    · rw [h6, h4, h2]
      simp [Calc.value]

end

theorem scale_mag {k : Nat} (hk : k < 3) : (enScale k, 1000 ^ (k + 1)) ∈ biMags := by
  have : ∀ k < 3, (enScale k, 1000 ^ (k + 1)) ∈ biMags := by decide +kernel
  exact this k hk

/-- what the grammar reads in a numeral -/
theorem counted_read {k n : Nat} {l : List String} {cs : List (List String)} (h : EnCounted k n l cs) (hk : k ≤ 3) {c : Calc}
    (hc : BiNum l c) : 0 < c.value ∧ c.value ≤ n ∧ ((∀ e ∈ cs, ¬ OpenCount e ∧ ¬ MixedCount e) → c.value = n) ∧
      ((∃ e ∈ cs, MixedCount e) → c.value < n) := by
  have block : ∀ {k m : Nat} {l : List String} {c : Calc}, k < 3 → EnHundreds m l → BiNum (l ++ [enScale k]) c →
      0 < c.value ∧ c.value ≤ m * 1000 ^ (k + 1) ∧ (¬ OpenCount l → ¬ MixedCount l → c.value = m * 1000 ^ (k + 1)) ∧
      (MixedCount l → c.value < m * 1000 ^ (k + 1)) := by
    intro k m l c hk h hc
    obtain ⟨x, y, h1, h2, h3, h4⟩ := hundreds_count (ps := [(enScale k, 1000 ^ (k + 1))]) (by
      intro p hp; rw [List.mem_singleton.1 hp]; exact scale_mag hk) h hc
    simp only [List.map_cons, List.map_nil, List.prod_cons, List.prod_nil, mul_one] at h1
    have hm := h.lt.1
    have hP : 1000 ≤ 1000 ^ (k + 1) := Nat.le_self_pow (by omega) 1000
    have hle : x + y * 1000 ^ (k + 1) ≤ m * 1000 ^ (k + 1) := by
      rw [← h2, Nat.add_mul]
      exact Nat.add_le_add_right (Nat.le_mul_of_pos_right x (by omega)) _
    have hlt : 0 < x → x + y * 1000 ^ (k + 1) < m * 1000 ^ (k + 1) := by
      intro hx
      rw [← h2, Nat.add_mul]
      have : x * 2 ≤ x * 1000 ^ (k + 1) := Nat.mul_le_mul_left x (by omega)
      omega
    have hpos : 0 < x + y * 1000 ^ (k + 1) := by
      rcases Nat.eq_zero_or_pos x with rfl | hx
      · have : 0 < y * 1000 ^ (k + 1) := Nat.mul_pos (by omega) (by omega)
        omega
      · omega
    refine ⟨by rw [h1]; exact_mod_cast hpos, by rw [h1]; exact_mod_cast hle, fun a b => ?_, fun a => ?_⟩
    · have hx := h3 a b
      subst hx
      rw [h1, ← h2]
      push_cast
      simp
    · rw [h1]
      exact_mod_cast hlt (h4 a)
  induction h generalizing c with
  | @hundreds n l h =>
    obtain ⟨x, y, h1, h2, -⟩ := hundreds_count (ps := []) (by simp) h (by simpa using hc)
    have hm := h.lt.1
    have : c.value = n := by
      rw [h1, ← h2]
      simp
    exact ⟨by omega, by omega, fun _ => this, by simp⟩
  | less _ ih => exact ih (by omega) hc
  | @block k m l h =>
    obtain ⟨h1, h2, h3, h4⟩ := block (by omega) h hc
    refine ⟨h1, by exact_mod_cast h2, fun hall => ?_, ?_⟩
    · have := hall l (.head _)
      rw [h3 this.1 this.2]
      push_cast
      rfl
    · rintro ⟨e, he, hm⟩
      rw [List.mem_singleton.1 he] at hm
      exact_mod_cast h4 hm
  | @both k m n l l' and cs h h' hand ih =>
    obtain ⟨x, r, rfl, hx⟩ := counted_begin h'
    obtain ⟨c1, c2, g1, g2, g3⟩ := num_cut ⟨_, scale_mag (by omega), rfl⟩ hx hand hc
    obtain ⟨h1, h2, h3, h4⟩ := block (by omega) h g1
    obtain ⟨i1, i2, i3, i4⟩ := ih (by omega) g2
    push_cast
    refine ⟨by omega, by omega, fun hall => ?_, ?_⟩
    · have := hall l (.head _)
      rw [g3, h3 this.1 this.2, i3 fun e he => hall e (.tail _ he)]
    · rintro ⟨e, he, hm⟩
      rcases List.mem_cons.1 he with rfl | he
      · have := h4 hm
        omega
      · have := i4 ⟨e, he, hm⟩
        omega

/-- readings of a numeral -/
theorem counted_reads {k n : Nat} {l : List String} {cs : List (List String)} (h : EnCounted k n l cs) (hk : k ≤ 3) :
    (∃ c, BiNum l c) ∧ ((∀ e ∈ cs, ¬ MixedCount e) → ∃ c, BiNum l c ∧ c.value = n) ∧
    ((∃ e ∈ cs, OpenCount e ∨ MixedCount e) → ∃ c, BiNum l c ∧ c.value < n) := by
  have block : ∀ {k m : Nat} {l : List String}, k < 3 → EnHundreds m l →
      (∃ c, BiNum (l ++ [enScale k]) c) ∧ (¬ MixedCount l → ∃ c, BiNum (l ++ [enScale k]) c ∧ c.value = m * 1000 ^ (k + 1)) ∧
      (OpenCount l ∨ MixedCount l → ∃ c, BiNum (l ++ [enScale k]) c ∧ c.value < m * 1000 ^ (k + 1)) := by
    intro k m l hk h
    obtain ⟨h1, h2, h3⟩ := hundreds_reads (ps := [(enScale k, 1000 ^ (k + 1))]) (by
      intro p hp; rw [List.mem_singleton.1 hp]; exact scale_mag hk) h
    simp only [List.map_cons, List.map_nil, List.prod_cons, List.prod_nil, mul_one] at h1 h2 h3
    refine ⟨h1, fun hm => ?_, fun hm => ?_⟩
    · obtain ⟨c, g1, g2⟩ := h2 hm
      exact ⟨c, g1, by rw [g2]; push_cast; rfl⟩
    · obtain ⟨x, y, g1, g2, c, g3, g4⟩ := h3 hm
      refine ⟨c, g3, ?_⟩
      have hP : 1000 ≤ 1000 ^ (k + 1) := Nat.le_self_pow (by omega) 1000
      have : x + y * 1000 ^ (k + 1) < m * 1000 ^ (k + 1) := by
        rw [← g2, Nat.add_mul]
        have : x * 2 ≤ x * 1000 ^ (k + 1) := Nat.mul_le_mul_left x (by omega)
        omega
      rw [g4]
      exact_mod_cast this
  have hle : ∀ {k n : Nat} {l : List String} {cs : List (List String)}, EnCounted k n l cs → k ≤ 3 → ∀ {c : Calc}, BiNum l c → c.value ≤ n :=
    fun h hk _ hc => (counted_read h hk hc).2.1
  induction h with
  | @hundreds n l h =>
    obtain ⟨⟨c, h1⟩, -⟩ := hundreds_reads (ps := []) (by simp) h
    obtain ⟨x, y, h2, h3, -⟩ := hundreds_count (ps := []) (by simp) h h1
    refine ⟨⟨c, by simpa using h1⟩, fun _ => ⟨c, by simpa using h1, ?_⟩, by simp⟩
    rw [h2, ← h3]
    simp
  | less _ ih => exact ih (by omega)
  | @block k m l h =>
    obtain ⟨h1, h2, h3⟩ := block (k := k) (by omega) h
    push_cast
    refine ⟨h1, fun hall => h2 (hall l (.head _)), ?_⟩
    rintro ⟨e, he, hm⟩
    rw [List.mem_singleton.1 he] at hm
    exact h3 hm
  | @both k m n l l' and cs h h' hand ih =>
    obtain ⟨⟨c1, h1⟩, h2, h3⟩ := block (k := k) (by omega) h
    obtain ⟨⟨c2, i1⟩, i2, i3⟩ := ih (by omega)
    have join : ∀ {c1 c2 : Calc}, BiNum (l ++ [enScale k]) c1 → BiNum l' c2 →
        ∃ c, BiNum (l ++ enScale k :: (and ++ l')) c ∧ c.value = c1.value + c2.value := by
      intro c1 c2 g1 g2
      obtain ⟨c, g3, g4⟩ := num_join hand g1 g2
      exact ⟨c, by simpa using g3, g4⟩
    have hc1 := hle (.block h) hk h1
    have hc2 := hle h' (by omega) i1
    push_cast at hc1 ⊢
    refine ⟨?_, fun hall => ?_, ?_⟩
    · obtain ⟨c, g1, -⟩ := join h1 i1
      exact ⟨c, g1⟩
    · obtain ⟨c, g1, g2⟩ := h2 (hall l (.head _))
      obtain ⟨c', g3, g4⟩ := i2 fun e he => hall e (.tail _ he)
      obtain ⟨c'', g5, g6⟩ := join g1 g3
      exact ⟨c'', g5, by rw [g6, g2, g4]⟩
    · rintro ⟨e, he, hm⟩
      rcases List.mem_cons.1 he with rfl | he
      · obtain ⟨c, g1, g2⟩ := h3 hm
        obtain ⟨c'', g5, g6⟩ := join g1 i1
        exact ⟨c'', g5, by rw [g6]; omega⟩
      · obtain ⟨c, g1, g2⟩ := i3 ⟨e, he, hm⟩
        obtain ⟨c'', g5, g6⟩ := join h1 g1
        exact ⟨c'', g5, by rw [g6]; omega⟩

end Fmr
