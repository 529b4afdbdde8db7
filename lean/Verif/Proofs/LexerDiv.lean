import Verif.Proofs.LexerFwd
import Verif.Proofs.LexerMono

/-!
# Texts on which the parser does not end: a line comment without newline at the end of the text
-/

namespace Fmr

/-- `x` does not end with `l` remaining -/
def Diverges (inp : List Char) {α : Type} (x : P α) (l : List Char) (ρ : List (String × String)) : Prop :=
  ∀ s, St inp s l ρ → x s = .div

section
variable {inp : List Char} {α β : Type} {ρ ρ1 ρ2 : List (String × String)} {l l1 : List Char}

theorem Diverges.bind {x : P α} {f : α → P β} {a : α} (h1 : Reads inp x l ρ a l1 ρ1) (h2 : Diverges inp (f a) l1 ρ1) :
    Diverges inp (x >>= f) l ρ := by
  intro s hs
  obtain ⟨s', e, hs'⟩ := h1 s hs
  show (match x s with | .ok (a, s) => f a s | .err => .err | .panic => .panic | .div => .div) = _
  rw [e]
  exact h2 s' hs'

theorem Diverges.bind0 {x : P α} {f : α → P β} (h1 : Diverges inp x l ρ) : Diverges inp (x >>= f) l ρ := by
  intro s hs
  show (match x s with | .ok (a, s) => f a s | .err => .err | .panic => .panic | .div => .div) = _
  rw [h1 s hs]

theorem Diverges.of_le {x y : P α} (h : P.le x y) (hy : Diverges inp y l ρ) : Diverges inp x l ρ := by
  intro s hs
  refine Classical.byContradiction fun hne => hne ?_
  rw [← h s hne]
  exact hy s hs

variable (hg : runeError ∉ inp) {w : LexWorld} (hw : w.OK)
include hg

theorem div_lineLoop {b : List Char} (hb : '\n' ∉ b) {n : Nat} : Diverges inp (lineLoop inp n) b ρ := by
  induction n generalizing b with
  | zero => exact fun _ _ => rfl
  | succ n ih =>
    unfold lineLoop
    refine Diverges.bind (reads_next hg) ?_
    cases b with
    | nil =>
      rw [if_neg (by simp)]
      exact ih (b := []) (by simp)
    | cons c b =>
      simp only [List.mem_cons, not_or] at hb
      rw [if_neg (by simpa using Ne.symm hb.1)]
      exact ih hb.2

theorem div_comment {b : List Char} (hb : '\n' ∉ b) {n : Nat} : Diverges inp (comment inp n) ('/' :: '/' :: b) ρ := by
  unfold comment
  refine Diverges.bind (reads_next hg) ?_
  simp only [List.head?_cons, ne_eq, not_true_eq_false, if_false, List.tail_cons]
  refine Diverges.bind (reads_peek hg) ?_
  rw [List.head?_cons, if_pos rfl]
  refine Diverges.bind0 ?_
  unfold lineComment
  exact Diverges.bind (reads_eat hg) (div_lineLoop hg hb)

include hw

theorem div_commentsLoop {g b : List Char} (h : Gap w g) (hb : '\n' ∉ b) {n0 n : Nat}
    (hn : (g ++ '/' :: '/' :: b).length < n0) :
    Diverges inp (commentsLoop w inp n0 n) (g ++ '/' :: '/' :: b) ρ := by
  have hsl := punct_not hw (c := '/') (by decide)
  induction h generalizing n with
  | @spaces s hs =>
    cases n with
    | zero => exact fun _ _ => rfl
    | succ n =>
      unfold commentsLoop
      refine Diverges.bind (reads_ws_app hg hs (Head.cons.mpr hsl.2.1) hn) ?_
      exact Diverges.bind0 (div_comment hg hb)
  | @line s b' g hs hb' _ ih =>
    cases n with
    | zero => exact fun _ _ => rfl
    | succ n =>
      simp only [List.append_assoc, List.cons_append] at hn ⊢
      unfold commentsLoop
      refine Diverges.bind (reads_ws_app hg hs (Head.cons.mpr hsl.2.1) hn) ?_
      refine Diverges.bind (a := true) (l1 := g ++ '/' :: '/' :: b) (ρ1 := ρ) ?_ ?_
      · unfold comment
        refine Reads.bind (reads_next hg) ?_
        simp only [List.head?_cons, ne_eq, not_true_eq_false, if_false, List.tail_cons]
        refine Reads.bind (reads_peek hg) ?_
        rw [List.head?_cons, if_pos rfl]
        refine Reads.bind (a := ()) (l1 := g ++ '/' :: '/' :: b) (ρ1 := ρ) ?_ (Reads.pure _)
        unfold lineComment
        exact Reads.bind (reads_eat hg) (reads_lineLoop hg hb' (by lens))
      · rw [if_pos rfl]
        exact ih (by lens)
  | @block s b' g hs hb' _ ih =>
    cases n with
    | zero => exact fun _ _ => rfl
    | succ n =>
      simp only [List.append_assoc, List.cons_append] at hn ⊢
      unfold commentsLoop
      refine Diverges.bind (reads_ws_app hg hs (Head.cons.mpr hsl.2.1) hn) ?_
      refine Diverges.bind (a := true) (l1 := g ++ '/' :: '/' :: b) (ρ1 := ρ) ?_ ?_
      · unfold comment
        refine Reads.bind (reads_next hg) ?_
        simp only [List.head?_cons, ne_eq, not_true_eq_false, if_false, List.tail_cons]
        refine Reads.bind (reads_peek hg) ?_
        rw [List.head?_cons, if_neg (by decide), if_pos rfl]
        refine Reads.bind (a := ()) (l1 := g ++ '/' :: '/' :: b) (ρ1 := ρ) ?_ (Reads.pure _)
        unfold multiLineComment
        exact Reads.bind (reads_eat hg) (reads_multiLoop hg hb' (by lens))
      · rw [if_pos rfl]
        exact ih (by lens)

theorem div_comments {g b : List Char} (h : Gap w g) (hb : '\n' ∉ b) {n : Nat} :
    Diverges inp (comments w inp n) (g ++ '/' :: '/' :: b) ρ := by
  refine Diverges.of_le (le_comments w inp (Nat.le_max_left n ((g ++ '/' :: '/' :: b).length + 1))) ?_
  unfold comments
  exact Diverges.bind0 (div_commentsLoop hg hw h hb (by omega))

theorem div_rulesLoop {d b : List Char} {ds : List Def} (h : DefsSyn w d ds ρ ρ1)
    (hk : ∀ e ∈ ds, ∃ kb, keyed w e.bodies = some kb) (hb : '\n' ∉ b) {n0 n : Nat}
    {m : List (String × Rule) × List (String × Rule)} (hn : (d ++ '/' :: '/' :: b).length < n0) :
    Diverges inp (rulesLoop w inp n0 n m) (d ++ '/' :: '/' :: b) ρ := by
  induction h generalizing n m with
  | @nil g ρ hgap =>
    cases n with
    | zero => exact fun _ _ => rfl
    | succ n =>
      unfold rulesLoop
      exact Diverges.bind0 (div_comments hg hw hgap hb)
  | @cons g l r d ds ρ ρ1 ρ2 hgap hd _ ih =>
    cases n with
    | zero => exact fun _ _ => rfl
    | succ n =>
      simp only [List.append_assoc] at hn ⊢
      obtain ⟨kb, hkb⟩ := hk d List.mem_cons_self
      have hfst : containsRune ['<', '['] (l ++ (r ++ '/' :: '/' :: b)).head? = true := by
        cases hd <;> rfl
      have hstop : Stop w (l ++ (r ++ '/' :: '/' :: b)) := by
        cases hd with
        | rule => exact stop_of_punct hw rfl (by decide)
        | frame => exact stop_of_punct hw rfl (by decide)
      unfold rulesLoop
      refine Diverges.bind (reads_comments hg hw hgap hstop hn) ?_
      refine Diverges.bind (reads_peek hg) ?_
      rw [if_pos hfst]
      refine Diverges.bind (reads_rule hg hw hd hkb (by lens)) ?_
      exact ih (fun e he => hk e (List.mem_cons_of_mem _ he)) (by lens)

/-- Neither the directives nor the rules of the text are ever read to the end. -/
theorem div_text {d b : List Char} {ds : List Def} (h : DefsSyn w d ds ρ ρ1)
    (hk : ∀ e ∈ ds, ∃ kb, keyed w e.bodies = some kb) (hb : '\n' ∉ b) {n : Nat} {name : String} {s : PSt}
    (hs : St inp s (d ++ '/' :: '/' :: b) ρ) :
    directive w inp n s = .div ∨
      ∃ s', directive w inp n s = .ok (none, s') ∧ grammarRules w inp n name s' = .div := by
  cases h with
  | @nil g ρ hgap =>
    left
    unfold directive
    exact Diverges.bind0 (div_comments hg hw hgap hb) s hs
  | @cons g l r d ds ρ ρ1 ρ2 hgap hd hds =>
    simp only [List.append_assoc] at hs
    have hstop : Stop w (l ++ (r ++ '/' :: '/' :: b)) := by
      cases hd with
      | rule => exact stop_of_punct hw rfl (by decide)
      | frame => exact stop_of_punct hw rfl (by decide)
    have hne : (l ++ (r ++ '/' :: '/' :: b)).head? ≠ some '#' := by
      cases hd <;> simp
    have hr : ∀ N, (g ++ (l ++ (r ++ '/' :: '/' :: b))).length < N →
        Reads inp (directive w inp N) (g ++ (l ++ (r ++ '/' :: '/' :: b))) ρ none (l ++ (r ++ '/' :: '/' :: b)) ρ := by
      intro N hN
      unfold directive
      refine Reads.bind (reads_comments hg hw hgap hstop hN) ?_
      refine Reads.bind (reads_peek hg) ?_
      rw [if_pos hne]
      exact Reads.pure _
    by_cases hdiv : directive w inp n s = .div
    · exact .inl hdiv
    · right
      obtain ⟨s', e, hs'⟩ := hr (max n ((g ++ (l ++ (r ++ '/' :: '/' :: b))).length + 1)) (by omega) s hs
      have e2 : directive w inp (max n ((g ++ (l ++ (r ++ '/' :: '/' :: b))).length + 1)) s = directive w inp n s :=
        le_directive _ _ (Nat.le_max_left _ _) s hdiv
      rw [e2] at e
      refine ⟨s', e, ?_⟩
      obtain ⟨ρ', hD⟩ : ∃ ρ', DefsSyn w (l ++ r) (d :: ds) ρ ρ' := ⟨_, by simpa using DefsSyn.cons (g := []) Gap.nil hd hds⟩
      have := Diverges.of_le (inp := inp) (le_grammarRules (name := name) w inp
        (Nat.le_max_left n (((l ++ r) ++ '/' :: '/' :: b).length + 1)))
        (l := (l ++ r) ++ '/' :: '/' :: b) (ρ := ρ) ?_
      · exact this s' (by simpa using hs')
      · unfold grammarRules
        exact Diverges.bind0 (div_rulesLoop hg hw hD hk hb (by omega))

end

end Fmr
