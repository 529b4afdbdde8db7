import Verif.Model.Lexer

/-!
# Behaviour of the basic steps of the grammar text parser

For inputs without U+FFFD a step of the parser depends only on the remaining input and on the regexps
collected so far. `Reads x l ρ a l' ρ'`: with `l` remaining, `x` returns `a` and leaves `l'`.
-/

namespace Fmr

@[simp] theorem P.pure_run {α : Type} (a : α) (s : PSt) : (pure a : P α) s = .ok (a, s) := rfl

theorem P.bind_run {α β : Type} (x : P α) (f : α → P β) (s : PSt) :
    (x >>= f) s = (x s >>= fun p => f p.1 p.2) := by
  show P.bind x f s = _
  unfold P.bind
  cases x s <;> rfl

@[simp] theorem P.fail_run {α : Type} (s : PSt) : (P.fail : P α) s = .err := rfl
@[simp] theorem P.div_run {α : Type} (s : PSt) : (P.div : P α) s = .div := rfl

theorem P.bind_eq_ok {α β : Type} {x : P α} {f : α → P β} {s s' : PSt} {b : β} :
    (x >>= f) s = .ok (b, s') ↔ ∃ a s1, x s = .ok (a, s1) ∧ f a s1 = .ok (b, s') := by
  rw [P.bind_run, Out.bind_eq_ok]
  constructor
  · rintro ⟨⟨a, s1⟩, h1, h2⟩
    exact ⟨a, s1, h1, h2⟩
  · rintro ⟨a, s1, h1, h2⟩
    exact ⟨(a, s1), h1, h2⟩

/-- the remaining input and the regexps of a parser state -/
def St (inp : List Char) (s : PSt) (l : List Char) (ρ : List (String × String)) : Prop :=
  inp.drop s.pos = l ∧ s.regexps = ρ

def Reads (inp : List Char) {α : Type} (x : P α) (l : List Char) (ρ : List (String × String)) (a : α)
    (l' : List Char) (ρ' : List (String × String)) : Prop :=
  ∀ s, St inp s l ρ → ∃ s', x s = .ok (a, s') ∧ St inp s' l' ρ'

def Fails (inp : List Char) {α : Type} (x : P α) (l : List Char) (ρ : List (String × String)) : Prop :=
  ∀ s, St inp s l ρ → x s = .err

section
variable {inp : List Char} {α β : Type} {ρ ρ1 ρ2 : List (String × String)} {l l1 l2 : List Char}

theorem Reads.pure (a : α) : Reads inp (pure a : P α) l ρ a l ρ := fun s h => ⟨s, rfl, h⟩

theorem Reads.bind {x : P α} {f : α → P β} {a : α} {b : β} (h1 : Reads inp x l ρ a l1 ρ1)
    (h2 : Reads inp (f a) l1 ρ1 b l2 ρ2) : Reads inp (x >>= f) l ρ b l2 ρ2 := by
  intro s hs
  obtain ⟨s1, e1, h1'⟩ := h1 s hs
  obtain ⟨s2, e2, h2'⟩ := h2 s1 h1'
  exact ⟨s2, P.bind_eq_ok.mpr ⟨a, s1, e1, e2⟩, h2'⟩

theorem Fails.fail : Fails inp (P.fail : P α) l ρ := fun _ _ => rfl

theorem Fails.bind_left {x : P α} {f : α → P β} (h : Fails inp x l ρ) : Fails inp (x >>= f) l ρ := by
  intro s hs
  rw [P.bind_run, h s hs]
  rfl

theorem Fails.bind_right {x : P α} {f : α → P β} {a : α} (h1 : Reads inp x l ρ a l1 ρ1)
    (h2 : Fails inp (f a) l1 ρ1) : Fails inp (x >>= f) l ρ := by
  intro s hs
  obtain ⟨s1, e1, h1'⟩ := h1 s hs
  rw [P.bind_run, e1]
  exact h2 s1 h1'

theorem Reads.eq {x : P α} {a : α} (h : Reads inp x l ρ a l1 ρ1) {s s' : PSt} {b : α}
    (hs : St inp s l ρ) (e : x s = .ok (b, s')) : b = a ∧ St inp s' l1 ρ1 := by
  obtain ⟨s1, e1, h1⟩ := h s hs
  rw [e1] at e
  cases e
  exact ⟨rfl, h1⟩

theorem Fails.ne {x : P α} (h : Fails inp x l ρ) {s s' : PSt} {b : α}
    (hs : St inp s l ρ) (e : x s = .ok (b, s')) : False := by
  rw [h s hs] at e
  cases e

variable (hg : runeError ∉ inp)
include hg

theorem next_run {s : PSt} (h : inp.drop s.pos = l) :
    (∃ c l', l = c :: l' ∧ next inp s = .ok (some c, { s with pos := s.pos + 1, width := 1 }) ∧
      inp.drop (s.pos + 1) = l') ∨
    (l = [] ∧ next inp s = .ok (none, { s with width := 0 })) := by
  cases l with
  | nil =>
    refine .inr ⟨rfl, ?_⟩
    have : inp[s.pos]? = none := by
      rw [List.getElem?_eq_none_iff]
      exact List.drop_eq_nil_iff.mp h
    simp [next, this]
  | cons c l' =>
    refine .inl ⟨c, l', rfl, ?_, ?_⟩
    · have h0 : inp[s.pos]? = some c := by
        have := congrArg List.head? h
        rw [List.head?_drop] at this
        simpa using this
      have hc : c ≠ runeError := by
        rintro rfl
        exact hg (List.mem_of_getElem? h0)
      simp [next, h0, hc]
    · rw [← List.drop_drop, h]; rfl

theorem reads_next : Reads inp (next inp) l ρ l.head? l.tail ρ := by
  rintro s ⟨h, hr⟩
  rcases next_run hg h with ⟨c, l', rfl, e, hd⟩ | ⟨rfl, e⟩
  · exact ⟨_, e, hd, hr⟩
  · exact ⟨_, e, h, hr⟩

/-- reading a rune and putting it back -/
theorem reads_next_backup {f : Option Char → P α} {a : α}
    (h : ∀ s, Fmr.St inp s l ρ → ∀ s1, f l.head? s1 = (backup >>= fun _ => (Pure.pure a : P α)) s1) :
    Reads inp (next inp >>= f) l ρ a l ρ := by
  rintro s ⟨hs, hr⟩
  have h' := h s ⟨hs, hr⟩
  rcases next_run hg hs with ⟨c, l', rfl, e, hd⟩ | ⟨rfl, e⟩
  · refine ⟨{ s with pos := s.pos + 1 - 1, width := 1 }, ?_, by simpa using hs, hr⟩
    rw [P.bind_run, e]
    simp only [Out.bind_ok]
    rw [List.head?_cons] at h'
    rw [h', P.bind_run]
    rfl
  · refine ⟨{ s with width := 0 }, ?_, hs, hr⟩
    rw [P.bind_run, e]
    simp only [Out.bind_ok]
    rw [List.head?_nil] at h'
    rw [h', P.bind_run]
    rfl

theorem reads_peek : Reads inp (peek inp) l ρ l.head? l ρ :=
  reads_next_backup hg fun _ _ _ => rfl

theorem reads_eat {c : Char} : Reads inp (eat inp c) (c :: l) ρ () l ρ := by
  refine Reads.bind (reads_next hg) ?_
  simp only [List.head?_cons, ne_eq, not_true_eq_false, ite_false]
  exact Reads.pure ()

theorem fails_eat {c : Char} (h : l.head? ≠ some c) : Fails inp (eat inp c) l ρ := by
  refine Fails.bind_right (reads_next hg) ?_
  rw [if_pos h]
  exact Fails.fail

/-- inversion of `eat` -/
theorem eat_inv {c : Char} {s s' : PSt} {u : Unit} (hs : St inp s l ρ) (e : eat inp c s = .ok (u, s')) :
    ∃ l', l = c :: l' ∧ St inp s' l' ρ := by
  cases l with
  | nil => exact absurd e (by rw [fails_eat hg (by simp) s hs]; simp)
  | cons d l' =>
    by_cases h : d = c
    · subst h
      exact ⟨l', rfl, ((reads_eat hg).eq hs e).2⟩
    · exact absurd e (by rw [fails_eat hg (by simpa using h) s hs]; simp)

variable (w : LexWorld)

theorem reads_ws {n : Nat} (hn : l.length < n) :
    Reads inp (ws w inp n) l ρ () (l.dropWhile w.isSpace) ρ := by
  induction n generalizing l with
  | zero => omega
  | succ n ih =>
    unfold ws
    cases l with
    | nil =>
      refine reads_next_backup hg fun _ _ s1 => ?_
      simp only [List.head?_nil, inClass]
      rfl
    | cons c l =>
      by_cases h : w.isSpace c
      · rw [List.dropWhile_cons_of_pos h]
        refine Reads.bind (reads_next hg) ?_
        simp only [List.head?_cons, inClass, h, if_true, List.tail_cons]
        exact ih (by simpa using hn)
      · rw [List.dropWhile_cons_of_neg h]
        refine reads_next_backup hg fun _ _ s1 => ?_
        simp only [List.head?_cons, inClass, h]
        rfl

/-- a rune that continues an identifier -/
def idCont (w : LexWorld) (first : Bool) (c : Char) : Bool :=
  w.isLetter c || c == '_' || (w.isDigit c && !first)

/-- the longest identifier prefix -/
def idTake (w : LexWorld) : Bool → List Char → List Char
  | _, [] => []
  | first, c :: l => if idCont w first c then c :: idTake w false l else []

def idDrop (w : LexWorld) : Bool → List Char → List Char
  | _, [] => []
  | first, c :: l => if idCont w first c then idDrop w false l else c :: l

omit hg in
theorem idTake_append_idDrop (first : Bool) : idTake w first l ++ idDrop w first l = l := by
  induction l generalizing first with
  | nil => rfl
  | cons c l ih =>
    unfold idTake idDrop
    split <;> simp [ih]

theorem reads_textLoop {n : Nat} {first : Bool} (hn : l.length < n) :
    Reads inp (textLoop w inp n first) l ρ (idTake w first l) (idDrop w first l) ρ := by
  induction n generalizing l first with
  | zero => omega
  | succ n ih =>
    unfold textLoop
    cases l with
    | nil => exact reads_next_backup hg fun _ _ s1 => rfl
    | cons c l =>
      by_cases h : idCont w first c
      · rw [idTake, idDrop, if_pos h, if_pos h]
        refine Reads.bind (reads_next hg) ?_
        simp only [List.head?_cons, List.tail_cons]
        rw [if_pos (by simpa [idCont, or_assoc] using h)]
        exact Reads.bind (ih (by simpa using hn)) (Reads.pure _)
      · rw [idTake, idDrop, if_neg h, if_neg h]
        refine reads_next_backup hg fun _ _ s1 => ?_
        simp only [List.head?_cons]
        rw [if_neg (by simpa [idCont, or_assoc] using h)]

theorem reads_text {n : Nat} (hn : l.length < n) (h : idTake w true l ≠ []) :
    Reads inp (text w inp n) l ρ (String.ofList (idTake w true l)) (idDrop w true l) ρ := by
  refine Reads.bind (reads_textLoop hg w hn) ?_
  rw [if_neg (by simpa using h)]
  exact Reads.pure _

theorem fails_text {n : Nat} (hn : l.length < n) (h : idTake w true l = []) :
    Fails inp (text w inp n) l ρ := by
  refine Fails.bind_right (reads_textLoop hg w hn) ?_
  rw [if_pos (by simpa using h)]
  exact Fails.fail

/-- the text of a literal up to the closing quote: the value and the rest, which starts with the quote -/
def litScan : Bool → List Char → Option (List Char × List Char)
  | _, [] => none
  | false, '"' :: l => some ([], '"' :: l)
  | true, c :: l =>
    match unescape c with
    | none => none
    | some x => (litScan false l).map fun p => (x :: p.1, p.2)
  | false, c :: l =>
    if c = '\\' then litScan true l
    else (litScan false l).map fun p => (c :: p.1, p.2)

theorem reads_terminalText {n : Nat} {esc : Bool} (hn : l.length < n) {v l' : List Char}
    (h : litScan esc l = some (v, l')) :
    Reads inp (terminalText inp n esc) l ρ v l' ρ := by
  induction n generalizing l esc v l' with
  | zero => omega
  | succ n ih =>
    unfold terminalText
    cases l with
    | nil => simp [litScan] at h
    | cons c l =>
      have hn' : l.length < n := by simpa using hn
      cases esc with
      | false =>
        by_cases hq : c = '"'
        · subst hq
          rw [litScan] at h
          cases h
          exact reads_next_backup hg fun _ _ s1 => rfl
        · refine Reads.bind (reads_next hg) ?_
          simp only [List.head?_cons, List.tail_cons]
          rw [if_neg (by simp [hq])]
          rw [litScan] at h
          · by_cases hb : c = '\\'
            · rw [if_pos hb] at h
              rw [if_neg (by simp), if_pos hb]
              exact ih hn' h
            · rw [if_neg hb, Option.map_eq_some_iff] at h
              obtain ⟨⟨v', l''⟩, h1, h2⟩ := h
              cases h2
              rw [if_neg (by simp), if_neg hb]
              exact Reads.bind (ih hn' h1) (Reads.pure _)
          · simpa using hq
      | true =>
        refine Reads.bind (reads_next hg) ?_
        simp only [List.head?_cons, List.tail_cons]
        rw [if_neg (by simp), if_pos trivial]
        rw [litScan] at h
        cases hu : unescape c with
        | none => rw [hu] at h; cases h
        | some x =>
          rw [hu] at h
          simp only [Option.map_eq_some_iff] at h
          obtain ⟨⟨v', l''⟩, h1, h2⟩ := h
          cases h2
          exact Reads.bind (ih hn' h1) (Reads.pure _)

theorem fails_terminalText {n : Nat} {esc : Bool} (hn : l.length < n) (h : litScan esc l = none) :
    Fails inp (terminalText inp n esc) l ρ := by
  induction n generalizing l esc with
  | zero => omega
  | succ n ih =>
    unfold terminalText
    cases l with
    | nil => exact Fails.bind_right (reads_next hg) Fails.fail
    | cons c l =>
      have hn' : l.length < n := by simpa using hn
      cases esc with
      | false =>
        by_cases hq : c = '"'
        · subst hq
          rw [litScan] at h
          cases h
        · refine Fails.bind_right (reads_next hg) ?_
          simp only [List.head?_cons, List.tail_cons]
          rw [if_neg (by simp [hq])]
          rw [litScan] at h
          · by_cases hb : c = '\\'
            · rw [if_pos hb] at h
              rw [if_neg (by simp), if_pos hb]
              exact ih hn' h
            · rw [if_neg hb, Option.map_eq_none_iff] at h
              rw [if_neg (by simp), if_neg hb]
              exact Fails.bind_left (ih hn' h)
          · simpa using hq
      | true =>
        refine Fails.bind_right (reads_next hg) ?_
        simp only [List.head?_cons, List.tail_cons]
        rw [if_neg (by simp), if_pos trivial]
        rw [litScan] at h
        cases hu : unescape c with
        | none => exact Fails.fail
        | some x =>
          rw [hu] at h
          simp only [Option.map_eq_none_iff] at h
          exact Fails.bind_left (ih hn' h)

end

end Fmr
