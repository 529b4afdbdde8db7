import Verif.Proofs.LexerHalt
import Verif.Proofs.LexerMono

/-!
# What the parser accepts is in the documented syntax
-/

namespace Fmr

/-- a successful run of `x` on `l` consumes a prefix and the result satisfies `Q` (result, consumed, rest,
regexps) -/
def OnOk (inp : List Char) {α : Type} (x : P α) (l : List Char) (ρ : List (String × String))
    (Q : α → List Char → List Char → List (String × String) → Prop) : Prop :=
  ∀ s a s', St inp s l ρ → x s = .ok (a, s') → ∃ t l' ρ', l = t ++ l' ∧ St inp s' l' ρ' ∧ Q a t l' ρ'

/-- the same up to one `backup` -/
def OnOkB (inp : List Char) {α : Type} (x : P α) (l : List Char) (ρ : List (String × String))
    (Q : α → List Char → List Char → Prop) : Prop :=
  ∀ s a s', St inp s l ρ → x s = .ok (a, s') → ∃ t l', l = t ++ l' ∧ inp.drop (s'.pos - s'.width) = l' ∧
    s'.regexps = ρ ∧ Q a t l'

section
variable {inp : List Char} {α β : Type} {ρ : List (String × String)} {l : List Char}

theorem OnOk.bind {x : P α} {f : α → P β} {Q : α → List Char → List Char → List (String × String) → Prop}
    {R : β → List Char → List Char → List (String × String) → Prop} (h1 : OnOk inp x l ρ Q)
    (h2 : ∀ a t l' ρ', l = t ++ l' → Q a t l' ρ' → OnOk inp (f a) l' ρ' (fun b t2 l2 ρ2 => R b (t ++ t2) l2 ρ2)) :
    OnOk inp (x >>= f) l ρ R := by
  intro s b s' hs e
  obtain ⟨a, s1, e1, e2⟩ := P.bind_eq_ok.mp e
  obtain ⟨t, l', ρ', rfl, hs1, hq⟩ := h1 s a s1 hs e1
  obtain ⟨t2, l2, ρ2, rfl, hs2, hr⟩ := h2 a t l' ρ' rfl hq s1 b s' hs1 e2
  exact ⟨t ++ t2, l2, ρ2, by simp, hs2, hr⟩

theorem OnOk.mono {x : P α} {Q R : α → List Char → List Char → List (String × String) → Prop}
    (h : OnOk inp x l ρ Q) (hq : ∀ a t l' ρ', l = t ++ l' → Q a t l' ρ' → R a t l' ρ') : OnOk inp x l ρ R := by
  intro s a s' hs e
  obtain ⟨t, l', ρ', h1, h2, h3⟩ := h s a s' hs e
  exact ⟨t, l', ρ', h1, h2, hq a t l' ρ' h1 h3⟩

theorem OnOk.pure {a : α} {Q : α → List Char → List Char → List (String × String) → Prop} (h : Q a [] l ρ) :
    OnOk inp (Pure.pure a : P α) l ρ Q := by
  intro s b s' hs e
  cases e
  exact ⟨[], l, ρ, rfl, hs, h⟩

theorem OnOk.fail {Q : α → List Char → List Char → List (String × String) → Prop} : OnOk inp (P.fail : P α) l ρ Q := by
  intro s b s' hs e
  cases e

theorem OnOk.div {Q : α → List Char → List Char → List (String × String) → Prop} : OnOk inp (P.div : P α) l ρ Q := by
  intro s b s' hs e
  cases e

theorem OnOk.ite {c : Prop} [Decidable c] {x y : P α}
    {Q : α → List Char → List Char → List (String × String) → Prop} (h1 : c → OnOk inp x l ρ Q)
    (h2 : ¬ c → OnOk inp y l ρ Q) : OnOk inp (if c then x else y) l ρ Q := by
  split
  · exact h1 ‹_›
  · exact h2 ‹_›

theorem OnOk.of_reads {x : P α} {a : α} {t l' : List Char} {ρ' : List (String × String)}
    {Q : α → List Char → List Char → List (String × String) → Prop}
    (h : Reads inp x l ρ a l' ρ') (hl : l = t ++ l') (hq : Q a t l' ρ') : OnOk inp x l ρ Q := by
  intro s b s' hs e
  obtain ⟨rfl, h2⟩ := h.eq hs e
  exact ⟨t, l', ρ', hl, h2, hq⟩

theorem OnOk.of_fails {x : P α} {Q : α → List Char → List Char → List (String × String) → Prop}
    (h : Fails inp x l ρ) : OnOk inp x l ρ Q := by
  intro s b s' hs e
  exact absurd e (by rw [h s hs]; simp)

/-- only the case of much fuel has to be considered -/
theorem OnOk.fuel {x y : P α} {Q : α → List Char → List Char → List (String × String) → Prop} (h : P.le x y)
    (hy : OnOk inp y l ρ Q) : OnOk inp x l ρ Q := by
  intro s a s' hs e
  have : y s = .ok (a, s') := by rw [h s (by rw [e]; simp), e]
  exact hy s a s' hs this

variable (hg : runeError ∉ inp)
include hg

theorem inv_next : OnOk inp (next inp) l ρ (fun r t l' ρ' => ρ' = ρ ∧ (r = none ∧ t = [] ∧ l' = [] ∨ ∃ c, r = some c ∧ t = [c])) := by
  cases l with
  | nil => exact OnOk.of_reads (reads_next hg) (t := []) rfl ⟨rfl, .inl ⟨rfl, rfl, rfl⟩⟩
  | cons c l => exact OnOk.of_reads (reads_next hg) (t := [c]) rfl ⟨rfl, .inr ⟨c, rfl, rfl⟩⟩

theorem inv_peek : OnOk inp (peek inp) l ρ (fun r t l' ρ' => ρ' = ρ ∧ t = [] ∧ r = l'.head?) :=
  OnOk.of_reads (reads_peek hg) (t := []) rfl ⟨rfl, rfl, rfl⟩

theorem inv_eat {c : Char} : OnOk inp (eat inp c) l ρ (fun _ t _ ρ' => ρ' = ρ ∧ t = [c]) := by
  intro s a s' hs e
  obtain ⟨l', rfl, h⟩ := eat_inv hg hs e
  exact ⟨[c], l', ρ, rfl, h, rfl, rfl⟩

variable {w : LexWorld} {n : Nat}

theorem inv_ws : OnOk inp (ws w inp n) l ρ (fun _ t l' ρ' => ρ' = ρ ∧ Spaces w t ∧ Head (w.isSpace · = false) l') := by
  refine OnOk.fuel (le_ws w inp (Nat.le_max_left n (l.length + 1))) ?_
  refine OnOk.of_reads (reads_ws hg w (Nat.lt_of_lt_of_le (Nat.lt_succ_self _) (Nat.le_max_right _ _)))
    (t := l.takeWhile w.isSpace) (List.takeWhile_append_dropWhile).symm ⟨rfl, ?_, ?_⟩
  · intro c hc
    have := List.all_takeWhile (p := w.isSpace) (l := l)
    exact List.all_eq_true.mp this c hc
  · intro c hc
    have := List.head?_dropWhile_not (p := w.isSpace) l
    rw [hc] at this
    simpa using this

omit hg in
theorem idTake_ident (h : idTake w true l ≠ []) : Ident w (idTake w true l) := by
  have hall : ∀ (l : List Char) (first : Bool), ∀ d ∈ idTake w first l,
      w.isLetter d = true ∨ d = '_' ∨ w.isDigit d = true := by
    intro l
    induction l with
    | nil => intro first d hd; simp [idTake] at hd
    | cons c l ih =>
      intro first d hd
      unfold idTake at hd
      split at hd
      · rename_i hc
        rcases List.mem_cons.mp hd with rfl | hd
        · simp only [idCont, Bool.or_eq_true, beq_iff_eq, Bool.and_eq_true] at hc
          rcases hc with (hc | hc) | hc
          · exact .inl hc
          · exact .inr (.inl hc)
          · exact .inr (.inr hc.1)
        · exact ih false d hd
      · simp at hd
  cases l with
  | nil => simp [idTake] at h
  | cons c l =>
    have hc : idCont w true c = true := by
      by_cases hc : idCont w true c = true
      · exact hc
      · rw [idTake, if_neg hc] at h; exact absurd rfl h
    rw [idTake, if_pos hc]
    refine .mk ?_ (hall l false)
    simpa [idCont] using hc

omit hg in
theorem idDrop_head (first : Bool) : Head (idCont w false · = false) (idDrop w first l) ∨ first = true := by
  cases first with
  | true => exact .inr rfl
  | false =>
    left
    induction l with
    | nil => exact Head.nil
    | cons c l ih =>
      unfold idDrop
      split
      · exact ih
      · rename_i hc
        rw [Head.cons]
        simpa using hc

theorem inv_text : OnOk inp (text w inp n) l ρ (fun a t _ ρ' => ρ' = ρ ∧ a = String.ofList t ∧ Ident w t) := by
  refine OnOk.fuel (le_text w inp (Nat.le_max_left n (l.length + 1))) ?_
  have hn : l.length < max n (l.length + 1) := Nat.lt_of_lt_of_le (Nat.lt_succ_self _) (Nat.le_max_right _ _)
  by_cases h : idTake w true l = []
  · exact OnOk.of_fails (fails_text hg w hn h)
  · exact OnOk.of_reads (reads_text hg w hn h) (idTake_append_idDrop w true).symm ⟨rfl, rfl, idTake_ident h⟩

theorem inv_token {b e : Char} : OnOk inp (token w inp n b e) l ρ
    (fun a t _ ρ' => ρ' = ρ ∧ ∃ x, t = b :: (x ++ [e]) ∧ a = String.ofList x ∧ Ident w x) := by
  unfold token
  refine OnOk.bind (inv_eat hg) ?_
  rintro _ _ l1 _ - ⟨rfl, rfl⟩
  refine OnOk.bind (inv_text hg) ?_
  rintro _ x l2 _ - ⟨rfl, rfl, hx⟩
  refine OnOk.bind (inv_eat hg) ?_
  rintro _ _ l3 _ - ⟨rfl, rfl⟩
  exact OnOk.pure ⟨rfl, x, by simp, rfl, hx⟩

omit hg in
theorem litScan_text {v r : List Char} : ∀ {esc : Bool}, litScan esc l = some (v, r) →
    ∃ t, l = t ++ r ∧ r.head? = some '"' ∧
      (esc = false → LitText t v) ∧ (esc = true → LitText ('\\' :: t) v) := by
  induction l generalizing v r with
  | nil => intro esc h; simp [litScan] at h
  | cons c l ih =>
    intro esc h
    cases esc with
    | false =>
      by_cases hq : c = '"'
      · subst hq
        rw [litScan] at h
        cases h
        exact ⟨[], rfl, rfl, fun _ => .nil, by simp⟩
      · rw [litScan] at h
        · split at h
          · rename_i hb
            obtain ⟨t, rfl, hr, -, h2⟩ := ih h
            exact ⟨c :: t, rfl, hr, fun _ => by rw [hb]; exact h2 rfl, by simp⟩
          · rename_i hb
            rw [Option.map_eq_some_iff] at h
            obtain ⟨⟨v', l''⟩, h1, h2⟩ := h
            cases h2
            obtain ⟨t, rfl, hr, h2, -⟩ := ih h1
            exact ⟨c :: t, rfl, hr, fun _ => .plain hq hb (h2 rfl), by simp⟩
        · simpa using hq
    | true =>
      rw [litScan] at h
      cases hu : unescape c with
      | none => rw [hu] at h; cases h
      | some x =>
        rw [hu] at h
        simp only [Option.map_eq_some_iff] at h
        obtain ⟨⟨v', l''⟩, h1, h2⟩ := h
        cases h2
        obtain ⟨t, rfl, hr, h2, -⟩ := ih h1
        refine ⟨c :: t, rfl, hr, by simp, fun _ => .esc ?_ (h2 rfl)⟩
        unfold unescape at hu
        split at hu <;> first | (cases hu; simp) | cases hu

theorem inv_terminalText : OnOk inp (terminalText inp n false) l ρ (fun v t l' ρ' => ρ' = ρ ∧ LitText t v ∧ l'.head? = some '"') := by
  refine OnOk.fuel (le_terminalText inp (Nat.le_max_left n (l.length + 1))) ?_
  have hn : l.length < max n (l.length + 1) := Nat.lt_of_lt_of_le (Nat.lt_succ_self _) (Nat.le_max_right _ _)
  cases h : litScan false l with
  | none => exact OnOk.of_fails (fails_terminalText hg hn h)
  | some p =>
    obtain ⟨v, l'⟩ := p
    obtain ⟨t, ht, hr, h1, -⟩ := litScan_text h
    exact OnOk.of_reads (reads_terminalText hg hn h) ht ⟨rfl, h1 rfl, hr⟩

theorem inv_terminal (hw : w.OK) : OnOk inp (terminal w inp n) l ρ (fun a t _ ρ' => ρ' = ρ ∧ LitSyn w t a.1 a.2) := by
  unfold terminal
  refine OnOk.bind (inv_eat hg) ?_
  rintro _ _ l1 _ - ⟨rfl, rfl⟩
  refine OnOk.bind (inv_ws hg) ?_
  rintro _ s l2 ρ1 - ⟨rfl, hs, hhead⟩
  refine OnOk.bind (Q := fun f t l' ρ' => ρ' = ρ1 ∧ (f = "" ∧ t = [] ∧ l'.head? ≠ some '(' ∧ l' = l2 ∨
    ∃ s1 s2 x, Spaces w s1 ∧ Spaces w s2 ∧ Ident w x ∧ f = String.ofList x ∧
      t = '(' :: (s1 ++ '?' :: (s2 ++ (x ++ [')']))))) ?_ ?_
  · unfold terminalFlags
    refine OnOk.bind (inv_peek hg) ?_
    rintro r _ l3 _ hl ⟨rfl, rfl, rfl⟩
    have hl : l2 = l3 := hl
    subst hl
    refine OnOk.ite (fun hr => ?_) fun hr => OnOk.pure ⟨rfl, .inl ⟨rfl, rfl, hr, rfl⟩⟩
    refine OnOk.bind (inv_next hg) ?_
    rintro r t l3 _ hl ⟨rfl, h⟩
    have ht : t = ['('] := by
      rcases h with ⟨rfl, rfl, rfl⟩ | ⟨c, rfl, rfl⟩
      · rw [hl] at hr; simp at hr
      · rw [hl] at hr; simpa using hr
    subst ht
    refine OnOk.bind (inv_ws hg) ?_
    rintro _ s1 l4 _ - ⟨rfl, hs1, -⟩
    refine OnOk.bind (inv_eat hg) ?_
    rintro _ _ l5 _ - ⟨rfl, rfl⟩
    refine OnOk.bind (inv_ws hg) ?_
    rintro _ s2 l6 _ - ⟨rfl, hs2, -⟩
    refine OnOk.bind (inv_text hg) ?_
    rintro _ x l7 _ - ⟨rfl, rfl, hx⟩
    refine OnOk.bind (inv_eat hg) ?_
    rintro _ _ l8 _ - ⟨rfl, rfl⟩
    exact OnOk.pure ⟨rfl, .inr ⟨s1, s2, x, hs1, hs2, hx, rfl, by simp⟩⟩
  · rintro f tf l3 _ hl3 ⟨rfl, hf⟩
    refine OnOk.bind (inv_terminalText hg) ?_
    rintro v t l4 _ hl4 ⟨rfl, ht, hq⟩
    refine OnOk.bind (inv_eat hg) ?_
    rintro _ _ l5 _ hl5 ⟨rfl, rfl⟩
    refine OnOk.pure ⟨rfl, ?_⟩
    rcases hf with ⟨rfl, rfl, hp, rfl⟩ | ⟨s1, s2, x, hs1, hs2, hx, rfl, rfl⟩
    · have : LitSyn w ('"' :: (s ++ (t ++ ['"']))) "" (String.ofList v) := by
        refine .plain hs ht fun c hc => ?_
        have hc2 : (t ++ l4).head? = some c := by
          cases t with
          | nil => cases hc
          | cons d t => exact hc
        refine ⟨hhead c (by rw [hl4]; exact hc2), ?_⟩
        rintro rfl
        exact hp (by rw [hl4]; exact hc2)
      simpa using this
    · have := LitSyn.flags (w := w) hs hs1 hs2 hx ht
      simpa using this


omit hg in
theorem OnOkB.of_never {x : P α} {Q : α → List Char → List Char → Prop} (h : ∀ s, x s = .err ∨ x s = .div) :
    OnOkB inp x l ρ Q := by
  intro s a s' hs e
  rcases h s with h | h <;> rw [h] at e <;> cases e

omit hg in
theorem OnOkB.map {x : P α} {g : α → β} {Q : α → List Char → List Char → Prop} {R : β → List Char → List Char → Prop}
    (h : OnOkB inp x l ρ Q) (hq : ∀ a t l', l = t ++ l' → Q a t l' → R (g a) t l') :
    OnOkB inp (x >>= fun a => Pure.pure (g a)) l ρ R := by
  intro s b s' hs e
  obtain ⟨a, s1, e1, e2⟩ := P.bind_eq_ok.mp e
  cases e2
  obtain ⟨t, l', h1, h2, h3, h4⟩ := h s a _ hs e1
  exact ⟨t, l', h1, h2, h3, hq a t l' h1 h4⟩

theorem invB_next_bind {f : Option Char → P α} {Q : α → List Char → List Char → Prop}
    (h0 : l = [] → ∃ a, f none = Pure.pure a ∧ Q a [] [])
    (h1 : ∀ c l', l = c :: l' → (∃ a, f (some c) = Pure.pure a ∧ Q a [] l) ∨
      OnOkB inp (f (some c)) l' ρ (fun a t l2 => Q a (c :: t) l2)) : OnOkB inp (next inp >>= f) l ρ Q := by
  intro s b s' hs e
  obtain ⟨r, s1, e1, e2⟩ := P.bind_eq_ok.mp e
  rcases next_run hg hs.1 with ⟨c, l', rfl, e3, hd⟩ | ⟨rfl, e3⟩
  · rw [e3] at e1
    cases e1
    rcases h1 c l' rfl with ⟨a, h, hq⟩ | h
    · rw [h] at e2
      cases e2
      exact ⟨[], _, rfl, by simpa using hs.1, hs.2, hq⟩
    · obtain ⟨t, l2, rfl, g2, g3, g4⟩ := h { s with pos := s.pos + 1, width := 1 } b s' ⟨hd, hs.2⟩ e2
      exact ⟨c :: t, l2, rfl, g2, g3, g4⟩
  · rw [e3] at e1
    cases e1
    obtain ⟨a, h, hq⟩ := h0 rfl
    rw [h] at e2
    cases e2
    exact ⟨[], [], rfl, by simpa using hs.1, hs.2, hq⟩

theorem inv_next_bind {f : Option Char → P α} {Q : α → List Char → List Char → List (String × String) → Prop}
    (h0 : l = [] → (∃ a, f none = (backup >>= fun _ => Pure.pure a) ∧ Q a [] [] ρ) ∨ f none = P.fail)
    (h1 : ∀ c l', l = c :: l' → (∃ a, f (some c) = (backup >>= fun _ => Pure.pure a) ∧ Q a [] l ρ) ∨
      OnOk inp (f (some c)) l' ρ (fun a t l2 => Q a (c :: t) l2)) : OnOk inp (next inp >>= f) l ρ Q := by
  intro s b s' hs e
  obtain ⟨r, s1, e1, e2⟩ := P.bind_eq_ok.mp e
  rcases next_run hg hs.1 with ⟨c, l', rfl, e3, hd⟩ | ⟨rfl, e3⟩
  · rw [e3] at e1
    cases e1
    rcases h1 c l' rfl with ⟨a, h, hq⟩ | h
    · rw [h] at e2
      cases e2
      exact ⟨[], _, ρ, rfl, ⟨by simpa using hs.1, hs.2⟩, hq⟩
    · obtain ⟨t, l2, ρ2, rfl, g2, g3⟩ := h { s with pos := s.pos + 1, width := 1 } b s' ⟨hd, hs.2⟩ e2
      exact ⟨c :: t, l2, ρ2, rfl, g2, g3⟩
  · rw [e3] at e1
    cases e1
    rcases h0 rfl with ⟨a, h, hq⟩ | h
    · rw [h] at e2
      cases e2
      exact ⟨[], [], ρ, rfl, ⟨by simpa using hs.1, hs.2⟩, hq⟩
    · rw [h] at e2
      cases e2

omit hg in
theorem OnOkB.bind {x : P α} {f : α → P β} {Q : α → List Char → List Char → Prop}
    {R : β → List Char → List Char → List (String × String) → Prop} (h1 : OnOkB inp x l ρ Q)
    (h2 : ∀ a t l', l = t ++ l' → Q a t l' → (∃ b, f a = (backup >>= fun _ => Pure.pure b) ∧ R b t l' ρ) ∨ f a = P.fail) :
    OnOk inp (x >>= f) l ρ R := by
  intro s b s' hs e
  obtain ⟨a, s1, e1, e2⟩ := P.bind_eq_ok.mp e
  obtain ⟨t, l', rfl, g1, g2, hq⟩ := h1 s a s1 hs e1
  rcases h2 a t l' rfl hq with ⟨b', h, hr⟩ | h
  · rw [h] at e2
    cases e2
    exact ⟨t, l', ρ, rfl, ⟨g1, g2⟩, hr⟩
  · rw [h] at e2
    cases e2

/-! ### numbers -/

omit hg in
theorem parseDigit_some {c : Char} {d : Nat} (h : parseDigit c = some d) : '0' ≤ c ∧ c ≤ '9' ∧ d = c.toNat - '0'.toNat := by
  unfold parseDigit at h
  split at h
  · rename_i hc
    exact ⟨hc.1, hc.2, by simpa using h.symm⟩
  · cases h

theorem invB_getIntLoop {idx : Int} : OnOkB inp (getIntLoop w inp n idx) l ρ
    (fun i t _ => (∀ c ∈ t, '0' ≤ c ∧ c ≤ '9') ∧ i = t.foldl intStep idx) := by
  induction n generalizing l idx with
  | zero => exact OnOkB.of_never fun _ => .inr rfl
  | succ n ih =>
    unfold getIntLoop
    refine invB_next_bind hg (fun _ => ⟨_, rfl, by simp, rfl⟩) ?_
    rintro c l' rfl
    simp only []
    by_cases hd : w.isDigit c
    · right
      rw [if_pos hd]
      cases hp : parseDigit c with
      | none => exact OnOkB.of_never fun _ => .inl rfl
      | some d =>
        obtain ⟨h0, h9, h⟩ := parseDigit_some hp
        simp only [getInt_step h]
        intro s a s' hs e'
        obtain ⟨t, l2, g1, g2, g3, g4, g5⟩ := ih s a s' hs e'
        refine ⟨t, l2, g1, g2, g3, ?_, g5⟩
        intro d hd
        rcases List.mem_cons.mp hd with rfl | hd
        · exact ⟨h0, h9⟩
        · exact g4 d hd
    · left
      rw [if_neg hd]
      exact ⟨_, rfl, by simp, rfl⟩

theorem inv_getInt : OnOk inp (getInt w inp n) l ρ (fun i t _ ρ' => ρ' = ρ ∧ Num t i) := by
  unfold getInt
  refine OnOkB.bind (invB_getIntLoop hg) ?_
  rintro i t l' - ⟨h1, rfl⟩
  by_cases h : t.foldl intStep (-1) = -1
  · right
    rw [if_pos h]
  · left
    refine ⟨_, by rw [if_neg h], rfl, num_fold h1 ?_ h⟩
    rintro rfl
    exact h rfl

/-! ### gaps -/

omit hg in
theorem Spaces.append {a b : List Char} (ha : Spaces w a) (hb : Spaces w b) : Spaces w (a ++ b) := by
  intro c hc
  rcases List.mem_append.mp hc with h | h
  · exact ha c h
  · exact hb c h

omit hg in
theorem Gap.spaces_append {s g : List Char} (hs : Spaces w s) (hg : Gap w g) : Gap w (s ++ g) := by
  cases hg with
  | spaces h => exact .spaces (hs.append h)
  | line h1 h2 h3 => rw [← List.append_assoc]; exact .line (hs.append h1) h2 h3
  | block h1 h2 h3 => rw [← List.append_assoc]; exact .block (hs.append h1) h2 h3

omit hg in
theorem Gap.append {a b : List Char} (ha : Gap w a) (hb : Gap w b) : Gap w (a ++ b) := by
  induction ha with
  | spaces h => exact hb.spaces_append h
  | line h1 h2 _ ih =>
    have := Gap.line h1 h2 ih
    simpa using this
  | block h1 h2 _ ih =>
    have := Gap.block h1 h2 ih
    simpa using this

theorem inv_lineLoop : OnOk inp (lineLoop inp n) l ρ (fun _ t _ ρ' => ρ' = ρ ∧ ∃ b, '\n' ∉ b ∧ t = b ++ ['\n']) := by
  induction n generalizing l with
  | zero => exact OnOk.div
  | succ n ih =>
    unfold lineLoop
    refine OnOk.bind (inv_next hg) ?_
    rintro r t l' _ hl ⟨rfl, h⟩
    refine OnOk.ite (fun hr => ?_) (fun hr => ?_)
    · rcases h with ⟨rfl, -⟩ | ⟨c, rfl, rfl⟩
      · cases hr
      · cases hr
        exact OnOk.pure ⟨rfl, [], by simp, rfl⟩
    · refine ih.mono ?_
      rintro _ t2 l2 _ - ⟨rfl, b, hb, rfl⟩
      rcases h with ⟨rfl, rfl, -⟩ | ⟨c, rfl, rfl⟩
      · exact ⟨rfl, b, hb, rfl⟩
      · refine ⟨rfl, c :: b, ?_, rfl⟩
        intro hm
        rcases List.mem_cons.mp hm with h | h
        · exact hr (by rw [h])
        · exact hb h

omit hg in
theorem no_star_slash_cons {c : Char} {b : List Char} (hb : ¬ ['*', '/'] <:+: b)
    (hc : c = '*' → b.head? ≠ some '/') : ¬ ['*', '/'] <:+: c :: b := by
  intro h
  rcases List.infix_cons_iff.mp h with h | h
  · obtain ⟨t, ht⟩ := h
    injection ht with h1 h2
    exact hc h1.symm (by rw [← h2]; rfl)
  · exact hb h

theorem inv_multiLoop {star : Bool} : OnOk inp (multiLoop inp n star) l ρ (fun _ t _ ρ' => ρ' = ρ ∧
    ∃ b, ¬ ['*', '/'] <:+: b ∧ (if star then '*' :: t else t) = b ++ ['*', '/']) := by
  induction n generalizing l star with
  | zero => exact OnOk.div
  | succ n ih =>
    unfold multiLoop
    refine inv_next_bind hg (fun _ => .inr rfl) ?_
    rintro c l' rfl
    right
    simp only []
    refine OnOk.ite (fun h => ?_) (fun h => ?_)
    · obtain ⟨h1, rfl⟩ := h
      rw [h1]
      exact OnOk.pure ⟨rfl, [], by simp, rfl⟩
    · refine ih.mono ?_
      rintro _ t l2 _ - ⟨rfl, b, hb, e⟩
      refine ⟨rfl, ?_⟩
      -- what is consumed starting with c
      have hct : ∃ b', ¬ ['*', '/'] <:+: b' ∧ c :: t = b' ++ ['*', '/'] ∧ (b' = [] → c = '*') := by
        by_cases hc : c = '*'
        · subst hc
          rw [if_pos (by simp)] at e
          exact ⟨b, hb, e, fun _ => rfl⟩
        · rw [if_neg (by simpa using hc)] at e
          exact ⟨c :: b, no_star_slash_cons hb (fun h => absurd h hc), by rw [e]; rfl, by simp⟩
      obtain ⟨b', hb', e', hnil⟩ := hct
      cases star with
      | false => exact ⟨b', hb', e'⟩
      | true =>
        refine ⟨'*' :: b', no_star_slash_cons hb' ?_, by simp [e']⟩
        intro _ hh
        have hcs : c ≠ '/' := by simpa using h
        cases b' with
        | nil => cases hh
        | cons d b' =>
          injection e' with e1 e2
          subst e1
          exact hcs (by simpa using hh)

theorem inv_comment : OnOk inp (comment inp n) l ρ (fun c t _ ρ' => ρ' = ρ ∧
    (c = false ∧ t = [] ∨ c = true ∧ ((∃ b, '\n' ∉ b ∧ t = '/' :: '/' :: (b ++ ['\n'])) ∨
      ∃ b, ¬ ['*', '/'] <:+: b ∧ t = '/' :: '*' :: (b ++ ['*', '/'])))) := by
  unfold comment
  refine inv_next_bind hg (fun _ => .inl ⟨false, ?_, rfl, .inl ⟨rfl, rfl⟩⟩) ?_
  · rw [if_pos (by simp)]
  rintro c l' rfl
  by_cases hc : c = '/'
  · right
    subst hc
    rw [if_neg (by simp)]
    refine OnOk.bind (inv_peek hg) ?_
    rintro r _ l1 ρ1 - ⟨rfl, rfl, hr⟩
    refine OnOk.ite (fun h => ?_) (fun _ => OnOk.ite (fun h => ?_) fun _ => OnOk.fail)
    · unfold lineComment
      refine OnOk.bind (Q := fun _ t _ ρ' => ρ' = ρ1 ∧ ∃ b, '\n' ∉ b ∧ t = '/' :: (b ++ ['\n']))
        (OnOk.bind (inv_eat hg) ?_) ?_
      · rintro _ _ l2 _ - ⟨rfl, rfl⟩
        refine (inv_lineLoop hg).mono ?_
        rintro _ t _ _ - ⟨rfl, b, hb, rfl⟩
        exact ⟨rfl, b, hb, rfl⟩
      · rintro _ _ l2 _ - ⟨rfl, b, hb, rfl⟩
        exact OnOk.pure ⟨rfl, .inr ⟨rfl, .inl ⟨b, hb, by simp⟩⟩⟩
    · unfold multiLineComment
      refine OnOk.bind (Q := fun _ t _ ρ' => ρ' = ρ1 ∧ ∃ b, ¬ ['*', '/'] <:+: b ∧ t = '*' :: (b ++ ['*', '/']))
        (OnOk.bind (inv_eat hg) ?_) ?_
      · rintro _ _ l2 _ - ⟨rfl, rfl⟩
        refine (inv_multiLoop hg).mono ?_
        rintro _ t _ _ - ⟨rfl, b, hb, e⟩
        simp only [Bool.false_eq_true, if_false] at e
        subst e
        exact ⟨rfl, b, hb, rfl⟩
      · rintro _ _ l2 _ - ⟨rfl, b, hb, rfl⟩
        exact OnOk.pure ⟨rfl, .inr ⟨rfl, .inr ⟨b, hb, by simp⟩⟩⟩
  · left
    refine ⟨false, ?_, rfl, .inl ⟨rfl, rfl⟩⟩
    rw [if_pos (by simpa using hc)]

theorem inv_commentsLoop {n0 : Nat} : OnOk inp (commentsLoop w inp n0 n) l ρ (fun _ t _ ρ' => ρ' = ρ ∧ Gap w t) := by
  induction n generalizing l ρ with
  | zero => exact OnOk.div
  | succ n ih =>
    unfold commentsLoop
    refine OnOk.bind (inv_ws hg) ?_
    rintro _ s l1 _ - ⟨rfl, hs, -⟩
    refine OnOk.bind (inv_comment hg) ?_
    rintro c t l2 _ - ⟨rfl, ⟨rfl, rfl⟩ | ⟨rfl, h⟩⟩
    · refine OnOk.ite (fun h => by cases h) fun _ => OnOk.pure ⟨rfl, ?_⟩
      exact .spaces (by simpa using hs)
    · refine OnOk.ite (fun _ => ih.mono ?_) fun h => absurd rfl h
      rintro _ g l3 _ - ⟨rfl, hgap⟩
      refine ⟨rfl, ?_⟩
      rcases h with ⟨b, hb, rfl⟩ | ⟨b, hb, rfl⟩
      · have := Gap.line hs hb hgap
        simpa using this
      · have := Gap.block hs hb hgap
        simpa using this

theorem inv_comments : OnOk inp (comments w inp n) l ρ (fun _ t _ ρ' => ρ' = ρ ∧ Gap w t) := by
  unfold comments
  refine OnOk.bind (inv_commentsLoop hg) ?_
  rintro _ g l1 _ - ⟨rfl, hgap⟩
  refine (inv_ws hg).mono ?_
  rintro _ s l2 _ - ⟨rfl, hs, -⟩
  exact ⟨rfl, hgap.append (.spaces hs)⟩

/-! ### terms -/

theorem inv_specialMeta : OnOk inp (specialMeta w inp n) l ρ
    (fun m t _ ρ' => ρ' = ρ ∧ RangeSyn w t (rangeMeta m)) := by
  unfold specialMeta
  refine OnOk.bind (inv_ws hg) ?_
  rintro _ s0 l1 _ e1 ⟨rfl, hs0, -⟩
  subst e1
  refine OnOk.bind (inv_peek hg) ?_
  rintro r _ l2 _ e2 ⟨rfl, rfl, hr⟩
  rw [List.nil_append] at e2
  subst e2
  refine OnOk.ite (fun hc => ?_) (fun _ => ?_)
  · refine OnOk.bind (inv_next hg) ?_
    rintro _ t l2 _ e2 ⟨rfl, ht⟩
    have ht : t = ['{'] := by
      rw [hr] at hc
      rcases ht with ⟨-, rfl, rfl⟩ | ⟨c, -, rfl⟩
      · rw [e2] at hc; cases hc
      · rw [e2] at hc; cases hc; rfl
    subst ht
    refine OnOk.bind (inv_ws hg) ?_
    rintro _ s1 l3 _ e3 ⟨rfl, hs1, -⟩
    subst e3
    refine OnOk.bind (inv_getInt hg) ?_
    rintro a d1 l4 _ e4 ⟨rfl, ha⟩
    subst e4
    refine OnOk.bind (inv_ws hg) ?_
    rintro _ s2 l5 _ e5 ⟨rfl, hs2, -⟩
    subst e5
    refine OnOk.bind (inv_eat hg) ?_
    rintro _ _ l6 _ e6 ⟨rfl, rfl⟩
    subst e6
    refine OnOk.bind (inv_ws hg) ?_
    rintro _ s3 l7 _ e7 ⟨rfl, hs3, -⟩
    subst e7
    refine OnOk.bind (inv_getInt hg) ?_
    rintro b d2 l8 _ e8 ⟨rfl, hb⟩
    refine OnOk.ite (fun _ => OnOk.fail) fun hab => ?_
    refine OnOk.bind (inv_ws hg) ?_
    rintro _ s4 l9 _ - ⟨rfl, hs4, -⟩
    refine OnOk.bind (inv_eat hg) ?_
    rintro _ _ l10 _ - ⟨rfl, rfl⟩
    refine OnOk.bind (inv_ws hg) ?_
    rintro _ s5 l11 _ - ⟨rfl, hs5, -⟩
    refine OnOk.pure ⟨rfl, ?_⟩
    have := RangeSyn.some (w := w) hs0 hs1 hs2 hs3 hs4 hs5 ha hb (by omega)
    simpa [rangeMeta] using this
  · refine OnOk.bind (inv_ws hg) ?_
    rintro _ s1 l3 _ e3 ⟨rfl, hs1, -⟩
    refine OnOk.pure ⟨rfl, ?_⟩
    have := RangeSyn.none (w := w) (hs0.append hs1)
    simpa [rangeMeta] using this

omit hg in
theorem RangeSyn.spaces_append {s l : List Char} {m : Meta} (hs : Spaces w s) (h : RangeSyn w l m) :
    RangeSyn w (s ++ l) m := by
  cases h with
  | none h => exact .none (hs.append h)
  | some h0 h1 h2 h3 h4 h5 ha hb hab => rw [← List.append_assoc]; exact .some (hs.append h0) h1 h2 h3 h4 h5 ha hb hab

theorem inv_special : OnOk inp (special w inp n) l ρ
    (fun a t _ ρ' => TermSyn w t a ρ ρ') := by
  unfold special
  refine OnOk.bind (inv_eat hg) ?_
  rintro _ _ l1 _ e1 ⟨rfl, rfl⟩
  subst e1
  refine OnOk.bind (inv_ws hg) ?_
  rintro _ s1 l2 _ e2 ⟨rfl, hs1, -⟩
  subst e2
  refine OnOk.bind (inv_text hg) ?_
  rintro _ x l3 _ e3 ⟨rfl, rfl, hx⟩
  subst e3
  refine OnOk.bind (inv_ws hg) ?_
  rintro _ s2 l4 _ e4 ⟨rfl, hs2, -⟩
  subst e4
  refine OnOk.ite (fun h => ?_) fun _ => OnOk.ite (fun h => ?_) fun _ => OnOk.fail
  · have hx' : x = ['a', 'n', 'y'] := by
      have := congrArg String.toList h
      simpa using this
    subst hx'
    unfold anyTerm
    refine OnOk.bind (inv_specialMeta hg) ?_
    rintro m t l5 _ - ⟨rfl, hm⟩
    refine OnOk.bind (inv_eat hg) ?_
    rintro _ _ l6 ρ9 - ⟨rfl, rfl⟩
    refine OnOk.pure ?_
    have := TermSyn.any (w := w) (ρ := ρ9) hs1 (hm.spaces_append hs2)
    simpa using this
  · have hx' : x = ['l', 'i', 's', 't'] := by
      have := congrArg String.toList h
      simpa using this
    subst hx'
    unfold listTerm nonterminal
    refine OnOk.bind (inv_token hg) ?_
    rintro _ _ l5 _ e5 ⟨rfl, x, rfl, rfl, hx⟩
    subst e5
    refine OnOk.bind (inv_specialMeta hg) ?_
    rintro m t l6 _ - ⟨rfl, hm⟩
    refine OnOk.bind (inv_eat hg) ?_
    rintro _ _ l7 ρ9 - ⟨rfl, rfl⟩
    refine OnOk.pure ?_
    have := TermSyn.list (w := w) (ρ := ρ9) hs1 hs2 hx hm
    simpa using this

theorem inv_regexLoop : OnOk inp (regexLoop inp n) l ρ (fun v t _ ρ' => ρ' = ρ ∧ '`' ∉ v ∧ t = v ++ ['`']) := by
  induction n generalizing l with
  | zero => exact OnOk.div
  | succ n ih =>
    unfold regexLoop
    refine inv_next_bind hg (fun _ => .inr rfl) ?_
    rintro c l' rfl
    right
    simp only []
    refine OnOk.ite (fun h => ?_) (fun h => ?_)
    · subst h
      exact OnOk.pure ⟨rfl, by simp, rfl⟩
    · refine OnOk.bind ih ?_
      rintro v _ l2 _ - ⟨rfl, hv, rfl⟩
      refine OnOk.pure ⟨rfl, ?_, by simp⟩
      intro hm
      rcases List.mem_cons.mp hm with e | e
      · exact h e.symm
      · exact hv e

theorem inv_regex : OnOk inp (regex w inp n) l ρ (fun a t _ ρ' => TermSyn w t a ρ ρ') := by
  unfold regex
  refine OnOk.bind (inv_eat hg) ?_
  rintro _ _ l1 _ - ⟨rfl, rfl⟩
  refine OnOk.bind (inv_ws hg) ?_
  rintro _ s l2 ρ1 - ⟨rfl, hs, hhead⟩
  refine OnOk.bind (inv_regexLoop hg) ?_
  rintro v _ l3 ρ e3 ⟨rfl, hv, rfl⟩
  refine OnOk.ite (fun _ => OnOk.fail) fun hne => ?_
  simp only []
  refine OnOk.ite (fun hok => ?_) fun _ => OnOk.fail
  have hne : v ≠ [] := by rintro rfl; exact hne rfl
  have key : TermSyn w ('`' :: (s ++ (v ++ ['`']))) ⟨w.md5 (String.ofList v), .nonterminal, .nil⟩ ρ
      (mapSet ρ (w.md5 (String.ofList v)) (String.ofList v)) := by
    refine .regex hs hne hv (fun c hc => hhead c ?_) hok
    rw [e3]
    cases v with
    | nil => cases hc
    | cons d v => exact hc
  intro st a st' hst e
  cases e
  exact ⟨[], l3, _, rfl, ⟨hst.1, by rw [hst.2]⟩, by simpa using key⟩

omit hg in
theorem LitSyn.flags_or {t : List Char} {f v : String} (h : LitSyn w t f v) : f = "" ∧ LitSyn w t "" v ∨ f ≠ "" := by
  by_cases hf : f = ""
  · subst hf; exact .inl ⟨rfl, h⟩
  · exact .inr hf

theorem inv_term (hw : w.OK) : OnOk inp (term w inp n) l ρ
    (fun a t _ ρ' => TermSyn w t a ρ ρ') := by
  unfold term
  refine OnOk.bind (inv_peek hg) ?_
  rintro r _ l1 _ e1 ⟨rfl, rfl, -⟩
  rw [List.nil_append] at e1
  subst e1
  refine OnOk.ite (fun _ => ?_) fun _ => OnOk.ite (fun _ => ?_) fun _ => OnOk.ite (fun _ => inv_special hg) fun _ =>
    OnOk.ite (fun _ => inv_regex hg) fun _ => OnOk.fail
  · unfold nonterminal
    refine OnOk.bind (inv_token hg) ?_
    rintro _ _ l5 _ e5 ⟨rfl, x, rfl, rfl, hx⟩
    exact OnOk.pure (by simpa using TermSyn.nonterminal hx)
  · refine OnOk.bind (inv_terminal hg hw) ?_
    rintro ⟨f, v⟩ t l2 _ - ⟨rfl, h⟩
    refine OnOk.ite (fun hf => OnOk.pure ?_) (fun hf => OnOk.pure ?_)
    · simp only at hf h
      subst hf
      simpa using TermSyn.literal h
    · simpa using TermSyn.flagged h hf


/-! ### semantic functions -/

omit hg in
theorem no_dots_cons {c : Char} {b : List Char} (hb : ¬ ['.', '.'] <:+: b)
    (hc : c = '.' → b.head? ≠ some '.') : ¬ ['.', '.'] <:+: c :: b := by
  intro h
  rcases List.infix_cons_iff.mp h with h | h
  · obtain ⟨t, ht⟩ := h
    injection ht with h1 h2
    exact hc h1.symm (by rw [← h2]; rfl)
  · exact hb h

theorem inv_funcNameLoop (hw : w.OK) {dot : Bool} : OnOk inp (funcNameLoop w inp n false dot) l ρ
    (fun v t _ ρ' => ρ' = ρ ∧ v = t ∧ (∀ c ∈ t, fnCont w c) ∧ ¬ ['.', '.'] <:+: t ∧ (dot = true → t.head? ≠ some '.')) := by
  induction n generalizing l dot with
  | zero => exact OnOk.div
  | succ n ih =>
    unfold funcNameLoop
    have stop : ρ = ρ ∧ ([] : List Char) = [] ∧ (∀ c ∈ ([] : List Char), fnCont w c) ∧
        ¬ ['.', '.'] <:+: ([] : List Char) ∧ (dot = true → ([] : List Char).head? ≠ some '.') := by simp
    refine inv_next_bind hg (fun _ => .inl ⟨[], rfl, stop⟩) ?_
    rintro c l' rfl
    by_cases hc : w.isLetter c = true ∨ c = '_' ∨ (w.isDigit c = true ∧ True) ∨ (c = '.' ∧ dot = false ∧ True)
    · right
      simp only []
      rw [if_pos hc]
      refine OnOk.bind ih ?_
      rintro v t l2 _ - ⟨rfl, rfl, h1, h2, h3⟩
      refine OnOk.pure ⟨rfl, by simp, ?_, ?_, ?_⟩
      · intro d hd
        simp only [List.append_nil, List.mem_cons] at hd
        rcases hd with rfl | hd
        · rcases hc with h | h | h | h
          · exact .inl h
          · exact .inr (.inl h)
          · exact .inr (.inr (.inl h.1))
          · exact .inr (.inr (.inr h.1))
        · exact h1 d hd
      · simp only [List.append_nil]
        exact no_dots_cons h2 fun h => h3 (by simp [h])
      · rintro hd hh
        simp only [List.append_nil, List.head?_cons, Option.some.injEq] at hh
        subst hh
        rcases hc with h | h | h | h
        · rw [(hw.punct '.' (by decide)).1] at h; cases h
        · exact absurd h (by decide)
        · rw [(hw.punct '.' (by decide)).2.1] at h; exact absurd h.1 (by decide)
        · rw [hd] at h; exact absurd h.2.1 (by decide)
    · left
      exact ⟨[], by simp only []; rw [if_neg hc], stop⟩


theorem inv_funcName (hw : w.OK) : OnOk inp (funcName w inp n) l ρ (fun v t _ ρ' => ρ' = ρ ∧
    ∃ x s, t = x ++ s ∧ v = String.ofList x ∧ FnName w x ∧ Spaces w s) := by
  unfold funcName
  refine OnOk.bind (Q := fun v t _ ρ' => ρ' = ρ ∧ v = t ∧ (t ≠ [] → FnName w t)) ?_ ?_
  · cases n with
    | zero => exact OnOk.div
    | succ n =>
      unfold funcNameLoop
      have stop : ρ = ρ ∧ ([] : List Char) = [] ∧ (([] : List Char) ≠ [] → FnName w []) := by simp
      refine inv_next_bind hg (fun _ => .inl ⟨[], rfl, stop⟩) ?_
      rintro c l' rfl
      by_cases hc : w.isLetter c = true ∨ c = '_' ∨ (w.isDigit c = true ∧ true = false) ∨ (c = '.' ∧ False)
      · right
        simp only [Bool.true_eq_false, and_false] at hc ⊢
        rw [if_pos hc]
        refine OnOk.bind (inv_funcNameLoop hg hw) ?_
        rintro v t l2 _ - ⟨rfl, rfl, h1, h2, -⟩
        refine OnOk.pure ⟨rfl, by simp, fun _ => ?_⟩
        rw [List.append_nil]
        exact .mk (by simpa using hc) h1 h2
      · left
        refine ⟨[], ?_, stop⟩
        simp only [Bool.true_eq_false, and_false] at hc ⊢
        rw [if_neg hc]
  · rintro v t l1 _ - ⟨rfl, rfl, h⟩
    refine OnOk.ite (fun _ => OnOk.fail) fun hne => ?_
    refine OnOk.bind (inv_ws hg) ?_
    rintro _ s l2 _ - ⟨rfl, hs, -⟩
    refine OnOk.pure ⟨rfl, v, s, by simp, rfl, h ?_, hs⟩
    rintro rfl
    exact hne rfl

theorem invB_numLoop {hasDot : Bool} (hw : w.OK) : OnOkB inp (numLoop w inp n hasDot) l ρ
    (fun x t _ => x.1 = t ∧ (∀ c ∈ t, w.isDigit c = true ∨ c = '.') ∧
      t.count '.' + (if hasDot then 1 else 0) = if x.2 then 1 else 0) := by
  have hdot := (hw.punct '.' (by decide)).2.1
  induction n generalizing l hasDot with
  | zero => exact OnOkB.of_never fun _ => .inr rfl
  | succ n ih =>
    unfold numLoop
    refine invB_next_bind hg (fun _ => ⟨_, rfl, rfl, by simp, by simp⟩) ?_
    rintro c l' rfl
    simp only []
    by_cases hd : w.isDigit c = true
    · right
      rw [if_pos hd]
      refine OnOkB.map ih ?_
      rintro x t l2 - ⟨h1, h2, h3⟩
      refine ⟨by simp [h1], ?_, ?_⟩
      · intro d hd'
        rcases List.mem_cons.mp hd' with rfl | hd'
        · exact .inl hd
        · exact h2 d hd'
      · have hne : c ≠ '.' := by
          rintro rfl
          rw [hdot] at hd; cases hd
        rw [List.count_cons]
        simpa [hne] using h3
    · rw [if_neg hd]
      by_cases hc : c = '.'
      · right
        rw [if_pos hc]
        split
        · exact OnOkB.of_never fun _ => .inl rfl
        · rename_i hhd
          refine OnOkB.map ih ?_
          rintro x t l2 - ⟨h1, h2, h3⟩
          refine ⟨by simp [h1], ?_, ?_⟩
          · intro d hd'
            rcases List.mem_cons.mp hd' with rfl | hd'
            · exact .inr hc
            · exact h2 d hd'
          · rw [List.count_cons]
            simpa [hc, hhd] using h3
      · left
        rw [if_neg hc]
        exact ⟨_, rfl, by simp, by simp, by simp⟩

theorem inv_numArg {neg : Bool} (hw : w.OK) : OnOk inp (numArg w inp n neg) l ρ (fun a t _ ρ' => ρ' = ρ ∧
    ((∃ i, NumTok w t false ∧ w.scanInt (String.ofList (if neg then '-' :: t else t)) = some i ∧
      a = .mk "int" (.bigInt i)) ∨
     ∃ q, NumTok w t true ∧ w.scanFloat (String.ofList (if neg then '-' :: t else t)) = some q ∧
      a = .mk "float" (.bigFloat q))) := by
  unfold numArg
  refine OnOkB.bind (invB_numLoop hg hw) ?_
  rintro ⟨v, dot⟩ t l' - ⟨rfl, h2, h3⟩
  simp only [Bool.false_eq_true, if_false, Nat.add_zero] at h3 ⊢
  by_cases hv : v.length = 0
  · right
    rw [if_pos hv]
  · rw [if_neg hv]
    have hne : v ≠ [] := by rintro rfl; exact hv rfl
    cases dot with
    | true =>
      simp only [if_true] at h3 ⊢
      cases hs : w.scanFloat (String.ofList (if neg = true then '-' :: v else v)) with
      | none => exact .inr (funext fun _ => rfl)
      | some q => exact .inl ⟨_, rfl, trivial, .inr ⟨q, ⟨hne, h2, h3⟩, rfl, rfl⟩⟩
    | false =>
      simp only [Bool.false_eq_true, if_false] at h3 ⊢
      cases hs : w.scanInt (String.ofList (if neg = true then '-' :: v else v)) with
      | none => exact .inr (funext fun _ => rfl)
      | some q => exact .inl ⟨_, rfl, trivial, .inl ⟨q, ⟨hne, h2, h3⟩, rfl, rfl⟩⟩


omit hg in
theorem FmrSyn.head_ne (hw : w.OK) {t r : List Char} {f : FMR} (h : FmrSyn w t f) : (t ++ r).head? ≠ some ',' := by
  obtain ⟨h1, h2, h3, h4, h5⟩ := h
  rename_i s1 x s2 a s3 args
  cases s1 with
  | cons c s1 =>
    intro e
    simp only [List.cons_append, List.head?_cons, Option.some.injEq] at e
    subst e
    have := h1 ',' (by simp)
    rw [(hw.punct ',' (by decide)).2.2] at this
    cases this
  | nil =>
    obtain ⟨c, hc, -, -, hm⟩ := h2.first (r := s2 ++ '(' :: (a ++ s3) ++ r) hw
    intro e
    simp only [List.nil_append, List.append_assoc] at e hc
    rw [hc] at e
    cases e
    exact hm (by decide)

theorem inv_funcArg (hw : w.OK) {sem : P FMR}
    (hsem : OnOk inp sem l ρ (fun f t _ ρ' => ρ' = ρ ∧ FmrSyn w t f)) :
    OnOk inp (funcArg w inp n sem l.head?) l ρ (fun a t _ ρ' => ρ' = ρ ∧ ArgSyn w t a ∧ l.head? ≠ some ',') := by
  unfold funcArg
  refine OnOk.ite (fun h => ?_) fun _ => OnOk.ite (fun h => ?_) fun _ => OnOk.ite (fun h => ?_) fun _ =>
    OnOk.ite (fun h => ?_) fun hnd => OnOk.ite (fun h => ?_) fun _ => ?_
  · unfold contextArg
    refine OnOk.bind (inv_eat hg) ?_
    rintro _ _ l1 _ - ⟨rfl, rfl⟩
    exact OnOk.pure ⟨rfl, .context, by rw [h]; decide⟩
  · unfold idxArg
    refine OnOk.bind (inv_eat hg) ?_
    rintro _ _ l1 _ e1 ⟨rfl, rfl⟩
    refine OnOk.bind (inv_getInt hg) ?_
    rintro _ d l2 _ - ⟨rfl, hd⟩
    refine OnOk.pure ⟨rfl, ?_, by rw [h]; decide⟩
    simpa using ArgSyn.index (w := w) hd
  · unfold strArg
    refine OnOk.bind (inv_terminal hg hw) ?_
    rintro ⟨f, v⟩ t l2 _ - ⟨rfl, ht⟩
    refine OnOk.pure ⟨rfl, ?_, by rw [h]; decide⟩
    rw [List.append_nil]
    exact .string ht
  · have hne : l.head? ≠ some ',' := by
      intro e
      rw [e] at h
      have := (hw.punct ',' (by decide)).2.1
      rw [inClass, this] at h
      cases h
    have hdot : l.head? ≠ some '.' := by
      intro e
      rw [e] at h
      have := (hw.punct '.' (by decide)).2.1
      rw [inClass, this] at h
      cases h
    refine (inv_numArg hg hw).mono ?_
    rintro a t l1 _ e1 ⟨rfl, h⟩
    refine ⟨rfl, ?_, hne⟩
    have hh : ∀ {b : Bool}, NumTok w t b → t.head? ≠ some '.' := by
      intro b hb e
      apply hdot
      rw [e1]
      cases t with
      | nil => cases e
      | cons c t => exact e
    rcases h with ⟨i, h1, h2, rfl⟩ | ⟨q, h1, h2, rfl⟩
    · exact .int h1 (hh h1) (by simpa using h2)
    · exact .float h1 (hh h1) (by simpa using h2)
  · refine OnOk.bind (inv_eat hg) ?_
    rintro _ _ l1 _ e1 ⟨rfl, rfl⟩
    refine (inv_numArg hg hw).mono ?_
    rintro a t l1 _ - ⟨rfl, h'⟩
    refine ⟨rfl, ?_, by rw [h]; decide⟩
    rcases h' with ⟨i, h1, h2, rfl⟩ | ⟨q, h1, h2, rfl⟩
    · exact .negInt h1 (by simpa using h2)
    · exact .negFloat h1 (by simpa using h2)
  · refine OnOk.bind hsem ?_
    rintro f t l1 _ e1 ⟨rfl, hft⟩
    refine OnOk.pure ⟨rfl, ?_, ?_⟩
    · rw [List.append_nil]; exact .func hft
    · rw [e1]; exact hft.head_ne hw

theorem inv_sem_args (hw : w.OK) {n0 : Nat} (n : Nat) : ∀ l ρ,
    OnOk inp (semanticFn w inp n0 n) l ρ (fun f t _ ρ' => ρ' = ρ ∧ FmrSyn w t f) ∧
    OnOk inp (funcArgsLoop w inp n0 n) l ρ (fun f t _ ρ' => ρ' = ρ ∧ ArgsSyn w t f) := by
  induction n with
  | zero => exact fun l ρ => ⟨OnOk.div, OnOk.div⟩
  | succ n ih =>
    intro l ρ
    constructor
    · unfold semanticFn
      refine OnOk.bind (inv_ws hg) ?_
      rintro _ s1 l1 _ rfl ⟨rfl, hs1, -⟩
      refine OnOk.bind (inv_funcName hg hw) ?_
      rintro _ _ l2 _ rfl ⟨rfl, x, s2, rfl, rfl, hx, hs2⟩
      refine OnOk.bind (inv_eat hg) ?_
      rintro _ _ l3 _ rfl ⟨rfl, rfl⟩
      refine OnOk.bind (ih l3 _).2 ?_
      rintro args a l4 _ rfl ⟨rfl, ha⟩
      refine OnOk.bind (inv_ws hg) ?_
      rintro _ s3 l5 _ rfl ⟨rfl, hs3, -⟩
      refine OnOk.pure ⟨rfl, ?_⟩
      have := FmrSyn.mk hs1 hx hs2 ha hs3
      simpa using this
    · unfold funcArgsLoop
      refine OnOk.bind (inv_ws hg) ?_
      rintro _ s1 l1 _ rfl ⟨rfl, hs1, -⟩
      refine OnOk.bind (inv_peek hg) ?_
      rintro r _ l2 _ e2 ⟨rfl, rfl, rfl⟩
      rw [List.nil_append] at e2
      subst e2
      refine OnOk.bind (inv_funcArg hg hw (ih l1 _).1) ?_
      rintro a t l3 _ e3 ⟨rfl, ha, hne⟩
      rw [e3] at hne ⊢
      rw [if_neg hne]
      refine OnOk.bind (inv_ws hg) ?_
      rintro _ s2 l4 _ rfl ⟨rfl, hs2, -⟩
      refine OnOk.bind (inv_next hg) ?_
      rintro r t2 l5 _ e5 ⟨rfl, hr⟩
      refine OnOk.ite (fun h => ?_) fun _ => OnOk.ite (fun h => ?_) fun _ => OnOk.fail
      · refine OnOk.bind (ih l5 _).2 ?_
        rintro args t3 l6 _ - ⟨rfl, ha3⟩
        refine OnOk.pure ⟨rfl, ?_⟩
        rcases hr with ⟨rfl, -⟩ | ⟨c, rfl, rfl⟩
        · cases h
        · cases h
          have := ArgsSyn.more hs1 ha hs2 ha3
          simpa using this
      · refine OnOk.pure ⟨rfl, ?_⟩
        rcases hr with ⟨rfl, -⟩ | ⟨c, rfl, rfl⟩
        · cases h
        · cases h
          have := ArgsSyn.last hs1 ha hs2
          simpa using this

/-! ### bodies and rules -/

theorem inv_ruleBodyLoop (hw : w.OK) {n0 : Nat} : OnOk inp (ruleBodyLoop w inp n0 n) l ρ
    (fun ts t _ ρ' => (ts = [] ∧ ρ' = ρ ∧ Gap w t) ∨ ∃ g t', Gap w g ∧ t = g ++ t' ∧ TermsSyn w t' ts ρ ρ') := by
  induction n generalizing l ρ with
  | zero => exact OnOk.div
  | succ n ih =>
    unfold ruleBodyLoop
    refine OnOk.bind (inv_comments hg) ?_
    rintro _ g l1 _ rfl ⟨rfl, hgap⟩
    refine OnOk.bind (inv_peek hg) ?_
    rintro r _ l2 _ e2 ⟨rfl, rfl, rfl⟩
    rw [List.nil_append] at e2
    subst e2
    refine OnOk.ite (fun _ => ?_) fun _ => OnOk.pure (.inl ⟨rfl, rfl, by simpa using hgap⟩)
    refine OnOk.bind (inv_term hg hw) ?_
    rintro a t l3 ρ1 rfl ha
    refine OnOk.bind (inv_comments hg) ?_
    rintro _ g2 l4 _ rfl ⟨rfl, hgap2⟩
    refine OnOk.bind ih ?_
    rintro ts t2 l5 ρ2 - h
    refine OnOk.pure (.inr ⟨g, t ++ (g2 ++ t2), hgap, by simp, ?_⟩)
    rcases h with ⟨rfl, rfl, hgap3⟩ | ⟨g3, t3, hgap3, rfl, ht3⟩
    · exact .one ha (hgap2.append hgap3)
    · have := TermsSyn.more ha (hgap2.append hgap3) ht3
      simpa using this

theorem inv_ruleBody (hw : w.OK) : OnOk inp (ruleBody w inp n) l ρ
    (fun b t _ ρ' => BodySyn w t b ρ ρ') := by
  unfold ruleBody
  refine OnOk.bind (inv_term hg hw) ?_
  rintro a t l1 ρ1 rfl ha
  refine OnOk.bind (inv_comments hg) ?_
  rintro _ g l2 _ rfl ⟨rfl, hgap⟩
  refine OnOk.bind (inv_ruleBodyLoop hg hw) ?_
  rintro ts t2 l3 ρ2 rfl h
  have hts : TermsSyn w (t ++ (g ++ t2)) (a :: ts) ρ ρ2 := by
    rcases h with ⟨rfl, rfl, hgap3⟩ | ⟨g3, t3, hgap3, rfl, ht3⟩
    · exact .one ha (hgap.append hgap3)
    · have := TermsSyn.more ha (hgap.append hgap3) ht3
      simpa using this
  unfold ruleBodyFn
  refine OnOk.bind (Q := fun f t _ ρ' => ρ' = ρ2 ∧ (f = none ∧ t = [] ∨ ∃ f' e g, f = some f' ∧ FmrSyn w e f' ∧ Gap w g ∧
    t = '{' :: (e ++ '}' :: g))) (OnOk.bind (inv_peek hg) ?_) ?_
  · rintro r _ l4 _ e4 ⟨rfl, rfl, rfl⟩
    rw [List.nil_append] at e4
    subst e4
    refine OnOk.ite (fun hr => ?_) fun _ => OnOk.pure ⟨rfl, .inl ⟨rfl, rfl⟩⟩
    refine OnOk.bind (inv_next hg) ?_
    rintro _ t l5 _ e5 ⟨rfl, ht⟩
    have ht : t = ['{'] := by
      rcases ht with ⟨-, rfl, rfl⟩ | ⟨c, -, rfl⟩
      · rw [e5] at hr; cases hr
      · rw [e5] at hr; cases hr; rfl
    subst ht
    subst e5
    refine OnOk.bind (inv_sem_args hg hw n l5 _).1 ?_
    rintro f e l6 _ - ⟨rfl, hfe⟩
    refine OnOk.bind (inv_eat hg) ?_
    rintro _ _ l7 _ - ⟨rfl, rfl⟩
    refine OnOk.bind (inv_comments hg) ?_
    rintro _ g l8 _ - ⟨rfl, hgap⟩
    exact OnOk.pure ⟨rfl, .inr ⟨f, e, g, rfl, hfe, hgap, by simp⟩⟩
  · rintro f t3 l4 _ - ⟨rfl, ⟨rfl, rfl⟩ | ⟨f', e, g', rfl, hfe, hgap', rfl⟩⟩
    · refine OnOk.pure ?_
      simpa using BodySyn.plain hts
    · refine OnOk.pure ?_
      simpa using BodySyn.fn hts hfe hgap'

theorem inv_hashBody {b : RuleBody} : OnOk inp (hashBody w b) l ρ (fun k t _ ρ' => ρ' = ρ ∧ t = [] ∧ w.hash b = some k) := by
  unfold hashBody
  split
  · exact OnOk.fail
  · rename_i k hk
    exact OnOk.pure ⟨rfl, rfl, hk⟩

theorem inv_ruleBodiesLoop (hw : w.OK) {n0 : Nat} {m : List (Nat × RuleBody)} :
    OnOk inp (ruleBodiesLoop w inp n0 n m) l ρ (fun m' t _ ρ' =>
      (t = [] ∧ ρ' = ρ ∧ m' = m) ∨ ∃ g t' bs kb, Gap w g ∧ t = '|' :: (g ++ t') ∧ BodiesSyn w t' bs ρ ρ' ∧
        keyed w bs = some kb ∧ m' = mapSets m kb) := by
  induction n generalizing l ρ m with
  | zero => exact OnOk.div
  | succ n ih =>
    unfold ruleBodiesLoop
    refine OnOk.bind (inv_peek hg) ?_
    rintro r _ l4 _ e4 ⟨rfl, rfl, rfl⟩
    rw [List.nil_append] at e4
    subst e4
    refine OnOk.ite (fun _ => OnOk.pure (.inl ⟨rfl, rfl, rfl⟩)) fun hr => ?_
    rw [ne_eq, Classical.not_not] at hr
    refine OnOk.bind (inv_next hg) ?_
    rintro _ t l5 _ e5 ⟨rfl, ht⟩
    have ht : t = ['|'] := by
      rcases ht with ⟨-, rfl, rfl⟩ | ⟨c, -, rfl⟩
      · rw [e5] at hr; cases hr
      · rw [e5] at hr; cases hr; rfl
    subst ht
    subst e5
    refine OnOk.bind (inv_comments hg) ?_
    rintro _ g l6 _ rfl ⟨rfl, hgap⟩
    refine OnOk.bind (inv_ruleBody hg hw) ?_
    rintro b t l7 ρ1 rfl hb
    refine OnOk.bind (inv_hashBody hg) ?_
    rintro k _ l8 _ e8 ⟨rfl, rfl, hk⟩
    rw [List.nil_append] at e8
    subst e8
    refine ih.mono ?_
    rintro m' t2 l9 ρ2 - h
    right
    rcases h with ⟨rfl, rfl, rfl⟩ | ⟨g2, t3, bs, kb, hgap2, rfl, hbs, hkb, rfl⟩
    · exact ⟨g, t, [b], [(k, b)], hgap, by simp, .one hb, by simp [keyed, hk], rfl⟩
    · refine ⟨g, _, b :: bs, (k, b) :: kb, hgap, ?_, .more hb hgap2 hbs, by simp [keyed, hk, hkb], rfl⟩
      simp

theorem inv_ruleBodies (hw : w.OK) : OnOk inp (ruleBodies w inp n) l ρ (fun m t _ ρ' =>
    ∃ bs kb, BodiesSyn w t bs ρ ρ' ∧ keyed w bs = some kb ∧ m = mapSets [] kb) := by
  unfold ruleBodies
  refine OnOk.bind (inv_ruleBody hg hw) ?_
  rintro b t l7 ρ1 rfl hb
  refine OnOk.bind (inv_hashBody hg) ?_
  rintro k _ l8 _ e8 ⟨rfl, rfl, hk⟩
  rw [List.nil_append] at e8
  subst e8
  refine (inv_ruleBodiesLoop hg hw).mono ?_
  rintro m' t2 l9 ρ2 - h
  rcases h with ⟨rfl, rfl, rfl⟩ | ⟨g2, t3, bs, kb, hgap2, rfl, hbs, hkb, rfl⟩
  · exact ⟨[b], [(k, b)], by simpa using BodiesSyn.one hb, by simp [keyed, hk], rfl⟩
  · refine ⟨b :: bs, (k, b) :: kb, ?_, by simp [keyed, hk, hkb], rfl⟩
    simpa using BodiesSyn.more hb hgap2 hbs

theorem inv_rule (hw : w.OK) {c : Option Char} : OnOk inp (rule w inp n c) l ρ (fun r t _ ρ' =>
    ∃ d kb, DefSyn w t d ρ ρ' ∧ keyed w d.bodies = some kb ∧ r = d.rule kb ∧ c = some (if d.frame then '[' else '<')) := by
  unfold rule
  refine OnOk.bind (Q := fun x t _ ρ' => ρ' = ρ ∧ ∃ y, Ident w y ∧ x = String.ofList y ∧
    (c = some '<' ∧ t = '<' :: (y ++ ['>']) ∨ c = some '[' ∧ t = '[' :: (y ++ [']']))) ?_ ?_
  · unfold ruleName
    refine OnOk.ite (fun hc => ?_) fun _ => OnOk.ite (fun hc => ?_) fun _ => OnOk.fail
    · unfold nonterminal
      refine (inv_token hg).mono ?_
      rintro _ _ _ _ - ⟨rfl, y, rfl, rfl, hy⟩
      exact ⟨rfl, y, hy, rfl, .inl ⟨hc, rfl⟩⟩
    · unfold frame
      refine (inv_token hg).mono ?_
      rintro _ _ _ _ - ⟨rfl, y, rfl, rfl, hy⟩
      exact ⟨rfl, y, hy, rfl, .inr ⟨hc, rfl⟩⟩
  · rintro _ t l1 _ rfl ⟨rfl, y, hy, rfl, ht⟩
    refine OnOk.bind (inv_comments hg) ?_
    rintro _ g1 l2 _ rfl ⟨rfl, hg1⟩
    refine OnOk.bind (inv_eat hg) ?_
    rintro _ _ l3 _ rfl ⟨rfl, rfl⟩
    refine OnOk.bind (inv_comments hg) ?_
    rintro _ g2 l4 _ rfl ⟨rfl, hg2⟩
    refine OnOk.bind (inv_ruleBodies hg hw) ?_
    rintro _ t2 l5 ρ1 rfl ⟨bs, kb, hbs, hkb, rfl⟩
    refine OnOk.bind (inv_eat hg) ?_
    rintro _ _ l6 _ rfl ⟨rfl, rfl⟩
    refine OnOk.pure ?_
    rcases ht with ⟨rfl, rfl⟩ | ⟨rfl, rfl⟩
    · refine ⟨⟨false, String.ofList y, bs⟩, kb, ?_, hkb, rfl, rfl⟩
      simpa using DefSyn.rule hy hg1 hg2 hbs
    · refine ⟨⟨true, String.ofList y, bs⟩, kb, ?_, hkb, rfl, rfl⟩
      simpa using DefSyn.frame hy hg1 hg2 hbs

/-- What has been read is a sequence of definitions, except perhaps for the end. -/
theorem inv_rulesLoop (hw : w.OK) {n0 : Nat} {m : List (String × Rule) × List (String × Rule)} :
    OnOk inp (rulesLoop w inp n0 n m) l ρ (fun m' t _ ρ' =>
      ∃ ds kds, DefsSyn w t ds ρ ρ' ∧ List.Forall₂ (fun d e => e.1 = d ∧ keyed w d.bodies = some e.2) ds kds ∧
        m' = addDefs m kds) := by
  induction n generalizing l ρ m with
  | zero => exact OnOk.div
  | succ n ih =>
    unfold rulesLoop
    refine OnOk.bind (inv_comments hg) ?_
    rintro _ g l1 _ rfl ⟨rfl, hgap⟩
    refine OnOk.bind (inv_peek hg) ?_
    rintro r _ l4 _ e4 ⟨rfl, rfl, rfl⟩
    rw [List.nil_append] at e4
    subst e4
    refine OnOk.ite (fun _ => ?_) fun _ => OnOk.pure ⟨[], [], ?_, .nil, rfl⟩
    · refine OnOk.bind (inv_rule hg hw) ?_
      rintro _ t l2 ρ1 rfl ⟨d, kb, hd, hkb, rfl, hc⟩
      refine ih.mono ?_
      rintro _ t2 l3 ρ2 - ⟨ds, kds, hds, hk, rfl⟩
      refine ⟨d :: ds, (d, kb) :: kds, ?_, .cons ⟨rfl, hkb⟩ hk, ?_⟩
      · simpa using DefsSyn.cons hgap hd hds
      · rw [hc, addDefs]
        cases d.frame <;> rfl
    · simpa using DefsSyn.nil hgap


/-! ### include directives -/

theorem inv_directive (hw : w.OK) : OnOk inp (directive w inp n) l ρ (fun o t _ ρ' => ρ' = ρ ∧
    ∀ f, o = some f → IncludeSyn w t f) := by
  unfold directive
  refine OnOk.bind (inv_comments hg) ?_
  rintro _ g l1 _ rfl ⟨rfl, hgap⟩
  refine OnOk.bind (inv_peek hg) ?_
  rintro r _ l4 _ e4 ⟨rfl, rfl, rfl⟩
  rw [List.nil_append] at e4
  subst e4
  refine OnOk.ite (fun _ => OnOk.pure ⟨rfl, fun f e => by cases e⟩) fun hr => ?_
  rw [ne_eq, Classical.not_not] at hr
  refine OnOk.bind (inv_next hg) ?_
  rintro _ t l5 _ e5 ⟨rfl, ht⟩
  have ht : t = ['#'] := by
    rcases ht with ⟨-, rfl, rfl⟩ | ⟨c, -, rfl⟩
    · rw [e5] at hr; cases hr
    · rw [e5] at hr; cases hr; rfl
  subst ht
  subst e5
  refine OnOk.bind (inv_ws hg) ?_
  rintro _ s1 l6 _ - ⟨rfl, hs1, -⟩
  refine OnOk.bind (inv_text hg) ?_
  rintro _ x l7 _ - ⟨rfl, rfl, hx⟩
  refine OnOk.ite (fun _ => OnOk.fail) fun hn => ?_
  rw [ne_eq, Classical.not_not] at hn
  have hx' : x = "include".toList := by
    have := congrArg String.toList hn
    rwa [String.toList_ofList] at this
  subst hx'
  refine OnOk.bind (inv_ws hg) ?_
  rintro _ s2 l8 _ - ⟨rfl, hs2, -⟩
  refine OnOk.bind (inv_terminal hg hw) ?_
  rintro ⟨f, v⟩ t l9 _ - ⟨rfl, ht⟩
  refine OnOk.pure ⟨rfl, fun f' e => ?_⟩
  cases e
  have := IncludeSyn.mk hgap hs1 hs2 ht
  simpa using this

theorem reads_directive (hw : w.OK) {t r : List Char} {f : String} (h : IncludeSyn w t f) (hn : (t ++ r).length < n) :
    Reads inp (directive w inp n) (t ++ r) ρ (some f) r ρ := by
  obtain ⟨hgap, hs1, hs2, hl⟩ := h
  rename_i g s1 s2 l f0
  unfold directive
  simp only [List.append_assoc, List.cons_append] at hn ⊢
  have hi : Ident w "include".toList := ident_word hw (by decide) (by decide)
  refine Reads.bind (reads_comments hg hw hgap (stop_of_punct hw rfl (by decide)) hn) ?_
  refine Reads.bind (reads_peek hg) ?_
  rw [List.head?_cons, if_neg (by simp)]
  refine Reads.bind (reads_next hg) ?_
  rw [List.tail_cons]
  refine Reads.bind (reads_ws_app hg hs1 (hi.headSpace hw) (by lens)) ?_
  have hq := hl.head (r := r)
  have hid : Head (idCont w false · = false) (s2 ++ (l ++ r)) := by
    refine Head.append (hs2.noId (hw := hw)) ?_
    intro c hc
    rw [hq] at hc
    cases hc
    exact (punct_not hw (by decide)).1
  have hsp : Head (w.isSpace · = false) (l ++ r) := by
    intro c hc
    rw [hq] at hc
    cases hc
    exact (hw.punct '"' (by decide)).2.2
  refine Reads.bind (reads_text_app hg hi hid (by lens)) ?_
  rw [if_neg (by simp)]
  refine Reads.bind (reads_ws_app hg hs2 hsp (by lens)) ?_
  exact Reads.bind (reads_terminal hg hw hl (by lens)) (Reads.pure _)

end

end Fmr
