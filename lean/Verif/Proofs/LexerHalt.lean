import Verif.Proofs.LexerFwd

/-!
# The parser terminates

On inputs without U+FFFD in which every `//` is followed by a newline.
-/

namespace Fmr

/-- every `//` is followed by a newline somewhere -/
def LineOK (l : List Char) : Prop := ∀ t, ('/' :: '/' :: t) <:+ l → '\n' ∈ t

theorem LineOK.suffix {l l' : List Char} (h : LineOK l) (hs : l' <:+ l) : LineOK l' :=
  fun t ht => h t (ht.trans hs)

/-- `x` ends with `l` remaining, and then has consumed at least `k` runes -/
def Halts (inp : List Char) {α : Type} (x : P α) (l : List Char) (k : Nat) : Prop :=
  ∀ s, inp.drop s.pos = l → x s ≠ .div ∧ x s ≠ .panic ∧
    ∀ a s', x s = .ok (a, s') → inp.drop s'.pos <:+ l ∧ (inp.drop s'.pos).length + k ≤ l.length

/-- the same, up to one `backup` -/
def HaltsB (inp : List Char) {α : Type} (x : P α) (l : List Char) : Prop :=
  ∀ s, inp.drop s.pos = l → x s ≠ .div ∧ x s ≠ .panic ∧
    ∀ a s', x s = .ok (a, s') → inp.drop (s'.pos - s'.width) <:+ l

section
variable {inp : List Char} {α β : Type} {l l' : List Char} {k m : Nat}

theorem Halts.pure (a : α) : Halts inp (pure a : P α) l 0 := by
  rintro s rfl
  refine ⟨by simp, by simp, ?_⟩
  rintro b s' h
  cases h
  exact ⟨List.suffix_refl _, by simp⟩

theorem Halts.fail : Halts inp (P.fail : P α) l k := by
  intro s _
  simp

theorem Halts.mono {x : P α} (h : Halts inp x l k) (hk : m ≤ k) : Halts inp x l m := by
  intro s hs
  obtain ⟨h1, h2, h3⟩ := h s hs
  exact ⟨h1, h2, fun a s' e => ⟨(h3 a s' e).1, by have := (h3 a s' e).2; omega⟩⟩

theorem Halts.bind {x : P α} {f : α → P β} (h1 : Halts inp x l k)
    (h2 : ∀ a l', l' <:+ l → l'.length + k ≤ l.length → Halts inp (f a) l' m) :
    Halts inp (x >>= f) l (k + m) := by
  intro s hs
  obtain ⟨e1, e2, e3⟩ := h1 s hs
  rw [P.bind_run]
  cases hx : x s with
  | ok p =>
    obtain ⟨a, s1⟩ := p
    obtain ⟨p1, p2⟩ := e3 a s1 hx
    obtain ⟨q1, q2, q3⟩ := h2 a _ p1 p2 s1 rfl
    simp only [Out.bind_ok]
    refine ⟨q1, q2, fun b s' e => ?_⟩
    obtain ⟨r1, r2⟩ := q3 b s' e
    exact ⟨r1.trans p1, by omega⟩
  | err => simp
  | panic => exact absurd hx e2
  | div => exact absurd hx e1

theorem Halts.bind0 {x : P α} {f : α → P β} (h1 : Halts inp x l 0)
    (h2 : ∀ a l', l' <:+ l → l'.length ≤ l.length → Halts inp (f a) l' m) : Halts inp (x >>= f) l m := by
  have := Halts.bind h1 (m := m) (f := f) (fun a l' hs hl => h2 a l' hs (by omega))
  simpa using this

theorem HaltsB.bind {x : P α} {f : α → P β} (h1 : HaltsB inp x l)
    (h2 : ∀ a, (∀ s, f a s = .err) ∨ ∃ g, f a = (backup >>= fun _ => g) ∧
      ∀ l', l' <:+ l → Halts inp g l' 0) : Halts inp (x >>= f) l 0 := by
  intro s hs
  obtain ⟨e1, e2, e3⟩ := h1 s hs
  rw [P.bind_run]
  cases hx : x s with
  | ok p =>
    obtain ⟨a, s1⟩ := p
    have p1 := e3 a s1 hx
    simp only [Out.bind_ok]
    rcases h2 a with hf | ⟨g, hf, hh⟩
    · rw [hf]; simp
    · obtain ⟨q1, q2, q3⟩ := hh _ p1 { s1 with pos := s1.pos - s1.width } rfl
      have e : f a s1 = g { s1 with pos := s1.pos - s1.width } := by
        rw [hf, P.bind_run]; rfl
      rw [e]
      refine ⟨q1, q2, fun b s' e => ?_⟩
      obtain ⟨r1, r2⟩ := q3 b s' e
      have := (p1).sublist.length_le
      exact ⟨r1.trans p1, by dsimp at r2; omega⟩
  | err => simp
  | panic => exact absurd hx e2
  | div => exact absurd hx e1

theorem Halts.of_reads {x : P α} (hl : l' <:+ l) (hk : l'.length + k ≤ l.length)
    (h : ∀ ρ, (∃ a, Reads inp x l ρ a l' ρ) ∨ Fails inp x l ρ) : Halts inp x l k := by
  intro s hs
  rcases h s.regexps with ⟨a, h⟩ | h
  · obtain ⟨s1, e, h1, _⟩ := h s ⟨hs, rfl⟩
    rw [e]
    refine ⟨by simp, by simp, fun b s' e => ?_⟩
    cases e
    rw [h1]
    exact ⟨hl, hk⟩
  · rw [h s ⟨hs, rfl⟩]
    simp

theorem Halts.of_fails {x : P α} (h : ∀ ρ, Fails inp x l ρ) : Halts inp x l k := by
  intro s hs
  rw [h s.regexps s ⟨hs, rfl⟩]
  simp

/-- the same with an amount that depends on the result -/
def HaltsD (inp : List Char) {α : Type} (x : P α) (l : List Char) (κ : α → Nat) : Prop :=
  ∀ s, inp.drop s.pos = l → x s ≠ .div ∧ x s ≠ .panic ∧
    ∀ a s', x s = .ok (a, s') → inp.drop s'.pos <:+ l ∧ (inp.drop s'.pos).length + κ a ≤ l.length

theorem HaltsD.bind {x : P α} {f : α → P β} {κ : α → Nat} (h1 : HaltsD inp x l κ)
    (h2 : ∀ a l', l' <:+ l → l'.length + κ a ≤ l.length → Halts inp (f a) l' (m - κ a)) :
    Halts inp (x >>= f) l m := by
  intro s hs
  obtain ⟨e1, e2, e3⟩ := h1 s hs
  rw [P.bind_run]
  cases hx : x s with
  | ok p =>
    obtain ⟨a, s1⟩ := p
    obtain ⟨p1, p2⟩ := e3 a s1 hx
    obtain ⟨q1, q2, q3⟩ := h2 a _ p1 p2 s1 rfl
    simp only [Out.bind_ok]
    refine ⟨q1, q2, fun b s' e => ?_⟩
    obtain ⟨r1, r2⟩ := q3 b s' e
    exact ⟨r1.trans p1, by omega⟩
  | err => simp
  | panic => exact absurd hx e2
  | div => exact absurd hx e1

theorem Halts.ite {p : Prop} [Decidable p] {x y : P α} (h1 : p → Halts inp x l k)
    (h2 : ¬ p → Halts inp y l k) : Halts inp (if p then x else y) l k := by
  split
  · exact h1 ‹_›
  · exact h2 ‹_›

end

section
variable {inp : List Char} {α β : Type} {l l' : List Char} {k m n n0 : Nat}
variable (hg : runeError ∉ inp) (w : LexWorld)
include hg

theorem halts_next : Halts inp (next inp) l 0 :=
  Halts.of_reads (List.tail_suffix l) (by simp) fun _ => .inl ⟨_, reads_next hg⟩

theorem halts_peek : Halts inp (peek inp) l 0 :=
  Halts.of_reads (List.suffix_refl l) (by simp) fun _ => .inl ⟨_, reads_peek hg⟩

theorem halts_next_bind {f : Option Char → P α} (h0 : l = [] → Halts inp (f none) [] k)
    (h1 : ∀ c l', l = c :: l' → Halts inp (f (some c)) l' (k - 1)) : Halts inp (next inp >>= f) l k := by
  intro s hs
  rw [P.bind_run]
  rcases next_run hg hs with ⟨c, l', rfl, e, hd⟩ | ⟨rfl, e⟩
  · rw [e]
    simp only [Out.bind_ok]
    obtain ⟨p1, p2, p3⟩ := h1 c l' rfl { s with pos := s.pos + 1, width := 1 } hd
    refine ⟨p1, p2, fun a s' e => ?_⟩
    obtain ⟨q1, q2⟩ := p3 a s' e
    exact ⟨q1.trans (List.suffix_cons c l'), by rw [List.length_cons]; omega⟩
  · rw [e]
    simp only [Out.bind_ok]
    exact h0 rfl { s with width := 0 } hs

theorem haltsB_next_bind {f : Option Char → P α}
    (h0 : l = [] → f none = P.fail ∨ ∃ a, f none = Pure.pure a)
    (h1 : ∀ c l', l = c :: l' → f (some c) = P.fail ∨ (∃ a, f (some c) = Pure.pure a) ∨
      HaltsB inp (f (some c)) l') : HaltsB inp (next inp >>= f) l := by
  intro s hs
  rw [P.bind_run]
  rcases next_run hg hs with ⟨c, l', rfl, e, hd⟩ | ⟨rfl, e⟩
  · rw [e]
    simp only [Out.bind_ok]
    rcases h1 c l' rfl with h | ⟨a, h⟩ | h
    · rw [h]; simp
    · rw [h]
      refine ⟨by simp, by simp, fun b s' e => ?_⟩
      cases e
      simp [hs]
    · obtain ⟨p1, p2, p3⟩ := h { s with pos := s.pos + 1, width := 1 } hd
      exact ⟨p1, p2, fun a s' e => (p3 a s' e).trans (List.suffix_cons c l')⟩
  · rw [e]
    simp only [Out.bind_ok]
    rcases h0 rfl with h | ⟨a, h⟩
    · rw [h]; simp
    · rw [h]
      refine ⟨by simp, by simp, fun b s' e => ?_⟩
      cases e
      simp [hs]

theorem halts_eat {c : Char} : Halts inp (eat inp c) l 1 := by
  cases l with
  | nil => exact Halts.of_fails fun _ => fails_eat hg (by simp)
  | cons d l =>
    by_cases h : d = c
    · subst h
      exact Halts.of_reads (List.suffix_cons d l) (by simp) fun _ => .inl ⟨_, reads_eat hg⟩
    · exact Halts.of_reads (List.suffix_cons d l) (by simp) fun _ => .inr (fails_eat hg (by simpa using h))

theorem halts_ws (hn : l.length < n) : Halts inp (ws w inp n) l 0 :=
  Halts.of_reads (List.dropWhile_suffix _) (by simpa using (List.dropWhile_suffix w.isSpace).sublist.length_le)
    fun _ => .inl ⟨_, reads_ws hg w hn⟩

omit hg in
theorem idDrop_suffix {first : Bool} : idDrop w first l <:+ l :=
  ⟨_, idTake_append_idDrop w first⟩

theorem halts_text (hn : l.length < n) : Halts inp (text w inp n) l 0 := by
  have hsuf := idDrop_suffix w (l := l) (first := true)
  refine Halts.of_reads hsuf (by simpa using hsuf.sublist.length_le) fun _ => ?_
  by_cases h : idTake w true l = []
  · exact .inr (fails_text hg w hn h)
  · exact .inl ⟨_, reads_text hg w hn h⟩

theorem halts_token {b e : Char} (hn : l.length < n) : Halts inp (token w inp n b e) l 1 := by
  unfold token
  refine Halts.bind (m := 0) (halts_eat hg) fun _ l1 h1 hl1 => ?_
  refine Halts.bind0 (halts_text hg w (by omega)) fun _ l2 h2 hl2 => ?_
  refine (Halts.bind (m := 0) (halts_eat hg) fun _ l3 h3 hl3 => Halts.pure _).mono (by omega)

omit hg in
theorem litScan_suffix {esc : Bool} {v l' : List Char} (h : litScan esc l = some (v, l')) : l' <:+ l := by
  induction l generalizing esc v l' with
  | nil => simp [litScan] at h
  | cons c l ih =>
    cases esc with
    | false =>
      by_cases hq : c = '"'
      · subst hq
        rw [litScan] at h
        cases h
        exact List.suffix_refl _
      · rw [litScan] at h
        · split at h
          · exact (ih h).trans (List.suffix_cons c l)
          · rw [Option.map_eq_some_iff] at h
            obtain ⟨⟨v', l''⟩, h1, h2⟩ := h
            cases h2
            exact (ih h1).trans (List.suffix_cons c l)
        · simpa using hq
    | true =>
      rw [litScan] at h
      cases hu : unescape c with
      | none => rw [hu] at h; cases h
      | some x =>
        rw [hu] at h
        simp only [Option.map_eq_some_iff] at h
        obtain ⟨⟨v', l''⟩, h1, h2⟩ := h
        cases h2
        exact (ih h1).trans (List.suffix_cons c l)

theorem halts_terminalText {esc : Bool} (hn : l.length < n) : Halts inp (terminalText inp n esc) l 0 := by
  cases h : litScan esc l with
  | none =>
    exact Halts.of_reads (List.suffix_refl l) (by simp) fun _ => .inr (fails_terminalText hg hn h)
  | some p =>
    obtain ⟨v, l'⟩ := p
    have := litScan_suffix h
    exact Halts.of_reads this (by simpa using this.sublist.length_le)
      fun _ => .inl ⟨_, reads_terminalText hg hn h⟩

theorem halts_terminal (hn : l.length < n) : Halts inp (terminal w inp n) l 1 := by
  unfold terminal
  refine Halts.bind (m := 0) (halts_eat hg) fun _ l1 h1 hl1 => ?_
  refine Halts.bind0 (halts_ws hg w (by omega)) fun _ l2 h2 hl2 => ?_
  refine Halts.bind0 ?_ fun _ l3 h3 hl3 => ?_
  · unfold terminalFlags
    refine Halts.bind0 (halts_peek hg) fun _ l4 h4 hl4 => ?_
    refine Halts.ite (fun _ => ?_) fun _ => Halts.pure _
    refine Halts.bind0 (halts_next hg) fun _ l5 h5 hl5 => ?_
    refine Halts.bind0 (halts_ws hg w (by omega)) fun _ l6 h6 hl6 => ?_
    refine Halts.bind0 ((halts_eat hg).mono (by omega)) fun _ l7 h7 hl7 => ?_
    refine Halts.bind0 (halts_ws hg w (by omega)) fun _ l8 h8 hl8 => ?_
    refine Halts.bind0 (halts_text hg w (by omega)) fun _ l9 h9 hl9 => ?_
    exact Halts.bind0 ((halts_eat hg).mono (by omega)) fun _ _ _ _ => Halts.pure _
  · refine Halts.bind0 (halts_terminalText hg (by omega)) fun _ l4 h4 hl4 => ?_
    exact Halts.bind0 ((halts_eat hg).mono (by omega)) fun _ _ _ _ => Halts.pure _

theorem haltsB_getIntLoop {idx : Int} (hn : l.length < n) : HaltsB inp (getIntLoop w inp n idx) l := by
  induction n generalizing l idx with
  | zero => omega
  | succ n ih =>
    unfold getIntLoop
    refine haltsB_next_bind hg (fun _ => .inr ⟨_, rfl⟩) fun c l' e => ?_
    subst e
    simp only []
    split
    · split
      · exact .inl rfl
      · exact .inr (.inr (ih (by simpa using hn)))
    · exact .inr (.inl ⟨_, rfl⟩)

theorem halts_getInt (hn : l.length < n) : Halts inp (getInt w inp n) l 0 := by
  unfold getInt
  refine HaltsB.bind (haltsB_getIntLoop hg w hn) fun a => ?_
  by_cases h : a = -1
  · left; intro s; rw [if_pos h]; rfl
  · right
    exact ⟨_, if_neg h, fun _ _ => Halts.pure _⟩

theorem halts_lineLoop (h : '\n' ∈ l) (hn : l.length < n) : Halts inp (lineLoop inp n) l 0 := by
  induction n generalizing l with
  | zero => omega
  | succ n ih =>
    unfold lineLoop
    refine halts_next_bind hg (fun e => by subst e; simp at h) fun c l' e => ?_
    subst e
    refine Halts.ite (fun _ => Halts.pure _) fun hne => ?_
    refine ih ?_ (by simpa using hn)
    rcases List.mem_cons.mp h with h | h
    · exact absurd (by rw [h]) hne
    · exact h

theorem halts_multiLoop {star : Bool} (hn : l.length < n) : Halts inp (multiLoop inp n star) l 0 := by
  induction n generalizing l star with
  | zero => omega
  | succ n ih =>
    unfold multiLoop
    refine halts_next_bind hg (fun e => Halts.fail) fun c l' e => ?_
    subst e
    refine Halts.ite (fun _ => Halts.pure _) fun hne => ?_
    exact ih (by simpa using hn)

theorem haltsD_comment (hl : LineOK l) (hn : l.length < n) :
    HaltsD inp (comment inp n) l (fun b => if b then 1 else 0) := by
  by_cases hd : l.head? = some '/'
  · obtain ⟨l', rfl⟩ : ∃ l', l = '/' :: l' := by
      cases l with
      | nil => cases hd
      | cons c l => cases hd; exact ⟨l, rfl⟩
    have hn' : l'.length < n := by simp at hn; omega
    have hmain : Halts inp (comment inp n) ('/' :: l') 1 := by
      unfold comment
      refine halts_next_bind hg (fun e => by cases e) fun c l1 e => ?_
      cases e
      rw [if_neg (by simp)]
      refine Halts.mono (k := 0) ?_ (by omega)
      have hp : ∀ ρ, Reads inp (peek inp) l' ρ l'.head? l' ρ := fun ρ => reads_peek hg
      intro s hs
      rw [P.bind_run]
      obtain ⟨s1, e1, h1, _⟩ := hp s.regexps s ⟨hs, rfl⟩
      rw [e1]
      simp only [Out.bind_ok]
      have key : Halts inp (if l'.head? = some '/' then do
          lineComment inp n
          pure true
        else if l'.head? = some '*' then do
          multiLineComment inp n
          pure true
        else P.fail) l' 0 := by
        refine Halts.ite (fun h => ?_) fun _ => Halts.ite (fun _ => ?_) fun _ => Halts.fail
        · obtain ⟨t, rfl⟩ : ∃ t, l' = '/' :: t := by
            cases l' with
            | nil => cases h
            | cons c l => cases h; exact ⟨l, rfl⟩
          refine Halts.bind0 ?_ fun _ _ _ _ => Halts.pure _
          unfold lineComment
          refine Halts.mono (k := 1) ?_ (by omega)
          have : Halts inp (eat inp '/' >>= fun _ => lineLoop inp n) ('/' :: t) (1 + 0) := by
            intro s hs
            obtain ⟨s1, e1, h1, _⟩ := reads_eat (ρ := s.regexps) hg s ⟨hs, rfl⟩
            rw [P.bind_run, e1]
            simp only [Out.bind_ok]
            obtain ⟨q1, q2, q3⟩ := halts_lineLoop (n := n) hg (hl t (List.suffix_refl _))
              (by simp at hn; omega) s1 h1
            refine ⟨q1, q2, fun b s' e => ?_⟩
            obtain ⟨r1, r2⟩ := q3 b s' e
            exact ⟨r1.trans (List.suffix_cons _ _), by rw [List.length_cons]; omega⟩
          exact this
        · refine Halts.bind0 ?_ fun _ _ _ _ => Halts.pure _
          unfold multiLineComment
          exact Halts.bind0 ((halts_eat hg).mono (by omega)) fun _ _ _ _ => halts_multiLoop hg (by omega)
      exact key s1 h1
    intro s hs
    obtain ⟨q1, q2, q3⟩ := hmain s hs
    refine ⟨q1, q2, fun a s' e => ?_⟩
    obtain ⟨r1, r2⟩ := q3 a s' e
    refine ⟨r1, ?_⟩
    cases a <;> simp <;> simp at r2 <;> omega
  · intro s hs
    obtain ⟨s1, e1, h1, _⟩ := reads_comment_none (n := n) (ρ := s.regexps) hg
      (r := l) (fun c hc e => hd (by rw [hc, e])) s ⟨hs, rfl⟩
    rw [e1]
    refine ⟨by simp, by simp, fun a s' e => ?_⟩
    cases e
    rw [h1]
    exact ⟨List.suffix_refl _, by simp⟩

theorem halts_commentsLoop (hl : LineOK l) (hn0 : l.length < n0) (hn : l.length < n) :
    Halts inp (commentsLoop w inp n0 n) l 0 := by
  induction n generalizing l with
  | zero => omega
  | succ n ih =>
    unfold commentsLoop
    refine Halts.bind0 (halts_ws hg w hn0) fun _ l1 h1 hl1 => ?_
    refine HaltsD.bind (haltsD_comment hg (hl.suffix h1) (by omega)) fun b l2 h2 hl2 => ?_
    refine Halts.ite (fun hb => ?_) fun _ => (Halts.pure _).mono (by omega)
    rw [hb] at hl2
    simp only [if_true] at hl2
    exact (ih ((hl.suffix h1).suffix h2) (by omega) (by omega)).mono (by omega)

theorem halts_comments (hl : LineOK l) (hn : l.length < n) : Halts inp (comments w inp n) l 0 := by
  unfold comments
  exact Halts.bind0 (halts_commentsLoop hg w hl hn hn) fun _ l1 h1 hl1 => halts_ws hg w (by omega)

theorem halts_specialMeta (hn : l.length < n) : Halts inp (specialMeta w inp n) l 0 := by
  unfold specialMeta
  refine Halts.bind0 (halts_ws hg w hn) fun _ l1 h1 hl1 => ?_
  refine Halts.bind0 (halts_peek hg) fun _ l2 h2 hl2 => ?_
  refine Halts.ite (fun _ => ?_) fun _ => ?_
  · refine Halts.bind0 (halts_next hg) fun _ l3 h3 hl3 => ?_
    refine Halts.bind0 (halts_ws hg w (by omega)) fun _ l4 h4 hl4 => ?_
    refine Halts.bind0 (halts_getInt hg w (by omega)) fun a l5 h5 hl5 => ?_
    refine Halts.bind0 (halts_ws hg w (by omega)) fun _ l6 h6 hl6 => ?_
    refine Halts.bind0 ((halts_eat hg).mono (by omega)) fun _ l7 h7 hl7 => ?_
    refine Halts.bind0 (halts_ws hg w (by omega)) fun _ l8 h8 hl8 => ?_
    refine Halts.bind0 (halts_getInt hg w (by omega)) fun b l9 h9 hl9 => ?_
    refine Halts.ite (fun _ => Halts.fail) fun _ => ?_
    refine Halts.bind0 (halts_ws hg w (by omega)) fun _ l10 h10 hl10 => ?_
    refine Halts.bind0 ((halts_eat hg).mono (by omega)) fun _ l11 h11 hl11 => ?_
    exact Halts.bind0 (halts_ws hg w (by omega)) fun _ _ _ _ => Halts.pure _
  · exact Halts.bind0 (halts_ws hg w (by omega)) fun _ _ _ _ => Halts.pure _

theorem halts_special (hn : l.length < n) : Halts inp (special w inp n) l 1 := by
  unfold special
  refine Halts.bind (m := 0) (halts_eat hg) fun _ l1 h1 hl1 => ?_
  refine Halts.bind0 (halts_ws hg w (by omega)) fun _ l2 h2 hl2 => ?_
  refine Halts.bind0 (halts_text hg w (by omega)) fun _ l3 h3 hl3 => ?_
  refine Halts.bind0 (halts_ws hg w (by omega)) fun _ l4 h4 hl4 => ?_
  refine Halts.ite (fun _ => ?_) fun _ => Halts.ite (fun _ => ?_) fun _ => Halts.fail
  · unfold anyTerm
    refine Halts.bind0 (halts_specialMeta hg w (by omega)) fun _ l5 h5 hl5 => ?_
    exact Halts.bind0 ((halts_eat hg).mono (by omega)) fun _ _ _ _ => Halts.pure _
  · unfold listTerm
    refine Halts.bind0 ((halts_token hg w (by omega)).mono (by omega)) fun _ l5 h5 hl5 => ?_
    refine Halts.bind0 (halts_specialMeta hg w (by omega)) fun _ l6 h6 hl6 => ?_
    exact Halts.bind0 ((halts_eat hg).mono (by omega)) fun _ _ _ _ => Halts.pure _

theorem halts_regexLoop (hn : l.length < n) : Halts inp (regexLoop inp n) l 0 := by
  induction n generalizing l with
  | zero => omega
  | succ n ih =>
    unfold regexLoop
    refine halts_next_bind hg (fun e => Halts.fail) fun c l' e => ?_
    subst e
    refine Halts.ite (fun _ => Halts.pure _) fun hne => ?_
    exact Halts.bind0 (ih (by simpa using hn)) fun _ _ _ _ => Halts.pure _

omit hg in
theorem halts_putRegexp {h s : String} : Halts inp (putRegexp h s) l 0 := by
  rintro s rfl
  refine ⟨by simp [putRegexp], by simp [putRegexp], fun a s' e => ?_⟩
  cases e
  exact ⟨List.suffix_refl _, by simp⟩

theorem halts_term (hn : l.length < n) : Halts inp (term w inp n) l 1 := by
  unfold term
  refine Halts.bind0 (halts_peek hg) fun _ l1 h1 hl1 => ?_
  refine Halts.ite (fun _ => ?_) fun _ => Halts.ite (fun _ => ?_) fun _ => Halts.ite (fun _ => ?_) fun _ =>
    Halts.ite (fun _ => ?_) fun _ => Halts.fail
  · exact Halts.bind (m := 0) (halts_token hg w (by omega)) fun _ _ _ _ => Halts.pure _
  · refine Halts.bind (m := 0) (halts_terminal hg w (by omega)) fun _ _ _ _ => ?_
    exact Halts.ite (fun _ => Halts.pure _) fun _ => Halts.pure _
  · exact halts_special hg w (by omega)
  · unfold regex
    refine Halts.bind (m := 0) (halts_eat hg) fun _ l2 h2 hl2 => ?_
    refine Halts.bind0 (halts_ws hg w (by omega)) fun _ l3 h3 hl3 => ?_
    refine Halts.bind0 (halts_regexLoop hg (by omega)) fun _ l4 h4 hl4 => ?_
    refine Halts.ite (fun _ => Halts.fail) fun _ => ?_
    refine Halts.ite (fun _ => ?_) fun _ => Halts.fail
    exact Halts.bind0 halts_putRegexp fun _ _ _ _ => Halts.pure _

theorem halts_funcNameLoop {first dot : Bool} (hn : l.length < n) :
    Halts inp (funcNameLoop w inp n first dot) l 0 := by
  induction n generalizing l first dot with
  | zero => omega
  | succ n ih =>
    unfold funcNameLoop
    cases l with
    | nil =>
      exact Halts.of_reads (List.suffix_refl _) (by simp) fun ρ =>
        .inl ⟨_, reads_next_backup (a := []) hg fun _ _ s1 => rfl⟩
    | cons c l =>
      by_cases h : (w.isLetter c = true ∨ c = '_' ∨ (w.isDigit c = true ∧ first = false) ∨
          (c = '.' ∧ dot = false ∧ first = false))
      · refine halts_next_bind hg (fun e => by cases e) fun c l' e => ?_
        cases e
        simp only []
        rw [if_pos h]
        exact Halts.bind0 (ih (by simpa using hn)) fun _ _ _ _ => Halts.pure _
      · refine Halts.of_reads (List.suffix_refl _) (by simp) fun ρ =>
          .inl ⟨[], reads_next_backup (a := []) hg fun _ _ s1 => ?_⟩
        simp only [List.head?_cons]
        rw [if_neg h]

theorem halts_funcName (hn : l.length < n) : Halts inp (funcName w inp n) l 0 := by
  unfold funcName
  refine Halts.bind0 (halts_funcNameLoop hg w hn) fun _ l1 h1 hl1 => ?_
  refine Halts.ite (fun _ => Halts.fail) fun _ => ?_
  exact Halts.bind0 (halts_ws hg w (by omega)) fun _ _ _ _ => Halts.pure _

omit hg in
theorem HaltsB.map {x : P α} {f : α → P β} (h : HaltsB inp x l) (hf : ∀ a, ∃ b, f a = Pure.pure b) :
    HaltsB inp (x >>= f) l := by
  intro s hs
  obtain ⟨e1, e2, e3⟩ := h s hs
  rw [P.bind_run]
  cases hx : x s with
  | ok p =>
    obtain ⟨a, s1⟩ := p
    obtain ⟨b, hb⟩ := hf a
    simp only [Out.bind_ok, hb]
    refine ⟨by simp, by simp, fun c s' e => ?_⟩
    cases e
    exact e3 a s1 hx
  | err => simp
  | panic => exact absurd hx e2
  | div => exact absurd hx e1

theorem haltsB_numLoop {hasDot : Bool} (hn : l.length < n) : HaltsB inp (numLoop w inp n hasDot) l := by
  induction n generalizing l hasDot with
  | zero => omega
  | succ n ih =>
    unfold numLoop
    refine haltsB_next_bind hg (fun _ => .inr ⟨_, rfl⟩) fun c l' e => ?_
    subst e
    simp only []
    split
    · exact .inr (.inr ((ih (by simpa using hn)).map fun a => ⟨_, rfl⟩))
    · split
      · split
        · exact .inl rfl
        · exact .inr (.inr ((ih (by simpa using hn)).map fun a => ⟨_, rfl⟩))
      · exact .inr (.inl ⟨_, rfl⟩)

theorem halts_numArg {neg : Bool} (hn : l.length < n) : Halts inp (numArg w inp n neg) l 0 := by
  unfold numArg
  refine HaltsB.bind (haltsB_numLoop hg w hn) fun a => ?_
  by_cases h : a.1.length = 0
  · left; intro s; rw [if_pos h]; rfl
  · right
    refine ⟨_, if_neg h, fun l' _ => ?_⟩
    simp only []
    split
    · split
      · exact Halts.fail
      · exact Halts.pure _
    · split
      · exact Halts.fail
      · exact Halts.pure _

theorem halts_funcArg {sem : P FMR} {r : Option Char} (hsem : Halts inp sem l 0) (hn : l.length < n) :
    Halts inp (funcArg w inp n sem r) l 0 := by
  unfold funcArg
  refine Halts.ite (fun _ => ?_) fun _ => Halts.ite (fun _ => ?_) fun _ => Halts.ite (fun _ => ?_) fun _ =>
    Halts.ite (fun _ => ?_) fun _ => Halts.ite (fun _ => ?_) fun _ => ?_
  · exact Halts.bind0 ((halts_eat hg).mono (by omega)) fun _ _ _ _ => Halts.pure _
  · refine Halts.bind0 ((halts_eat hg).mono (by omega)) fun _ l1 h1 hl1 => ?_
    exact Halts.bind0 (halts_getInt hg w (by omega)) fun _ _ _ _ => Halts.pure _
  · exact Halts.bind0 ((halts_terminal hg w hn).mono (by omega)) fun _ _ _ _ => Halts.pure _
  · exact halts_numArg hg w hn
  · refine Halts.bind0 ((halts_eat hg).mono (by omega)) fun _ l1 h1 hl1 => ?_
    exact halts_numArg hg w (by omega)
  · exact Halts.bind0 hsem fun _ _ _ _ => Halts.pure _

theorem halts_funcArg_comma (hw : w.OK) {sem : P FMR} (hsem : Halts inp sem l 1) :
    Halts inp (funcArg w inp n sem (some ',')) l 1 := by
  unfold funcArg
  rw [if_neg (by decide), if_neg (by decide), if_neg (by decide), inClass, if_neg, if_neg (by decide)]
  · exact Halts.bind (m := 0) hsem fun _ _ _ _ => Halts.pure _
  · simp [(hw.punct ',' (by decide)).2.1]

theorem halts_sem_args (hw : w.OK) (n : Nat) :
    (∀ l, l.length < n0 → 2 * l.length + 2 ≤ n → Halts inp (semanticFn w inp n0 n) l 1) ∧
    (∀ l, l.length < n0 → 2 * l.length + 3 ≤ n → Halts inp (funcArgsLoop w inp n0 n) l 0) := by
  induction n with
  | zero => exact ⟨fun l _ h => by omega, fun l _ h => by omega⟩
  | succ n ih =>
    refine ⟨fun l h0 hn => ?_, fun l h0 hn => ?_⟩
    · unfold semanticFn
      refine Halts.bind0 (halts_ws hg w h0) fun _ l1 h1 hl1 => ?_
      refine Halts.bind0 (halts_funcName hg w (by omega)) fun _ l2 h2 hl2 => ?_
      refine Halts.bind (m := 0) (halts_eat hg) fun _ l3 h3 hl3 => ?_
      refine Halts.bind0 (ih.2 l3 (by omega) (by omega)) fun _ l4 h4 hl4 => ?_
      exact Halts.bind0 (halts_ws hg w (by omega)) fun _ _ _ _ => Halts.pure _
    · unfold funcArgsLoop
      refine Halts.bind0 (halts_ws hg w h0) fun _ l1 h1 hl1 => ?_
      refine Halts.bind0 (halts_peek hg) fun r l2 h2 hl2 => ?_
      have hsem := ih.1 l2 (by omega) (by omega)
      by_cases hr : r = some ','
      · subst hr
        refine (Halts.bind (m := 0) (halts_funcArg_comma hg w hw hsem) fun a l3 h3 hl3 => ?_).mono (by omega)
        rw [if_pos rfl]
        exact Halts.bind0 (ih.2 l3 (by omega) (by omega)) fun _ _ _ _ => Halts.pure _
      · refine Halts.bind0 (halts_funcArg hg w (hsem.mono (by omega)) (by omega)) fun a l3 h3 hl3 => ?_
        rw [if_neg hr]
        refine Halts.bind0 (halts_ws hg w (by omega)) fun _ l4 h4 hl4 => ?_
        refine halts_next_bind hg (fun e => ?_) fun c l5 e => ?_
        · rw [if_neg (by simp), if_neg (by simp)]
          exact Halts.fail
        · subst e
          rw [List.length_cons] at hl4
          refine Halts.ite (fun _ => ?_) fun _ => Halts.ite (fun _ => Halts.pure _) fun _ => Halts.fail
          exact Halts.bind0 (ih.2 l5 (by omega) (by omega)) fun _ _ _ _ => Halts.pure _

theorem halts_ruleBodyLoop (hl : LineOK l) (hn0 : l.length < n0) (hn : l.length < n) :
    Halts inp (ruleBodyLoop w inp n0 n) l 0 := by
  induction n generalizing l with
  | zero => omega
  | succ n ih =>
    unfold ruleBodyLoop
    refine Halts.bind0 (halts_comments hg w hl hn0) fun _ l1 h1 hl1 => ?_
    refine Halts.bind0 (halts_peek hg) fun r l2 h2 hl2 => ?_
    refine Halts.ite (fun _ => ?_) fun _ => Halts.pure _
    refine (Halts.bind (m := 0) (halts_term hg w (by omega)) fun t l3 h3 hl3 => ?_).mono (by omega)
    have hl' := ((hl.suffix h1).suffix h2).suffix h3
    refine Halts.bind0 (halts_comments hg w hl' (by omega)) fun _ l4 h4 hl4 => ?_
    exact Halts.bind0 (ih (hl'.suffix h4) (by omega) (by omega)) fun _ _ _ _ => Halts.pure _

theorem halts_ruleBody (hw : w.OK) (hl : LineOK l) (hn : 2 * l.length + 2 ≤ n) :
    Halts inp (ruleBody w inp n) l 1 := by
  unfold ruleBody
  refine Halts.bind (m := 0) (halts_term hg w (by omega)) fun _ l1 h1 hl1 => ?_
  refine Halts.bind0 (halts_comments hg w (hl.suffix h1) (by omega)) fun _ l2 h2 hl2 => ?_
  have h12 := (hl.suffix h1).suffix h2
  refine Halts.bind0 (halts_ruleBodyLoop hg w h12 (by omega) (by omega)) fun _ l3 h3 hl3 => ?_
  have h123 := h12.suffix h3
  refine Halts.bind0 ?_ fun _ _ _ _ => Halts.pure _
  unfold ruleBodyFn
  refine Halts.bind0 (halts_peek hg) fun r l4 h4 hl4 => ?_
  refine Halts.ite (fun _ => ?_) fun _ => Halts.pure _
  refine Halts.bind0 (halts_next hg) fun _ l5 h5 hl5 => ?_
  refine Halts.bind0 (((halts_sem_args hg w hw n).1 l5 (by omega) (by omega)).mono (by omega)) fun _ l6 h6 hl6 => ?_
  refine Halts.bind0 ((halts_eat hg).mono (by omega)) fun _ l7 h7 hl7 => ?_
  refine Halts.bind0 (halts_comments hg w ((((h123.suffix h4).suffix h5).suffix h6).suffix h7) (by omega))
    fun _ _ _ _ => Halts.pure _

omit hg in
theorem halts_hashBody {b : RuleBody} : Halts inp (hashBody w b) l 0 := by
  unfold hashBody
  split
  · exact Halts.fail
  · exact Halts.pure _

theorem halts_ruleBodiesLoop (hw : w.OK) {m : List (Nat × RuleBody)} (hl : LineOK l)
    (hn0 : 2 * l.length + 2 ≤ n0) (hn : l.length < n) : Halts inp (ruleBodiesLoop w inp n0 n m) l 0 := by
  induction n generalizing l m with
  | zero => omega
  | succ n ih =>
    unfold ruleBodiesLoop
    refine Halts.bind0 (halts_peek hg) fun r l1 h1 hl1 => ?_
    refine Halts.ite (fun _ => Halts.pure _) fun hc => ?_
    refine Halts.bind0 (halts_next hg) fun _ l2 h2 hl2 => ?_
    have hl2' := (hl.suffix h1).suffix h2
    refine Halts.bind0 (halts_comments hg w hl2' (by omega)) fun _ l3 h3 hl3 => ?_
    refine (Halts.bind (m := 0) (halts_ruleBody hg w hw (hl2'.suffix h3) (by omega)) fun _ l4 h4 hl4 => ?_).mono
      (by omega)
    refine Halts.bind0 (halts_hashBody w) fun _ l5 h5 hl5 => ?_
    exact ih (((hl2'.suffix h3).suffix h4).suffix h5) (by omega) (by omega)

theorem halts_rule (hw : w.OK) {c : Option Char} (hl : LineOK l) (hn : 2 * l.length + 2 ≤ n) :
    Halts inp (rule w inp n c) l 1 := by
  unfold rule ruleName
  refine Halts.bind (k := 1) (m := 0) ?_ fun _ l1 h1 hl1 => ?_
  · exact Halts.ite (fun _ => halts_token hg w (by omega)) fun _ => Halts.ite (fun _ =>
      halts_token hg w (by omega)) fun _ => Halts.fail
  have e1 := hl.suffix h1
  refine Halts.bind0 (halts_comments hg w e1 (by omega)) fun _ l2 h2 hl2 => ?_
  have e2 := e1.suffix h2
  refine Halts.bind0 ((halts_eat hg).mono (by omega)) fun _ l3 h3 hl3 => ?_
  have e3 := e2.suffix h3
  refine Halts.bind0 (halts_comments hg w e3 (by omega)) fun _ l4 h4 hl4 => ?_
  have e4 := e3.suffix h4
  refine Halts.bind0 ?_ fun _ l5 h5 hl5 => ?_
  · unfold ruleBodies
    refine Halts.bind0 ((halts_ruleBody hg w hw e4 (by omega)).mono (by omega)) fun _ l5 h5 hl5 => ?_
    refine Halts.bind0 (halts_hashBody w) fun _ l6 h6 hl6 => ?_
    exact halts_ruleBodiesLoop hg w hw ((e4.suffix h5).suffix h6) (by omega) (by omega)
  · exact Halts.bind0 ((halts_eat hg).mono (by omega)) fun _ _ _ _ => Halts.pure _

theorem halts_rulesLoop (hw : w.OK) {g : List (String × Rule) × List (String × Rule)} (hl : LineOK l)
    (hn0 : 2 * l.length + 2 ≤ n0) (hn : l.length < n) : Halts inp (rulesLoop w inp n0 n g) l 0 := by
  induction n generalizing l g with
  | zero => omega
  | succ n ih =>
    unfold rulesLoop
    refine Halts.bind0 (halts_comments hg w hl (by omega)) fun _ l1 h1 hl1 => ?_
    refine Halts.bind0 (halts_peek hg) fun r l2 h2 hl2 => ?_
    have e2 := (hl.suffix h1).suffix h2
    refine Halts.ite (fun _ => ?_) fun _ => Halts.pure _
    refine (Halts.bind (m := 0) (halts_rule hg w hw e2 (by omega)) fun t l3 h3 hl3 => ?_).mono (by omega)
    exact ih (e2.suffix h3) (by omega) (by omega)

theorem halts_grammarRules (hw : w.OK) {name : String} (hl : LineOK l) (hn : 2 * l.length + 2 ≤ n) :
    Halts inp (grammarRules w inp n name) l 0 := by
  unfold grammarRules
  refine Halts.bind0 (halts_rulesLoop hg w hw hl hn (by omega)) fun g l1 h1 hl1 => ?_
  refine Halts.bind0 (halts_next hg) fun r l2 h2 hl2 => ?_
  refine Halts.ite (fun _ => Halts.fail) fun _ => ?_
  rintro s rfl
  refine ⟨by simp, by simp, fun a s' e => ?_⟩
  cases e
  exact ⟨List.suffix_refl _, by simp⟩

omit hg in
theorem HaltsD.bind0 {x : P α} {f : α → P β} {κ : β → Nat} (h1 : Halts inp x l 0)
    (h2 : ∀ a l', l' <:+ l → l'.length ≤ l.length → HaltsD inp (f a) l' κ) : HaltsD inp (x >>= f) l κ := by
  intro s hs
  obtain ⟨e1, e2, e3⟩ := h1 s hs
  rw [P.bind_run]
  cases hx : x s with
  | ok p =>
    obtain ⟨a, s1⟩ := p
    obtain ⟨p1, p2⟩ := e3 a s1 hx
    obtain ⟨q1, q2, q3⟩ := h2 a _ p1 (by omega) s1 rfl
    simp only [Out.bind_ok]
    refine ⟨q1, q2, fun b s' e => ?_⟩
    obtain ⟨r1, r2⟩ := q3 b s' e
    exact ⟨r1.trans p1, by omega⟩
  | err => simp
  | panic => exact absurd hx e2
  | div => exact absurd hx e1

omit hg in
theorem Halts.toD {x : P α} {κ : α → Nat} (h : Halts inp x l k) (hk : ∀ a, κ a ≤ k) : HaltsD inp x l κ := by
  intro s hs
  obtain ⟨q1, q2, q3⟩ := h s hs
  refine ⟨q1, q2, fun a s' e => ⟨(q3 a s' e).1, ?_⟩⟩
  have := (q3 a s' e).2
  have := hk a
  omega

theorem haltsD_directive (hl : LineOK l) (hn : l.length < n) :
    HaltsD inp (directive w inp n) l (fun o => if o.isSome then 1 else 0) := by
  unfold directive
  refine HaltsD.bind0 (halts_comments hg w hl hn) fun _ l1 h1 hl1 => ?_
  refine HaltsD.bind0 (halts_peek hg) fun r l2 h2 hl2 => ?_
  split
  · rintro s rfl
    refine ⟨by simp, by simp, fun a s' e => ?_⟩
    cases e
    exact ⟨List.suffix_refl _, by simp⟩
  · refine Halts.toD (k := 1) ?_ (fun a => by split <;> omega)
    refine Halts.bind0 (halts_next hg) fun _ l3 h3 hl3 => ?_
    refine Halts.bind0 (halts_ws hg w (by omega)) fun _ l4 h4 hl4 => ?_
    refine Halts.bind0 (halts_text hg w (by omega)) fun _ l5 h5 hl5 => ?_
    refine Halts.ite (fun _ => Halts.fail) fun _ => ?_
    refine Halts.bind0 (halts_ws hg w (by omega)) fun _ l6 h6 hl6 => ?_
    exact Halts.bind (m := 0) (halts_terminal hg w (by omega)) fun _ _ _ _ => Halts.pure _

end

end Fmr
