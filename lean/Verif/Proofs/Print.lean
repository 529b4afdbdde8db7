import Verif.Spec.Shown
import Verif.Proofs.PrintInj
import Verif.Proofs.Quote

/-!
# Reading back what is printed
-/

namespace Fmr

theorem sep_prefix {c : Char} {a b r s : List Char} (ha : c ∉ a) (hb : c ∉ b) (h : a ++ c :: r = b ++ c :: s) :
    a = b ∧ r = s := by
  induction a generalizing b with
  | nil =>
    cases b with
    | nil => exact ⟨rfl, by simpa using h⟩
    | cons x b =>
      simp only [List.nil_append, List.cons_append, List.cons.injEq] at h
      exact absurd (by simp [h.1]) hb
  | cons y a ih =>
    cases b with
    | nil =>
      simp only [List.nil_append, List.cons_append, List.cons.injEq] at h
      exact absurd (by simp [h.1]) ha
    | cons x b =>
      simp only [List.cons_append, List.cons.injEq] at h
      obtain ⟨e1, e2⟩ := ih (fun h => ha (by simp [h])) (fun h => hb (by simp [h])) h.2
      exact ⟨by rw [h.1, e1], e2⟩

theorem nat_digits {n : Nat} {c : Char} (h : c ∈ (toString n).toList) : c.isDigit = true := by
  have e : (toString n).toList = Nat.toDigits 10 n := by
    show (Nat.repr n).toList = _
    rw [Nat.toList_repr]
  rw [e] at h
  exact digit_toDigits h

theorem nat_str_inj {m n : Nat} (h : (toString m).toList = (toString n).toList) : m = n := by
  have e : ∀ n : Nat, (toString n).toList = Nat.toDigits 10 n := by
    intro n
    show (Nat.repr n).toList = _
    rw [Nat.toList_repr]
  rw [e, e] at h
  exact nat_repr_inj h

theorem spanText_prefix {a b a' b' : Nat} {r s : List Char} (h : spanText a b ++ r = spanText a' b' ++ s) :
    a = a' ∧ b = b' ∧ r = s := by
  simp only [spanText, List.cons_append, List.append_assoc, List.cons.injEq, true_and, List.nil_append] at h
  have hn : ∀ n : Nat, ∀ c : Char, c.isDigit = false → c ∉ (toString n).toList := by
    intro n c hc hm
    rw [nat_digits hm] at hc
    cases hc
  obtain ⟨h1, h2⟩ := sep_prefix (hn _ _ (by decide)) (hn _ _ (by decide)) h
  obtain ⟨h3, h4⟩ := sep_prefix (hn _ _ (by decide)) (hn _ _ (by decide)) h2
  exact ⟨nat_str_inj h1, nat_str_inj h3, h4⟩

/-- a term that can be read back: a name does not contain `>` -/
structure Term.Printable (t : Term) : Prop where
  kind : t.type ≠ .eof
  name : t.type = .nonterminal ∨ t.type = .list → '>' ∉ t.value.toList

section
variable {p : StrWorld}

theorem termText_head (t : Term) (h : t.type ≠ .eof) :
    ∃ c l, termText p t = c :: l ∧ (c = '<' ∨ c = '"' ∨ c = '(') := by
  unfold termText
  split
  · exact ⟨_, _, rfl, .inl rfl⟩
  · exact ⟨_, _, by simp only [quoteStr, quoteRunes, String.toList_ofList, List.cons_append]; rfl, .inr (.inl rfl)⟩
  · exact ⟨_, _, rfl, .inr (.inr rfl)⟩
  · exact ⟨_, _, rfl, .inr (.inr rfl)⟩
  · contradiction

theorem quoteStr_cons (isPrint : Char → Bool) (s : String) : ∃ l, (quoteStr isPrint s).toList = '"' :: l :=
  ⟨_, by simp only [quoteStr, quoteRunes, String.toList_ofList]; rfl⟩

theorem termText_prefix {t t' : Term} (ht : t.Printable) (ht' : t'.Printable) {r s : List Char}
    (h : termText p t ++ r = termText p t' ++ s) : t.Alike t' ∧ r = s := by
  obtain ⟨v, ty, m⟩ := t
  obtain ⟨v', ty', m'⟩ := t'
  obtain ⟨q, hq⟩ := quoteStr_cons p.isPrint v
  obtain ⟨q', hq'⟩ := quoteStr_cons p.isPrint v'
  cases ty <;> cases ty' <;>
    first
    | exact absurd rfl ht.kind
    | exact absurd rfl ht'.kind
    | skip
  · have n1 := ht.name (.inl rfl)
    have n2 := ht'.name (.inl rfl)
    simp only [termText, List.cons_append, List.append_assoc, List.cons.injEq, true_and] at h
    obtain ⟨h1, h2⟩ := sep_prefix n1 n2 h
    simp only [List.nil_append, List.cons.injEq, true_and] at h2
    exact ⟨⟨rfl, .inr (String.toList_inj.1 h1)⟩, h2⟩
  · simp [termText, hq'] at h
  · simp [termText] at h
  · simp [termText] at h
  · simp [termText, hq] at h
  · simp only [termText, List.append_assoc] at h
    obtain ⟨h1, h2⟩ := quoteStr_prefix _ h
    exact ⟨⟨rfl, .inr h1⟩, by simpa using h2⟩
  · simp [termText, hq] at h
  · simp [termText, hq] at h
  · simp [termText] at h
  · simp [termText, hq'] at h
  · exact ⟨⟨rfl, .inl rfl⟩, by simpa [termText] using h⟩
  · simp [termText] at h
  · simp [termText] at h
  · simp [termText, hq'] at h
  · simp [termText] at h
  · have n1 := ht.name (.inr rfl)
    have n2 := ht'.name (.inr rfl)
    simp only [termText, List.append_assoc] at h
    have h := List.append_cancel_left h
    obtain ⟨h1, h2⟩ := sep_prefix (c := '>') (r := ") ".toList ++ r) (s := ") ".toList ++ s) n1 n2 h
    exact ⟨⟨rfl, .inr (String.toList_inj.1 h1)⟩, List.append_cancel_left h2⟩

/-- the body and the dot behind its last term -/
def dotted (p : StrWorld) (dot i : Nat) (ts : List Term) : List Char :=
  bodyText p dot i ts ++ if dot = i + ts.length then [dotChar] else []

theorem dotted_nil (dot i : Nat) : dotted p dot i [] = if dot = i then [dotChar] else [] := by
  simp [dotted, bodyText]

theorem dotted_cons (dot i : Nat) (t : Term) (ts : List Term) : dotted p dot i (t :: ts) =
    (if i = dot then [dotChar, ' '] else []) ++ (termText p t ++ dotted p dot (i + 1) ts) := by
  simp only [dotted, bodyText, List.length_cons, List.append_assoc]
  have : (dot = i + (ts.length + 1)) = (dot = i + 1 + ts.length) := by
    apply propext; omega
  simp only [this]

theorem dotted_prefix {dot dot' : Nat} {ts ts' : List Term} {i : Nat} (ht : ∀ t ∈ ts, t.Printable)
    (ht' : ∀ t ∈ ts', t.Printable) (hd : dot ≤ i + ts.length) (hd' : dot' ≤ i + ts'.length) {r s : List Char}
    (h : dotted p dot i ts ++ ' ' :: '[' :: r = dotted p dot' i ts' ++ ' ' :: '[' :: s) :
    List.Forall₂ Term.Alike ts ts' ∧ (dot = dot' ∨ (dot < i ∧ dot' < i)) ∧ r = s := by
  induction ts generalizing ts' i with
  | nil =>
    cases ts' with
    | nil =>
      rw [dotted_nil, dotted_nil] at h
      refine ⟨.nil, ?_⟩
      simp only [List.length_nil, Nat.add_zero] at hd hd'
      by_cases h1 : dot = i <;> by_cases h2 : dot' = i
      · rw [if_pos h1, if_pos h2] at h
        exact ⟨.inl (h1.trans h2.symm), by simpa using h⟩
      · rw [if_pos h1, if_neg h2] at h
        simp [dotChar] at h
      · rw [if_neg h1, if_pos h2] at h
        simp [dotChar] at h
      · rw [if_neg h1, if_neg h2] at h
        exact ⟨.inr ⟨by omega, by omega⟩, by simpa using h⟩
    | cons t' ts' =>
      exfalso
      rw [dotted_nil, dotted_cons] at h
      obtain ⟨c, l, hc, hcc⟩ := termText_head (p := p) t' (ht' t' (by simp)).kind
      rw [hc] at h
      by_cases h1 : dot = i <;> by_cases h2 : i = dot'
      · rw [if_pos h1, if_pos h2] at h
        simp at h
        rcases hcc with rfl | rfl | rfl <;> simp at h
      · rw [if_pos h1, if_neg h2] at h
        simp at h
        rcases hcc with rfl | rfl | rfl <;> simp [dotChar] at h
      · rw [if_neg h1, if_pos h2] at h
        simp [dotChar] at h
      · rw [if_neg h1, if_neg h2] at h
        simp at h
        rcases hcc with rfl | rfl | rfl <;> simp at h
  | cons t ts ih =>
    obtain ⟨c, l, hc, hcc⟩ := termText_head (p := p) t (ht t (by simp)).kind
    cases ts' with
    | nil =>
      exfalso
      rw [dotted_nil, dotted_cons] at h
      rw [hc] at h
      by_cases h1 : dot' = i <;> by_cases h2 : i = dot
      · rw [if_pos h1, if_pos h2] at h
        simp at h
        rcases hcc with rfl | rfl | rfl <;> simp at h
      · rw [if_pos h1, if_neg h2] at h
        simp at h
        rcases hcc with rfl | rfl | rfl <;> simp [dotChar] at h
      · rw [if_neg h1, if_pos h2] at h
        simp [dotChar] at h
      · rw [if_neg h1, if_neg h2] at h
        simp at h
        rcases hcc with rfl | rfl | rfl <;> simp at h
    | cons t' ts' =>
      obtain ⟨c', l', hc', hcc'⟩ := termText_head (p := p) t' (ht' t' (by simp)).kind
      rw [dotted_cons, dotted_cons] at h
      have step : ∀ {x y : List Char}, termText p t ++ (dotted p dot (i + 1) ts ++ ' ' :: '[' :: r) =
          termText p t' ++ (dotted p dot' (i + 1) ts' ++ ' ' :: '[' :: s) →
          List.Forall₂ Term.Alike (t :: ts) (t' :: ts') ∧ (dot = dot' ∨ (dot < i + 1 ∧ dot' < i + 1)) ∧ r = s := by
        intro _ _ h
        obtain ⟨h1, h2⟩ := termText_prefix (ht t (by simp)) (ht' t' (by simp)) h
        obtain ⟨h3, h4, h5⟩ := ih (fun x hx => ht x (by simp [hx])) (fun x hx => ht' x (by simp [hx]))
          (by simp only [List.length_cons] at hd; omega) (by simp only [List.length_cons] at hd'; omega) h2
        exact ⟨.cons h1 h3, h4, h5⟩
      by_cases h1 : i = dot <;> by_cases h2 : i = dot'
      · rw [if_pos h1, if_pos h2] at h
        simp only [List.append_assoc, List.cons_append, List.nil_append, List.cons.injEq, true_and] at h
        obtain ⟨h3, _, h5⟩ := step (x := []) (y := []) h
        exact ⟨h3, .inl (h1.symm.trans h2), h5⟩
      · rw [if_pos h1, if_neg h2, hc'] at h
        simp only [List.append_assoc, List.cons_append, List.nil_append, List.cons.injEq] at h
        rcases hcc' with rfl | rfl | rfl <;> simp [dotChar] at h
      · rw [if_neg h1, if_pos h2, hc] at h
        simp only [List.append_assoc, List.cons_append, List.nil_append, List.cons.injEq] at h
        rcases hcc with rfl | rfl | rfl <;> simp [dotChar] at h
      · rw [if_neg h1, if_neg h2] at h
        simp only [List.append_assoc, List.nil_append] at h
        obtain ⟨h3, h4, h5⟩ := step (x := []) (y := []) h
        refine ⟨h3, ?_, h5⟩
        omega

/-- text in which `}` and newlines occur only in quoted strings -/
inductive Calm (p : StrWorld) : List Char → Prop
  | nil : Calm p []
  | char {c : Char} {l : List Char} : c ≠ '"' → c ≠ '}' → c ≠ '\n' → Calm p l → Calm p (c :: l)
  | quote {s : String} {l : List Char} : Calm p l → Calm p ((quoteStr p.isPrint s).toList ++ l)

theorem Calm.append {a b : List Char} (ha : Calm p a) (hb : Calm p b) : Calm p (a ++ b) := by
  induction ha with
  | nil => exact hb
  | char h1 h2 h3 _ ih => exact .char h1 h2 h3 ih
  | quote _ ih => rw [List.append_assoc]; exact .quote ih

theorem Calm.word {l : List Char} (h : ∀ c ∈ l, c ≠ '"' ∧ c ≠ '}' ∧ c ≠ '\n') : Calm p l := by
  induction l with
  | nil => exact .nil
  | cons c l ih => exact .char (h c (by simp)).1 (h c (by simp)).2.1 (h c (by simp)).2.2 (ih fun d hd => h d (by simp [hd]))

theorem Calm.prefix {a b : List Char} (ha : Calm p a) (hb : Calm p b) {r s : List Char}
    (h : a ++ '}' :: r = b ++ '}' :: s) : a = b ∧ r = s := by
  induction ha generalizing b with
  | nil =>
    cases hb with
    | nil => exact ⟨rfl, by simpa using h⟩
    | char _ h2 _ _ =>
      simp only [List.nil_append, List.cons_append, List.cons.injEq] at h
      exact absurd h.1.symm h2
    | @quote s' l hl =>
      obtain ⟨q, hq⟩ := quoteStr_cons p.isPrint s'
      simp [hq] at h
  | @char c l h1 h2 _ _ ih =>
    cases hb with
    | nil =>
      simp only [List.nil_append, List.cons_append, List.cons.injEq] at h
      exact absurd h.1 h2
    | char _ _ _ hl =>
      simp only [List.cons_append, List.cons.injEq] at h
      obtain ⟨e, e2⟩ := ih hl h.2
      exact ⟨by rw [h.1, e], e2⟩
    | @quote s' l hl =>
      obtain ⟨q, hq⟩ := quoteStr_cons p.isPrint s'
      simp only [hq, List.cons_append, List.cons.injEq] at h
      exact absurd h.1 h1
  | @quote s0 l _ ih =>
    cases hb with
    | nil =>
      obtain ⟨q, hq⟩ := quoteStr_cons p.isPrint s0
      simp [hq] at h
    | char h1 _ _ hl =>
      obtain ⟨q, hq⟩ := quoteStr_cons p.isPrint s0
      simp only [hq, List.cons_append, List.cons.injEq] at h
      exact absurd h.1.symm h1
    | quote hl =>
      rw [List.append_assoc, List.append_assoc] at h
      obtain ⟨e, h⟩ := quoteStr_prefix _ h
      obtain ⟨e2, e3⟩ := ih hl h
      exact ⟨by rw [e, e2], e3⟩

/-- A state that can be read back: it is one of the four kinds of states, the dot is in the body, names do not
contain `>`, and the function contains `}` only in quoted strings. -/
structure TState.Printable (p : StrWorld) (s : TState) : Prop where
  term : s.term.Printable
  body : s.term.type = .nonterminal → ∃ rb, s.rb = some rb ∧ s.dot ≤ rb.terms.length ∧
    (∀ t ∈ rb.terms, t.Printable) ∧ Calm p (fString p rb.f)

theorem replicate_prefix {b : List Char} (hb : ∃ c l, b = c :: l ∧ c ≠ dotChar) {m n : Nat} {r s : List Char}
    (h : (List.replicate m b).flatten ++ dotChar :: r = (List.replicate n b).flatten ++ dotChar :: s) : m = n ∧ r = s := by
  induction m generalizing n with
  | zero =>
    cases n with
    | zero => exact ⟨rfl, by simpa using h⟩
    | succ n =>
      obtain ⟨c, l, rfl, hc⟩ := hb
      simp only [List.replicate_zero, List.flatten_nil, List.nil_append, List.replicate_succ, List.flatten_cons,
        List.cons_append, List.cons.injEq] at h
      exact absurd h.1.symm hc
  | succ m ih =>
    cases n with
    | zero =>
      obtain ⟨c, l, rfl, hc⟩ := hb
      simp only [List.replicate_zero, List.flatten_nil, List.nil_append, List.replicate_succ, List.flatten_cons,
        List.cons_append, List.cons.injEq] at h
      exact absurd h.1 hc
    | succ n =>
      simp only [List.replicate_succ, List.flatten_cons, List.append_assoc] at h
      obtain ⟨e, e2⟩ := ih (List.append_cancel_left h)
      exact ⟨by rw [e], e2⟩

theorem spanText_cons (a b : Nat) : ∃ l, spanText a b = '[' :: l := ⟨_, rfl⟩

theorem string_nt {s : TState} {rb : RuleBody} (ht : s.term.type = .nonterminal) (hrb : s.rb = some rb) :
    s.string p = '<' :: (s.term.value.toList ++ ("> -> ".toList ++ (dotted p s.dot 0 rb.terms ++
        (' ' :: (spanText s.start s.stop ++ (" {".toList ++ (fString p rb.f ++ ['}']))))))) := by
  unfold TState.string
  rw [ht, hrb]
  simp only [dotted, Nat.zero_add]

theorem string_term {s : TState} (ht : s.term.type = .terminal) :
    s.string p = (quoteStr p.isPrint s.term.value).toList ++ ' ' :: spanText s.start s.stop := by
  unfold TState.string
  rw [ht]

theorem string_any {s : TState} (ht : s.term.type = .any) :
    s.string p = "(any) -> ".toList ++ ((List.replicate (s.stop - s.start) "# ".toList).flatten ++
      (dotChar :: (" * ".toList ++ (' ' :: spanText s.start s.stop)))) := by
  unfold TState.string
  rw [ht]

theorem string_list {s : TState} (ht : s.term.type = .list) :
    s.string p = "(list<".toList ++ (s.term.value.toList ++ (">) -> ".toList ++
      ((List.replicate s.dot ('<' :: (s.term.value.toList ++ ['>', ' ']))).flatten ++
        (dotChar :: (" * ".toList ++ (' ' :: (spanText s.start s.stop ++
          (" {fmr.list(".toList ++ (listArgs s.dot ++ ")}".toList))))))))) := by
  unfold TState.string
  rw [ht]

theorem chars_any : "(any) -> ".toList = ['(', 'a', 'n', 'y', ')', ' ', '-', '>', ' '] := by decide
theorem chars_list : "(list<".toList = ['(', 'l', 'i', 's', 't', '<'] := by decide

/-- the first two characters of a state -/
theorem string_head {s : TState} (hs : s.Printable p) : ∃ c l, s.string p = c :: l ∧
    (s.term.type = .nonterminal → c = '<') ∧ (s.term.type = .terminal → c = '"') ∧
    (s.term.type = .any → c = '(' ∧ ∃ l', l = 'a' :: l') ∧ (s.term.type = .list → c = '(' ∧ ∃ l', l = 'l' :: l') := by
  cases ht : s.term.type with
  | eof => exact absurd ht hs.term.kind
  | nonterminal =>
    obtain ⟨rb, hrb, _⟩ := hs.body ht
    exact ⟨_, _, string_nt ht hrb, by simp, by simp, by simp, by simp⟩
  | terminal =>
    obtain ⟨q, hq⟩ := quoteStr_cons p.isPrint s.term.value
    exact ⟨_, _, by rw [string_term ht, hq, List.cons_append], by simp, by simp, by simp, by simp⟩
  | any => exact ⟨_, _, by rw [string_any ht, chars_any, List.cons_append], by simp, by simp, by simp, by simp⟩
  | list => exact ⟨_, _, by rw [string_list ht, chars_list, List.cons_append], by simp, by simp, by simp, by simp⟩

/-- States are read back, whatever follows. -/
theorem string_prefix {s t : TState} (hs : s.Printable p) (ht : t.Printable p) {x y : List Char}
    (h : s.string p ++ x = t.string p ++ y) : s.Alike (fString p) t ∧ s.string p = t.string p ∧ x = y := by
  have key : s.Alike (fString p) t ∧ x = y := by
    obtain ⟨c, l, hc, c1, c2, c3, c4⟩ := string_head hs
    obtain ⟨c', l', hc', d1, d2, d3, d4⟩ := string_head ht
    have e := h
    rw [hc, hc'] at e
    simp only [List.cons_append, List.cons.injEq] at e
    cases h1 : s.term.type <;> cases h2 : t.term.type <;>
      first
      | exact absurd h1 hs.term.kind
      | exact absurd h2 ht.term.kind
      | skip
    case nonterminal.nonterminal =>
      obtain ⟨rb, hrb, hd, hts, hf⟩ := hs.body h1
      obtain ⟨rb', hrb', hd', hts', hf'⟩ := ht.body h2
      rw [string_nt h1 hrb, string_nt h2 hrb'] at h
      simp only [List.cons_append, List.append_assoc, List.cons.injEq, true_and] at h
      obtain ⟨hv, h⟩ := sep_prefix (c := '>') (hs.term.name (.inl h1)) (ht.term.name (.inl h2)) h
      have h := List.append_cancel_left (as := " -> ".toList) h
      obtain ⟨q, hq⟩ := spanText_cons s.start s.stop
      obtain ⟨q', hq'⟩ := spanText_cons t.start t.stop
      have h' := h
      rw [hq, hq'] at h'
      simp only [List.cons_append] at h'
      obtain ⟨ha, hdot, h'⟩ := dotted_prefix hts hts' (by omega) (by omega) h'
      have h3 : spanText s.start s.stop ++ (" {".toList ++ (fString p rb.f ++ '}' :: x)) =
          spanText t.start t.stop ++ (" {".toList ++ (fString p rb'.f ++ '}' :: y)) := by
        rw [hq, hq']
        simpa using h'
      obtain ⟨e1, e2, h4⟩ := spanText_prefix h3
      obtain ⟨e3, e4⟩ := hf.prefix hf' (List.append_cancel_left h4)
      exact ⟨⟨⟨h1.trans h2.symm, .inr (String.toList_inj.1 hv)⟩, e1, e2,
        fun _ => ⟨rb, rb', hrb, hrb', ha, e3⟩, fun _ => by omega⟩, e4⟩
    case nonterminal.terminal => exact absurd e.1 (by rw [c1 h1, d2 h2]; decide)
    case nonterminal.any => exact absurd e.1 (by rw [c1 h1, (d3 h2).1]; decide)
    case nonterminal.list => exact absurd e.1 (by rw [c1 h1, (d4 h2).1]; decide)
    case terminal.nonterminal => exact absurd e.1 (by rw [c2 h1, d1 h2]; decide)
    case terminal.terminal =>
      rw [string_term h1, string_term h2, List.append_assoc, List.append_assoc] at h
      obtain ⟨hv, h⟩ := quoteStr_prefix _ h
      simp only [List.cons_append, List.cons.injEq, true_and] at h
      obtain ⟨e1, e2, h⟩ := spanText_prefix h
      exact ⟨⟨⟨h1.trans h2.symm, .inr hv⟩, e1, e2, fun h => by (rw [h1] at h; cases h), fun h => by
        rcases h with h | h <;> (rw [h1] at h; cases h)⟩, h⟩
    case terminal.any => exact absurd e.1 (by rw [c2 h1, (d3 h2).1]; decide)
    case terminal.list => exact absurd e.1 (by rw [c2 h1, (d4 h2).1]; decide)
    case any.nonterminal => exact absurd e.1 (by rw [(c3 h1).1, d1 h2]; decide)
    case any.terminal => exact absurd e.1 (by rw [(c3 h1).1, d2 h2]; decide)
    case any.any =>
      rw [string_any h1, string_any h2] at h
      simp only [List.append_assoc, List.cons_append] at h
      have h := List.append_cancel_left h
      have hn : ∀ n : Nat, dotChar ∉ (List.replicate n "# ".toList).flatten := by
        intro n hm
        obtain ⟨l, hl, hm⟩ := List.mem_flatten.1 hm
        rw [List.eq_of_mem_replicate hl] at hm
        exact absurd hm (by decide)
      obtain ⟨_, h⟩ := sep_prefix (hn _) (hn _) h
      have h := List.append_cancel_left h
      simp only [List.cons.injEq, true_and] at h
      obtain ⟨e1, e2, h⟩ := spanText_prefix h
      exact ⟨⟨⟨h1.trans h2.symm, .inl h1⟩, e1, e2, fun h => by (rw [h1] at h; cases h), fun h => by
        rcases h with h | h <;> (rw [h1] at h; cases h)⟩, h⟩
    case any.list =>
      obtain ⟨_, l1, r1⟩ := c3 h1
      obtain ⟨_, l2, r2⟩ := d4 h2
      rw [r1, r2] at e
      simp at e
    case list.nonterminal => exact absurd e.1 (by rw [(c4 h1).1, d1 h2]; decide)
    case list.terminal => exact absurd e.1 (by rw [(c4 h1).1, d2 h2]; decide)
    case list.any =>
      obtain ⟨_, l1, r1⟩ := c4 h1
      obtain ⟨_, l2, r2⟩ := d3 h2
      rw [r1, r2] at e
      simp at e
    case list.list =>
      rw [string_list h1, string_list h2] at h
      simp only [List.append_assoc, List.cons_append] at h
      have h := List.append_cancel_left h
      obtain ⟨hv, h⟩ := sep_prefix (c := '>') (hs.term.name (.inr h1)) (ht.term.name (.inr h2)) h
      have h := List.append_cancel_left (as := ") -> ".toList) h
      rw [hv] at h
      obtain ⟨hd, h⟩ := replicate_prefix ⟨'<', _, rfl, by decide⟩ h
      have h := List.append_cancel_left h
      simp only [List.cons.injEq, true_and] at h
      obtain ⟨e1, e2, h⟩ := spanText_prefix h
      rw [hd] at h
      have h := List.append_cancel_left (List.append_cancel_left h)
      exact ⟨⟨⟨h1.trans h2.symm, .inr (String.toList_inj.1 hv)⟩, e1, e2, fun h => by (rw [h1] at h; cases h), fun _ => hd⟩,
        List.append_cancel_left h⟩
  refine ⟨key.1, ?_, key.2⟩
  rw [key.2] at h
  exact List.append_cancel_right h

/-! ### states that look the same are printed the same -/

theorem Term.Alike.text {a b : Term} (h : a.Alike b) : termText p a = termText p b := by
  obtain ⟨v, ty, m⟩ := a
  obtain ⟨v', ty', m'⟩ := b
  obtain ⟨rfl, h2⟩ := h
  simp only at h2
  rcases h2 with rfl | rfl
  · rfl
  · rfl

theorem alikes_text {ts ts' : List Term} (h : List.Forall₂ Term.Alike ts ts') (dot i : Nat) :
    bodyText p dot i ts = bodyText p dot i ts' := by
  induction h generalizing i with
  | nil => rfl
  | cons h _ ih => rw [bodyText, bodyText, h.text, ih]

theorem TState.Alike.string {s t : TState} (hs : s.term.type ≠ .eof) (h : s.Alike (fString p) t) :
    s.string p = t.string p := by
  have ht := h.term.1
  cases h1 : s.term.type with
  | eof => exact absurd h1 hs
  | nonterminal =>
    obtain ⟨rb, rb', hrb, hrb', ha, hf⟩ := h.body h1
    have hv : s.term.value = t.term.value := by
      rcases h.term.2 with h2 | h2
      · rw [h1] at h2; cases h2
      · exact h2
    rw [string_nt h1 hrb, string_nt (ht ▸ h1) hrb', h.start, h.stop, h.dot (.inl h1), hf, hv, dotted, dotted,
      alikes_text ha, ha.length_eq]
  | terminal =>
    have hv : s.term.value = t.term.value := by
      rcases h.term.2 with h2 | h2
      · rw [h1] at h2; cases h2
      · exact h2
    rw [string_term h1, string_term (ht ▸ h1), h.start, h.stop, hv]
  | any => rw [string_any h1, string_any (ht ▸ h1), h.start, h.stop]
  | list =>
    have hv : s.term.value = t.term.value := by
      rcases h.term.2 with h2 | h2
      · rw [h1] at h2; cases h2
      · exact h2
    rw [string_list h1, string_list (ht ▸ h1), h.start, h.stop, h.dot (.inr h1), hv]

end

end Fmr
