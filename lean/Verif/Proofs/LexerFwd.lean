import Verif.Proofs.IntOf
import Verif.Proofs.Lexer
import Verif.Spec.Syntax
import Batteries.Data.List.Basic

/-!
# The parser reads the concrete syntax
-/

namespace Fmr

/-- the first rune of the rest -/
def Head (p : Char → Prop) (l : List Char) : Prop := ∀ c, l.head? = some c → p c

theorem Head.cons {p : Char → Prop} {c : Char} {l : List Char} : Head p (c :: l) ↔ p c := by
  simp [Head]

theorem Head.nil {p : Char → Prop} : Head p [] := by simp [Head]

theorem Head.append {p : Char → Prop} {a b : List Char} (ha : Head p a) (hb : Head p b) : Head p (a ++ b) := by
  cases a with
  | nil => exact hb
  | cons c a => rw [List.cons_append, Head.cons]; exact Head.cons.mp ha

theorem Head.append_of_ne {p : Char → Prop} {a b : List Char} (h : a ≠ []) (ha : Head p a) : Head p (a ++ b) := by
  cases a with
  | nil => exact absurd rfl h
  | cons c a => rw [List.cons_append, Head.cons]; exact Head.cons.mp ha

theorem Head.of_all {p : Char → Prop} {a : List Char} (h : ∀ c ∈ a, p c) : Head p a := by
  intro c hc
  cases a with
  | nil => cases hc
  | cons d a => cases hc; exact h _ (by simp)

section
variable {inp : List Char} {α β : Type} {ρ ρ1 ρ2 : List (String × String)}
variable (hg : runeError ∉ inp) {w : LexWorld}

section
include hg

theorem reads_ws_app {s r : List Char} {n : Nat} (hs : Spaces w s) (hr : Head (w.isSpace · = false) r)
    (hn : (s ++ r).length < n) : Reads inp (ws w inp n) (s ++ r) ρ () r ρ := by
  have h := reads_ws (ρ := ρ) hg w hn
  rw [List.dropWhile_append_of_pos hs] at h
  have : r.dropWhile w.isSpace = r := by
    cases r with
    | nil => rfl
    | cons c r => rw [List.dropWhile_cons_of_neg]; simpa [Head.cons] using hr
  rwa [this] at h

theorem reads_ws_stop {r : List Char} {n : Nat} (hr : Head (w.isSpace · = false) r)
    (hn : r.length < n) : Reads inp (ws w inp n) r ρ () r ρ :=
  reads_ws_app (s := []) hg (by simp [Spaces]) hr hn

end

theorem idTake_app {t r : List Char} (h : ∀ d ∈ t, idCont w false d = true)
    (hr : Head (idCont w false · = false) r) : idTake w false (t ++ r) = t ∧ idDrop w false (t ++ r) = r := by
  induction t with
  | nil =>
    cases r with
    | nil => exact ⟨rfl, rfl⟩
    | cons c r => simp [idTake, idDrop, Head.cons.mp hr]
  | cons c t ih =>
    have := ih fun d hd => h d (by simp [hd])
    simp [idTake, idDrop, h c (by simp), this]

theorem Ident.take {x r : List Char} (h : Ident w x) (hr : Head (idCont w false · = false) r) :
    idTake w true (x ++ r) = x ∧ idDrop w true (x ++ r) = r ∧ x ≠ [] := by
  obtain ⟨hc, ht⟩ := h
  rename_i c t
  have h1 : idCont w true c = true := by
    rcases hc with hc | rfl <;> simp [idCont, *]
  have h2 : ∀ d ∈ t, idCont w false d = true := by
    intro d hd
    rcases ht d hd with h | rfl | h <;> simp [idCont, *]
  have := idTake_app h2 hr
  simp [idTake, idDrop, h1, this]

theorem punct_not (hw : w.OK) {c : Char} (h : c ∈ ['<', '>', '[', ']', '(', ')', '{', '}', '"', '`', '@', '$',
    ',', '.', '-', '=', ';', '|', '/', '#', '?', '*', '\\']) : idCont w false c = false ∧ w.isSpace c = false ∧
      w.isDigit c = false ∧ w.isLetter c = false := by
  have h' := hw.punct c (by
    simp only [List.mem_cons, List.not_mem_nil, or_false] at h ⊢
    rcases h with h|h|h|h|h|h|h|h|h|h|h|h|h|h|h|h|h|h|h|h|h|h|h <;> simp [h])
  have hu : c ≠ '_' := by
    rintro rfl
    revert h
    decide
  simp [idCont, h', hu]

include hg

theorem reads_text_app {x r : List Char} {n : Nat} (hx : Ident w x) (hr : Head (idCont w false · = false) r)
    (hn : (x ++ r).length < n) : Reads inp (text w inp n) (x ++ r) ρ (String.ofList x) r ρ := by
  have ht := hx.take hr
  have h := reads_text (ρ := ρ) hg w hn (by rw [ht.1]; exact ht.2.2)
  rwa [ht.1, ht.2.1] at h

theorem reads_token {x r : List Char} {n : Nat} {b e : Char} (hx : Ident w x)
    (he : idCont w false e = false) (hn : (x ++ e :: r).length < n) :
    Reads inp (token w inp n b e) (b :: (x ++ e :: r)) ρ (String.ofList x) r ρ := by
  unfold token
  exact Reads.bind (reads_eat hg) (Reads.bind (reads_text_app hg hx (Head.cons.mpr he) hn)
    (Reads.bind (reads_eat hg) (Reads.pure _)))

omit hg in
theorem LitText.scan {t v r : List Char} (h : LitText t v) :
    litScan false (t ++ '"' :: r) = some (v, '"' :: r) := by
  induction h with
  | nil => rfl
  | @plain c t v h1 h2 _ ih =>
    rw [List.cons_append, litScan, if_neg h2, ih]
    · rfl
    · simpa using h1
  | @esc c x t v h _ ih =>
    rw [List.cons_append, litScan, if_pos rfl, List.cons_append, litScan]
    · have : unescape c = some x := by
        simp only [List.mem_cons, Prod.mk.injEq, List.not_mem_nil, or_false] at h
        rcases h with h|h|h|h|h <;> obtain ⟨rfl, rfl⟩ := h <;> rfl
      rw [this, ih]
      rfl
    · decide

theorem reads_litText {t v r : List Char} {n : Nat} (h : LitText t v)
    (hn : (t ++ '"' :: r).length < n) :
    Reads inp (terminalText inp n false) (t ++ '"' :: r) ρ v ('"' :: r) ρ :=
  reads_terminalText hg hn h.scan

end

/-- closes fuel goals -/
macro "lens" : tactic =>
  `(tactic| (simp only [List.length_append, List.length_cons, List.length_nil] at *; omega))

section
variable {inp : List Char} {α β : Type} {ρ ρ1 ρ2 : List (String × String)}
variable (hg : runeError ∉ inp) {w : LexWorld} (hw : w.OK)
include hg hw

theorem reads_terminal {l r : List Char} {f v : String} {n : Nat} (h : LitSyn w l f v)
    (hn : (l ++ r).length < n) : Reads inp (terminal w inp n) (l ++ r) ρ (f, v) r ρ := by
  cases h with
  | @plain s t v hs ht hh =>
    simp only [List.append_assoc, List.cons_append, List.nil_append] at hn ⊢
    have hq := punct_not hw (c := '"') (by decide)
    have hh1 : Head (w.isSpace · = false) (t ++ '"' :: r) := by
      refine Head.append (fun c hc => (hh c hc).1) (Head.cons.mpr hq.2.1)
    have hh2 : Head (· ≠ '(') (t ++ '"' :: r) := by
      refine Head.append (fun c hc => (hh c hc).2) (Head.cons.mpr (by decide))
    unfold terminal
    refine Reads.bind (reads_eat hg) ?_
    refine Reads.bind (reads_ws_app hg hs hh1 (by lens)) ?_
    refine Reads.bind (a := "") (l1 := t ++ '"' :: r) (ρ1 := ρ) ?_ ?_
    · unfold terminalFlags
      refine Reads.bind (reads_peek hg) ?_
      rw [if_neg (fun e => hh2 _ e rfl)]
      exact Reads.pure _
    · exact Reads.bind (reads_litText hg ht (by lens)) (Reads.bind (reads_eat hg) (Reads.pure _))
  | @flags s s1 s2 f t v hs hs1 hs2 hf ht =>
    simp only [List.append_assoc, List.cons_append, List.nil_append] at hn ⊢
    have ho := punct_not hw (c := '(') (by decide)
    have hc := punct_not hw (c := ')') (by decide)
    have hq := punct_not hw (c := '?') (by decide)
    have hfs : Head (w.isSpace · = false) (f ++ ')' :: (t ++ '"' :: r)) := by
      obtain ⟨h1, _⟩ := hf
      rw [List.cons_append, Head.cons]
      rcases h1 with h1 | rfl
      · exact hw.letter_space _ h1
      · exact (hw.punct '_' (by decide)).2.2
    unfold terminal
    refine Reads.bind (reads_eat hg) ?_
    refine Reads.bind (reads_ws_app hg hs (Head.cons.mpr ho.2.1) (by lens)) ?_
    refine Reads.bind (a := String.ofList f) (l1 := t ++ '"' :: r) (ρ1 := ρ) ?_ ?_
    · unfold terminalFlags
      refine Reads.bind (reads_peek hg) ?_
      rw [List.head?_cons, if_pos rfl]
      refine Reads.bind (reads_next hg) ?_
      simp only [List.tail_cons]
      refine Reads.bind (reads_ws_app hg hs1 (Head.cons.mpr hq.2.1) (by lens)) ?_
      refine Reads.bind (reads_eat hg) ?_
      refine Reads.bind (reads_ws_app hg hs2 hfs (by lens)) ?_
      refine Reads.bind (reads_text_app hg hf (Head.cons.mpr hc.1) (by lens)) ?_
      exact Reads.bind (reads_eat hg) (Reads.pure _)
    · exact Reads.bind (reads_litText hg ht (by lens)) (Reads.bind (reads_eat hg) (Reads.pure _))

end

section
variable {inp : List Char} {α β : Type} {ρ ρ1 ρ2 : List (String × String)}

/-- like `Reads`, with the position after one `backup` -/
def ReadsB (inp : List Char) {α : Type} (x : P α) (l : List Char) (ρ : List (String × String)) (a : α)
    (l' : List Char) (ρ' : List (String × String)) : Prop :=
  ∀ s, St inp s l ρ → ∃ s', x s = .ok (a, s') ∧ inp.drop (s'.pos - s'.width) = l' ∧ s'.regexps = ρ'

theorem ReadsB.bind {x : P α} {f : α → P β} {a : α} {b : β} {l l1 l2 : List Char} (g : P β)
    (h1 : ReadsB inp x l ρ a l1 ρ1) (hf : f a = (backup >>= fun _ => g)) (h2 : Reads inp g l1 ρ1 b l2 ρ2) :
    Reads inp (x >>= f) l ρ b l2 ρ2 := by
  intro s hs
  obtain ⟨s1, e1, h1', hr⟩ := h1 s hs
  obtain ⟨s2, e2, h2'⟩ := h2 { s1 with pos := s1.pos - s1.width } ⟨h1', hr⟩
  refine ⟨s2, ?_, h2'⟩
  rw [P.bind_run, e1, Out.bind_ok, hf, P.bind_run]
  exact e2

theorem ReadsB.bind_left {x : P α} {f : α → P β} {a : α} {b : β} {l l1 l2 : List Char}
    (h1 : Reads inp x l ρ a l1 ρ1) (h2 : ReadsB inp (f a) l1 ρ1 b l2 ρ2) :
    ReadsB inp (x >>= f) l ρ b l2 ρ2 := by
  intro s hs
  obtain ⟨s1, e1, h1'⟩ := h1 s hs
  obtain ⟨s2, e2, h2'⟩ := h2 s1 h1'
  exact ⟨s2, P.bind_eq_ok.mpr ⟨a, s1, e1, e2⟩, h2'⟩

theorem ReadsB.map {x : P α} {f : α → P β} {a : α} {b : β} {l l1 : List Char}
    (h1 : ReadsB inp x l ρ a l1 ρ1) (h2 : f a = Pure.pure b) :
    ReadsB inp (x >>= f) l ρ b l1 ρ1 := by
  intro s hs
  obtain ⟨s1, e1, h1'⟩ := h1 s hs
  refine ⟨s1, P.bind_eq_ok.mpr ⟨a, s1, e1, ?_⟩, h1'⟩
  rw [h2]; rfl

theorem readsB_next (hg : runeError ∉ inp) {f : Option Char → P α} {a : α} {l : List Char}
    (h : f l.head? = Pure.pure a) : ReadsB inp (next inp >>= f) l ρ a l ρ := by
  rintro s ⟨hs, hr⟩
  rcases next_run hg hs with ⟨c, l', rfl, e, hd⟩ | ⟨rfl, e⟩
  · refine ⟨{ s with pos := s.pos + 1, width := 1 }, ?_, by simpa using hs, hr⟩
    rw [P.bind_run, e]
    simp only [Out.bind_ok]
    rw [List.head?_cons] at h
    rw [h]; rfl
  · refine ⟨{ s with width := 0 }, ?_, by simpa using hs, hr⟩
    rw [P.bind_run, e]
    simp only [Out.bind_ok]
    rw [List.head?_nil] at h
    rw [h]; rfl

end

theorem parseDigit_of {c : Char} (h0 : '0' ≤ c) (h9 : c ≤ '9') : parseDigit c = some (c.toNat - '0'.toNat) := by
  unfold parseDigit; rw [if_pos ⟨h0, h9⟩]

theorem getInt_step {idx : Int} {n : Nat} {c : Char} (h : n = c.toNat - '0'.toNat) :
    (if idx = -1 then (n : Int) else wrap64 (idx * 10 + n)) = intStep idx c := by
  rw [h]
  rfl

section
variable {inp : List Char} {ρ ρ1 ρ2 : List (String × String)}
variable (hg : runeError ∉ inp) {w : LexWorld} (hw : w.OK)
include hg hw

theorem readsB_getIntLoop {ds r : List Char} {n : Nat} {idx : Int} (hd : ∀ c ∈ ds, '0' ≤ c ∧ c ≤ '9')
    (hr : Head (w.isDigit · = false) r) (hn : (ds ++ r).length < n) :
    ReadsB inp (getIntLoop w inp n idx) (ds ++ r) ρ (ds.foldl intStep idx) r ρ := by
  induction ds generalizing idx n with
  | nil =>
    cases n with
    | zero => simp at hn
    | succ n =>
      unfold getIntLoop
      refine readsB_next hg ?_
      cases r with
      | nil => simp
      | cons c r =>
        have : w.isDigit c = false := Head.cons.mp hr
        simp [this]
  | cons c ds ih =>
    cases n with
    | zero => simp at hn
    | succ n =>
      unfold getIntLoop
      refine ReadsB.bind_left (reads_next hg) ?_
      have hc := hd c (by simp)
      simp only [List.cons_append, List.head?_cons, List.tail_cons]
      rw [if_pos (hw.digits c hc.1 hc.2), parseDigit_of hc.1 hc.2]
      simp only [getInt_step rfl, List.foldl_cons]
      exact ih (fun d hd' => hd d (by simp [hd'])) (by simpa using hn)

theorem reads_getInt {ds r : List Char} {a : Int} {n : Nat} (hd : Num ds a)
    (hr : Head (w.isDigit · = false) r) (hn : (ds ++ r).length < n) :
    Reads inp (getInt w inp n) (ds ++ r) ρ a r ρ := by
  obtain ⟨h1, h2, h3⟩ := hd
  unfold getInt
  have h := readsB_getIntLoop (ρ := ρ) (idx := -1) hg hw h1 hr hn
  rw [h2.fold h1] at h
  refine ReadsB.bind _ h ?_ (Reads.pure _)
  rw [if_neg h3]

end

/-- what may follow a gap -/
def Stop (w : LexWorld) (r : List Char) : Prop := Head (fun c => w.isSpace c = false ∧ c ≠ '/') r

theorem Stop.space {w : LexWorld} {r : List Char} (h : Stop w r) : Head (w.isSpace · = false) r :=
  fun c hc => (h c hc).1

section
variable {inp : List Char} {ρ ρ1 ρ2 : List (String × String)}
variable (hg : runeError ∉ inp) {w : LexWorld}
include hg

theorem reads_lineLoop {b r : List Char} {n : Nat} (hb : '\n' ∉ b) (hn : b.length < n) :
    Reads inp (lineLoop inp n) (b ++ '\n' :: r) ρ () r ρ := by
  induction b generalizing n with
  | nil =>
    cases n with
    | zero => simp at hn
    | succ n =>
      unfold lineLoop
      refine Reads.bind (reads_next hg) ?_
      simp only [List.nil_append, List.head?_cons, List.tail_cons, if_true]
      exact Reads.pure _
  | cons c b ih =>
    cases n with
    | zero => simp at hn
    | succ n =>
      unfold lineLoop
      refine Reads.bind (reads_next hg) ?_
      simp only [List.mem_cons, not_or] at hb
      rw [List.cons_append, List.head?_cons, List.tail_cons, if_neg (by simp [Ne.symm hb.1])]
      exact ih hb.2 (by simpa using hn)

theorem reads_multiLoop {b r : List Char} {n : Nat} {star : Bool}
    (hb : ¬ ['*', '/'] <:+: (if star then '*' :: b else b)) (hn : b.length + 1 < n) :
    Reads inp (multiLoop inp n star) (b ++ '*' :: '/' :: r) ρ () r ρ := by
  induction b generalizing n star with
  | nil =>
    rcases n with _ | _ | n
    · simp at hn
    · simp at hn
    · unfold multiLoop
      refine Reads.bind (reads_next hg) ?_
      simp only [List.nil_append, List.head?_cons, List.tail_cons]
      rw [if_neg (by simp)]
      unfold multiLoop
      refine Reads.bind (reads_next hg) ?_
      simp only [List.head?_cons, List.tail_cons]
      rw [if_pos (by simp)]
      exact Reads.pure _
  | cons c b ih =>
    cases n with
    | zero => simp at hn
    | succ n =>
      unfold multiLoop
      refine Reads.bind (reads_next hg) ?_
      simp only [List.cons_append, List.head?_cons, List.tail_cons]
      rw [if_neg]
      · refine ih ?_ (by simpa using hn)
        intro hi
        apply hb
        have h2 : ['*', '/'] <:+: c :: b := by
          split at hi
          · rename_i hc
            have hc : c = '*' := by simpa using hc
            rw [hc]; exact hi
          · exact hi.trans (List.suffix_cons c b).isInfix
        split
        · exact h2.trans (List.suffix_cons '*' _).isInfix
        · exact h2
      · rintro ⟨hs, rfl⟩
        apply hb
        rw [if_pos hs]
        exact ⟨[], b, rfl⟩

theorem reads_comment_none {r : List Char} {n : Nat} (hr : Head (· ≠ '/') r) :
    Reads inp (comment inp n) r ρ false r ρ := by
  refine reads_next_backup hg fun _ _ s1 => ?_
  rw [if_pos fun e => hr _ e rfl]

theorem reads_commentsLoop {g r : List Char} {n0 n : Nat} (hw : w.OK) (h : Gap w g) (hr : Stop w r)
    (hn : (g ++ r).length < n0) (hn1 : (g ++ r).length < n) :
    Reads inp (commentsLoop w inp n0 n) (g ++ r) ρ () r ρ := by
  have hsl := punct_not hw (c := '/') (by decide)
  induction h generalizing n with
  | @spaces s hs =>
    cases n with
    | zero => simp at hn1
    | succ n =>
      unfold commentsLoop
      refine Reads.bind (reads_ws_app hg hs hr.space hn) ?_
      refine Reads.bind (reads_comment_none hg fun c hc => (hr c hc).2) ?_
      exact Reads.pure _
  | @line s b g hs hb _ ih =>
    cases n with
    | zero => simp at hn1
    | succ n =>
      simp only [List.append_assoc, List.cons_append] at hn hn1 ⊢
      unfold commentsLoop
      refine Reads.bind (reads_ws_app hg hs (Head.cons.mpr hsl.2.1) hn) ?_
      refine Reads.bind (a := true) (l1 := g ++ r) (ρ1 := ρ) ?_ ?_
      · unfold comment
        refine Reads.bind (reads_next hg) ?_
        simp only [List.head?_cons, ne_eq, not_true_eq_false, if_false, List.tail_cons]
        refine Reads.bind (reads_peek hg) ?_
        rw [List.head?_cons, if_pos rfl]
        refine Reads.bind (a := ()) (l1 := g ++ r) (ρ1 := ρ) ?_ (Reads.pure _)
        unfold lineComment
        exact Reads.bind (reads_eat hg) (reads_lineLoop hg hb (by lens))
      · rw [if_pos rfl]
        exact ih (by lens) (by lens)
  | @block s b g hs hb _ ih =>
    cases n with
    | zero => simp at hn1
    | succ n =>
      simp only [List.append_assoc, List.cons_append] at hn hn1 ⊢
      unfold commentsLoop
      refine Reads.bind (reads_ws_app hg hs (Head.cons.mpr hsl.2.1) hn) ?_
      refine Reads.bind (a := true) (l1 := g ++ r) (ρ1 := ρ) ?_ ?_
      · unfold comment
        refine Reads.bind (reads_next hg) ?_
        simp only [List.head?_cons, ne_eq, not_true_eq_false, if_false, List.tail_cons]
        refine Reads.bind (reads_peek hg) ?_
        rw [List.head?_cons, if_neg (by decide), if_pos rfl]
        refine Reads.bind (a := ()) (l1 := g ++ r) (ρ1 := ρ) ?_ (Reads.pure _)
        unfold multiLineComment
        exact Reads.bind (reads_eat hg) (reads_multiLoop hg hb (by lens))
      · rw [if_pos rfl]
        exact ih (by lens) (by lens)

theorem reads_comments {g r : List Char} {n : Nat} (hw : w.OK) (h : Gap w g) (hr : Stop w r)
    (hn : (g ++ r).length < n) : Reads inp (comments w inp n) (g ++ r) ρ () r ρ := by
  unfold comments
  exact Reads.bind (reads_commentsLoop hg hw h hr hn hn) (reads_ws_stop hg hr.space (by lens))

end

section
variable {inp : List Char} {ρ ρ1 ρ2 : List (String × String)}
variable (hg : runeError ∉ inp) {w : LexWorld} (hw : w.OK)

/-- the value of `specialMeta` for a `Meta` -/
def metaRange : Meta → Option (Int × Int)
  | .range a b => some (a, b)
  | _ => none

theorem Num.head {hw : w.OK} {d r : List Char} {a : Int} (h : Num d a) : Head (w.isSpace · = false) (d ++ r) := by
  refine Head.append_of_ne h.2.1.ne_nil (Head.of_all fun c hc => ?_)
  have := h.1 c hc
  exact hw.digit_space _ (hw.digits c this.1 this.2)

theorem Spaces.noDigit {hw : w.OK} {s : List Char} (h : Spaces w s) : Head (w.isDigit · = false) s := by
  refine Head.of_all fun c hc => ?_
  cases hd : w.isDigit c with
  | false => rfl
  | true =>
    have := hw.digit_space c hd
    rw [h c hc] at this
    cases this

theorem Spaces.noId {hw : w.OK} {s : List Char} (h : Spaces w s) : Head (idCont w false · = false) s := by
  refine Head.of_all fun c hc => ?_
  have hs := h c hc
  refine Bool.eq_false_iff.mpr fun hd => ?_
  simp only [idCont, Bool.not_false, Bool.and_true, Bool.or_eq_true, beq_iff_eq] at hd
  rcases hd with (hd | rfl) | hd
  · rw [hw.letter_space c hd] at hs; cases hs
  · rw [(hw.punct '_' (by decide)).2.2] at hs; cases hs
  · rw [hw.digit_space c hd] at hs; cases hs

include hg hw

theorem reads_specialMeta {l r : List Char} {m : Meta} {n : Nat} (h : RangeSyn w l m)
    (hn : (l ++ ')' :: r).length < n) :
    Reads inp (specialMeta w inp n) (l ++ ')' :: r) ρ (metaRange m) (')' :: r) ρ := by
  have hp := punct_not hw (c := ')') (by decide)
  have hob := punct_not hw (c := '{') (by decide)
  have hcb := punct_not hw (c := '}') (by decide)
  have hcm := punct_not hw (c := ',') (by decide)
  unfold specialMeta
  cases h with
  | none hs =>
    refine Reads.bind (reads_ws_app hg hs (Head.cons.mpr hp.2.1) hn) ?_
    refine Reads.bind (reads_peek hg) ?_
    rw [List.head?_cons, if_neg (by decide)]
    exact Reads.bind (reads_ws_stop hg (Head.cons.mpr hp.2.1) (by lens)) (Reads.pure _)
  | @some s0 s1 s2 s3 s4 s5 d1 d2 a b h0 h1 h2 h3 h4 h5 ha hb hab =>
    simp only [List.append_assoc, List.cons_append] at hn ⊢
    refine Reads.bind (reads_ws_app hg h0 (Head.cons.mpr hob.2.1) hn) ?_
    refine Reads.bind (reads_peek hg) ?_
    rw [List.head?_cons, if_pos rfl]
    refine Reads.bind (reads_next hg) ?_
    rw [List.tail_cons]
    refine Reads.bind (reads_ws_app hg h1 (Num.head (hw := hw) ha) (by lens)) ?_
    refine Reads.bind (reads_getInt hg hw ha
      (Head.append (h2.noDigit (hw := hw)) (Head.cons.mpr hcm.2.2.1)) (by lens)) ?_
    refine Reads.bind (reads_ws_app hg h2 (Head.cons.mpr hcm.2.1) (by lens)) ?_
    refine Reads.bind (reads_eat hg) ?_
    refine Reads.bind (reads_ws_app hg h3 (Num.head (hw := hw) hb) (by lens)) ?_
    refine Reads.bind (reads_getInt hg hw hb
      (Head.append (h4.noDigit (hw := hw)) (Head.cons.mpr hcb.2.2.1)) (by lens)) ?_
    rw [if_neg (by omega)]
    refine Reads.bind (reads_ws_app hg h4 (Head.cons.mpr hcb.2.1) (by lens)) ?_
    refine Reads.bind (reads_eat hg) ?_
    refine Reads.bind (reads_ws_app hg h5 (Head.cons.mpr hp.2.1) (by lens)) ?_
    exact Reads.pure _

omit hg hw in
theorem RangeSyn.meta {l : List Char} {m : Meta} (h : RangeSyn w l m) : rangeMeta (metaRange m) = m := by
  cases h <;> rfl

omit hg in
theorem RangeSyn.head {l r : List Char} {m : Meta} (h : RangeSyn w l m)
    (hr : Head (idCont w false · = false) r) : Head (idCont w false · = false) (l ++ r) := by
  cases h with
  | none hs => exact Head.append (hs.noId (hw := hw)) hr
  | some h0 =>
    rw [List.append_assoc]
    exact Head.append (h0.noId (hw := hw)) (Head.cons.mpr (punct_not hw (c := '{') (by decide)).1)

omit hw in
theorem reads_regexLoop {b r : List Char} {n : Nat} (hb : '`' ∉ b) (hn : b.length < n) :
    Reads inp (regexLoop inp n) (b ++ '`' :: r) ρ b r ρ := by
  induction b generalizing n with
  | nil =>
    cases n with
    | zero => simp at hn
    | succ n =>
      unfold regexLoop
      refine Reads.bind (reads_next hg) ?_
      simp only [List.nil_append, List.head?_cons, List.tail_cons, if_true]
      exact Reads.pure _
  | cons c b ih =>
    cases n with
    | zero => simp at hn
    | succ n =>
      unfold regexLoop
      refine Reads.bind (reads_next hg) ?_
      simp only [List.cons_append, List.head?_cons, List.tail_cons]
      simp only [List.mem_cons, not_or] at hb
      rw [if_neg (Ne.symm hb.1)]
      exact Reads.bind (ih hb.2 (by simpa using hn)) (Reads.pure _)

omit hg in
theorem ident_word {l : List Char} (h : ∀ c ∈ l, 'a' ≤ c ∧ c ≤ 'z') (hne : l ≠ []) : Ident w l := by
  cases l with
  | nil => exact absurd rfl hne
  | cons c t =>
    exact .mk (.inl (hw.letters c (h c (by simp)).1 (h c (by simp)).2))
      fun d hd => .inl (hw.letters d (h d (by simp [hd])).1 (h d (by simp [hd])).2)

omit hg in
theorem Ident.headSpace {x r : List Char} (h : Ident w x) : Head (w.isSpace · = false) (x ++ r) := by
  obtain ⟨h1, _⟩ := h
  rw [List.cons_append, Head.cons]
  rcases h1 with h1 | rfl
  · exact hw.letter_space _ h1
  · exact (hw.punct '_' (by decide)).2.2

omit hg in
theorem RangeSyn.drop {l : List Char} {m : Meta} (h : RangeSyn w l m) :
    ∃ l', RangeSyn w l' m ∧ ∀ r, (l ++ ')' :: r).dropWhile w.isSpace = l' ++ ')' :: r := by
  cases h with
  | none hs =>
    refine ⟨[], .none (by simp [Spaces]), fun r => ?_⟩
    rw [List.dropWhile_append_of_pos hs, List.dropWhile_cons_of_neg]
    · rfl
    · simp [(punct_not hw (c := ')') (by decide)).2.1]
  | some h0 h1 h2 h3 h4 h5 ha hb hab =>
    refine ⟨_, .some (s0 := []) (by simp [Spaces]) h1 h2 h3 h4 h5 ha hb hab, fun r => ?_⟩
    rw [List.append_assoc, List.dropWhile_append_of_pos h0, List.cons_append, List.dropWhile_cons_of_neg]
    · rfl
    · simp [(punct_not hw (c := '{') (by decide)).2.1]

theorem reads_any {l s r : List Char} {n : Nat} {m : Meta} (hs : Spaces w s) (h : RangeSyn w l m)
    (hn : ('(' :: (s ++ 'a' :: 'n' :: 'y' :: (l ++ ')' :: r))).length < n) :
    Reads inp (special w inp n) ('(' :: (s ++ 'a' :: 'n' :: 'y' :: (l ++ ')' :: r))) ρ
      ⟨"any", .any, m⟩ r ρ := by
  have hp := punct_not hw (c := ')') (by decide)
  have hany : Ident w ['a', 'n', 'y'] := ident_word hw (by decide) (by simp)
  unfold special
  refine Reads.bind (reads_eat hg) ?_
  have hsp := Ident.headSpace hw (r := l ++ ')' :: r) hany
  refine Reads.bind (reads_ws_app hg hs hsp (by lens)) ?_
  refine Reads.bind (reads_text_app (x := ['a', 'n', 'y']) (r := l ++ ')' :: r) hg hany
    (h.head hw (Head.cons.mpr hp.1)) (by lens)) ?_
  have hw1 := reads_ws (l := l ++ ')' :: r) (n := n) (ρ := ρ) hg w (by lens)
  obtain ⟨l', h', e⟩ := h.drop hw
  rw [e r] at hw1
  have hlen : (l' ++ ')' :: r).length ≤ (l ++ ')' :: r).length := by
    rw [← e r]
    exact (List.dropWhile_suffix _).sublist.length_le
  refine Reads.bind hw1 ?_
  rw [if_pos (by decide)]
  unfold anyTerm
  refine Reads.bind (reads_specialMeta hg hw h' (by lens)) ?_
  refine Reads.bind (reads_eat hg) ?_
  rw [h'.meta]
  exact Reads.pure _

theorem reads_list {l s s2 x r : List Char} {n : Nat} {m : Meta} (hs : Spaces w s) (hs2 : Spaces w s2)
    (hx : Ident w x) (h : RangeSyn w l m)
    (hn : ('(' :: (s ++ 'l' :: 'i' :: 's' :: 't' :: (s2 ++ '<' :: (x ++ '>' :: (l ++ ')' :: r))))).length < n) :
    Reads inp (special w inp n)
      ('(' :: (s ++ 'l' :: 'i' :: 's' :: 't' :: (s2 ++ '<' :: (x ++ '>' :: (l ++ ')' :: r))))) ρ
      ⟨String.ofList x, .list, m⟩ r ρ := by
  have ho := punct_not hw (c := '<') (by decide)
  have hc := punct_not hw (c := '>') (by decide)
  have hlist : Ident w ['l', 'i', 's', 't'] := ident_word hw (by decide) (by simp)
  unfold special
  refine Reads.bind (reads_eat hg) ?_
  have hsp := Ident.headSpace hw (r := s2 ++ '<' :: (x ++ '>' :: (l ++ ')' :: r))) hlist
  refine Reads.bind (reads_ws_app hg hs hsp (by lens)) ?_
  refine Reads.bind (reads_text_app (x := ['l', 'i', 's', 't'])
    (r := s2 ++ '<' :: (x ++ '>' :: (l ++ ')' :: r))) hg hlist
    (Head.append (hs2.noId (hw := hw)) (Head.cons.mpr ho.1)) (by lens)) ?_
  refine Reads.bind (reads_ws_app hg hs2 (Head.cons.mpr ho.2.1) (by lens)) ?_
  rw [if_neg (by decide), if_pos (by decide)]
  unfold listTerm nonterminal
  refine Reads.bind (reads_token hg hx hc.1 (by lens)) ?_
  refine Reads.bind (reads_specialMeta hg hw h (by lens)) ?_
  refine Reads.bind (reads_eat hg) ?_
  rw [h.meta]
  exact Reads.pure _

omit hg hw in
theorem LitSyn.head {l r : List Char} {f v : String} (h : LitSyn w l f v) : (l ++ r).head? = some '"' := by
  cases h <;> rfl

theorem reads_term {l r : List Char} {t : Term} {n : Nat} (h : TermSyn w l t ρ ρ1)
    (hn : (l ++ r).length < n) : Reads inp (term w inp n) (l ++ r) ρ t r ρ1 := by
  unfold term
  refine Reads.bind (reads_peek hg) ?_
  cases h with
  | nonterminal hx =>
    simp only [List.append_assoc, List.cons_append, List.nil_append] at hn ⊢
    rw [List.head?_cons, if_pos rfl]
    unfold nonterminal
    exact Reads.bind (reads_token hg hx (punct_not hw (by decide)).1 (by lens)) (Reads.pure _)
  | literal hl =>
    rw [hl.head, if_neg (by decide), if_pos rfl]
    refine Reads.bind (reads_terminal hg hw hl hn) ?_
    exact Reads.pure _
  | flagged hl hf =>
    rw [hl.head, if_neg (by decide), if_pos rfl]
    refine Reads.bind (reads_terminal hg hw hl hn) ?_
    rw [if_neg hf]
    exact Reads.pure _
  | any hs hr =>
    simp only [List.append_assoc, List.cons_append, List.nil_append] at hn ⊢
    rw [List.head?_cons, if_neg (by decide), if_neg (by decide), if_pos rfl]
    exact reads_any hg hw hs hr hn
  | list hs hs2 hx hr =>
    simp only [List.append_assoc, List.cons_append, List.nil_append] at hn ⊢
    rw [List.head?_cons, if_neg (by decide), if_neg (by decide), if_pos rfl]
    exact reads_list hg hw hs hs2 hx hr hn
  | @regex s b ρ hs hne hb hh hok =>
    simp only [List.append_assoc, List.cons_append, List.nil_append] at hn ⊢
    rw [List.head?_cons, if_neg (by decide), if_neg (by decide), if_neg (by decide), if_pos rfl]
    unfold regex
    refine Reads.bind (reads_eat hg) ?_
    refine Reads.bind (reads_ws_app hg hs (Head.append_of_ne hne hh) (by lens)) ?_
    refine Reads.bind (reads_regexLoop hg hb (by lens)) ?_
    rw [if_neg (by simpa using hne)]
    simp only []
    rw [if_pos hok]
    refine Reads.bind (a := ()) (l1 := r) (ρ1 := mapSet ρ (w.md5 (String.ofList b)) (String.ofList b)) ?_ (Reads.pure _)
    rintro s' ⟨h1, rfl⟩
    exact ⟨_, rfl, h1, rfl⟩

end

/-- a rune that continues a function name -/
def fnCont (w : LexWorld) (c : Char) : Prop :=
  w.isLetter c = true ∨ c = '_' ∨ w.isDigit c = true ∨ c = '.'

section
variable {inp : List Char} {ρ ρ1 ρ2 : List (String × String)}
variable (hg : runeError ∉ inp) {w : LexWorld}

section
include hg

theorem reads_funcNameLoop {t r : List Char} {n : Nat} {dot : Bool} (ht : ∀ c ∈ t, fnCont w c)
    (hd : ¬ ['.', '.'] <:+: (if dot then '.' :: t else t)) (hr : Head (¬ fnCont w ·) r)
    (hn : (t ++ r).length < n) : Reads inp (funcNameLoop w inp n false dot) (t ++ r) ρ t r ρ := by
  induction t generalizing n dot with
  | nil =>
    cases n with
    | zero => simp at hn
    | succ n =>
      unfold funcNameLoop
      refine reads_next_backup hg fun _ _ s1 => ?_
      cases r with
      | nil => rfl
      | cons c r =>
        have h := Head.cons.mp hr
        simp only [fnCont, not_or] at h
        simp only [List.nil_append, List.head?_cons]
        rw [if_neg]
        simp [h]
  | cons c t ih =>
    cases n with
    | zero => simp at hn
    | succ n =>
      unfold funcNameLoop
      refine Reads.bind (reads_next hg) ?_
      simp only [List.cons_append, List.head?_cons, List.tail_cons]
      rw [if_pos]
      · refine Reads.bind (ih (fun d hd' => ht d (by simp [hd'])) ?_ (by simpa using hn)) (Reads.pure _)
        intro hi
        apply hd
        have h2 : ['.', '.'] <:+: c :: t := by
          split at hi
          · rename_i hc
            have hc : c = '.' := by simpa using hc
            rw [hc]; exact hi
          · exact hi.trans (List.suffix_cons c t).isInfix
        split
        · exact h2.trans (List.suffix_cons '.' _).isInfix
        · exact h2
      · rcases ht c (by simp) with h | h | h | h
        · exact .inl h
        · exact .inr (.inl h)
        · exact .inr (.inr (.inl ⟨h, trivial⟩))
        · refine .inr (.inr (.inr ⟨h, ?_, trivial⟩))
          cases dot with
          | false => rfl
          | true =>
            exfalso
            apply hd
            subst h
            exact ⟨[], t, rfl⟩

theorem reads_funcName (hw : w.OK) {x r : List Char} {n : Nat} (h : FnName w x) (hr : Head (¬ fnCont w ·) r)
    (hn : (x ++ r).length < n) :
    Reads inp (funcName w inp n) (x ++ r) ρ (String.ofList x) (r.dropWhile w.isSpace) ρ := by
  obtain ⟨hc, ht, hd⟩ := h
  rename_i c t
  unfold funcName
  cases n with
  | zero => simp at hn
  | succ n =>
    refine Reads.bind (a := c :: t) (l1 := r) (ρ1 := ρ) ?_ ?_
    · unfold funcNameLoop
      refine Reads.bind (reads_next hg) ?_
      simp only [List.cons_append, List.head?_cons, List.tail_cons]
      rw [if_pos (by rcases hc with h | h <;> simp [h])]
      refine Reads.bind (reads_funcNameLoop hg ht ?_ hr (by simpa using hn)) (Reads.pure _)
      rw [if_neg]
      · exact hd
      · intro h
        have hc' : c = '.' := by simpa using h
        subst hc'
        rcases hc with h | h
        · rw [(hw.punct '.' (by decide)).1] at h; cases h
        · exact absurd h (by decide)
    · rw [if_neg (by simp)]
      exact Reads.bind (reads_ws hg w (by lens)) (Reads.pure _)

theorem readsB_numLoop (hw : w.OK) {d r : List Char} {n : Nat} {hasDot : Bool}
    (hd : ∀ c ∈ d, w.isDigit c = true ∨ c = '.') (hc : d.count '.' + (if hasDot then 1 else 0) ≤ 1)
    (hr : Head (fun c => w.isDigit c = false ∧ c ≠ '.') r) (hn : (d ++ r).length < n) :
    ReadsB inp (numLoop w inp n hasDot) (d ++ r) ρ
      (d, decide (d.count '.' + (if hasDot then 1 else 0) = 1)) r ρ := by
  induction d generalizing n hasDot with
  | nil =>
    cases n with
    | zero => simp at hn
    | succ n =>
      unfold numLoop
      refine readsB_next hg ?_
      have e : decide (([] : List Char).count '.' + (if hasDot then 1 else 0) = 1) = hasDot := by
        cases hasDot <;> rfl
      cases r with
      | nil => simp only [List.nil_append, List.head?_nil]; rw [e]
      | cons c r =>
        have h := Head.cons.mp hr
        simp only [List.nil_append, List.head?_cons]
        rw [if_neg (by simp [h.1]), if_neg h.2, e]
  | cons c d ih =>
    cases n with
    | zero => simp at hn
    | succ n =>
      unfold numLoop
      refine ReadsB.bind_left (reads_next hg) ?_
      simp only [List.cons_append, List.head?_cons, List.tail_cons]
      have hdot := (hw.punct '.' (by decide)).2.1
      rcases hd c (by simp) with h | rfl
      · have hne : c ≠ '.' := by
          rintro rfl
          rw [hdot] at h; cases h
        rw [if_pos h]
        have hcnt : (c :: d).count '.' = d.count '.' := by
          rw [List.count_cons]; simp [hne]
        rw [hcnt] at hc ⊢
        exact ReadsB.map (ih (fun d hd' => hd d (by simp [hd'])) hc (by simpa using hn)) rfl
      · rw [if_neg (by simp [hdot]), if_pos rfl]
        have hcnt : ('.' :: d).count '.' = d.count '.' + 1 := by
          rw [List.count_cons]; simp
        cases hasDot with
        | true => rw [hcnt] at hc; simp at hc
        | false =>
          rw [if_neg (by simp)]
          rw [hcnt] at hc ⊢
          have := ih (hasDot := true) (fun d hd' => hd d (by simp [hd'])) (by simpa using hc)
            (by simpa using hn)
          exact ReadsB.map this (by simp)

/-- the value of a number token -/
theorem reads_numArg (hw : w.OK) {d r : List Char} {n : Nat} {neg dot : Bool} {a : Arg} (hd : NumTok w d dot)
    (ha : if dot then ∃ q, w.scanFloat (String.ofList (if neg then '-' :: d else d)) = some q ∧
        a = .mk "float" (.bigFloat q)
      else ∃ i, w.scanInt (String.ofList (if neg then '-' :: d else d)) = some i ∧ a = .mk "int" (.bigInt i))
    (hr : Head (fun c => w.isDigit c = false ∧ c ≠ '.') r) (hn : (d ++ r).length < n) :
    Reads inp (numArg w inp n neg) (d ++ r) ρ a r ρ := by
  obtain ⟨h1, h2, h3⟩ := hd
  unfold numArg
  have h := readsB_numLoop (ρ := ρ) (hasDot := false) hg hw h2 (by rw [h3]; split <;> simp) hr hn
  have e : decide (d.count '.' + (if false = true then 1 else 0) = 1) = dot := by
    rw [h3]; cases dot <;> rfl
  rw [e] at h
  cases dot with
  | true =>
    obtain ⟨q, hq, rfl⟩ := ha
    refine ReadsB.bind _ h ?_ (Reads.pure (Arg.mk "float" (.bigFloat q)))
    simp only []
    rw [if_neg (by simpa using h1)]
    simp only [if_true]
    rw [hq]
  | false =>
    obtain ⟨i, hi, rfl⟩ := ha
    refine ReadsB.bind _ h ?_ (Reads.pure (Arg.mk "int" (.bigInt i)))
    simp only []
    rw [if_neg (by simpa using h1)]
    simp only [Bool.false_eq_true, if_false]
    rw [hi]

end

end

/-- what may follow an argument -/
def ArgEnd (w : LexWorld) (r : List Char) : Prop :=
  Head (fun c => w.isSpace c = true ∨ c = ',' ∨ c = ')') r

theorem ArgEnd.num {w : LexWorld} (hw : w.OK) {r : List Char} (h : ArgEnd w r) :
    Head (fun c => w.isDigit c = false ∧ c ≠ '.') r := by
  intro c hc
  rcases h c hc with h | rfl | rfl
  · refine ⟨?_, ?_⟩
    · refine Bool.eq_false_iff.mpr fun hd => ?_
      rw [hw.digit_space c hd] at h; cases h
    · rintro rfl
      rw [(hw.punct '.' (by decide)).2.2] at h; cases h
  · exact ⟨(hw.punct ',' (by decide)).2.1, by decide⟩
  · exact ⟨(hw.punct ')' (by decide)).2.1, by decide⟩

theorem FnName.first {w : LexWorld} (hw : w.OK) {x r : List Char} (h : FnName w x) :
    ∃ c, (x ++ r).head? = some c ∧ w.isSpace c = false ∧ w.isDigit c = false ∧
      c ∉ ['@', '$', '"', '-', ','] := by
  obtain ⟨hc, -, -⟩ := h
  rename_i c t
  refine ⟨c, rfl, ?_⟩
  rcases hc with h | rfl
  · refine ⟨hw.letter_space c h, hw.letter_digit c h, fun hm => ?_⟩
    have : w.isLetter c = false := by
      simp only [List.mem_cons, List.not_mem_nil, or_false] at hm
      rcases hm with rfl | rfl | rfl | rfl | rfl <;> exact (hw.punct _ (by decide)).1
    rw [this] at h; cases h
  · exact ⟨(hw.punct '_' (by decide)).2.2, (hw.punct '_' (by decide)).2.1, by decide⟩

theorem NumTok.first {w : LexWorld} (hw : w.OK) {d r : List Char} {dot : Bool} (h : NumTok w d dot)
    (hh : d.head? ≠ some '.') : ∃ c, (d ++ r).head? = some c ∧ w.isDigit c = true ∧
      c ∉ ['@', '$', '"', '-', ','] := by
  obtain ⟨h1, h2, _⟩ := h
  cases d with
  | nil => exact absurd rfl h1
  | cons c d =>
    have hc : w.isDigit c = true := by
      rcases h2 c (by simp) with h | rfl
      · exact h
      · exact absurd rfl hh
    refine ⟨c, rfl, hc, fun hm => ?_⟩
    have : w.isDigit c = false := by
      simp only [List.mem_cons, List.not_mem_nil, or_false] at hm
      rcases hm with rfl | rfl | rfl | rfl | rfl <;> exact (hw.punct _ (by decide)).2.1
    rw [this] at hc; cases hc

theorem dropWhile_idem (p : Char → Bool) (l : List Char) : (l.dropWhile p).dropWhile p = l.dropWhile p := by
  induction l with
  | nil => rfl
  | cons c l ih =>
    by_cases h : p c
    · simp [h, ih]
    · simp [h]

theorem ArgSyn.ne_nil {w : LexWorld} {t : List Char} {a : Arg} (h : ArgSyn w t a) : t ≠ [] := by
  cases h with
  | context => simp
  | index => simp
  | string h => intro e; subst e; simpa using h.head (r := [])
  | int h => exact h.1
  | negInt => simp
  | float h => exact h.1
  | negFloat => simp
  | func h =>
    obtain ⟨h1, h2, _⟩ := h
    simp

section
variable {inp : List Char} {ρ ρ1 ρ2 : List (String × String)}
variable (hg : runeError ∉ inp) {w : LexWorld} (hw : w.OK)
include hg hw

theorem reads_fmr_args (k : Nat) :
    (∀ {l : List Char} {f : FMR} {r : List Char} {n0 n : Nat}, l.length ≤ k → FmrSyn w l f → l.length < n →
      (l ++ r).length < n0 → Reads inp (semanticFn w inp n0 n) (l ++ r) ρ f (r.dropWhile w.isSpace) ρ) ∧
    (∀ {l : List Char} {as : List Arg} {r : List Char} {n0 n : Nat}, l.length ≤ k → ArgsSyn w l as →
      l.length < n → (l ++ r).length < n0 → Reads inp (funcArgsLoop w inp n0 n) (l ++ r) ρ as r ρ) := by
  induction k with
  | zero =>
    refine ⟨fun hk h => ?_, fun hk h => ?_⟩
    · obtain ⟨h1, h2, _⟩ := h
      lens
    · cases h <;> lens
  | succ k ih =>
    have hop := punct_not hw (c := '(') (by decide)
    have hcm := punct_not hw (c := ',') (by decide)
    have hcp := punct_not hw (c := ')') (by decide)
    -- one argument
    have harg : ∀ {t : List Char} {a : Arg} {r : List Char} {n0 n : Nat}, t.length ≤ k → ArgSyn w t a →
        Head (w.isSpace · = false) t → ArgEnd w r → t.length < n → (t ++ r).length < n0 →
        (t ++ r).head? ≠ some ',' ∧ ∃ r', Reads inp (funcArg w inp n0 (semanticFn w inp n0 n) (t ++ r).head?) (t ++ r) ρ a r' ρ ∧
          r'.dropWhile w.isSpace = r.dropWhile w.isSpace ∧ r'.length ≤ r.length := by
      intro t a r n0 n hk h hsp hr hn hn0
      cases h with
      | context =>
        refine ⟨by simp, r, ?_, rfl, Nat.le_refl _⟩
        simp only [funcArg, List.cons_append, List.head?_cons, if_true]
        exact Reads.bind (reads_eat hg) (Reads.pure _)
      | @index d m hd =>
        refine ⟨by simp, r, ?_, rfl, Nat.le_refl _⟩
        rw [List.cons_append, List.head?_cons, funcArg]
        rw [if_neg (by simp), if_pos rfl]
        exact Reads.bind (reads_eat hg) (Reads.bind (reads_getInt hg hw hd
          (fun c hc => (hr.num hw c hc).1) (by lens)) (Reads.pure _))
      | @string _ f v hl =>
        refine ⟨by rw [hl.head]; decide, r, ?_, rfl, Nat.le_refl _⟩
        rw [hl.head]
        rw [funcArg]
        rw [if_neg (by simp), if_neg (by simp), if_pos rfl]
        exact Reads.bind (reads_terminal hg hw hl hn0) (Reads.pure _)
      | @int _ i hd hh hs =>
        obtain ⟨c, hc, hdig, hne⟩ := hd.first (r := r) hw hh
        simp only [List.mem_cons, List.not_mem_nil, or_false, not_or] at hne
        rw [hc]
        refine ⟨by simp [hne], r, ?_, rfl, Nat.le_refl _⟩
        rw [funcArg]
        rw [if_neg (by simp [hne]), if_neg (by simp [hne]), if_neg (by simp [hne]), inClass, if_pos hdig]
        exact reads_numArg hg hw (neg := false) hd ⟨i, hs, rfl⟩ (hr.num hw) hn0
      | @negInt d i hd hs =>
        refine ⟨by simp, r, ?_, rfl, Nat.le_refl _⟩
        rw [List.cons_append, List.head?_cons, funcArg]
        rw [if_neg (by simp), if_neg (by simp), if_neg (by simp),
          if_neg (by simp [inClass, (punct_not hw (c := '-') (by decide)).2.2.1]), if_pos rfl]
        exact Reads.bind (reads_eat hg)
          (reads_numArg hg hw (neg := true) hd ⟨i, hs, rfl⟩ (hr.num hw) (by lens))
      | @float _ q hd hh hs =>
        obtain ⟨c, hc, hdig, hne⟩ := hd.first (r := r) hw hh
        simp only [List.mem_cons, List.not_mem_nil, or_false, not_or] at hne
        rw [hc]
        refine ⟨by simp [hne], r, ?_, rfl, Nat.le_refl _⟩
        rw [funcArg]
        rw [if_neg (by simp [hne]), if_neg (by simp [hne]), if_neg (by simp [hne]), inClass, if_pos hdig]
        exact reads_numArg hg hw (neg := false) hd ⟨q, hs, rfl⟩ (hr.num hw) hn0
      | @negFloat d q hd hs =>
        refine ⟨by simp, r, ?_, rfl, Nat.le_refl _⟩
        rw [List.cons_append, List.head?_cons, funcArg]
        rw [if_neg (by simp), if_neg (by simp), if_neg (by simp),
          if_neg (by simp [inClass, (punct_not hw (c := '-') (by decide)).2.2.1]), if_pos rfl]
        exact Reads.bind (reads_eat hg)
          (reads_numArg hg hw (neg := true) hd ⟨q, hs, rfl⟩ (hr.num hw) (by lens))
      | @func _ f hf =>
        have hfst : ∃ c, (t ++ r).head? = some c ∧ w.isDigit c = false ∧ c ∉ ['@', '$', '"', '-', ','] := by
          obtain ⟨h1, h2, -, -, -⟩ := hf
          rename_i s1 x s2 a' s3 args
          cases s1 with
          | cons c s1 =>
            have := Head.cons.mp hsp
            rw [h1 c (by simp)] at this
            cases this
          | nil =>
            rw [List.nil_append, List.append_assoc]
            obtain ⟨c, hc, _, h3, h4⟩ := h2.first (r := s2 ++ '(' :: (a' ++ s3) ++ r) hw
            exact ⟨c, hc, h3, h4⟩
        obtain ⟨c, hc, hdig, hne⟩ := hfst
        simp only [List.mem_cons, List.not_mem_nil, or_false, not_or] at hne
        refine ⟨by rw [hc]; simp [hne], r.dropWhile w.isSpace, ?_, dropWhile_idem _ _,
          (List.dropWhile_suffix _).sublist.length_le⟩
        rw [hc]
        rw [funcArg]
        rw [if_neg (by simp [hne]), if_neg (by simp [hne]), if_neg (by simp [hne]),
          if_neg (by simp [inClass, hdig]), if_neg (by simp [hne])]
        exact Reads.bind (ih.1 hk hf hn hn0) (Reads.pure _)
    have htrim : ∀ {t : List Char} {a : Arg}, ArgSyn w t a → ∃ s0 t', Spaces w s0 ∧ t = s0 ++ t' ∧
        ArgSyn w t' a ∧ Head (w.isSpace · = false) t' := by
      intro t a h
      cases h with
      | context => exact ⟨[], _, by simp [Spaces], rfl, .context, Head.cons.mpr (hw.punct _ (by decide)).2.2⟩
      | index hd =>
        exact ⟨[], _, by simp [Spaces], rfl, .index hd, Head.cons.mpr (hw.punct _ (by decide)).2.2⟩
      | string hl =>
        refine ⟨[], _, by simp [Spaces], rfl, .string hl, ?_⟩
        intro c hc
        have := hl.head (r := [])
        rw [List.append_nil, hc] at this
        cases this
        exact (hw.punct _ (by decide)).2.2
      | int hd hh hs =>
        refine ⟨[], _, by simp [Spaces], rfl, .int hd hh hs, ?_⟩
        intro c hc
        obtain ⟨c', hc', hdig, -⟩ := hd.first (r := []) hw hh
        rw [List.append_nil, hc] at hc'
        cases hc'
        exact hw.digit_space c hdig
      | float hd hh hs =>
        refine ⟨[], _, by simp [Spaces], rfl, .float hd hh hs, ?_⟩
        intro c hc
        obtain ⟨c', hc', hdig, -⟩ := hd.first (r := []) hw hh
        rw [List.append_nil, hc] at hc'
        cases hc'
        exact hw.digit_space c hdig
      | negInt hd hs =>
        exact ⟨[], _, by simp [Spaces], rfl, .negInt hd hs, Head.cons.mpr (hw.punct _ (by decide)).2.2⟩
      | negFloat hd hs =>
        exact ⟨[], _, by simp [Spaces], rfl, .negFloat hd hs, Head.cons.mpr (hw.punct _ (by decide)).2.2⟩
      | func hf =>
        obtain ⟨h1, h2, h3, h4, h5⟩ := hf
        rename_i s1 x s2 a' s3 args
        refine ⟨s1, _, h1, rfl, .func (.mk (s1 := []) (by simp [Spaces]) h2 h3 h4 h5), ?_⟩
        intro c hc
        obtain ⟨c', hc', h6, -⟩ := h2.first (r := s2 ++ '(' :: (a' ++ s3)) hw
        rw [hc'] at hc
        cases hc
        exact h6
    -- an argument up to the rune behind it
    have hone : ∀ {s t s' : List Char} {a : Arg} {c : Char} {r : List Char} {n0 n : Nat} {as : List Arg}
        {r2 : List Char}, t.length ≤ k →
        Spaces w s → ArgSyn w t a → Spaces w s' → (c = ',' ∨ c = ')') → t.length < n →
        (s ++ (t ++ (s' ++ c :: r))).length < n0 →
        (if c = ',' then ∃ as', as = a :: as' ∧ Reads inp (funcArgsLoop w inp n0 n) r ρ as' r2 ρ
          else as = [a] ∧ r2 = r) →
        Reads inp (funcArgsLoop w inp n0 (n + 1)) (s ++ (t ++ (s' ++ c :: r))) ρ as r2 ρ := by
      intro s t s' a c r n0 n as r2 hk hs ht hs' hc hn hn0 hcont
      obtain ⟨s0, t', hs0, rfl, ht', hsp⟩ := htrim ht
      have hcs : w.isSpace c = false := by
        rcases hc with rfl | rfl
        · exact hcm.2.1
        · exact hcp.2.1
      have hend : ArgEnd w (s' ++ c :: r) := by
        refine Head.append (Head.of_all fun d hd => .inl (hs' d hd)) (Head.cons.mpr (.inr hc))
      obtain ⟨hne, r', hreads, hdrop, hle⟩ := harg (r := s' ++ c :: r) (n0 := n0) (n := n) (by lens) ht' hsp hend
        (by lens) (by lens)
      have hdrop' : (s' ++ c :: r).dropWhile w.isSpace = c :: r := by
        rw [List.dropWhile_append_of_pos hs', List.dropWhile_cons_of_neg (by simp [hcs])]
      rw [hdrop'] at hdrop
      have hlen : r'.length < n0 := by lens
      unfold funcArgsLoop
      have e : s ++ (s0 ++ t' ++ (s' ++ c :: r)) = (s ++ s0) ++ (t' ++ (s' ++ c :: r)) := by simp
      rw [e] at hn0 ⊢
      refine Reads.bind (reads_ws_app hg (fun d hd => ?_) (Head.append_of_ne ht'.ne_nil hsp) hn0) ?_
      · rcases List.mem_append.mp hd with hd | hd
        · exact hs d hd
        · exact hs0 d hd
      refine Reads.bind (reads_peek hg) ?_
      refine Reads.bind hreads ?_
      rw [if_neg hne]
      have hws := reads_ws (l := r') (n := n0) (ρ := ρ) hg w hlen
      rw [hdrop] at hws
      refine Reads.bind hws ?_
      refine Reads.bind (reads_next hg) ?_
      rw [List.head?_cons, List.tail_cons]
      rcases hc with rfl | rfl
      · rw [if_pos rfl]
        rw [if_pos rfl] at hcont
        obtain ⟨as', rfl, hr⟩ := hcont
        exact Reads.bind hr (Reads.pure _)
      · rw [if_neg (by decide), if_pos rfl]
        rw [if_neg (by decide)] at hcont
        obtain ⟨rfl, rfl⟩ := hcont
        exact Reads.pure _
    refine ⟨fun hk h hn hn0 => ?_, fun hk h hn hn0 => ?_⟩
    · rename_i l f r n0 n
      cases n with
      | zero => simp at hn
      | succ n =>
        obtain ⟨h1, h2, h3, h4, h5⟩ := h
        rename_i s1 x s2 a s3 args
        have hx := h2.first (r := s2 ++ '(' :: (a ++ (s3 ++ r))) hw
        have hne : x ≠ [] := by obtain ⟨-, -, -⟩ := h2; simp
        have hxl : 0 < x.length := List.length_pos_iff.mpr hne
        simp only [List.append_assoc, List.cons_append] at hn0 ⊢
        unfold semanticFn
        refine Reads.bind (reads_ws_app hg h1 (fun c hc => ?_) hn0) ?_
        · obtain ⟨c', hc', h6, -⟩ := hx
          rw [hc'] at hc
          cases hc
          exact h6
        have hfn : Head (¬ fnCont w ·) (s2 ++ '(' :: (a ++ (s3 ++ r))) := by
          refine Head.append (Head.of_all fun c hc => ?_) (Head.cons.mpr ?_)
          · have hsp := h3 c hc
            rintro (h | rfl | h | rfl)
            · rw [hw.letter_space c h] at hsp; cases hsp
            · rw [(hw.punct '_' (by decide)).2.2] at hsp; cases hsp
            · rw [hw.digit_space c h] at hsp; cases hsp
            · rw [(hw.punct '.' (by decide)).2.2] at hsp; cases hsp
          · rintro (h | h | h | h)
            · rw [hop.2.2.2] at h; cases h
            · exact absurd h (by decide)
            · rw [hop.2.2.1] at h; cases h
            · exact absurd h (by decide)
        have hfun := reads_funcName (ρ := ρ) (n := n0) hg hw h2 hfn (by lens)
        rw [List.dropWhile_append_of_pos h3, List.dropWhile_cons_of_neg (by simp [hop.2.1])] at hfun
        refine Reads.bind hfun ?_
        refine Reads.bind (reads_eat hg) ?_
        refine Reads.bind (ih.2 (r := s3 ++ r) (by lens) h4 (by lens) (by lens)) ?_
        have hws := reads_ws (l := s3 ++ r) (n := n0) (ρ := ρ) hg w (by lens)
        rw [List.dropWhile_append_of_pos h5] at hws
        exact Reads.bind hws (Reads.pure _)
    · rename_i l as r n0 n
      cases n with
      | zero => simp at hn
      | succ n =>
        cases h with
        | @last s t s' a hs ht hs' =>
          simp only [List.append_assoc, List.cons_append, List.nil_append] at hn0 ⊢
          exact hone (by lens) hs ht hs' (.inr rfl) (by lens) hn0 (by rw [if_neg (by decide)]; exact ⟨rfl, rfl⟩)
        | @more s t s' r' a as hs ht hs' hr =>
          simp only [List.append_assoc, List.cons_append, List.nil_append] at hn0 ⊢
          refine hone (by lens) hs ht hs' (.inl rfl) (by lens) hn0 ?_
          rw [if_pos rfl]
          exact ⟨as, rfl, ih.2 (by lens) hr (by lens) (by lens)⟩

end

/-- what may follow an alternative without function -/
def BodyEnd (w : LexWorld) (r : List Char) : Prop :=
  Stop w r ∧ containsRune ['<', '"', '(', '`'] r.head? = false

theorem TermSyn.first {w : LexWorld} {l r : List Char} {t : Term} {ρ ρ1 : List (String × String)}
    (h : TermSyn w l t ρ ρ1) : ∃ c, (l ++ r).head? = some c ∧ c ∈ ['<', '"', '(', '`'] := by
  cases h with
  | nonterminal => exact ⟨_, rfl, by decide⟩
  | literal h => exact ⟨_, h.head, by decide⟩
  | flagged h => exact ⟨_, h.head, by decide⟩
  | any => exact ⟨_, rfl, by decide⟩
  | list => exact ⟨_, rfl, by decide⟩
  | regex => exact ⟨_, rfl, by decide⟩

theorem stop_of_punct {w : LexWorld} (hw : w.OK) {r : List Char} {c : Char} (h : r.head? = some c)
    (hc : c ∈ ['<', '>', '[', ']', '(', ')', '{', '}', '"', '`', '@', '$', ',', '.', '-', '=', ';', '|', '#',
      '?', '*', '\\']) : Stop w r := by
  intro d hd
  rw [h] at hd
  cases hd
  refine ⟨(hw.punct c ?_).2.2, ?_⟩
  · simp only [List.mem_cons, List.not_mem_nil, or_false] at hc ⊢
    rcases hc with h|h|h|h|h|h|h|h|h|h|h|h|h|h|h|h|h|h|h|h|h|h <;> simp [h]
  · rintro rfl
    revert hc
    decide

theorem bodyEnd_of {w : LexWorld} (hw : w.OK) {r : List Char} {c : Char} (h : r.head? = some c)
    (hc : c ∈ ['{', '|', ';']) : BodyEnd w r := by
  refine ⟨stop_of_punct hw h ?_, ?_⟩
  · simp only [List.mem_cons, List.not_mem_nil, or_false] at hc ⊢
    rcases hc with h|h|h <;> simp [h]
  · rw [h]
    simp only [List.mem_cons, List.not_mem_nil, or_false] at hc
    rcases hc with h|h|h <;> rw [h] <;> rfl

theorem Gap.nil {w : LexWorld} : Gap w [] := .spaces (by simp [Spaces])

section
variable {inp : List Char} {ρ ρ1 ρ2 : List (String × String)}
variable (hg : runeError ∉ inp) {w : LexWorld} (hw : w.OK)
include hg hw

theorem reads_comments_nil {r : List Char} {n : Nat} (hr : Stop w r) (hn : r.length < n) :
    Reads inp (comments w inp n) r ρ () r ρ :=
  reads_comments (g := []) hg hw .nil hr hn

omit hg in
theorem TermSyn.stop {l r : List Char} {t : Term} (h : TermSyn w l t ρ ρ1) : Stop w (l ++ r) := by
  obtain ⟨c, hc, hm⟩ := h.first (r := r)
  refine stop_of_punct hw hc ?_
  simp only [List.mem_cons, List.not_mem_nil, or_false] at hm ⊢
  rcases hm with h|h|h|h <;> simp [h]

omit hw in
omit hg in
theorem TermsSyn.first {l r : List Char} {ts : List Term} (h : TermsSyn w l ts ρ ρ1) :
    ∃ l1 l2 t ts' ρ', TermSyn w l1 t ρ ρ' ∧ l = l1 ++ l2 ∧ ts = t :: ts' := by
  cases h with
  | one h hg => exact ⟨_, _, _, _, _, h, rfl, rfl⟩
  | more h hg _ => exact ⟨_, _, _, _, _, h, rfl, rfl⟩

omit hg in
theorem TermsSyn.stop {l r : List Char} {ts : List Term} (h : TermsSyn w l ts ρ ρ1) : Stop w (l ++ r) := by
  obtain ⟨l1, l2, t, _, _, h1, rfl, _⟩ := h.first (r := r)
  rw [List.append_assoc]
  exact h1.stop hw

omit hw in
omit hg in
theorem TermSyn.ne_nil {l : List Char} {t : Term} (h : TermSyn w l t ρ ρ1) : 0 < l.length := by
  obtain ⟨c, hc, _⟩ := h.first (r := [])
  rw [List.append_nil] at hc
  cases l with
  | nil => cases hc
  | cons => simp

theorem reads_ruleBodyLoop_nil {r : List Char} {n0 n : Nat} (hr : BodyEnd w r)
    (hn0 : r.length < n0) (hn : 0 < n) : Reads inp (ruleBodyLoop w inp n0 n) r ρ [] r ρ := by
  cases n with
  | zero => simp at hn
  | succ n =>
    unfold ruleBodyLoop
    refine Reads.bind (reads_comments_nil hg hw hr.1 hn0) ?_
    refine Reads.bind (reads_peek hg) ?_
    rw [if_neg (by rw [hr.2]; simp)]
    exact Reads.pure _

theorem reads_ruleBodyLoop {l r : List Char} {ts : List Term} {n0 n : Nat} (h : TermsSyn w l ts ρ ρ1)
    (hr : BodyEnd w r) (hn0 : (l ++ r).length < n0) (hn : l.length < n) :
    Reads inp (ruleBodyLoop w inp n0 n) (l ++ r) ρ ts r ρ1 := by
  have hstep : ∀ {n : Nat} {l1 l2 : List Char} {t : Term} {ρ ρ' : List (String × String)},
      TermSyn w l1 t ρ ρ' → (l1 ++ l2).length < n0 → ∀ {ts' r2 ρ2},
      Reads inp (comments w inp n0 >>= fun _ => ruleBodyLoop w inp n0 n) l2 ρ' ts' r2 ρ2 →
      Reads inp (ruleBodyLoop w inp n0 (n + 1)) (l1 ++ l2) ρ (t :: ts') r2 ρ2 := by
    intro n l1 l2 t ρ ρ' ht hlen ts' r2 ρ2 hk
    unfold ruleBodyLoop
    refine Reads.bind (reads_comments_nil hg hw (ht.stop hw) hlen) ?_
    refine Reads.bind (reads_peek hg) ?_
    rw [if_pos]
    · refine Reads.bind (reads_term hg hw ht hlen) ?_
      intro s hs
      obtain ⟨s', e, h'⟩ := hk s hs
      rw [P.bind_eq_ok] at e
      obtain ⟨u, s1, e1, e2⟩ := e
      refine ⟨s', ?_, h'⟩
      rw [P.bind_eq_ok]
      refine ⟨u, s1, e1, ?_⟩
      rw [P.bind_eq_ok]
      exact ⟨ts', s', e2, rfl⟩
    · obtain ⟨c, hc, hm⟩ := ht.first (r := l2)
      rw [hc]
      simpa [containsRune] using hm
  induction h generalizing n with
  | @one l g t ρ ρ' ht hgap =>
    have := ht.ne_nil
    rcases n with _ | _ | n
    · simp at hn
    · lens
    rw [List.append_assoc] at hn0 ⊢
    exact hstep ht hn0 (Reads.bind (reads_comments hg hw hgap hr.1 (by lens))
      (reads_ruleBodyLoop_nil hg hw hr (by lens) (by omega)))
  | @more l g r' t ts ρ ρ1 ρ2 ht hgap hts ih =>
    have := ht.ne_nil
    rcases n with _ | n
    · simp at hn
    rw [List.append_assoc, List.append_assoc] at hn0 ⊢
    exact hstep ht hn0 (Reads.bind (reads_comments hg hw hgap (hts.stop hw) (by lens))
      (ih (by lens) (by lens)))

theorem reads_ruleBody_terms {α : Type} {l r r2 : List Char} {ts : List Term} {n : Nat} {a : α}
    {k : List Term → P α} (h : TermsSyn w l ts ρ ρ1) (hr : BodyEnd w r) (hn : (l ++ r).length < n)
    (hk : Reads inp (k ts) r ρ1 a r2 ρ2) :
    Reads inp (do
      let t ← term w inp n
      comments w inp n
      let ts ← ruleBodyLoop w inp n n
      k (t :: ts)) (l ++ r) ρ a r2 ρ2 := by
  cases h with
  | @one l g t _ _ ht hgap =>
    rw [List.append_assoc] at hn ⊢
    have := ht.ne_nil
    refine Reads.bind (reads_term hg hw ht hn) ?_
    refine Reads.bind (reads_comments hg hw hgap hr.1 (by lens)) ?_
    exact Reads.bind (reads_ruleBodyLoop_nil hg hw hr (by lens) (by omega)) hk
  | @more l g r' t ts ρ ρ1 ρ2 ht hgap hts =>
    rw [List.append_assoc, List.append_assoc] at hn ⊢
    have := ht.ne_nil
    refine Reads.bind (reads_term hg hw ht hn) ?_
    refine Reads.bind (reads_comments hg hw hgap (hts.stop hw) (by lens)) ?_
    exact Reads.bind (reads_ruleBodyLoop hg hw hts hr (by lens) (by lens)) hk

theorem reads_ruleBody {l r : List Char} {b : RuleBody} {n : Nat} {c : Char} (h : BodySyn w l b ρ ρ1)
    (hc : r.head? = some c) (hm : c ∈ ['|', ';']) (hn : (l ++ r).length < n) :
    Reads inp (ruleBody w inp n) (l ++ r) ρ b r ρ1 := by
  have hm' : c ∈ ['{', '|', ';'] := by
    simp only [List.mem_cons, List.not_mem_nil, or_false] at hm ⊢
    exact .inr hm
  have hend := bodyEnd_of hw hc hm'
  unfold ruleBody
  cases h with
  | plain hts =>
    refine reads_ruleBody_terms (k := fun ts => ruleBodyFn w inp n >>= fun f => (Pure.pure (RuleBody.mk ts f) : P RuleBody)) hg hw hts hend hn ?_
    refine Reads.bind (a := none) (l1 := r) (ρ1 := ρ1) ?_ (Reads.pure _)
    unfold ruleBodyFn
    refine Reads.bind (reads_peek hg) ?_
    rw [hc, if_neg]
    · exact Reads.pure _
    · simp only [List.mem_cons, List.not_mem_nil, or_false] at hm
      rcases hm with rfl | rfl <;> decide
  | @fn l e g ts f _ _ hts hf hgap =>
    simp only [List.append_assoc, List.cons_append] at hn ⊢
    refine reads_ruleBody_terms (k := fun ts => ruleBodyFn w inp n >>= fun f => (Pure.pure (RuleBody.mk ts f) : P RuleBody)) hg hw hts
      (bodyEnd_of hw rfl (by decide)) hn ?_
    refine Reads.bind (a := some f) (l1 := r) (ρ1 := ρ1) ?_ (Reads.pure _)
    unfold ruleBodyFn
    refine Reads.bind (reads_peek hg) ?_
    rw [List.head?_cons, if_pos rfl]
    refine Reads.bind (reads_next hg) ?_
    rw [List.tail_cons]
    have hsem := (reads_fmr_args (ρ := ρ1) hg hw e.length).1 (r := '}' :: (g ++ r)) (n0 := n) (n := n)
      (Nat.le_refl _) hf (by lens) (by lens)
    rw [List.dropWhile_cons_of_neg (by simp [(punct_not hw (c := '}') (by decide)).2.1])] at hsem
    refine Reads.bind hsem ?_
    refine Reads.bind (reads_eat hg) ?_
    exact Reads.bind (reads_comments hg hw hgap hend.1 (by lens)) (Reads.pure _)

omit hg in
theorem BodySyn.stop {l r : List Char} {b : RuleBody} (h : BodySyn w l b ρ ρ1) : Stop w (l ++ r) := by
  cases h with
  | plain h => exact h.stop hw
  | fn h => rw [List.append_assoc]; exact h.stop hw

omit hg in
theorem BodiesSyn.stop {l r : List Char} {bs : List RuleBody} (h : BodiesSyn w l bs ρ ρ1) :
    Stop w (l ++ r) := by
  cases h with
  | one h => exact h.stop hw
  | more h => rw [List.append_assoc]; exact h.stop hw

/-- the bodies with their hashes -/
def keyed (w : LexWorld) : List RuleBody → Option (List (Nat × RuleBody))
  | [] => some []
  | b :: bs =>
    match w.hash b, keyed w bs with
    | some h, some l => some ((h, b) :: l)
    | _, _ => none

/-- a Go map built by assignments in order -/
def mapSets {κ ν : Type} [DecidableEq κ] (m : List (κ × ν)) (l : List (κ × ν)) : List (κ × ν) :=
  l.foldl (fun m e => mapSet m e.1 e.2) m

omit hg hw in
theorem keyed_cons {b : RuleBody} {bs : List RuleBody} {l : List (Nat × RuleBody)}
    (h : keyed w (b :: bs) = some l) : ∃ k l', w.hash b = some k ∧ keyed w bs = some l' ∧ l = (k, b) :: l' := by
  unfold keyed at h
  split at h
  · rename_i k l' h1 h2
    exact ⟨k, l', h1, h2, by simpa using h.symm⟩
  · cases h

omit hw in
theorem reads_ruleBodiesLoop_nil {m : List (Nat × RuleBody)} {r : List Char} {n0 n : Nat}
    (hc : r.head? ≠ some '|') (hn : 0 < n) : Reads inp (ruleBodiesLoop w inp n0 n m) r ρ m r ρ := by
  cases n with
  | zero => simp at hn
  | succ n =>
    unfold ruleBodiesLoop
    refine Reads.bind (reads_peek hg) ?_
    rw [if_pos hc]
    exact Reads.pure _

theorem reads_ruleBodies {l r : List Char} {bs : List RuleBody} {kb : List (Nat × RuleBody)} {n : Nat}
    (h : BodiesSyn w l bs ρ ρ1) (hk : keyed w bs = some kb) (hn : (l ++ ';' :: r).length < n) :
    Reads inp (ruleBodies w inp n) (l ++ ';' :: r) ρ (mapSets [] kb) (';' :: r) ρ1 := by
  -- a body and the rest of the loop
  have key : ∀ (k : Nat) {l : List Char} {bs : List RuleBody} {kb : List (Nat × RuleBody)} {ρ ρ1 : List (String × String)}
      {m : List (Nat × RuleBody)}, BodiesSyn w l bs ρ ρ1 → keyed w bs = some kb → l.length ≤ k →
      (l ++ ';' :: r).length < n →
      Reads inp (do
        let rb ← ruleBody w inp n
        let h ← hashBody w rb
        ruleBodiesLoop w inp n (k + 1) (mapSet m h rb)) (l ++ ';' :: r) ρ (mapSets m kb) (';' :: r) ρ1 := by
    intro k
    induction k with
    | zero =>
      intro l bs kb ρ ρ1 m h _ hl
      exfalso
      have : 0 < l.length := by
        cases h with
        | one h =>
          cases h with
          | plain h => obtain ⟨_, _, _, _, _, h', rfl, _⟩ := h.first (r := []); have := h'.ne_nil; lens
          | fn h => obtain ⟨_, _, _, _, _, h', rfl, _⟩ := h.first (r := []); have := h'.ne_nil; lens
        | more h => lens
      omega
    | succ k ih =>
      intro l bs kb ρ ρ1 m h hk hl hn
      cases h with
      | @one l b ρ ρ' hb =>
        obtain ⟨k1, l', h1, h2, rfl⟩ := keyed_cons hk
        cases h2
        refine Reads.bind (reads_ruleBody hg hw hb rfl (by decide) hn) ?_
        refine Reads.bind (a := k1) (l1 := ';' :: r) (ρ1 := ρ1) ?_ ?_
        · unfold hashBody; rw [h1]; exact Reads.pure _
        · exact reads_ruleBodiesLoop_nil hg (by simp) (by omega)
      | @more l g r' b bs ρ ρ1 ρ2 hb hgap hbs =>
        obtain ⟨k1, l', h1, h2, rfl⟩ := keyed_cons hk
        simp only [List.append_assoc, List.cons_append] at hn ⊢
        refine Reads.bind (reads_ruleBody hg hw hb rfl (by decide) hn) ?_
        refine Reads.bind (a := k1) (l1 := '|' :: (g ++ (r' ++ ';' :: r))) (ρ1 := ρ1) ?_ ?_
        · unfold hashBody; rw [h1]; exact Reads.pure _
        · unfold ruleBodiesLoop
          refine Reads.bind (reads_peek hg) ?_
          rw [List.head?_cons, if_neg (by simp)]
          refine Reads.bind (reads_next hg) ?_
          rw [List.tail_cons]
          refine Reads.bind (reads_comments hg hw hgap (hbs.stop hw) (by lens)) ?_
          exact ih hbs h2 (by lens) (by lens)
  unfold ruleBodies
  have := key (n - 1) (m := []) h hk (by lens) hn
  have e : n - 1 + 1 = n := by lens
  rw [e] at this
  exact this

/-- the rule of a definition -/
def Def.rule (d : Def) (kb : List (Nat × RuleBody)) : Rule := ⟨d.name, mapSets [] kb⟩

theorem reads_rule {l r : List Char} {d : Def} {kb : List (Nat × RuleBody)} {n : Nat}
    (h : DefSyn w l d ρ ρ1) (hk : keyed w d.bodies = some kb) (hn : (l ++ r).length < n) :
    Reads inp (rule w inp n (l ++ r).head?) (l ++ r) ρ (d.rule kb) r ρ1 := by
  have hbody : ∀ {g1 g2 l' : List Char} {bs : List RuleBody} {ρ ρ' : List (String × String)} {name : String},
      Gap w g1 → Gap w g2 → BodiesSyn w l' bs ρ ρ' → keyed w bs = some kb →
      (g1 ++ '=' :: (g2 ++ (l' ++ ';' :: r))).length < n →
      Reads inp (do
        comments w inp n
        eat inp '='
        comments w inp n
        let body ← ruleBodies w inp n
        eat inp ';'
        pure (Rule.mk name body)) (g1 ++ '=' :: (g2 ++ (l' ++ ';' :: r))) ρ
        (Rule.mk name (mapSets [] kb)) r ρ' := by
    intro g1 g2 l' bs ρ ρ' name h1 h2 hbs hk hn
    refine Reads.bind (reads_comments hg hw h1 (stop_of_punct hw rfl (by decide)) hn) ?_
    refine Reads.bind (reads_eat hg) ?_
    refine Reads.bind (reads_comments hg hw h2 (hbs.stop hw) (by lens)) ?_
    refine Reads.bind (reads_ruleBodies hg hw hbs hk (by lens)) ?_
    exact Reads.bind (reads_eat hg) (Reads.pure _)
  unfold rule ruleName
  cases h with
  | rule hx h1 h2 hbs =>
    simp only [List.append_assoc, List.cons_append, List.nil_append] at hn ⊢
    rw [List.head?_cons, if_pos rfl]
    exact Reads.bind (reads_token hg hx (punct_not hw (by decide)).1 (by lens)) (hbody h1 h2 hbs hk (by lens))
  | frame hx h1 h2 hbs =>
    simp only [List.append_assoc, List.cons_append, List.nil_append] at hn ⊢
    rw [List.head?_cons, if_neg (by decide), if_pos rfl]
    exact Reads.bind (reads_token hg hx (punct_not hw (by decide)).1 (by lens)) (hbody h1 h2 hbs hk (by lens))

/-- the effect of definitions on the rule maps -/
def addDefs (g : List (String × Rule) × List (String × Rule)) :
    List (Def × List (Nat × RuleBody)) → List (String × Rule) × List (String × Rule)
  | [] => g
  | (d, kb) :: l => addDefs (if d.frame then (g.1, addRule g.2 (d.rule kb)) else (addRule g.1 (d.rule kb), g.2)) l

theorem reads_rulesLoop {l : List Char} {ds : List Def} {kds : List (Def × List (Nat × RuleBody))} {n0 n : Nat}
    {m : List (String × Rule) × List (String × Rule)}
    (h : DefsSyn w l ds ρ ρ1) (hk : List.Forall₂ (fun d e => e.1 = d ∧ keyed w d.bodies = some e.2) ds kds)
    (hn0 : l.length < n0) (hn : l.length < n) :
    Reads inp (rulesLoop w inp n0 n m) l ρ (addDefs m kds) [] ρ1 := by
  induction h generalizing n m kds with
  | @nil g ρ hgap =>
    cases hk
    cases n with
    | zero => simp at hn
    | succ n =>
      unfold rulesLoop
      have := reads_comments (r := []) (ρ := ρ) (n := n0) hg hw hgap (fun c hc => by cases hc) (by lens)
      rw [List.append_nil] at this
      refine Reads.bind this ?_
      refine Reads.bind (reads_peek hg) ?_
      rw [if_neg (by simp [containsRune])]
      exact Reads.pure _
  | @cons g l r d ds ρ ρ1 ρ2 hgap hd _ ih =>
    cases hk with
    | @cons _ e _ kds hk1 hk2 =>
    obtain ⟨e1, kb⟩ := e
    obtain ⟨rfl, hkb⟩ := hk1
    cases n with
    | zero => simp at hn
    | succ n =>
      have hfst : (l ++ r).head? = if e1.frame then some '[' else some '<' := by
        cases hd <;> rfl
      have hlen : 0 < l.length := by cases hd <;> lens
      unfold rulesLoop
      have hstop : Stop w (l ++ r) := by
        cases hd with
        | rule => exact stop_of_punct hw rfl (by decide)
        | frame => exact stop_of_punct hw rfl (by decide)
      refine Reads.bind (reads_comments hg hw hgap hstop hn0) ?_
      refine Reads.bind (reads_peek hg) ?_
      rw [if_pos (by rw [hfst]; split <;> rfl)]
      refine Reads.bind (reads_rule hg hw hd hkb (by lens)) ?_
      have := ih (n := n) (m := if e1.frame then (m.1, addRule m.2 (e1.rule kb)) else (addRule m.1 (e1.rule kb), m.2))
        hk2 (by lens) (by lens)
      rw [hfst]
      cases hf : e1.frame with
      | true =>
        simp only [hf, if_true] at this ⊢
        rw [addDefs, hf]
        exact this
      | false =>
        simp only [hf, Bool.false_eq_true, if_false] at this ⊢
        rw [if_neg (by decide), addDefs, hf]
        exact this

end

end Fmr
