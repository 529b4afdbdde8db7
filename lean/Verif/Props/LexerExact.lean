import Verif.Props.Lexer
import Verif.Proofs.LexerInv

/-!
# Which texts the parser accepts (C56), and literals (C29)
-/

namespace Fmr

/-! ## C56: the parser accepts exactly the documented syntax -/

/-- every alternative can be hashed -/
def HashedBody (hash : RuleBody → Option Nat) (ds : List Def) : Prop := ∀ d ∈ ds, ∀ b ∈ d.bodies, hash b ≠ none

theorem keyed_hashed {w : LexWorld} {bs : List RuleBody} {kb : List (Nat × RuleBody)} (h : keyed w bs = some kb) :
    ∀ b ∈ bs, w.hash b ≠ none := by
  induction bs generalizing kb with
  | nil => simp
  | cons b bs ih =>
    obtain ⟨k, l, h1, h2, -⟩ := keyed_cons h
    intro b' hb'
    rcases List.mem_cons.mp hb' with rfl | hb'
    · rw [h1]; simp
    · exact ih h2 b' hb'

theorem forall₂_hashed {w : LexWorld} {ds : List Def} {kds : List (Def × List (Nat × RuleBody))}
    (h : List.Forall₂ (fun d e => e.1 = d ∧ keyed w d.bodies = some e.2) ds kds) : HashedBody w.hash ds := by
  induction h with
  | nil => intro d hd; cases hd
  | cons h1 _ ih =>
    intro d hd
    rcases List.mem_cons.mp hd with rfl | hd
    · exact keyed_hashed h1.2
    · exact ih d hd

/-- C56: a text that the parser accepts is in the documented syntax, and the grammar is what it denotes: the
table of regexps, and, if the hash does not collide, the rules and frames. For texts without U+FFFD. -/
theorem C56_accepted {w : LexWorld} (hw : w.OK) {inp : List Char} (hg : runeError ∉ inp)
    {name : String} {fuel : Nat} {g : Grammar} {s : PSt} (h : grammarRules w inp fuel name pst0 = .ok (g, s)) :
    ∃ ds, DefsSyn w inp ds [] g.regexps ∧ HashedBody w.hash ds ∧ g.name = name ∧
      (NoCollision w.hash ds → HoldsDefs w.hash ds false g.rules ∧ HoldsDefs w.hash ds true g.frames) := by
  unfold grammarRules at h
  obtain ⟨m, s1, e1, h⟩ := P.bind_eq_ok.mp h
  obtain ⟨r, s2, e2, h⟩ := P.bind_eq_ok.mp h
  obtain ⟨t, l', ρ, hl, hs1, ds, kds, hds, hk, rfl⟩ := inv_rulesLoop hg hw pst0 m s1 ⟨rfl, rfl⟩ e1
  obtain ⟨t2, l2, ρ2, hl2, hs2, rfl, hr⟩ := inv_next hg s1 r s2 hs1 e2
  rcases hr with ⟨rfl, rfl, rfl⟩ | ⟨c, rfl, -⟩
  · rw [List.append_nil] at hl2
    subst hl2
    rw [List.append_nil] at hl
    subst hl
    have h : Out.ok (Grammar.mk name (addDefs ([], []) kds).1 (addDefs ([], []) kds).2 s2.regexps false, s2) =
      Out.ok (g, s) := h
    cases h
    simp only [hs2.2]
    refine ⟨ds, hds, forall₂_hashed hk, trivial, fun hc => ?_⟩
    exact holds_addDefs (ds0 := []) (m := ([], [])) hk hc HoldsDefs.nil HoldsDefs.nil
  · have h : Out.err = Out.ok (g, s) := h
    cases h

/-- C56: such a text is accepted iff it is a text of definitions that can all be hashed; and then every
amount of fuel above its length is enough. -/
theorem C56_accepts_iff {w : LexWorld} (hw : w.OK) {inp : List Char} (hg : runeError ∉ inp)
    {name : String} {fuel : Nat} (hfuel : inp.length < fuel) :
    (∃ g s, grammarRules w inp fuel name pst0 = .ok (g, s)) ↔
      ∃ ds ρ, DefsSyn w inp ds [] ρ ∧ HashedBody w.hash ds := by
  constructor
  · rintro ⟨g, s, h⟩
    obtain ⟨ds, h1, h2, -⟩ := C56_accepted hw hg h
    exact ⟨ds, _, h1, h2⟩
  · rintro ⟨ds, ρ, h, hh⟩
    obtain ⟨kds, hk⟩ := keyed_all hh
    have h1 := reads_rulesLoop hg hw (n0 := fuel) (n := fuel) (m := ([], [])) h hk hfuel hfuel
    obtain ⟨s, e⟩ := grammarRules_run (name := name) hg h1
    exact ⟨_, s, e⟩

example : ∃ inp, runeError ∉ inp ∧ inp ≠ [] ∧
    ∃ g s, grammarRules exampleLex inp 100 "g" pst0 = .ok (g, s) := by
  refine ⟨"<a>=\"x\";".toList, by decide, by decide, ?_⟩
  · have : (match grammarRules exampleLex "<a>=\"x\";".toList 100 "g" pst0 with
        | .ok _ => true
        | _ => false) = true := by decide +kernel
    split at this
    · rename_i x e
      exact ⟨x.1, x.2, e⟩
    · cases this

/-! ## C29: literals -/

/-- the text is a literal without flags whose value is `v` -/
def LiteralReads (w : LexWorld) (text v : List Char) : Prop :=
  ∃ fuel s, terminal w text fuel pst0 = .ok (("", String.ofList v), s) ∧ text.length ≤ s.pos

/-- the text is a string argument whose value is `v` -/
def StringReads (w : LexWorld) (text v : List Char) : Prop :=
  ∃ fuel s, strArg w text fuel pst0 = .ok (.mk "string" (.str (String.ofList v)), s) ∧ text.length ≤ s.pos

/-- C29: every string can be written as a literal. False of the code, see `C29_false`. -/
def C29_statement : Prop := ∀ w : LexWorld, w.OK → ∀ v : List Char, ∃ text, LiteralReads w text v

theorem LitText.value_good {t v : List Char} (h : LitText t v) (hg : runeError ∉ t) : runeError ∉ v := by
  induction h with
  | nil => simp
  | plain _ _ _ ih =>
    simp only [List.mem_cons, not_or] at hg ⊢
    exact ⟨hg.1, ih hg.2⟩
  | esc hm _ ih =>
    simp only [List.mem_cons, not_or] at hg ⊢
    refine ⟨?_, ih hg.2.2⟩
    rintro rfl
    simp only [List.mem_cons, Prod.mk.injEq, List.not_mem_nil, or_false] at hm
    rcases hm with ⟨_, h⟩ | ⟨_, h⟩ | ⟨_, h⟩ | ⟨_, h⟩ | ⟨_, h⟩ <;> exact absurd h (by decide)

/-- what has been read contains no U+FFFD -/
private def Clean (inp : List Char) (s : PSt) : Prop := runeError ∉ inp.take s.pos

private def Keeps (inp : List Char) {α : Type} (x : P α) : Prop :=
  ∀ s a s', Clean inp s → x s = .ok (a, s') → Clean inp s'

section
variable {inp : List Char} {α β : Type}

private theorem Keeps.bind {x : P α} {f : α → P β} (h1 : Keeps inp x) (h2 : ∀ a, Keeps inp (f a)) : Keeps inp (x >>= f) := by
  intro s b s' hs e
  obtain ⟨a, s1, e1, e2⟩ := P.bind_eq_ok.mp e
  exact h2 a s1 b s' (h1 s a s1 hs e1) e2

private theorem Keeps.pure (a : α) : Keeps inp (pure a : P α) := by
  intro s b s' hs e
  cases e
  exact hs

private theorem Keeps.fail : Keeps inp (P.fail : P α) := by
  intro s b s' hs e
  cases e

private theorem keeps_next : Keeps inp (next inp) := by
  intro s r s' hs e
  unfold next at e
  split at e
  · cases e; exact hs
  · rename_i c hc
    split at e
    · cases e; exact hs
    · rename_i hne
      cases e
      unfold Clean at hs ⊢
      simp only
      rw [List.take_add_one, hc]
      simp only [Option.toList_some, List.mem_append, List.mem_singleton, not_or]
      exact ⟨hs, fun e => hne e.symm⟩

private theorem keeps_backup : Keeps inp backup := by
  intro s r s' hs e
  cases e
  unfold Clean at hs ⊢
  intro h
  refine hs ?_
  rw [show inp.take (s.pos - s.width) = (inp.take s.pos).take (s.pos - s.width) by rw [List.take_take]; congr 1; omega] at h
  exact List.mem_of_mem_take h

private theorem keeps_eat {c : Char} : Keeps inp (eat inp c) := by
  refine keeps_next.bind fun r => ?_
  split
  · exact Keeps.fail
  · exact Keeps.pure _

private theorem keeps_ws {w : LexWorld} {n : Nat} : Keeps inp (ws w inp n) := by
  induction n with
  | zero => intro s b s' hs e; cases e
  | succ n ih =>
    refine keeps_next.bind fun r => ?_
    split
    · exact ih
    · exact keeps_backup

private theorem keeps_textLoop {w : LexWorld} {n : Nat} {first : Bool} : Keeps inp (textLoop w inp n first) := by
  induction n generalizing first with
  | zero => intro s b s' hs e; cases e
  | succ n ih =>
    refine keeps_next.bind fun r => ?_
    split
    · split
      · exact ih.bind fun _ => Keeps.pure _
      · exact keeps_backup.bind fun _ => Keeps.pure _
    · exact keeps_backup.bind fun _ => Keeps.pure _

private theorem keeps_terminalText {n : Nat} {esc : Bool} : Keeps inp (terminalText inp n esc) := by
  induction n generalizing esc with
  | zero => intro s b s' hs e; cases e
  | succ n ih =>
    refine keeps_next.bind fun r => ?_
    split
    · exact Keeps.fail
    · split
      · exact keeps_backup.bind fun _ => Keeps.pure _
      · split
        · split
          · exact Keeps.fail
          · exact ih.bind fun _ => Keeps.pure _
        · split
          · exact ih
          · exact ih.bind fun _ => Keeps.pure _

private theorem keeps_terminal {w : LexWorld} {n : Nat} : Keeps inp (terminal w inp n) := by
  refine keeps_eat.bind fun _ => keeps_ws.bind fun _ => ?_
  refine Keeps.bind ?_ fun _ => keeps_terminalText.bind fun _ => keeps_eat.bind fun _ => Keeps.pure _
  refine Keeps.bind (keeps_next.bind fun _ => keeps_backup.bind fun _ => Keeps.pure _) fun r => ?_
  split
  · refine keeps_next.bind fun _ => keeps_ws.bind fun _ => keeps_eat.bind fun _ => keeps_ws.bind fun _ => ?_
    refine Keeps.bind ?_ fun _ => keeps_eat.bind fun _ => Keeps.pure _
    refine keeps_textLoop.bind fun _ => ?_
    split
    · exact Keeps.fail
    · exact Keeps.pure _
  · exact Keeps.pure _

end

/-- a literal that is the whole text contains no U+FFFD -/
theorem terminal_whole_good {w : LexWorld} {text : List Char} {n : Nat} {a : String × String} {s : PSt}
    (h : terminal w text n pst0 = .ok (a, s)) (hs : text.length ≤ s.pos) : runeError ∉ text := by
  have := keeps_terminal pst0 a s (by simp [Clean, pst0]) h
  unfold Clean at this
  rwa [List.take_of_length_le hs] at this

/-- The runes of the value of a literal are read from the text, or come from an escape. -/
theorem terminalText_good {inp : List Char} (n : Nat) : ∀ (esc : Bool) (s s' : PSt) (v : List Char),
    terminalText inp n esc s = .ok (v, s') → runeError ∉ v := by
  induction n with
  | zero => intro esc s s' v h; cases h
  | succ n ih =>
    intro esc s s' v h
    unfold terminalText at h
    obtain ⟨r, s1, e1, h⟩ := P.bind_eq_ok.mp h
    cases r with
    | none => cases h
    | some c =>
      have hc : c ≠ runeError := by
        unfold next at e1
        split at e1
        · cases e1
        · split at e1
          · cases e1
          · cases e1; assumption
      simp only at h
      split at h
      · obtain ⟨_, s2, _, h⟩ := P.bind_eq_ok.mp h
        cases h
        simp
      · split at h
        · cases hu : unescape c with
          | none => rw [hu] at h; cases h
          | some x =>
            rw [hu] at h
            obtain ⟨v', s2, e2, h⟩ := P.bind_eq_ok.mp h
            cases h
            simp only [List.mem_cons, not_or]
            refine ⟨?_, ih _ _ _ _ e2⟩
            unfold unescape at hu
            split at hu <;> first | (cases hu; decide) | cases hu
        · split at h
          · exact ih _ _ _ _ h
          · obtain ⟨v', s2, e2, h⟩ := P.bind_eq_ok.mp h
            cases h
            simp only [List.mem_cons, not_or]
            exact ⟨fun e => hc e.symm, ih _ _ _ _ e2⟩

/-- C29: U+FFFD is in no literal, whatever the text. -/
theorem C29_no_unknown {w : LexWorld} {text v : List Char} {f : String} {fuel : Nat} {s s' : PSt}
    (h : terminal w text fuel s = .ok ((f, String.ofList v), s')) : runeError ∉ v := by
  unfold terminal at h
  obtain ⟨_, s1, e1, h⟩ := P.bind_eq_ok.mp h
  obtain ⟨_, s2, e2, h⟩ := P.bind_eq_ok.mp h
  obtain ⟨f', s3, e3, h⟩ := P.bind_eq_ok.mp h
  obtain ⟨v', s4, e4, h⟩ := P.bind_eq_ok.mp h
  obtain ⟨_, s5, e5, h⟩ := P.bind_eq_ok.mp h
  have hv : v = v' := by
    have : String.ofList v' = String.ofList v := by
      have := congrArg (fun o : Out ((String × String) × PSt) => match o with | .ok x => x.1.2 | _ => "") h
      exact this
    have := congrArg String.toList this
    simpa using this.symm
  subst hv
  exact terminalText_good _ _ _ _ _ e4

theorem Reads.whole {inp : List Char} {α : Type} {x : P α} {a : α} (h : Reads inp x inp [] a [] []) :
    ∃ s, x pst0 = .ok (a, s) ∧ inp.length ≤ s.pos := by
  obtain ⟨s, e, hs⟩ := h pst0 ⟨rfl, rfl⟩
  exact ⟨s, e, List.drop_eq_nil_iff.mp hs.1⟩

/-- C29 in the exact form: the strings that can be written as a literal (without flags) are those without
U+FFFD that do not start with white space other than newline and tab. -/
theorem C29_exact {w : LexWorld} (hw : w.OK) (v : List Char) : (∃ text, LiteralReads w text v) ↔ LitOK w v := by
  constructor
  · rintro ⟨text, fuel, s, h, hs⟩
    have hg := terminal_whole_good h hs
    obtain ⟨t, l', ρ', hl, hs', rfl, hsyn⟩ := inv_terminal hg hw pst0 _ s ⟨rfl, rfl⟩ h
    have key : ∀ {t : List Char} {f v' : String}, LitSyn w t f v' → f = "" → v' = String.ofList v → runeError ∉ t → LitOK w v := by
      intro t f v' hsyn hf hv hgt
      cases hsyn with
      | @plain s0 t0 v0 h1 h2 h3 =>
        have : v0 = v := by
          have := congrArg String.toList hv
          simpa using this
        subst this
        simp only [List.mem_cons, List.mem_append, not_or] at hgt
        refine ⟨h2.value_good hgt.2.2.1, fun c hc hsp => ?_⟩
        cases h2 with
        | nil => cases hc
        | plain _ _ _ =>
          cases hc
          have := (h3 c rfl).1
          rw [this] at hsp; cases hsp
        | @esc c0 x t v hm _ =>
          cases hc
          simp only [List.mem_cons, Prod.mk.injEq, List.not_mem_nil, or_false] at hm
          rcases hm with ⟨_, rfl⟩ | ⟨_, rfl⟩ | ⟨_, rfl⟩ | ⟨_, rfl⟩ | ⟨_, rfl⟩
          · rw [(hw.punct '\\' (by decide)).2.2] at hsp; cases hsp
          · exact .inl rfl
          · exact .inr rfl
          · rw [(hw.punct '"' (by decide)).2.2] at hsp; cases hsp
          · rw [(hw.punct '(' (by decide)).2.2] at hsp; cases hsp
      | @flags s0 s1 s2 f0 t0 v0 h1 h2 h3 h4 h5 =>
        exfalso
        have : f0 = [] := by
          have := congrArg String.toList hf
          simpa using this
        subst this
        cases h4
    refine key hsyn rfl rfl ?_
    have hl : text = t ++ l' := hl
    rw [hl] at hg
    simp only [List.mem_append, not_or] at hg
    exact hg.1
  · intro h
    obtain ⟨l, hg, hsyn⟩ := exists_literal hw h
    have := reads_terminal (r := []) (n := l.length + 1) (ρ := []) hg hw hsyn (by simp)
    rw [List.append_nil] at this
    obtain ⟨s, e, hs⟩ := this.whole
    exact ⟨l, _, s, e, hs⟩

/-- C29 for literals: everything that starts with no white space, and has no U+FFFD, can be written. Missing
for the full statement: it is false, see `C29_exact`. -/
theorem C29_partial {w : LexWorld} (hw : w.OK) {v : List Char} (hv : runeError ∉ v)
    (hs : ∀ c, v.head? = some c → w.isSpace c = false) : ∃ text, LiteralReads w text v :=
  (C29_exact hw v).mpr ⟨hv, fun c hc h => by rw [hs c hc] at h; cases h⟩

/-- C29 for string arguments, in the exact form: flags in front of the text, which a string argument ignores,
protect leading white space. -/
theorem C29_arguments {w : LexWorld} (hw : w.OK) (v : List Char) : (∃ text, StringReads w text v) ↔ runeError ∉ v := by
  constructor
  · rintro ⟨text, fuel, s, h, hs⟩
    unfold strArg at h
    obtain ⟨⟨f, v'⟩, s1, e1, h⟩ := P.bind_eq_ok.mp h
    have hv : v' = String.ofList v := by
      have := congrArg (fun o : Out (Arg × PSt) => match o with | .ok (.mk _ (.str x), _) => x | _ => "") h
      exact this
    subst hv
    exact C29_no_unknown e1
  · intro h
    have hx : Ident w ['x'] := .mk (.inl (hw.letters 'x' (by decide) (by decide))) (by simp)
    obtain ⟨l, hg, hsyn⟩ := exists_flagged hw hx h
    have := reads_terminal (r := []) (n := l.length + 1) (ρ := []) hg hw hsyn (by simp)
    rw [List.append_nil] at this
    have h2 : Reads l (strArg w l (l.length + 1)) l [] (.mk "string" (.str (String.ofList v))) [] [] :=
      Reads.bind this (Reads.pure _)
    obtain ⟨s, e, hs⟩ := h2.whole
    exact ⟨l, _, s, e, hs⟩

/-- C29 is false: a leading space cannot be written. -/
theorem C29_false : ¬ C29_statement := by
  intro h
  have := (C29_exact asciiLex_ok [' ']).mp (h asciiLex asciiLex_ok [' '])
  exact absurd (this.2 ' ' rfl (by decide)) (by decide)

/-- escapes at work -/
example : LitOK asciiLex "(a \"b\" \\ \n\t".toList := by
  refine ⟨by decide, fun c hc h => ?_⟩
  cases hc
  exact absurd h (by decide)

example : terminal asciiLex "\"\\(a \\\"b\\\" \\\\ \\n\"".toList 30 pst0 =
    .ok (("", "(a \"b\" \\ \n"), { pos := 17, width := 1 }) := by decide +kernel

end Fmr
