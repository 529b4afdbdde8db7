import Verif.Proofs.BytesLoud
import Verif.Props.Index

/-!
# Syntax errors have a position: C68
-/

namespace Fmr

theorem mapState_no_err {σ α : Type} {f : σ → α → Out (σ × α)} (h : ∀ s a, f s a ≠ .err) (l : List α) :
    ∀ s, mapState f s l ≠ .err := by
  induction l with
  | nil => intro s e; cases e
  | cons a l ih =>
    intro s e
    unfold mapState at e
    cases h1 : f s a with
    | err => exact h s a h1
    | panic => rw [h1] at e; cases e
    | div => rw [h1] at e; cases e
    | ok r =>
      rw [h1] at e
      simp only [bind, Out.bind] at e
      cases h2 : mapState f r.1 l with
      | err => exact ih _ h2
      | panic => rw [h2] at e; cases e
      | div => rw [h2] at e; cases e
      | ok r2 => rw [h2] at e; cases e

/-- The library functions that the loader calls do not fail. -/
structure LoadWorld.Speaks (w : LoadWorld) : Prop where
  lex : w.lex.Speaks
  annot : ∀ s, (w.ref.annot s).isSome
  hash : ∀ r, (w.ref.hash r).isSome
  update : ∀ t s, w.idx.update t s = true
  dir : ∀ f, (w.dir f).isSome

theorem refine_no_err {w : RefineWorld} (h1 : ∀ s, (w.annot s).isSome) (h2 : ∀ r, (w.hash r).isSome) {pre : String}
    {fuel : Nat} {reg : Registry} {g : Grammar} : refine w pre fuel reg g ≠ .err := by
  have ht : ∀ rules s t, refineTerm w pre rules fuel s t ≠ .err := by
    intro rules s t e
    unfold refineTerm at e
    split at e
    · cases e
    · split at e
      · cases e
      · obtain ⟨ts, hts⟩ := Option.isSome_iff_exists.1 (h1 t.value)
        rw [hts] at e
        simp only [Out.ofErr, bind, Out.bind] at e
        split at e
        · obtain ⟨k, hk⟩ := Option.isSome_iff_exists.1 (h2 { terms := (literalLoop w t.meta ts (pre ++ "_t") [] s.reg).2.1, f := none })
          rw [hk] at e
          cases e
        · rename_i e'
          unfold Out.ofFuel at e'
          split at e' <;> cases e'
        · cases e
        · cases e
  unfold refine
  intro e
  split at e
  · cases e
  · have hb : ∀ rules s b, refineBody w pre rules fuel s b ≠ .err := by
      intro rules s b e
      unfold refineBody at e
      have := mapState_no_err (ht rules) b.2.terms s
      cases hm : mapState (refineTerm w pre rules fuel) s b.2.terms with
      | err => exact this hm
      | panic => rw [hm] at e; cases e
      | div => rw [hm] at e; cases e
      | ok r => rw [hm] at e; cases e
    have hr : ∀ rules s b, refineRule w pre rules fuel s b ≠ .err := by
      intro rules s b e
      unfold refineRule at e
      have := mapState_no_err (hb rules) b.2.body s
      cases hm : mapState (refineBody w pre rules fuel) s b.2.body with
      | err => exact this hm
      | panic => rw [hm] at e; cases e
      | div => rw [hm] at e; cases e
      | ok r => rw [hm] at e; cases e
    have := mapState_no_err (hr g.rules) g.rules { reg := reg }
    cases hm : mapState (refineRule w pre g.rules fuel) { reg := reg } g.rules with
    | err => exact this hm
    | panic => rw [hm] at e; cases e
    | div => rw [hm] at e; cases e
    | ok r => rw [hm] at e; cases e

/-- the text `t` of the file `name` in the directory `dir` has a directive that includes the file `f` -/
def Asks (w : LoadWorld) (fuel : Nat) (name : String) (t : Bytes) (dir f : String) : Prop :=
  ∃ ps ps' i, (Prog.directive w.lex fuel).runB name t ps = .ok (some i, ps') ∧ f = w.join dir i

/-- the files that are included, directly or not, by the text `t` of the file `name` in the directory `dir` -/
inductive Included (w : LoadWorld) (read : String → Option Bytes) (fuel : Nat) : String → Bytes → String → String → Prop
  | direct {name t dir f} : Asks w fuel name t dir f → Included w read fuel name t dir f
  | via {name t dir f u dir' f'} : Asks w fuel name t dir f → read f = some u → w.dir f = some dir' →
      Included w read fuel f u dir' f' → Included w read fuel name t dir f'

section
variable {w : LoadWorld} {read : String → Option Bytes} {inc : String → LoadSt → BOut (Option Loaded × LoadSt)}

/-- the file `f` cannot be read, or includes a file that cannot be read -/
def Missing (w : LoadWorld) (read : String → Option Bytes) (fuel : Nat) (f : String) : Prop :=
  read f = none ∨ ∃ t dir f', read f = some t ∧ w.dir f = some dir ∧ Included w read fuel f t dir f' ∧ read f' = none

theorem loud_bdirectives {b : Bytes} {name dir : String} {fuel0 fuel : Nat} {gs : List Grammar} {st : LoadSt} {ps : BSt}
    (h : bdirectives w inc b name dir fuel0 fuel gs st ps = .err none) :
    ∃ f st, Asks w fuel0 name b dir f ∧ inc f st = .err none := by
  induction fuel generalizing gs st ps with
  | zero => cases h
  | succ fuel ih =>
    unfold bdirectives at h
    have hn := (Prog.loud_directive (w := w.lex) fuel0).d.runB name b ps
    cases hx : (Prog.directive w.lex fuel0).runB name b ps with
    | err e => cases e with
      | none => exact absurd hx hn
      | some e => rw [hx] at h; cases h
    | panic => rw [hx] at h; cases h
    | div => rw [hx] at h; cases h
    | ok r =>
      rw [hx] at h
      obtain ⟨r, ps'⟩ := r
      cases r with
      | none => cases h
      | some ifile =>
        simp only at h
        cases hz : inc (w.join dir ifile) (st.incr (w.join dir ifile)) with
        | err e => rw [hz] at h; cases h; exact ⟨_, _, ⟨_, _, _, hx, rfl⟩, hz⟩
        | panic => rw [hz] at h; cases h
        | div => rw [hz] at h; cases h
        | ok r =>
          rw [hz] at h
          obtain ⟨r, st'⟩ := r
          cases r with
          | none => exact ih h
          | some ig => exact ih h

theorem loud_bfromString (hw : w.Speaks) {b : Bytes} {name dir : String} {fuel : Nat} {st : LoadSt}
    (h : bfromString w inc fuel b name dir st = .err none) :
    ∃ f st, Asks w fuel name b dir f ∧ inc f st = .err none := by
  unfold bfromString at h
  split at h
  · cases h
  · unfold bgrammarText at h
    cases hd : bdirectives w inc b name dir fuel fuel [] st {} with
    | err e => rw [hd] at h; cases h; exact loud_bdirectives hd
    | panic => rw [hd] at h; cases h
    | div => rw [hd] at h; cases h
    | ok d =>
      rw [hd] at h
      have hl := Prog.loud_grammarRules hw.lex fuel name
      have hn := hl.runB name b d.2
      cases hg : (Prog.grammarRules w.lex fuel name).runB name b d.2 with
      | err e => cases e with
        | none => exact absurd hg hn
        | some e => simp only [bind, BOut.bind, hg] at h; cases h
      | panic => simp only [bind, BOut.bind, hg] at h; cases h
      | div => simp only [bind, BOut.bind, hg] at h; cases h
      | ok g =>
        simp only [bind, BOut.bind, hg] at h
        obtain ⟨gi, hi⟩ := C37_build hw.update { main := g.1, includes := d.1.1 } (hl.runB_ok name b hg)
        simp only [hi, BOut.lift] at h
        have hne := refine_no_err hw.annot hw.hash (pre := "g") (fuel := fuel) (reg := d.1.2.reg) (g := g.1)
        cases hr : refine w.ref "g" fuel d.1.2.reg g.1 with
        | err => exact absurd hr hne
        | panic => simp only [hr] at h; cases h
        | div => simp only [hr] at h; cases h
        | ok r => simp only [hr] at h; cases h

theorem loud_bfromFile (hw : w.Speaks) {fuel depth : Nat} {p : String} {st : LoadSt}
    (h : bfromFile w read fuel depth p st = .err none) : Missing w read fuel p := by
  induction depth generalizing p st with
  | zero => cases h
  | succ depth ih =>
    unfold bfromFile at h
    split at h
    · cases h
    · cases hr : read p with
      | none => exact .inl hr
      | some b =>
        obtain ⟨dir, hd⟩ := Option.isSome_iff_exists.1 (hw.dir p)
        rw [hr, hd] at h
        obtain ⟨f, st', ha, hf⟩ := loud_bfromString hw h
        rcases ih hf with h1 | ⟨t, dir', f', h1, h2, h3, h4⟩
        · exact .inr ⟨_, _, _, hr, hd, .direct ha, h1⟩
        · exact .inr ⟨_, _, _, hr, hd, .via ha h1 h2 h3, h4⟩

end

/-- Every syntax error has a position: if the library functions called by the loader do not fail, the only error
without a position is that an included file cannot be read. -/
theorem C68_positioned {w : LoadWorld} (hw : w.Speaks) {read : String → Option Bytes} {fuel depth : Nat} {d : Bytes}
    {name : String} {reg : Registry} (h : bloadString w read fuel depth d name reg = .err none) :
    ∃ f, Included w read fuel name d "." f ∧ read f = none := by
  obtain ⟨f, st, ha, hf⟩ := loud_bfromString hw h
  rcases loud_bfromFile hw hf with h1 | ⟨t, dir', f', h1, h2, h3, h4⟩
  · exact ⟨_, .direct ha, h1⟩
  · exact ⟨_, .via ha h1 h2 h3, h4⟩

theorem C68_positioned_file {w : LoadWorld} (hw : w.Speaks) {read : String → Option Bytes} {fuel depth : Nat}
    {file : String} {reg : Registry} (h : bloadFile w read fuel depth file reg = .err none) :
    Missing w read fuel file := by
  unfold bloadFile at h
  cases hr : read file with
  | none => exact .inl hr
  | some b =>
    obtain ⟨dir, hd⟩ := Option.isSome_iff_exists.1 (hw.dir file)
    rw [hr, hd] at h
    obtain ⟨f, st, ha, hf⟩ := loud_bfromString hw h
    rcases loud_bfromFile hw hf with h1 | ⟨t, dir', f', h1, h2, h3, h4⟩
    · exact .inr ⟨_, _, _, hr, hd, .direct ha, h1⟩
    · exact .inr ⟨_, _, _, hr, hd, .via ha h1 h2 h3, h4⟩

/-- `exLoad` with a reader of floats that reads everything as 0 -/
def loudLoad : LoadWorld := { exLoad with lex := { asciiLex with scanFloat := fun _ => some 0 } }

theorem loudLoad_speaks : loudLoad.Speaks := by
  refine ⟨⟨?_, fun _ => rfl, ?_, fun _ _ _ => ⟨rfl, rfl⟩⟩, fun _ => rfl, fun _ => rfl, fun _ _ => rfl, fun _ => rfl⟩
  · intro c h
    have h : c.isDigit = true := h
    simp only [Char.isDigit, Bool.and_eq_true, decide_eq_true_eq] at h
    unfold parseDigit
    rw [if_pos ⟨h.1, h.2⟩]
    rfl
  · intro l hne hl
    have hall : l.all Char.isDigit = true := List.all_eq_true.2 hl
    have h2 : scanDec (String.ofList ('-' :: l)) = some (-(Nat.ofDigitChars 10 l 0 : Int)) := by
      unfold scanDec
      rw [String.toList_ofList]
      simp only
      rw [if_pos ⟨hne, hall⟩]
    refine ⟨?_, by show (scanDec _).isSome = true; rw [h2]; rfl⟩
    show (scanDec _).isSome = true
    unfold scanDec
    rw [String.toList_ofList]
    split
    · have := hl '-' (by simp)
      exact absurd this (by decide)
    · rw [if_pos ⟨hne, hall⟩]; rfl

/-- non-vacuity: an error without a position, from a file that cannot be read -/
example : bloadString loudLoad (fun _ => none) 60 5 (utf8 "#include \"i\"\n") "g" [] = .err none :=
  BOut.errAt_eq (by decide +kernel)

/-- The assumption is needed, and `fmt.Sscan` does not satisfy it: `-.` is read as a number by the grammar parser but
not by the library, and the error has no position. -/
theorem C68_number : bloadString { exLoad with lex := { asciiLex with scanFloat := fun s => if s = "-." then none else some 0 } }
    (fun _ => none) 60 5 (utf8 "<a>=\"x\" {nf.f(-.)};") "g" [] = .err none :=
  BOut.errAt_eq (by decide +kernel)

end Fmr
