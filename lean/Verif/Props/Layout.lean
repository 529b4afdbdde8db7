import Verif.Spec.Layout
import Verif.Proofs.Accept
import Verif.Props.Alike
import Verif.Props.WholeWitness

/-!
# C115: how a grammar text is laid out does not matter
-/

namespace Fmr

/-! ### tables of regexps, written entry by entry -/

/-- assignments to a table, in order -/
def setAll (m l : List (String × String)) : List (String × String) := l.foldl (fun m e => mapSet m e.1 e.2) m

theorem setAll_append (m a b : List (String × String)) : setAll m (a ++ b) = setAll (setAll m a) b := by
  simp [setAll]

theorem mapSet_twice (k v v' : String) : ∀ m : List (String × String), mapSet (mapSet m k v') k v = mapSet m k v
  | [] => by simp [mapSet]
  | (a, x) :: m => by
    by_cases h : a = k
    · simp [mapSet, h]
    · simp [mapSet, h, mapSet_twice k v v' m]

theorem mapSet_swap {k v a x : String} (hne : a ≠ k) : ∀ {m : List (String × String)}, k ∈ m.map Prod.fst →
    mapSet (mapSet m a x) k v = mapSet (mapSet m k v) a x
  | [], h => by simp at h
  | (b, y) :: m, h => by
    by_cases h1 : b = k
    · have h2 : ¬ b = a := fun e => hne (e.symm.trans h1)
      simp [mapSet, h1, Ne.symm hne]
    · have hm : k ∈ m.map Prod.fst := by
        rw [List.map_cons, List.mem_cons] at h
        exact h.resolve_left fun e => h1 e.symm
      by_cases h2 : b = a
      · simp [mapSet, h2, hne]
      · simp [mapSet, h1, h2, mapSet_swap hne hm]

theorem mem_keys_set {k a x : String} {m : List (String × String)} (h : k ∈ m.map Prod.fst) : k ∈ (mapSet m a x).map Prod.fst := by
  induction m with
  | nil => simp at h
  | cons e m ih =>
    obtain ⟨b, y⟩ := e
    by_cases h1 : b = a
    · simpa [mapSet, h1] using h
    · rw [List.map_cons, List.mem_cons] at h
      rcases h with h | h
      · simp [mapSet, h1, h]
      · simp only [mapSet, beq_iff_eq, h1, if_false, List.map_cons, List.mem_cons]
        exact .inr (ih h)

theorem mem_keys_new (k v : String) (m : List (String × String)) : k ∈ (mapSet m k v).map Prod.fst := by
  induction m with
  | nil => simp [mapSet]
  | cons e m ih =>
    obtain ⟨b, y⟩ := e
    by_cases h1 : b = k
    · simp [mapSet, h1]
    · simp only [mapSet, beq_iff_eq, h1, if_false, List.map_cons, List.mem_cons]
      exact .inr ih

theorem setAll_later {k v : String} : ∀ {τ m : List (String × String)}, k ∉ τ.map Prod.fst → k ∈ m.map Prod.fst →
    mapSet (setAll m τ) k v = setAll (mapSet m k v) τ
  | [], _, _, _ => rfl
  | (a, x) :: τ, m, h, hm => by
    rw [List.map_cons, List.mem_cons, not_or] at h
    show mapSet (setAll (mapSet m a x) τ) k v = setAll (mapSet (mapSet m k v) a x) τ
    rw [setAll_later h.2 (mem_keys_set hm), mapSet_swap (fun e => h.1 e.symm) hm]

theorem setAll_set {k v : String} : ∀ {τ m : List (String × String)}, KeysNodup τ →
    setAll m (mapSet τ k v) = mapSet (setAll m τ) k v
  | [], _, _ => rfl
  | (a, x) :: τ, m, h => by
    have h' : a ∉ τ.map Prod.fst ∧ KeysNodup τ := by
      unfold KeysNodup at h
      rw [List.map_cons, List.nodup_cons] at h
      exact h
    by_cases ha : a = k
    · subst ha
      have e : mapSet ((a, x) :: τ) a v = (a, v) :: τ := by simp [mapSet]
      rw [e]
      show setAll (mapSet m a v) τ = mapSet (setAll (mapSet m a x) τ) a v
      rw [setAll_later h'.1 (mem_keys_new _ _ _), mapSet_twice]
    · have e : mapSet ((a, x) :: τ) k v = (a, x) :: mapSet τ k v := by simp [mapSet, ha]
      rw [e]
      show setAll (mapSet m a x) (mapSet τ k v) = mapSet (setAll (mapSet m a x) τ) k v
      exact setAll_set h'.2

theorem setAll_nodup {l : List (String × String)} : ∀ {m : List (String × String)}, KeysNodup m → KeysNodup (setAll m l) := by
  induction l with
  | nil => exact fun h => h
  | cons e l ih => exact fun h => ih (h.mapSet _ _)

/-- only the table that the assignments make is of interest, not their order -/
theorem setAll_setAll (m l : List (String × String)) : setAll m (setAll [] l) = setAll m l := by
  induction l using List.reverseRecOn with
  | nil => rfl
  | append_singleton l e ih =>
    rw [setAll_append, setAll_append]
    show setAll m (mapSet (setAll [] l) e.1 e.2) = mapSet (setAll m l) e.1 e.2
    rw [setAll_set (setAll_nodup KeysNodup.nil), ih]

/-! ### the regexps of definitions -/

section
variable {w : LexWorld}

theorem TermSyn.writes {l : List Char} {t : Term} {ρ ρ' : List (String × String)} (h : TermSyn w l t ρ ρ') :
    ∃ δ, ρ' = setAll ρ δ ∧ ∀ ρ0, TermSyn w l t ρ0 (setAll ρ0 δ) := by
  cases h with
  | nonterminal h => exact ⟨[], rfl, fun ρ0 => .nonterminal h⟩
  | literal h => exact ⟨[], rfl, fun ρ0 => .literal h⟩
  | flagged h h' => exact ⟨[], rfl, fun ρ0 => .flagged h h'⟩
  | any h h' => exact ⟨[], rfl, fun ρ0 => .any h h'⟩
  | list h1 h2 h3 h4 => exact ⟨[], rfl, fun ρ0 => .list h1 h2 h3 h4⟩
  | regex h1 h2 h3 h4 h5 => exact ⟨[(_, _)], rfl, fun ρ0 => .regex h1 h2 h3 h4 h5⟩

theorem TermsSyn.writes {l : List Char} {ts : List Term} {ρ ρ' : List (String × String)} (h : TermsSyn w l ts ρ ρ') :
    ∃ δ, ρ' = setAll ρ δ ∧ ∀ ρ0, TermsSyn w l ts ρ0 (setAll ρ0 δ) := by
  induction h with
  | one h1 h2 =>
    obtain ⟨δ, he, h⟩ := h1.writes
    exact ⟨δ, he, fun ρ0 => .one (h ρ0) h2⟩
  | more h1 h2 _ ih =>
    obtain ⟨δ, rfl, h⟩ := h1.writes
    obtain ⟨δ', rfl, h'⟩ := ih
    refine ⟨δ ++ δ', (setAll_append _ _ _).symm, fun ρ0 => ?_⟩
    rw [setAll_append]
    exact .more (h ρ0) h2 (h' _)

theorem BodySyn.writes {l : List Char} {b : RuleBody} {ρ ρ' : List (String × String)} (h : BodySyn w l b ρ ρ') :
    ∃ δ, ρ' = setAll ρ δ ∧ ∀ ρ0, BodySyn w l b ρ0 (setAll ρ0 δ) := by
  cases h with
  | plain h1 =>
    obtain ⟨δ, he, h⟩ := h1.writes
    exact ⟨δ, he, fun ρ0 => .plain (h ρ0)⟩
  | fn h1 h2 h3 =>
    obtain ⟨δ, he, h⟩ := h1.writes
    exact ⟨δ, he, fun ρ0 => .fn (h ρ0) h2 h3⟩

theorem BodiesSyn.writes {l : List Char} {bs : List RuleBody} {ρ ρ' : List (String × String)} (h : BodiesSyn w l bs ρ ρ') :
    ∃ δ, ρ' = setAll ρ δ ∧ ∀ ρ0, BodiesSyn w l bs ρ0 (setAll ρ0 δ) := by
  induction h with
  | one h1 =>
    obtain ⟨δ, he, h⟩ := h1.writes
    exact ⟨δ, he, fun ρ0 => .one (h ρ0)⟩
  | more h1 h2 _ ih =>
    obtain ⟨δ, rfl, h⟩ := h1.writes
    obtain ⟨δ', rfl, h'⟩ := ih
    refine ⟨δ ++ δ', (setAll_append _ _ _).symm, fun ρ0 => ?_⟩
    rw [setAll_append]
    exact .more (h ρ0) h2 (h' _)

theorem DefSyn.writes {l : List Char} {d : Def} {ρ ρ' : List (String × String)} (h : DefSyn w l d ρ ρ') :
    ∃ δ, ρ' = setAll ρ δ ∧ ∀ ρ0, DefSyn w l d ρ0 (setAll ρ0 δ) := by
  cases h with
  | rule h1 h2 h3 h4 =>
    obtain ⟨δ, he, h⟩ := h4.writes
    exact ⟨δ, he, fun ρ0 => .rule h1 h2 h3 (h ρ0)⟩
  | frame h1 h2 h3 h4 =>
    obtain ⟨δ, he, h⟩ := h4.writes
    exact ⟨δ, he, fun ρ0 => .frame h1 h2 h3 (h ρ0)⟩

theorem DefsSyn.writes {l : List Char} {ds : List Def} {ρ ρ' : List (String × String)} (h : DefsSyn w l ds ρ ρ') :
    ∃ δ, ρ' = setAll ρ δ ∧ ∀ ρ0, DefsSyn w l ds ρ0 (setAll ρ0 δ) := by
  induction h with
  | nil h => exact ⟨[], rfl, fun ρ0 => .nil h⟩
  | cons h1 h2 _ ih =>
    obtain ⟨δ, rfl, h⟩ := h2.writes
    obtain ⟨δ', rfl, h'⟩ := ih
    refine ⟨δ ++ δ', (setAll_append _ _ _).symm, fun ρ0 => ?_⟩
    rw [setAll_append]
    exact .cons h1 (h ρ0) (h' _)

/-- the definitions of a text, after regexps of other files -/
theorem DefsSyn.over {l : List Char} {ds : List Def} {ρ : List (String × String)} (h : DefsSyn w l ds [] ρ) (ρ0 : List (String × String)) :
    DefsSyn w l ds ρ0 (setAll ρ0 ρ) := by
  obtain ⟨δ, rfl, h'⟩ := h.writes
  rw [setAll_setAll]
  exact h' ρ0

/-- the grammar of definitions, whatever their layout -/
theorem grammarRules_says {inp : List Char} (hg : runeError ∉ inp) (hw : w.OK) {n : Nat} {name : String} {ds : List Def} {s : PSt}
    {ρ : List (String × String)} {kds : List (Def × List (Nat × RuleBody))} (hd : DefsSyn w (inp.drop s.pos) ds [] ρ)
    (hk : List.Forall₂ (fun d e => e.1 = d ∧ keyed w d.bodies = some e.2) ds kds) (hn : inp.length < n) :
    ∃ s', grammarRules w inp n name s =
      .ok (⟨name, (addDefs ([], []) kds).1, (addDefs ([], []) kds).2, setAll s.regexps ρ, false⟩, s') := by
  have hl : (inp.drop s.pos).length < n := Nat.lt_of_le_of_lt (by simp) hn
  have h1 := reads_rulesLoop hg hw (n0 := n) (n := n) (m := ([], [])) (hd.over s.regexps) hk hl hl
  obtain ⟨s1, e1, hs1⟩ := h1 s ⟨rfl, rfl⟩
  obtain ⟨s2, e2, hs2⟩ := reads_next hg s1 hs1
  refine ⟨s2, ?_⟩
  unfold grammarRules
  rw [P.bind_run, e1]
  simp only [Out.bind_ok]
  rw [P.bind_run, e2, ← hs2.2]
  rfl

/-- the end of the directives -/
theorem directive_end {inp : List Char} (hg : runeError ∉ inp) (hw : w.OK) {n : Nat} {ds : List Def} {s : PSt}
    {ρ : List (String × String)} (hd : DefsSyn w (inp.drop s.pos) ds [] ρ) (hn : inp.length < n) :
    ∃ s', directive w inp n s = .ok (none, s') ∧ s'.regexps = s.regexps ∧ DefsSyn w (inp.drop s'.pos) ds [] ρ := by
  have hlen : (inp.drop s.pos).length < n := Nat.lt_of_le_of_lt (by simp) hn
  obtain ⟨s', e⟩ : ∃ s', directive w inp n s = .ok (none, s') := by
    have key : ∀ g l', inp.drop s.pos = g ++ l' → Gap w g → Stop w l' → l'.head? ≠ some '#' →
        ∃ s', directive w inp n s = .ok (none, s') := by
      intro g l' hr hgap hstop hne
      obtain ⟨s1, e, -⟩ := (show Reads inp (directive w inp n) (g ++ l') s.regexps none l' s.regexps by
        unfold directive
        refine Reads.bind (reads_comments hg hw hgap hstop (by rw [← hr]; exact hlen)) ?_
        refine Reads.bind (reads_peek hg) ?_
        rw [if_pos hne]
        exact Reads.pure _) s ⟨hr, rfl⟩
      exact ⟨s1, e⟩
    generalize hr : inp.drop s.pos = r at hd key
    cases hd with
    | nil hgap => exact key r [] (by simp) hgap (fun c hc => by cases hc) (by simp)
    | @cons g l r d ds ρ ρ1 ρ2 hgap hd hds =>
      refine key g (l ++ r) rfl hgap ?_ ?_
      · cases hd with
        | rule => exact stop_of_punct hw rfl (by decide)
        | frame => exact stop_of_punct hw rfl (by decide)
      · cases hd <;> simp
  obtain ⟨-, e1, e2⟩ := directive_defs hg hw hd rfl e
  exact ⟨s', e, e1, e2⟩

end

/-! ### directives, texts, files -/

section
variable {w : LoadWorld} (hw : w.lex.OK)
include hw

theorem directives_says {inc : String → LoadSt → Out (Option Loaded × LoadSt)} {inp inp' : List Char} (hg : runeError ∉ inp)
    (hg' : runeError ∉ inp') {dir : String} {n : Nat} (hn : inp.length < n) (hn' : inp'.length < n) {l : List Char} {fs : List String}
    {ds : List Def} {ρ : List (String × String)} (h : TextSays w.lex l fs ds ρ) : ∀ {l' : List Char}, TextSays w.lex l' fs ds ρ →
    ∀ {c : Nat} {gs : List Grammar} {st : LoadSt} {ps ps' : PSt}, inp.drop ps.pos = l → inp'.drop ps'.pos = l' →
      ps.regexps = ps'.regexps →
      (directives w inc inp dir n c gs st ps).Both (fun x y => x.1 = y.1 ∧ x.2.regexps = y.2.regexps ∧
        DefsSyn w.lex (inp.drop x.2.pos) ds [] ρ ∧ DefsSyn w.lex (inp'.drop y.2.pos) ds [] ρ)
        (directives w inc inp' dir n c gs st ps') := by
  induction h with
  | @defs r ds ρ hd =>
    intro l' h' c gs st ps ps' hl hl' hρ
    cases h' with
    | defs hd' =>
      cases c with
      | zero => trivial
      | succ c =>
        subst hl hl'
        obtain ⟨s, e, e1, e2⟩ := directive_end hg hw hd hn
        obtain ⟨s', e', e1', e2'⟩ := directive_end hg' hw hd' hn'
        rw [directives_succ, directives_succ, e, e']
        exact ⟨rfl, by rw [e1, e1', hρ], e2, e2'⟩
  | @incl t l f fs ds ρ hinc h ih =>
    intro l' h' c gs st ps ps' hl hl' hρ
    cases h' with
    | @incl t' l' _ _ _ _ hinc' h' =>
      cases c with
      | zero => trivial
      | succ c =>
        obtain ⟨s, e, hs⟩ := reads_directive (ρ := ps.regexps) hg hw (r := l) hinc (n := n)
          (by rw [← hl]; exact Nat.lt_of_le_of_lt (by simp) hn) ps ⟨hl, rfl⟩
        obtain ⟨s', e', hs'⟩ := reads_directive (ρ := ps'.regexps) hg' hw (r := l') hinc' (n := n)
          (by rw [← hl']; exact Nat.lt_of_le_of_lt (by simp) hn') ps' ⟨hl', rfl⟩
        rw [directives_succ, directives_succ, e, e']
        simp only [Out.bind_ok]
        cases inc (w.join dir f) (st.incr (w.join dir f)) with
        | ok y =>
          obtain ⟨og, st'⟩ := y
          simp only [Out.bind_ok]
          cases og with
          | none => exact ih h' hs.1 hs'.1 (by rw [hs.2, hs'.2, hρ])
          | some ig => exact ih h' hs.1 hs'.1 (by show List.foldl _ s.regexps _ = List.foldl _ s'.regexps _; rw [hs.2, hs'.2, hρ])
        | err => trivial
        | panic => trivial
        | div => trivial

theorem grammarText_says {inc : String → LoadSt → Out (Option Loaded × LoadSt)} {t t' : List Char} (h : SaySame w.lex t t')
    {n : Nat} (hn : t.length < n) (hn' : t'.length < n) (name dir : String) (st : LoadSt) :
    grammarText w inc n t name dir st = grammarText w inc n t' name dir st := by
  obtain ⟨hg, hg', fs, ds, ρ, h, h', hh⟩ := h
  obtain ⟨kds, hk⟩ := keyed_all hh
  have hb := directives_says (inc := inc) (dir := dir) hw hg hg' hn hn' h h' (c := n) (gs := []) (st := st)
    (ps := { pos := 0, width := 0 }) (ps' := { pos := 0, width := 0 }) rfl rfl rfl
  unfold grammarText
  generalize directives w inc t dir n n [] st { pos := 0, width := 0 } = x at hb ⊢
  generalize directives w inc t' dir n n [] st { pos := 0, width := 0 } = y at hb ⊢
  cases x <;> cases y <;> try (first | exact hb.elim | rfl)
  rename_i x y
  obtain ⟨⟨gs, st1⟩, ps⟩ := x
  obtain ⟨⟨gs', st1'⟩, ps'⟩ := y
  obtain ⟨e, e1, hd, hd'⟩ := hb
  cases e
  simp only at e1 hd hd'
  obtain ⟨s, e2⟩ := grammarRules_says (name := name) hg hw hd hk hn
  obtain ⟨s', e2'⟩ := grammarRules_says (name := name) hg' hw hd' hk hn'
  simp only [Out.bind_ok]
  rw [e2, e2', e1]
  rfl

theorem fromString_content {inc : String → LoadSt → Out (Option Loaded × LoadSt)} {t t' : List Char} (h : SameContent w.lex t t')
    {n : Nat} (hn : t.length < n) (hn' : t'.length < n) (name dir : String) (st : LoadSt) :
    fromString w inc n t name dir st = fromString w inc n t' name dir st := by
  rcases h with rfl | h
  · rfl
  · unfold fromString
    rw [grammarText_says hw h hn hn']

omit hw in
theorem directives_read {read' : String → Option (List Char)} {inc : String → LoadSt → Out (Option Loaded × LoadSt)} {inp : List Char}
    {dir : String} {n : Nat} : ∀ {c : Nat} {gs : List Grammar} {st : LoadSt} {ps : PSt},
    directives { w with read := read' } inc inp dir n c gs st ps = directives w inc inp dir n c gs st ps
  | 0, _, _, _ => rfl
  | c + 1, gs, st, ps => by
    rw [directives_succ, directives_succ]
    simp only [directives_read (c := c)]

omit hw in
theorem fromString_read {read' : String → Option (List Char)} {inc : String → LoadSt → Out (Option Loaded × LoadSt)} {n : Nat}
    {t : List Char} {name dir : String} {st : LoadSt} :
    fromString { w with read := read' } inc n t name dir st = fromString w inc n t name dir st := by
  unfold fromString grammarText
  rw [directives_read]

theorem fromFile_content {read' : String → Option (List Char)} (hf : SameFiles w.lex w.read read') {n : Nat}
    (hn : ∀ p t, w.read p = some t → t.length < n) (hn' : ∀ p t, read' p = some t → t.length < n) : ∀ depth : Nat,
    fromFile { w with read := read' } n depth = fromFile w n depth
  | 0 => by funext p st; rfl
  | depth + 1 => by
    funext p st
    rw [fromFile, fromFile]
    rcases hf p with ⟨h1, h2⟩ | ⟨t, t', h1, h2, h3⟩
    · simp only [h1, h2]
    · simp only [h1, h2]
      rw [fromFile_content hf hn hn' depth]
      cases w.dir p with
      | none => rfl
      | some d =>
        simp only
        rw [fromString_read, fromString_content hw h3 (hn _ _ h1) (hn' _ _ h2)]

/-- **C115.** White space and comments in grammar texts do not matter: a text that says the same, loaded among files that
say the same, gives the same grammars, index and registry, or the same failure. Files need not be in the syntax where
they are the same. The fuel must exceed the lengths of the texts. -/
theorem C115_string {read' : String → Option (List Char)} (hf : SameFiles w.lex w.read read') {t t' : List Char}
    (h : SameContent w.lex t t') {fuel : Nat} (ht : t.length < fuel) (ht' : t'.length < fuel)
    (hn : ∀ p t, w.read p = some t → t.length < fuel) (hn' : ∀ p t, read' p = some t → t.length < fuel) (depth : Nat)
    (name : String) (reg : Registry) :
    loadString { w with read := read' } fuel depth t' name reg = loadString w fuel depth t name reg := by
  unfold loadString
  rw [fromString_read, fromFile_content hw hf hn hn' depth, fromString_content hw h ht ht']

/-- **C115.** The same for a grammar file. -/
theorem C115_file {read' : String → Option (List Char)} (hf : SameFiles w.lex w.read read') {fuel : Nat}
    (hn : ∀ p t, w.read p = some t → t.length < fuel) (hn' : ∀ p t, read' p = some t → t.length < fuel) (depth : Nat)
    (file : String) (reg : Registry) :
    loadFile { w with read := read' } fuel depth file reg = loadFile w fuel depth file reg := by
  unfold loadFile
  rcases hf file with ⟨h1, h2⟩ | ⟨t, t', h1, h2, h3⟩
  · simp only [h1, h2]
  · simp only [h1, h2]
    cases w.dir file with
    | none => rfl
    | some d =>
      simp only
      rw [fromString_read, fromFile_content hw hf hn hn' depth, fromString_content hw h3 (hn _ _ h1) (hn' _ _ h2)]

end

/-! ### an example -/

/-- `twoText` in another layout -/
def airText : List Char := "/* a */#include\t\"b\"\n<a> = <b>// b\n\"x\"( any{0, 1});".toList

/-- `twoFiles` with another layout of its file -/
def airRead (p : String) : Option (List Char) := if p = "./b" then some "<b>=\n\" y\"/**/;".toList else none

theorem air_b : SaySame exampleLex "<b>=\"y\";\n".toList "<b>=\n\" y\"/**/;".toList := by
  refine ⟨by decide, by decide, [], [⟨false, "b", [⟨[⟨"y", .terminal, .nil⟩], none⟩]⟩], [], .defs ?_, .defs ?_, fun _ _ _ _ h => by cases h⟩
  · refine .cons (g := []) (l := "<b>=\"y\";".toList) (r := ['\n']) two_nogap ?_ (.nil (two_gap (by decide)))
    refine DefSyn.rule (x := ['b']) (g1 := []) (g2 := []) (l := ['"', 'y', '"']) (ident_alpha (by rfl) (by rfl))
      two_nogap two_nogap (.one (.plain (.one (l := ['"', 'y', '"']) (g := []) (.literal ?_) two_nogap)))
    exact twoLit (by decide) (by decide) (by decide) (by decide)
  · refine .cons (g := []) (l := "<b>=\n\" y\"/**/;".toList) (r := []) two_nogap ?_ (.nil two_nogap)
    refine DefSyn.rule (x := ['b']) (g1 := []) (g2 := ['\n']) (l := "\" y\"/**/".toList) (ident_alpha (by rfl) (by rfl))
      two_nogap (two_gap (by decide)) (.one (.plain (.one (l := ['"', ' ', 'y', '"']) (g := "/**/".toList) (.literal ?_)
        (.block (s := []) (b := []) (g := []) (by intro c hc; cases hc) (by decide) two_nogap))))
    exact .plain (s := [' ']) (t := ['y']) (v := ['y']) (by intro c hc; rw [List.mem_singleton.1 hc]; decide)
      (.plain (by decide) (by decide) .nil) (by
        intro c hc
        cases hc
        exact ⟨by decide, by decide⟩)

theorem air_two : SaySame exampleLex twoText airText := by
  have hr : ∀ {s : List Char}, (∀ c ∈ s, exampleLex.isSpace c = true) → RangeSyn exampleLex ("{0,".toList ++ (s ++ "1}".toList)) (.range 0 1) :=
    fun {s} hs => .some (s0 := []) (s1 := []) (s2 := []) (s3 := s) (s4 := []) (s5 := []) (d1 := ['0']) (d2 := ['1'])
      (a := 0) (b := 1) (by intro c hc; cases hc) (by intro c hc; cases hc) (by intro c hc; cases hc) hs
      (by intro c hc; cases hc) (by intro c hc; cases hc)
      (num_digit (n := 0) (by decide) (by decide) (by decide)) (num_digit (n := 1) (by decide) (by decide) (by decide)) (by decide)
  refine ⟨by decide, by decide, ["b"], twoDefs, [], ?_, ?_, fun _ _ _ _ h => by cases h⟩
  · refine .incl (t := "#include \"b\"".toList) (l := "\n<a>=<b> \"x\"(any{0,1});\n".toList) (f := "b") ?_ (.defs ?_)
    · refine .mk (g := []) (s1 := []) (s2 := [' ']) (l := ['"', 'b', '"']) (f := "") two_nogap (by intro c hc; cases hc)
        (by intro c hc; rw [List.mem_singleton.1 hc]; decide) (twoLit (by decide) (by decide) (by decide) (by decide))
    · refine .cons (g := ['\n']) (l := "<a>=<b> \"x\"(any{0,1});".toList) (r := ['\n']) (two_gap (by decide)) ?_
        (.nil (two_gap (by decide)))
      refine DefSyn.rule (x := ['a']) (g1 := []) (g2 := []) (l := "<b> \"x\"(any{0,1})".toList) (ident_alpha (by rfl) (by rfl))
        two_nogap two_nogap (.one (.plain (.more (l := "<b>".toList) (g := [' ']) (r := "\"x\"(any{0,1})".toList)
          (.nonterminal (x := ['b']) (ident_alpha (by rfl) (by rfl))) (two_gap (by decide))
          (.more (l := ['"', 'x', '"']) (g := []) (r := "(any{0,1})".toList) (.literal ?_) two_nogap
            (.one (l := "(any{0,1})".toList) (g := []) (.any (s1 := []) (r := "{0,1}".toList) ?_ ?_) two_nogap)))))
      · exact twoLit (by decide) (by decide) (by decide) (by decide)
      · intro c hc
        cases hc
      · exact hr (s := []) (by intro c hc; cases hc)
  · refine .incl (t := "/* a */#include\t\"b\"".toList) (l := "\n<a> = <b>// b\n\"x\"( any{0, 1});".toList) (f := "b") ?_ (.defs ?_)
    · refine .mk (g := "/* a */".toList) (s1 := []) (s2 := ['\t']) (l := ['"', 'b', '"']) (f := "")
        (.block (s := []) (b := " a ".toList) (g := []) (by intro c hc; cases hc) (by decide) two_nogap) (by intro c hc; cases hc)
        (by intro c hc; rw [List.mem_singleton.1 hc]; decide) (twoLit (by decide) (by decide) (by decide) (by decide))
    · refine .cons (g := ['\n']) (l := "<a> = <b>// b\n\"x\"( any{0, 1});".toList) (r := []) (two_gap (by decide)) ?_
        (.nil two_nogap)
      refine DefSyn.rule (x := ['a']) (g1 := [' ']) (g2 := [' ']) (l := "<b>// b\n\"x\"( any{0, 1})".toList) (ident_alpha (by rfl) (by rfl))
        (two_gap (by decide)) (two_gap (by decide)) (.one (.plain (.more (l := "<b>".toList) (g := "// b\n".toList) (r := "\"x\"( any{0, 1})".toList)
          (.nonterminal (x := ['b']) (ident_alpha (by rfl) (by rfl)))
          (.line (s := []) (b := " b".toList) (g := []) (by intro c hc; cases hc) (by decide) two_nogap)
          (.more (l := ['"', 'x', '"']) (g := []) (r := "( any{0, 1})".toList) (.literal ?_) two_nogap
            (.one (l := "( any{0, 1})".toList) (g := []) (.any (s1 := [' ']) (r := "{0, 1}".toList) ?_ ?_) two_nogap)))))
      · exact twoLit (by decide) (by decide) (by decide) (by decide)
      · intro c hc
        rw [List.mem_singleton.1 hc]
        decide
      · exact hr (s := [' ']) (by intro c hc; rw [List.mem_singleton.1 hc]; decide)

/-- the two layouts load to the same grammars, and they do load -/
example : ∃ ld st, loadString { twoFiles with read := airRead } 100 3 airText "g" [] = .ok (some ld, st) ∧
    loadString twoFiles 100 3 twoText "g" [] = .ok (some ld, st) := by
  have e : loadString { twoFiles with read := airRead } 100 3 airText "g" [] = loadString twoFiles 100 3 twoText "g" [] :=
    C115_string exampleLex_ok (fun p => by
      by_cases hp : p = "./b"
      · exact .inr ⟨_, _, if_pos hp, if_pos hp, .inr air_b⟩
      · exact .inl ⟨if_neg hp, if_neg hp⟩) (.inr air_two) (by decide) (by decide)
      (fun p t h => by
        by_cases hp : p = "./b"
        · have : some _ = some t := (if_pos hp).symm.trans h
          cases this
          decide
        · exact absurd ((if_neg hp).symm.trans h) (by simp))
      (fun p t h => by
        by_cases hp : p = "./b"
        · have : some _ = some t := (if_pos hp).symm.trans h
          cases this
          decide
        · exact absurd ((if_neg hp).symm.trans h) (by simp)) 3 "g" []
  have hc : (match loadString twoFiles 100 3 twoText "g" [] with | .ok (some _, _) => true | _ => false) = true := by decide +kernel
  rw [e]
  generalize loadString twoFiles 100 3 twoText "g" [] = x at hc
  match x, hc with
  | .ok (some ld, st), _ => exact ⟨ld, st, rfl, rfl⟩

end Fmr
