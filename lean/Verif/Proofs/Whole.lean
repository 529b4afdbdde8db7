import Verif.Spec.Whole
import Verif.Proofs.LoadReach
import Verif.Proofs.LexerDefs

/-!
# What the grammars of a load hold, in terms of the definitions in the files
-/

namespace Fmr

/-! ### tables of regexps -/

/-- the table after some definitions: what they write, over what was there -/
def Ext (δ : String → Option String) (ρ ρ' : List (String × String)) : Prop :=
  ∀ k, ρ'.lookup k = (δ k).or (ρ.lookup k)

theorem Ext.refl (ρ : List (String × String)) : Ext (fun _ => none) ρ ρ := fun _ => by simp

theorem Ext.trans {δ δ' : String → Option String} {a b c : List (String × String)} (h1 : Ext δ a b) (h2 : Ext δ' b c) :
    Ext (fun k => (δ' k).or (δ k)) a c := fun k => by
  rw [h2 k, h1 k, Option.or_assoc]

theorem Ext.set (ρ : List (String × String)) (k s : String) :
    Ext (fun k' => if k' = k then some s else none) ρ (mapSet ρ k s) := fun k' => by
  rw [lookup_mapSet]
  by_cases h : k' = k
  · simp [h]
  · simp [h]

section
variable {w : LexWorld}

theorem TermSyn.table {l : List Char} {t : Term} {ρ ρ' : List (String × String)} (h : TermSyn w l t ρ ρ') :
    ∃ δ, Ext δ ρ ρ' ∧ ∀ ρ0, ∃ ρ0', TermSyn w l t ρ0 ρ0' ∧ Ext δ ρ0 ρ0' := by
  cases h with
  | nonterminal h => exact ⟨_, .refl _, fun ρ0 => ⟨ρ0, .nonterminal h, .refl _⟩⟩
  | literal h => exact ⟨_, .refl _, fun ρ0 => ⟨ρ0, .literal h, .refl _⟩⟩
  | flagged h h' => exact ⟨_, .refl _, fun ρ0 => ⟨ρ0, .flagged h h', .refl _⟩⟩
  | any h h' => exact ⟨_, .refl _, fun ρ0 => ⟨ρ0, .any h h', .refl _⟩⟩
  | list h1 h2 h3 h4 => exact ⟨_, .refl _, fun ρ0 => ⟨ρ0, .list h1 h2 h3 h4, .refl _⟩⟩
  | regex h1 h2 h3 h4 h5 => exact ⟨_, .set _ _ _, fun ρ0 => ⟨_, .regex h1 h2 h3 h4 h5, .set _ _ _⟩⟩

theorem TermsSyn.table {l : List Char} {ts : List Term} {ρ ρ' : List (String × String)} (h : TermsSyn w l ts ρ ρ') :
    ∃ δ, Ext δ ρ ρ' ∧ ∀ ρ0, ∃ ρ0', TermsSyn w l ts ρ0 ρ0' ∧ Ext δ ρ0 ρ0' := by
  induction h with
  | one h1 h2 =>
    obtain ⟨δ, he, h⟩ := h1.table
    refine ⟨δ, he, fun ρ0 => ?_⟩
    obtain ⟨ρ0', h, he⟩ := h ρ0
    exact ⟨ρ0', .one h h2, he⟩
  | more h1 h2 _ ih =>
    obtain ⟨δ, he, h⟩ := h1.table
    obtain ⟨δ', he', h'⟩ := ih
    refine ⟨_, he.trans he', fun ρ0 => ?_⟩
    obtain ⟨ρ0', h, he⟩ := h ρ0
    obtain ⟨ρ0'', h', he'⟩ := h' ρ0'
    exact ⟨ρ0'', .more h h2 h', he.trans he'⟩

theorem BodySyn.table {l : List Char} {b : RuleBody} {ρ ρ' : List (String × String)} (h : BodySyn w l b ρ ρ') :
    ∃ δ, Ext δ ρ ρ' ∧ ∀ ρ0, ∃ ρ0', BodySyn w l b ρ0 ρ0' ∧ Ext δ ρ0 ρ0' := by
  cases h with
  | plain h1 =>
    obtain ⟨δ, he, h⟩ := h1.table
    refine ⟨δ, he, fun ρ0 => ?_⟩
    obtain ⟨ρ0', h, he⟩ := h ρ0
    exact ⟨ρ0', .plain h, he⟩
  | fn h1 h2 h3 =>
    obtain ⟨δ, he, h⟩ := h1.table
    refine ⟨δ, he, fun ρ0 => ?_⟩
    obtain ⟨ρ0', h, he⟩ := h ρ0
    exact ⟨ρ0', .fn h h2 h3, he⟩

theorem BodiesSyn.table {l : List Char} {bs : List RuleBody} {ρ ρ' : List (String × String)} (h : BodiesSyn w l bs ρ ρ') :
    ∃ δ, Ext δ ρ ρ' ∧ ∀ ρ0, ∃ ρ0', BodiesSyn w l bs ρ0 ρ0' ∧ Ext δ ρ0 ρ0' := by
  induction h with
  | one h1 =>
    obtain ⟨δ, he, h⟩ := h1.table
    refine ⟨δ, he, fun ρ0 => ?_⟩
    obtain ⟨ρ0', h, he⟩ := h ρ0
    exact ⟨ρ0', .one h, he⟩
  | more h1 h2 _ ih =>
    obtain ⟨δ, he, h⟩ := h1.table
    obtain ⟨δ', he', h'⟩ := ih
    refine ⟨_, he.trans he', fun ρ0 => ?_⟩
    obtain ⟨ρ0', h, he⟩ := h ρ0
    obtain ⟨ρ0'', h', he'⟩ := h' ρ0'
    exact ⟨ρ0'', .more h h2 h', he.trans he'⟩

theorem DefSyn.table {l : List Char} {d : Def} {ρ ρ' : List (String × String)} (h : DefSyn w l d ρ ρ') :
    ∃ δ, Ext δ ρ ρ' ∧ ∀ ρ0, ∃ ρ0', DefSyn w l d ρ0 ρ0' ∧ Ext δ ρ0 ρ0' := by
  cases h with
  | rule h1 h2 h3 h4 =>
    obtain ⟨δ, he, h⟩ := h4.table
    refine ⟨δ, he, fun ρ0 => ?_⟩
    obtain ⟨ρ0', h, he⟩ := h ρ0
    exact ⟨ρ0', .rule h1 h2 h3 h, he⟩
  | frame h1 h2 h3 h4 =>
    obtain ⟨δ, he, h⟩ := h4.table
    refine ⟨δ, he, fun ρ0 => ?_⟩
    obtain ⟨ρ0', h, he⟩ := h ρ0
    exact ⟨ρ0', .frame h1 h2 h3 h, he⟩

/-- the definitions of a text do not depend on the regexps that came before -/
theorem DefsSyn.table {l : List Char} {ds : List Def} {ρ ρ' : List (String × String)} (h : DefsSyn w l ds ρ ρ') :
    ∃ δ, Ext δ ρ ρ' ∧ ∀ ρ0, ∃ ρ0', DefsSyn w l ds ρ0 ρ0' ∧ Ext δ ρ0 ρ0' := by
  induction h with
  | nil h => exact ⟨_, .refl _, fun ρ0 => ⟨ρ0, .nil h, .refl _⟩⟩
  | cons h1 h2 _ ih =>
    obtain ⟨δ, he, h⟩ := h2.table
    obtain ⟨δ', he', h'⟩ := ih
    refine ⟨_, he.trans he', fun ρ0 => ?_⟩
    obtain ⟨ρ0', h, he⟩ := h ρ0
    obtain ⟨ρ0'', h', he'⟩ := h' ρ0'
    exact ⟨ρ0'', .cons h1 h h', he.trans he'⟩

/-! ### directives and definitions -/

variable {inp : List Char} (hg : runeError ∉ inp) (hw : w.OK)
include hg hw

/-- in front of definitions the parser finds no directive -/
theorem directive_defs {n : Nat} {l : List Char} {ds : List Def} {ρ ρ' : List (String × String)}
    (hd : DefsSyn w l ds ρ ρ') {s s' : PSt} {o : Option String} (hs : inp.drop s.pos = l)
    (h : directive w inp n s = .ok (o, s')) :
    o = none ∧ s'.regexps = s.regexps ∧ DefsSyn w (inp.drop s'.pos) ds ρ ρ' := by
  have key : ∀ g l', l = g ++ l' → Gap w g → Stop w l' → l'.head? ≠ some '#' → DefsSyn w l' ds ρ ρ' →
      o = none ∧ s'.regexps = s.regexps ∧ DefsSyn w (inp.drop s'.pos) ds ρ ρ' := by
    rintro g l' rfl hgap hstop hne hd'
    obtain ⟨s1, e, hs1⟩ := (show Reads inp (directive w inp (max n ((g ++ l').length + 1))) (g ++ l') s.regexps none l' s.regexps by
      unfold directive
      refine Reads.bind (reads_comments hg hw hgap hstop (by omega)) ?_
      refine Reads.bind (reads_peek hg) ?_
      rw [if_pos hne]
      exact Reads.pure _) s ⟨hs, rfl⟩
    have e2 : directive w inp (max n ((g ++ l').length + 1)) s = directive w inp n s :=
      le_directive _ _ (Nat.le_max_left _ _) s (by rw [h]; simp)
    rw [e2, h] at e
    cases e
    exact ⟨rfl, hs1.2, by rw [hs1.1]; exact hd'⟩
  cases hd with
  | nil hgap => exact key l [] (by simp) hgap (fun c hc => by cases hc) (by simp) (.nil Gap.nil)
  | @cons g l r d ds ρ ρ1 ρ2 hgap hd hds =>
    refine key g (l ++ r) rfl hgap ?_ ?_ (by simpa using DefsSyn.cons (g := []) Gap.nil hd hds)
    · cases hd with
      | rule => exact stop_of_punct hw rfl (by decide)
      | frame => exact stop_of_punct hw rfl (by decide)
    · cases hd <;> simp

/-- the grammar that is read from a text of definitions -/
theorem grammarRules_exact {n : Nat} {name : String} {l : List Char} {ds : List Def} {s s' : PSt} {ρ' : List (String × String)}
    {g : Grammar} {kds : List (Def × List (Nat × RuleBody))} (hd : DefsSyn w l ds s.regexps ρ')
    (hk : List.Forall₂ (fun d e => e.1 = d ∧ keyed w d.bodies = some e.2) ds kds) (hs : inp.drop s.pos = l)
    (h : grammarRules w inp n name s = .ok (g, s')) :
    g = ⟨name, (addDefs ([], []) kds).1, (addDefs ([], []) kds).2, ρ', false⟩ := by
  have h1 := reads_rulesLoop hg hw (n0 := max n (l.length + 1)) (n := max n (l.length + 1)) (m := ([], [])) hd hk
    (by omega) (by omega)
  obtain ⟨s1, e1, hs1⟩ := h1 s ⟨hs, rfl⟩
  obtain ⟨s2, e2, hs2⟩ := reads_next hg s1 hs1
  have e : grammarRules w inp (max n (l.length + 1)) name s =
      .ok (⟨name, (addDefs ([], []) kds).1, (addDefs ([], []) kds).2, ρ', false⟩, s2) := by
    unfold grammarRules
    rw [P.bind_run, e1]
    simp only [Out.bind_ok]
    rw [P.bind_run, e2, ← hs2.2]
    rfl
  have e3 : grammarRules w inp (max n (l.length + 1)) name s = grammarRules w inp n name s :=
    le_grammarRules _ _ (Nat.le_max_left _ _) s (by rw [h]; simp)
  rw [e3, h] at e
  cases e
  rfl

/-- the rules of a text of definitions -/
theorem grammarRules_defs {n : Nat} {name : String} {l : List Char} {ds : List Def} {s s' : PSt} {ρ' : List (String × String)}
    {g : Grammar} (hd : DefsSyn w l ds s.regexps ρ') (hc : NoCollision w.hash ds) (hs : inp.drop s.pos = l)
    (h : grammarRules w inp n name s = .ok (g, s')) :
    g.regexps = ρ' ∧ HoldsDefs w.hash ds false g.rules ∧ HoldsDefs w.hash ds true g.frames := by
  obtain ⟨kds, hk⟩ := keyed_all hc.1
  obtain rfl := grammarRules_exact hg hw hd hk hs h
  exact ⟨rfl, holds_addDefs (ds0 := []) (m := ([], [])) hk hc HoldsDefs.nil HoldsDefs.nil⟩

end

/-! ### the loader -/

/-- the grammar is the refined form of these definitions, and has the names of these regexps -/
def FileOf (w : LoadWorld) (ds : List Def) (ρ : List (String × String)) (g : Grammar) : Prop :=
  ∃ g0 fuel reg reg', GrammarWF w.lex g0 ∧ HoldsDefs w.lex.hash ds false g0.rules ∧
    refine w.ref "g" fuel reg g0 = .ok (reg', g) ∧ KeysIn ρ g.regexps ∧ HoldsDefs w.lex.hash ds true g0.frames

/-- the index is built from these definitions and the included files -/
def IndexOf (w : LoadWorld) (ds : List Def) (ld : Loaded) : Prop :=
  ∃ g0, GrammarWF w.lex g0 ∧ HoldsDefs w.lex.hash ds false g0.rules ∧ HoldsDefs w.lex.hash ds true g0.frames ∧
    (∃ fuel reg reg', refine w.ref "g" fuel reg g0 = .ok (reg', ld.gram.main)) ∧
    buildIndex w.idx ⟨g0, ld.gram.includes⟩ = .ok ld.index

/-- a file with the definitions and regexps of `F`, the regexps among `R` -/
def GoodFile (w : LoadWorld) (F : Files) (R : String → String → Prop) (q : String) : Prop :=
  (∀ t, w.read q = some t → runeError ∉ t ∧ FileSyn w.lex t (F.defs q) (F.regexps q)) ∧
  NoCollision w.lex.hash (F.defs q) ∧ ∀ e ∈ F.regexps q, R e.1 e.2

theorem mem_mapSet_str {ν : Type} {m : List (String × ν)} {k : String} {v : ν} {e : String × ν}
    (h : e ∈ mapSet m k v) : e = (k, v) ∨ e ∈ m := by
  induction m with
  | nil => simp [mapSet] at h; exact .inl h
  | cons x m ih =>
    obtain ⟨a, b⟩ := x
    rw [mapSet] at h
    split at h
    · rename_i ha
      rcases List.mem_cons.1 h with rfl | h
      · simp at ha; exact .inl (by rw [ha])
      · exact .inr (List.mem_cons_of_mem _ h)
    · rcases List.mem_cons.1 h with rfl | h
      · exact .inr List.mem_cons_self
      · rcases ih h with h | h
        · exact .inl h
        · exact .inr (List.mem_cons_of_mem _ h)

theorem mem_merge {b : List (String × String)} : ∀ {a : List (String × String)} {e : String × String},
    e ∈ b.foldl (fun m e => mapSet m e.1 e.2) a → e ∈ a ∨ e ∈ b := by
  induction b with
  | nil => intro a e h; exact .inl h
  | cons x b ih =>
    intro a e h
    rcases ih h with h | h
    · rcases mem_mapSet_str h with h | h
      · exact .inr (by simp [h])
      · exact .inl h
    · exact .inr (List.mem_cons_of_mem _ h)

/-- what is known of a loaded grammar -/
structure WholeOK (w : LoadWorld) (F : Files) (R : String → String → Prop) (ds : List Def) (ρ : List (String × String))
    (ld : Loaded) : Prop where
  main : FileOf w ds ρ ld.gram.main
  includes : ∀ g ∈ ld.gram.includes, FileOf w (F.defs g.name) (F.regexps g.name) g
  wf : RegWF w.lex ld.gram.main.regexps
  regexps : ∀ e ∈ ld.gram.main.regexps, R e.1 e.2
  index : IndexOf w ds ld

section
variable {w : LoadWorld} {F : Files} {R : String → String → Prop} {G : String → Prop} (hw : w.lex.OK)
  (hG : ∀ q, G q → GoodFile w F R q)
  (hstep : ∀ q t d f, G q → w.read q = some t → w.dir q = some d → Target w.lex t f → G (w.join d f))
include hw hG hstep

omit hG hstep in
theorem whole_directives {inc : String → LoadSt → Out (Option Loaded × LoadSt)}
    (hinc : ∀ p st ld st', G p → inc p st = .ok (some ld, st') → WholeOK w F R (F.defs p) (F.regexps p) ld ∧ ld.gram.main.name = p)
    {inp : List Char} (hg : runeError ∉ inp) {dir : String} {f0 : Nat} {ds : List Def} {ρ : List (String × String)} (n : Nat) :
    ∀ {gs : List Grammar} {st : LoadSt} {ps : PSt} {gs' : List Grammar} {st' : LoadSt} {ps' : PSt},
      directives w inc inp dir f0 n gs st ps = .ok ((gs', st'), ps') →
      (∀ f, Target w.lex (inp.drop ps.pos) f → G (w.join dir f)) →
      FileSyn w.lex (inp.drop ps.pos) ds ρ → RegWF w.lex ps.regexps → (∀ e ∈ ps.regexps, R e.1 e.2) →
      (∀ g ∈ gs, FileOf w (F.defs g.name) (F.regexps g.name) g) →
      DefsSyn w.lex (inp.drop ps'.pos) ds [] ρ ∧ RegWF w.lex ps'.regexps ∧ (∀ e ∈ ps'.regexps, R e.1 e.2) ∧
        ∀ g ∈ gs', FileOf w (F.defs g.name) (F.regexps g.name) g := by
  induction n with
  | zero => intro _ _ _ _ _ _ h; cases h
  | succ n ih =>
    intro gs st ps gs' st' ps' h ht hsyn hρ hR hgs
    rw [directives_succ] at h
    obtain ⟨⟨o, ps1⟩, h1, h⟩ := Out.bind_eq_ok.mp h
    obtain ⟨hρ1, -⟩ := post_directive _ _ _ hρ h1
    generalize hl : inp.drop ps.pos = l at hsyn ht
    cases hsyn with
    | defs hd =>
      obtain ⟨rfl, e, hd'⟩ := directive_defs hg hw hd hl h1
      cases h
      exact ⟨hd', hρ1.wf, by rw [e]; exact hR, hgs⟩
    | @incl t l f ds ρ hi hsyn =>
      obtain ⟨s', e, hs'⟩ := reads_directive (ρ := ps.regexps) hg hw (r := l) hi
        (n := max f0 ((t ++ l).length + 1)) (by omega) ps ⟨hl, rfl⟩
      have e2 : directive w.lex inp (max f0 ((t ++ l).length + 1)) ps = directive w.lex inp f0 ps :=
        le_directive _ _ (Nat.le_max_left _ _) ps (by rw [h1]; simp)
      rw [e2, h1] at e
      cases e
      have ht' : ∀ f, Target w.lex (inp.drop ps1.pos) f → G (w.join dir f) := fun f' hf' =>
        ht f' (target_tail hi (by rw [hs'.1] at hf'; exact hf'))
      have hsyn' : FileSyn w.lex (inp.drop ps1.pos) ds ρ := by rw [hs'.1]; exact hsyn
      have hR1 : ∀ e ∈ ps1.regexps, R e.1 e.2 := by rw [hs'.2]; exact hR
      obtain ⟨⟨r, st1⟩, h2, h⟩ := Out.bind_eq_ok.mp h
      cases r with
      | none => exact ih h ht' hsyn' hρ1.wf hR1 hgs
      | some ld =>
        obtain ⟨hld, hn⟩ := hinc _ _ _ _ (ht f (target_cons hi)) h2
        refine ih h ht' hsyn' (RegStep.merge hld.wf hρ1.wf).1.wf (fun e he => ?_) fun g hg => ?_
        · rcases mem_merge he with he | he
          · exact hR1 e he
          · exact hld.regexps e he
        · rw [List.append_assoc, List.singleton_append] at hg
          rcases List.mem_append.mp hg with hg | hg
          · exact hgs g hg
          · rcases List.mem_cons.mp hg with rfl | hg
            · rw [hn]; exact hld.main
            · exact hld.includes g hg

omit hG hstep in
theorem whole_fromString {inc : String → LoadSt → Out (Option Loaded × LoadSt)}
    (hinc : ∀ p st ld st', G p → inc p st = .ok (some ld, st') → WholeOK w F R (F.defs p) (F.regexps p) ld ∧ ld.gram.main.name = p)
    {fuel : Nat} {d : List Char} (hg : runeError ∉ d) {ds : List Def} {ρ : List (String × String)}
    (hsyn : FileSyn w.lex d ds ρ) (hc : NoCollision w.lex.hash ds) (hR : ∀ e ∈ ρ, R e.1 e.2) {name dir : String}
    (ht : ∀ f, Target w.lex d f → G (w.join dir f)) {st st' : LoadSt} {ld : Loaded}
    (h : fromString w inc fuel d name dir st = .ok (some ld, st')) :
    WholeOK w F R ds ρ ld ∧ ld.gram.main.name = name := by
  unfold fromString at h
  split at h
  · cases h
  obtain ⟨⟨ld', st1⟩, h1, h2⟩ := Out.bind_eq_ok.mp h
  cases h2
  unfold grammarText at h1
  obtain ⟨⟨⟨gs, st2⟩, ps⟩, h3, h1⟩ := Out.bind_eq_ok.mp h1
  obtain ⟨⟨g, ps'⟩, h4, h1⟩ := Out.bind_eq_ok.mp h1
  obtain ⟨gi, h5, h1⟩ := Out.bind_eq_ok.mp h1
  obtain ⟨⟨reg, g'⟩, h6, h1⟩ := Out.bind_eq_ok.mp h1
  cases h1
  obtain ⟨hd, hρ, hR1, hgs⟩ := whole_directives hw hinc hg _ h3 ht hsyn ⟨KeysNodup.nil, by simp⟩ (by simp) (by simp)
  obtain ⟨hρ2, hname, hwf⟩ := post_grammarRules hw _ _ _ hρ h4
  obtain ⟨-, e2, -, e3, -⟩ := C25_structure hwf.unrefined h6
  obtain ⟨δ, he, hall⟩ := hd.table
  obtain ⟨ρ0, hd', he'⟩ := hall ps.regexps
  obtain ⟨e4, h7, h8⟩ := grammarRules_defs hg hw hd' hc rfl h4
  have hδ : ∀ k v, δ k = some v → (k, v) ∈ ρ := fun k v hk => mem_of_lookup (by rw [he k, hk]; rfl)
  refine ⟨⟨⟨g, _, _, _, hwf, h7, h6, ?_, h8⟩, hgs, ?_, ?_, g, hwf, h7, h8, ⟨_, _, _, h6⟩, h5⟩, e2.trans hname⟩
  · rw [e3, e4]
    intro e hm
    have : (ρ.lookup e.1).isSome := KeysIn.refl ρ e hm
    rw [he e.1] at this
    rw [he' e.1]
    simp only [List.lookup_nil, Option.or_none] at this
    obtain ⟨v, hv⟩ := Option.isSome_iff_exists.mp this
    rw [hv]
    rfl
  · show RegWF _ g'.regexps
    rw [e3]
    exact ⟨hwf.regexpKeys, hwf.regexps⟩
  · show ∀ e ∈ g'.regexps, _
    rw [e3]
    intro e hm
    have hlk : g.regexps.lookup e.1 = some e.2 := (show KeysNodup g.regexps from hwf.regexpKeys).lookup.mpr hm
    rw [e4, he' e.1] at hlk
    cases hk : δ e.1 with
    | some v =>
      rw [hk] at hlk
      cases hlk
      exact hR _ (hδ _ _ hk)
    | none =>
      rw [hk] at hlk
      exact hR1 e (mem_of_lookup hlk)

theorem whole_fromFile {fuel : Nat} (depth : Nat) :
    ∀ p st ld st', G p → fromFile w fuel depth p st = .ok (some ld, st') →
      WholeOK w F R (F.defs p) (F.regexps p) ld ∧ ld.gram.main.name = p := by
  induction depth with
  | zero => intro p st ld st' _ h; cases h
  | succ depth ih =>
    intro p st ld st' hp h
    unfold fromFile at h
    split at h
    · cases h
    · split at h
      · cases h
      · rename_i t hr
        split at h
        · cases h
        · rename_i d hd
          obtain ⟨h1, h2, h3⟩ := hG p hp
          obtain ⟨h4, h5⟩ := h1 t hr
          exact whole_fromString hw ih h4 h5 h2 h3 (fun f hf => hstep p t d f hp hr hd hf) h

end

/-- what is known of a grammar loaded from a text -/
theorem whole_string {w : LoadWorld} (hw : w.lex.OK) {F : Files} {text : List Char} {ds : List Def}
    {ρ : List (String × String)} (hg : runeError ∉ text) (hsyn : FileSyn w.lex text ds ρ) (hc : NoCollision w.lex.hash ds)
    (hF : FilesRead w F (Includes w "." text)) {fuel depth : Nat} {name : String} {reg : Registry} {ld : Loaded} {st : LoadSt}
    (h : loadString w fuel depth text name reg = .ok (some ld, st)) :
    WholeOK w F (wholeRegexps F (Includes w "." text) ρ) ds ρ ld := by
  have hG : ∀ q, Includes w "." text q → GoodFile w F (wholeRegexps F (Includes w "." text) ρ) q := fun q hq =>
    ⟨fun t => hF.read q t hq, hF.hash q hq, fun e he => .inr ⟨q, hq, he⟩⟩
  exact (whole_fromString hw (whole_fromFile hw hG (fun q t d f hq hr hd hf => .step hq hr hd hf) depth) hg hsyn hc
    (fun e he => .inl he) (fun f hf => .direct hf) h).1

/-- what is known of a grammar loaded from a file -/
theorem whole_file {w : LoadWorld} (hw : w.lex.OK) {F : Files} {file dir : String} {text : List Char}
    (hr : w.read file = some text) (hd : w.dir file = some dir)
    (hF : FilesRead w F (fun q => q = file ∨ Includes w dir text q)) {fuel depth : Nat} {reg : Registry} {ld : Loaded}
    {st : LoadSt} (h : loadFile w fuel depth file reg = .ok (some ld, st)) :
    WholeOK w F (wholeRegexps F (fun q => Includes w dir text q ∧ q ≠ file) (F.regexps file))
      (F.defs file) (F.regexps file) ld := by
  have hR : ∀ q, (q = file ∨ Includes w dir text q) → ∀ e ∈ F.regexps q,
      wholeRegexps F (fun q => Includes w dir text q ∧ q ≠ file) (F.regexps file) e.1 e.2 := by
    intro q hq e he
    by_cases hne : q = file
    · subst hne
      exact .inl he
    · exact .inr ⟨q, ⟨hq.resolve_left hne, hne⟩, he⟩
  have hG : ∀ q, Includes w dir text q →
      GoodFile w F (wholeRegexps F (fun q => Includes w dir text q ∧ q ≠ file) (F.regexps file)) q := fun q hq =>
    ⟨fun t => hF.read q t (.inr hq), hF.hash q (.inr hq), hR q (.inr hq)⟩
  unfold loadFile at h
  rw [hr] at h
  simp only [hd] at h
  obtain ⟨h1, h2⟩ := hF.read file text (.inl rfl) hr
  exact (whole_fromString hw (whole_fromFile hw hG (fun q t d f hq hr hd hf => .step hq hr hd hf) depth) h1 h2
    (hF.hash file (.inl rfl)) (hR file (.inl rfl)) (fun f hf => .direct hf) h).1

end Fmr
