import Verif.Spec.LoadedBefore
import Verif.Props.Meanwhile
import Verif.Props.Loaded
import Verif.Props.Alike
import Verif.Props.FrameWitness

/-!
# C108: what was loaded before does not matter
-/

namespace Fmr

theorem After.refl {annot : String → Option (List Token)} (reg : Registry) : After annot reg reg :=
  ⟨fun _ _ h => h, fun _ _ h => .inl h⟩

theorem After.trans {annot : String → Option (List Token)} {a b c : Registry} (h : After annot a b) (h' : After annot b c) :
    After annot a c :=
  ⟨fun k v hk => h'.keeps k v (h.keeps k v hk), fun k v hk => (h'.adds k v hk).elim (fun e => h.adds k v e) .inr⟩

/-! ## refining -/

theorem same_literalLoop (w : RefineWorld) (m : Meta) : ∀ (ts : List Token) (tname : String) (terms : List Term) (reg reg' : Registry),
    (literalLoop w m ts tname terms reg').1 = (literalLoop w m ts tname terms reg).1 ∧
    (literalLoop w m ts tname terms reg').2.1 = (literalLoop w m ts tname terms reg).2.1
  | [], _, _, _, _ => ⟨rfl, rfl⟩
  | t :: ts, tname, terms, reg, reg' => by
    unfold literalLoop
    split
    · exact same_literalLoop w m ts _ _ _ _
    · exact same_literalLoop w m ts _ _ _ _

/-- the same but for the registry -/
def SameSt (a b : RefineSt) : Prop := b.terminalRules = a.terminalRules ∧ b.terminals = a.terminals ∧ b.names = a.names

theorem both_refl {α : Type} {r : α → α → Prop} (hr : ∀ a, r a a) (x : Out α) : x.Both r x := by
  cases x <;> first | exact hr _ | trivial

theorem same_refineTerm (w : RefineWorld) (pre : String) (rules : List (String × Rule)) (fuel : Nat) {a b : RefineSt} (h : SameSt a b)
    (t : Term) : (refineTerm w pre rules fuel a t).Both (fun x y => SameSt x.1 y.1 ∧ y.2 = x.2) (refineTerm w pre rules fuel b t) := by
  obtain ⟨h1, h2, h3⟩ := h
  unfold refineTerm
  split
  · exact ⟨⟨h1, h2, h3⟩, rfl⟩
  · rw [h2]
    split
    · exact ⟨⟨h1, h2, h3⟩, rfl⟩
    · refine Out.Both.bind (both_refl (r := Eq) (fun _ => rfl) _) ?_
      rintro toks _ rfl
      obtain ⟨e1, e2⟩ := same_literalLoop w t.meta toks (pre ++ "_t") [] a.reg b.reg
      revert e1 e2
      generalize literalLoop w t.meta toks (pre ++ "_t") [] a.reg = x
      generalize literalLoop w t.meta toks (pre ++ "_t") [] b.reg = y
      obtain ⟨x1, x2, x3⟩ := x
      obtain ⟨y1, y2, y3⟩ := y
      rintro ⟨⟩ ⟨⟩
      dsimp only
      rw [h3]
      refine Out.Both.bind (both_refl (r := Eq) (fun _ => rfl) _) ?_
      rintro name _ rfl
      refine Out.Both.bind (both_refl (r := Eq) (fun _ => rfl) _) ?_
      rintro hh _ rfl
      refine ⟨⟨?_, rfl, rfl⟩, rfl⟩
      simp [h1]

theorem same_mapState {σ α : Type} {S : σ → σ → Prop} {f : σ → α → Out (σ × α)}
    (hf : ∀ a b x, S a b → (f a x).Both (fun x y => S x.1 y.1 ∧ y.2 = x.2) (f b x)) : ∀ (l : List α) (a b : σ), S a b →
    (mapState f a l).Both (fun x y => S x.1 y.1 ∧ y.2 = x.2) (mapState f b l)
  | [], _, _, h => ⟨h, rfl⟩
  | x :: l, a, b, h => by
    unfold mapState
    refine Out.Both.bind (hf a b x h) ?_
    rintro ⟨a1, x1⟩ ⟨b1, y1⟩ ⟨h1, h2⟩
    dsimp only at h1 h2
    subst h2
    refine Out.Both.bind (same_mapState hf l a1 b1 h1) ?_
    rintro ⟨a2, x2⟩ ⟨b2, y2⟩ ⟨h3, h4⟩
    dsimp only at h3 h4
    subst h4
    exact ⟨h3, rfl⟩

/-- The refined grammar does not depend on the registry. -/
theorem same_refine (w : RefineWorld) (pre : String) (fuel : Nat) (reg reg' : Registry) (g : Grammar) :
    (refine w pre fuel reg g).Both (fun x y => y.2 = x.2) (refine w pre fuel reg' g) := by
  unfold refine
  split
  · rfl
  · refine Out.Both.bind (same_mapState (S := SameSt) (fun a b e h => ?_) g.rules { reg := reg } { reg := reg' } ⟨rfl, rfl, rfl⟩) ?_
    · unfold refineRule
      refine Out.Both.bind (same_mapState (S := SameSt) (fun a b e h => ?_) e.2.body a b h) ?_
      · unfold refineBody
        refine Out.Both.bind (same_mapState (S := SameSt) (fun a b t h => same_refineTerm w pre g.rules fuel h t) e.2.terms a b h) ?_
        rintro ⟨a1, x1⟩ ⟨b1, y1⟩ ⟨h1, h2⟩
        dsimp only at h1 h2
        subst h2
        exact ⟨h1, rfl⟩
      · rintro ⟨a1, x1⟩ ⟨b1, y1⟩ ⟨h1, h2⟩
        dsimp only at h1 h2
        subst h2
        exact ⟨h1, rfl⟩
    · rintro ⟨a1, x1⟩ ⟨b1, y1⟩ ⟨h1, h2⟩
      dsimp only at h1 h2
      subst h2
      simp [Out.Both, h1.1]

/-! ## loading -/

/-- the same but for the registry -/
def SameLoadSt (a b : LoadSt) : Prop := b.files = a.files ∧ b.log = a.log

theorem SameLoadSt.count {a b : LoadSt} (h : SameLoadSt a b) (k : String) : b.count k = a.count k := by
  simp [LoadSt.count, h.1]

theorem SameLoadSt.incr {a b : LoadSt} (h : SameLoadSt a b) (k : String) : SameLoadSt (a.incr k) (b.incr k) :=
  ⟨by simp [LoadSt.incr, h.1, h.count], h.2⟩

/-- the same grammar, or none -/
def SameLoad {α : Type} (x y : α × LoadSt) : Prop := y.1 = x.1 ∧ SameLoadSt x.2 y.2

/-- a loader for which the registry does not matter -/
def Indifferent (inc : String → LoadSt → Out (Option Loaded × LoadSt)) : Prop :=
  ∀ p a b, SameLoadSt a b → (inc p a).Both SameLoad (inc p b)

section
variable {w : LoadWorld} {inc : String → LoadSt → Out (Option Loaded × LoadSt)}

theorem same_directives (hinc : Indifferent inc) {inp : List Char} {dir : String} {f0 : Nat} :
    ∀ (n : Nat) (gs : List Grammar) (a b : LoadSt) (ps : PSt), SameLoadSt a b →
    (directives w inc inp dir f0 n gs a ps).Both (fun x y => y.2 = x.2 ∧ SameLoad x.1 y.1) (directives w inc inp dir f0 n gs b ps)
  | 0, _, _, _, _, _ => trivial
  | n+1, gs, a, b, ps, h => by
    rw [directives_succ, directives_succ]
    refine Out.Both.bind (both_refl (r := Eq) (fun _ => rfl) _) ?_
    rintro ⟨o, ps1⟩ _ rfl
    cases o with
    | none => exact ⟨rfl, rfl, h⟩
    | some ifile =>
      refine Out.Both.bind (hinc _ _ _ (h.incr _)) ?_
      rintro ⟨r, a1⟩ ⟨r', b1⟩ ⟨h1, h2⟩
      dsimp only at h1 h2
      subst h1
      cases r' with
      | none => exact same_directives hinc n _ _ _ _ h2
      | some ld => exact same_directives hinc n _ _ _ _ h2

theorem same_fromString (hinc : Indifferent inc) {fuel : Nat} {d : List Char} {name dir : String} {a b : LoadSt} (h : SameLoadSt a b) :
    (fromString w inc fuel d name dir a).Both SameLoad (fromString w inc fuel d name dir b) := by
  unfold fromString
  rw [h.count]
  split
  · exact ⟨rfl, h⟩
  · refine Out.Both.bind (r := SameLoad) ?_ ?_
    · unfold grammarText
      refine Out.Both.bind (same_directives hinc fuel [] a b _ h) ?_
      rintro ⟨⟨gs, a1⟩, ps⟩ ⟨⟨gs', b1⟩, ps'⟩ ⟨h1, h2, h3⟩
      dsimp only at h1 h2 h3
      subst h1 h2
      refine Out.Both.bind (both_refl (r := Eq) (fun _ => rfl) _) ?_
      rintro ⟨g, ps1⟩ _ rfl
      refine Out.Both.bind (both_refl (r := Eq) (fun _ => rfl) _) ?_
      rintro gi _ rfl
      refine Out.Both.bind (same_refine w.ref "g" fuel a1.reg b1.reg g) ?_
      rintro ⟨r1, g1⟩ ⟨r2, g2⟩ e
      dsimp only at e
      subst e
      exact ⟨rfl, h3⟩
    · rintro ⟨l, a1⟩ ⟨l', b1⟩ ⟨h1, h2⟩
      dsimp only at h1 h2
      subst h1
      exact ⟨rfl, h2.incr _⟩

theorem same_fromFile {fuel : Nat} : ∀ depth, Indifferent (fromFile w fuel depth)
  | 0, _, _, _, _ => trivial
  | depth+1, p, a, b, h => by
    unfold fromFile
    rw [h.count]
    split
    · exact ⟨rfl, h⟩
    · split
      · trivial
      · split
        · trivial
        · exact same_fromString (same_fromFile depth) ⟨h.1, by simp [h.2]⟩

end

/-- C108 for the grammar: whether a load succeeds, which files it reads, and which grammar and index it gives does not depend
on what was loaded before. -/
theorem C108_grammar (w : LoadWorld) (fuel depth : Nat) (reg reg' : Registry) :
    (∀ d name, (loadString w fuel depth d name reg).Both SameLoad (loadString w fuel depth d name reg')) ∧
    ∀ file, (loadFile w fuel depth file reg).Both SameLoad (loadFile w fuel depth file reg') := by
  refine ⟨fun d name => same_fromString (same_fromFile depth) ⟨rfl, rfl⟩, fun file => ?_⟩
  unfold loadFile
  split
  · trivial
  · split
    · trivial
    · exact same_fromString (same_fromFile depth) ⟨rfl, rfl⟩

/-- A call of `GrammarFromString` or `GrammarFromFile` with the given registry. -/
def Loads (w : LoadWorld) (fuel depth : Nat) (src : (List Char × String) ⊕ String) (reg : Registry) : Out (Option Loaded × LoadSt) :=
  match src with
  | .inl d => loadString w fuel depth d.1 d.2 reg
  | .inr file => loadFile w fuel depth file reg

theorem loads_same {w : LoadWorld} {fuel depth : Nat} {src : (List Char × String) ⊕ String} {reg reg' : Registry} {ld ld' : Loaded}
    {st st' : LoadSt} (h : Loads w fuel depth src reg = .ok (some ld, st)) (h' : Loads w fuel depth src reg' = .ok (some ld', st')) :
    ld' = ld := by
  have hb : (Loads w fuel depth src reg).Both SameLoad (Loads w fuel depth src reg') := by
    cases src with
    | inl d => exact (C108_grammar w fuel depth reg reg').1 d.1 d.2
    | inr file => exact (C108_grammar w fuel depth reg reg').2 file
  rw [h, h'] at hb
  exact Option.some.inj hb.1

/-! ## the registry after a load -/

/-- every literal of the grammars has a token -/
def HaveTokens (reg : Registry) (gs : List Grammar) : Prop :=
  ∀ t, AnyLiteral gs t → ∃ v, reg.lookup t.value = some v

theorem HaveTokens.mono {annot : String → Option (List Token)} {reg reg' : Registry} {gs : List Grammar} (h : HaveTokens reg gs)
    (ha : After annot reg reg') : HaveTokens reg' gs := fun t ht => by
  obtain ⟨v, hv⟩ := h t ht
  exact ⟨v, ha.keeps _ _ hv⟩

theorem HaveTokens.append {reg : Registry} {a b : List Grammar} (h : HaveTokens reg a) (h' : HaveTokens reg b) :
    HaveTokens reg (a ++ b) := by
  rintro t ⟨h1, A, g, r, b, -, h2, h3⟩
  rcases List.mem_append.1 h2 with h2 | h2
  · exact h t ⟨h1, A, g, r, b, trivial, h2, h3⟩
  · exact h' t ⟨h1, A, g, r, b, trivial, h2, h3⟩

/-- what a load does to the registry -/
def Registers (w : LoadWorld) (st : LoadSt) (x : Option Loaded × LoadSt) : Prop :=
  After w.ref.annot st.reg x.2.reg ∧ ∀ ld ∈ x.1, HaveTokens x.2.reg ([ld.gram.main] ++ ld.gram.includes)

section
variable {w : LoadWorld} {inc : String → LoadSt → Out (Option Loaded × LoadSt)}

theorem registers_directives (hinc : ∀ p st x, inc p st = .ok x → Registers w st x) {inp : List Char} {dir : String} {f0 : Nat} :
    ∀ (n : Nat) {gs : List Grammar} {st : LoadSt} {ps : PSt} {gs' : List Grammar} {st' : LoadSt} {ps' : PSt},
      directives w inc inp dir f0 n gs st ps = .ok ((gs', st'), ps') → HaveTokens st.reg gs →
      After w.ref.annot st.reg st'.reg ∧ HaveTokens st'.reg gs'
  | 0, _, _, _, _, _, _, h, _ => by cases h
  | n+1, gs, st, ps, gs', st', ps', h, hg => by
    rw [directives_succ] at h
    obtain ⟨⟨o, ps1⟩, h1, h⟩ := Out.bind_eq_ok.mp h
    cases o with
    | none => cases h; exact ⟨.refl _, hg⟩
    | some ifile =>
      obtain ⟨⟨r, st1⟩, h2, h⟩ := Out.bind_eq_ok.mp h
      obtain ⟨k1, k2⟩ := hinc _ _ _ h2
      have k1 : After w.ref.annot st.reg st1.reg := k1
      cases r with
      | none =>
        obtain ⟨e1, e2⟩ := registers_directives hinc n h (hg.mono k1)
        exact ⟨k1.trans e1, e2⟩
      | some ld =>
        obtain ⟨e1, e2⟩ := registers_directives hinc n h (by
          rw [List.append_assoc]
          exact (hg.mono k1).append (k2 ld rfl))
        exact ⟨k1.trans e1, e2⟩

theorem registers_fromString (hw : w.lex.OK) (hinc : ∀ p st x, inc p st = .ok x → Registers w st x) {fuel : Nat} {d : List Char}
    {name dir : String} (hρ : ∀ gs st ps, directives w inc d dir fuel fuel [] st { pos := 0, width := 0 } = .ok (gs, ps) → RegWF w.lex ps.regexps)
    {st : LoadSt} {x : Option Loaded × LoadSt} (h : fromString w inc fuel d name dir st = .ok x) : Registers w st x := by
  unfold fromString at h
  split at h
  · cases h
    exact ⟨.refl _, by simp⟩
  obtain ⟨⟨ld', st1⟩, h1, h2⟩ := Out.bind_eq_ok.mp h
  cases h2
  unfold grammarText at h1
  obtain ⟨⟨⟨gs, st2⟩, ps⟩, h3, h1⟩ := Out.bind_eq_ok.mp h1
  obtain ⟨⟨g, ps'⟩, h4, h1⟩ := Out.bind_eq_ok.mp h1
  obtain ⟨gi, h5, h1⟩ := Out.bind_eq_ok.mp h1
  obtain ⟨⟨reg, g'⟩, h6, h1⟩ := Out.bind_eq_ok.mp h1
  cases h1
  obtain ⟨k1, k2⟩ := registers_directives hinc _ h3 (fun t ht => by obtain ⟨-, A, g, r, b, -, hg, -⟩ := ht; cases hg)
  obtain ⟨-, -, hwf⟩ := post_grammarRules hw _ _ _ (hρ _ _ _ h3) h4
  obtain ⟨c1, c2, c3⟩ := C55_registry hwf.unrefined h6
  have hA : After w.ref.annot st2.reg reg := ⟨c1, fun k v hk => (c3 k v hk).imp_right fun ⟨e1, t, _, toks, e2, e3⟩ => ⟨e1, _, toks, e2, e3⟩⟩
  refine ⟨k1.trans hA, ?_⟩
  rintro _ ⟨⟩
  refine HaveTokens.append ?_ (k2.mono hA)
  rintro t ⟨t1, A, g, r, b, -, t2, t3, t4, t5⟩
  obtain rfl := List.mem_singleton.1 t2
  exact c2 A b.terms ⟨r, t3, b, t4, rfl⟩ t t5 t1

theorem directives_regexps (hw : w.lex.OK) {fuel depth : Nat} {d : List Char} {dir : String} {gs : List Grammar × LoadSt} {st : LoadSt} {ps : PSt}
    (h : directives w (fromFile w fuel depth) d dir fuel fuel [] st { pos := 0, width := 0 } = .ok (gs, ps)) : RegWF w.lex ps.regexps :=
  (origin_directives hw (origin_fromFile hw depth) _ (gs' := gs.1) (st' := gs.2) h ⟨KeysNodup.nil, by simp⟩ (by simp)).1

theorem registers_fromFile (hw : w.lex.OK) {fuel : Nat} : ∀ (depth : Nat) p st x, fromFile w fuel depth p st = .ok x → Registers w st x
  | 0, _, _, _, h => by cases h
  | depth+1, p, st, x, h => by
    unfold fromFile at h
    split at h
    · cases h; exact ⟨.refl _, by simp⟩
    · split at h
      · cases h
      · split at h
        · cases h
        · exact registers_fromString (st := { st with log := st.log ++ [p] }) hw (registers_fromFile hw depth)
            (fun _ _ _ => directives_regexps hw) h

end

theorem registers_loads {w : LoadWorld} (hw : w.lex.OK) {fuel depth : Nat} {src : (List Char × String) ⊕ String} {reg : Registry}
    {o : Option Loaded} {st : LoadSt} (h : Loads w fuel depth src reg = .ok (o, st)) :
    After w.ref.annot reg st.reg ∧ ∀ ld ∈ o, HaveTokens st.reg ([ld.gram.main] ++ ld.gram.includes) := by
  cases src with
  | inl d => exact registers_fromString (st := { reg := reg }) hw (registers_fromFile hw depth) (fun _ _ _ => directives_regexps hw) h
  | inr file =>
    unfold Loads loadFile at h
    dsimp only at h
    split at h
    · cases h
    · split at h
      · cases h
      · exact registers_fromString (st := { files := [(file, 1)], reg := reg }) hw (registers_fromFile hw depth)
          (fun _ _ _ => directives_regexps hw) h

/-! ## parsing -/

section
variable {w : World} {g : Gram} {R : String → Option Token} {l : Option Grammar} {starts : List String}

/-- the literals with flags of the grammar have alike tokens in both registries -/
def AlikeRegs (lower : String → String) (R R' : String → Option Token) (g : Gram) : Prop :=
  ∀ t, HasFlags ([g.main] ++ g.includes) t → ∃ v v', R t.value = some v ∧ R' t.value = some v' ∧ v'.lemma_ = v.lemma_ ∧
    lower v'.norm = lower v.norm

theorem regs_earleyParse (ho : w.OrdOK) (hR : AlikeRegs w.lower w.registry R g) (hl : ∀ x ∈ l, ∀ t, AnyLiteral [x] t → t.meta = .nil)
    (fuel : Nat) (flag : Bool) (text : Bytes) (toks : List Token) (call off : Nat) :
    (earleyParse w g fuel flag text toks l starts call off).Both SameRun
      (earleyParse { w with registry := R } g fuel flag text toks l starts call off) := by
  have hp : parse (envFor { w with registry := R } g l toks starts call) flag fuel = parse (envFor w g l toks starts call) flag fuel := by
    refine alike_parse (alike_at (envFor w g l toks starts call) (terminalMatch w.lower R) (fun t ht a _ => ?_)) (ho call) flag fuel
    refine terminalMatch_same (fun hne => ?_) a
    obtain ⟨t1, A, x, r, b, -, t2, t3⟩ := ht
    unfold envFor at t2
    rcases List.mem_append.1 t2 with t2 | t2
    · exact hR t (AnyLiteral.hasFlags ⟨t1, A, x, r, b, trivial, t2, t3⟩ hne)
    · cases l with
      | none => cases t2
      | some y =>
        exact absurd (hl y rfl t ⟨t1, A, x, r, b, trivial, t2, t3⟩) hne
  unfold earleyParse
  split
  · trivial
  · split
    · trivial
    · simp only [hp]
      cases parse (envFor w g l toks starts call) flag fuel with
      | none => trivial
      | some r => exact ⟨rfl, rfl, rfl⟩

theorem regs_anyLoop (ho : w.OrdOK) (hR : AlikeRegs w.lower w.registry R g) (hl : ∀ x ∈ l, ∀ t, AnyLiteral [x] t → t.meta = .nil)
    (fuel : Nat) (text : Bytes) : ∀ (toks : List Token) (i : Nat) {p p' : Option Parsed}, Option.Rel SameRun p p' →
    (parseAnyLoop w g fuel text l starts toks i p).Both (Option.Rel SameRun)
      (parseAnyLoop { w with registry := R } g fuel text l starts toks i p')
  | [], i, p, p', hp => by unfold parseAnyLoop; exact hp
  | t :: ts, i, p, p', hp => by
    unfold parseAnyLoop
    refine (regs_earleyParse ho hR hl fuel true text (t :: ts) i i).bind (fun a b hab => ?_)
    rw [hab.1]
    split
    · exact .some hab
    · exact regs_anyLoop ho hR hl fuel text ts (i+1) (.some hab)

theorem regs_maxAllLoop (ho : w.OrdOK) (hR : AlikeRegs w.lower w.registry R g) (hl : ∀ x ∈ l, ∀ t, AnyLiteral [x] t → t.meta = .nil)
    (fuel : Nat) (text : Bytes) (toks : List Token) : ∀ n call i,
    (maxAllLoop w g fuel text toks l starts n call i).Both (List.Forall₂ SameRun)
      (maxAllLoop { w with registry := R } g fuel text toks l starts n call i)
  | 0, _, _ => trivial
  | n+1, call, i => by
    unfold maxAllLoop
    split
    · refine (regs_earleyParse ho hR hl fuel true text (toks.drop i) call i).bind (fun a b hab => ?_)
      rw [hab.1]
      split
      · refine (regs_maxAllLoop ho hR hl fuel text toks n _ _).bind (fun r r' hr => ?_)
        exact List.Forall₂.cons hab hr
      · exact regs_maxAllLoop ho hR hl fuel text toks n _ _
    · exact List.Forall₂.nil

theorem regs_allLoop (ho : w.OrdOK) (hR : AlikeRegs w.lower w.registry R g) (hl : ∀ x ∈ l, ∀ t, AnyLiteral [x] t → t.meta = .nil)
    (fuel : Nat) (text : Bytes) : ∀ (toks : List Token) (i : Nat),
    (parseAllLoop w g fuel text l starts toks i).Both (List.Forall₂ SameRun)
      (parseAllLoop { w with registry := R } g fuel text l starts toks i)
  | [], i => by unfold parseAllLoop; exact List.Forall₂.nil
  | t :: ts, i => by
    unfold parseAllLoop
    refine (regs_earleyParse ho hR hl fuel false text (t :: ts) i i).bind (fun a b hab => ?_)
    refine (regs_allLoop ho hR hl fuel text ts (i+1)).bind (fun r r' hr => ?_)
    rw [hab.1]
    split
    · exact List.Forall₂.cons hab hr
    · exact hr

end

/-- The trees of each of the four calls are the same. -/
def SameAnswers (w w' : World) (g : Gram) : Prop :=
  ∀ fuel context text starts,
    apiParse w' g fuel context text starts = apiParse w g fuel context text starts ∧
    apiParseAny w' g fuel context text starts = apiParseAny w g fuel context text starts ∧
    apiExtractMaxAll w' g fuel context text starts = apiExtractMaxAll w g fuel context text starts ∧
    apiExtractAll w' g fuel context text starts = apiExtractAll w g fuel context text starts

theorem process_plain {w : World} {g : Gram} {context : String} {text : Bytes} {toks : List Token} {l : Option Grammar}
    (h : process w g context text = .ok (toks, l)) : ∀ x ∈ l, ∀ t, AnyLiteral [x] t → t.meta = .nil := by
  unfold process at h
  simp only at h
  split at h
  · cases h
  split at h
  · cases h
  split at h
  · cases h
  obtain ⟨l', h1, h2⟩ := Out.bind_eq_ok.mp h
  cases h2
  rintro x hx t ⟨-, A, y, r, b, -, t2, t3, t4, t5⟩
  rw [List.mem_singleton] at t2
  subst t2
  rw [Option.mem_def] at hx
  subst hx
  obtain ⟨e, he, rfl⟩ := List.mem_map.1 t4
  exact (((local_rules h1 _ _ t3).2 e he).1 t t5).2

theorem regs_calls {w : World} {g : Gram} {R : String → Option Token} (ho : w.OrdOK) (hR : AlikeRegs w.lower w.registry R g) :
    SameAnswers w { w with registry := R } g := by
  intro fuel context text starts
  have hpr : process { w with registry := R } g context text = process w g context text := rfl
  cases hp : process w g context text with
  | ok a =>
    obtain ⟨toks, l⟩ := a
    have hl := process_plain hp
    rw [hp] at hpr
    refine ⟨?_, ?_, ?_, ?_⟩
    · unfold apiParse earleyParseCtx
      rw [hp, hpr]
      refine alike_extract _ _ ?_
      exact (regs_earleyParse ho hR hl fuel true text toks 0 0).bind (fun a b hab => List.Forall₂.cons hab .nil)
    · unfold apiParseAny earleyParseAny
      rw [hp, hpr]
      refine alike_extract _ _ ?_
      refine (regs_anyLoop ho hR hl fuel text toks 0 .none).bind (fun a b hab => ?_)
      cases hab with
      | none => trivial
      | some h => exact List.Forall₂.cons h .nil
    · unfold apiExtractMaxAll earleyParseMaxAll
      rw [hp, hpr]
      exact alike_extract _ _ (regs_maxAllLoop ho hR hl fuel text toks _ _ _)
    · unfold apiExtractAll earleyParseAll
      rw [hp, hpr]
      exact alike_extract _ _ (regs_allLoop ho hR hl fuel text toks 0)
  | _ =>
    rw [hp] at hpr
    simp [apiParse, apiParseAny, apiExtractMaxAll, apiExtractAll, earleyParseCtx, earleyParseAny, earleyParseMaxAll, earleyParseAll, hp, hpr, extract]

/-! ## loading and parsing -/

/-- Two runs of a program load the same source, after other loads and before other loads. -/
structure TwoRuns (lw : LoadWorld) (fuel depth : Nat) (src : (List Char × String) ⊕ String) (ld : Loaded) (R R' : Registry) : Prop where
  first : ∃ reg st, After lw.ref.annot [] reg ∧ Loads lw fuel depth src reg = .ok (some ld, st) ∧ After lw.ref.annot st.reg R
  second : ∃ reg st, After lw.ref.annot [] reg ∧ Loads lw fuel depth src reg = .ok (some ld, st) ∧ After lw.ref.annot st.reg R'

/-- C108 as claimed: the trees of a grammar depend on it and on the text only, not on what else the program has loaded. -/
def C108_statement : Prop :=
  ∀ (lw : LoadWorld) (w : World) (fuel depth : Nat) (src : (List Char × String) ⊕ String) (ld : Loaded) (R R' : Registry),
    lw.lex.OK → w.OrdOK → TwoRuns lw fuel depth src ld R R' →
    SameAnswers { w with registry := fun k => R.lookup k } { w with registry := fun k => R'.lookup k } ld.gram

/-- a token in the registry of a program -/
theorem After.known {annot : String → Option (List Token)} {R : Registry} (h : After annot [] R) {k : String} {v : Token}
    (hk : R.lookup k = some v) : v.text = k ∧ ∃ lit toks, annot lit = some toks ∧ v ∈ toks :=
  (h.adds k v hk).resolve_left (by simp)

/-- C108 if each word in the literals with flags of the grammar has one lemma and norm, wherever it is found in literals; in particular
for grammars without flags. Missing: annotators for which these depend on the other words of a literal (see `C108_false`). -/
theorem C108_partial {lw : LoadWorld} (hlw : lw.lex.OK) {w : World} (ho : w.OrdOK) {fuel depth : Nat}
    {src : (List Char × String) ⊕ String} {ld : Loaded} {R R' : Registry} (h : TwoRuns lw fuel depth src ld R R')
    (hf : ∀ t, HasFlags ([ld.gram.main] ++ ld.gram.includes) t → WordFixed lw.ref.annot w.lower t.value) :
    SameAnswers { w with registry := fun k => R.lookup k } { w with registry := fun k => R'.lookup k } ld.gram := by
  obtain ⟨reg, st, h1, h2, h3⟩ := h.first
  obtain ⟨reg', st', h1', h2', h3'⟩ := h.second
  obtain ⟨k1, k2⟩ := registers_loads hlw h2
  obtain ⟨k1', k2'⟩ := registers_loads hlw h2'
  refine regs_calls (w := { w with registry := fun k => R.lookup k }) (R := fun k => R'.lookup k) ho fun t ht => ?_
  obtain ⟨t1, t2, g, t3, A, r, b, t4⟩ := ht
  have hlit : AnyLiteral ([ld.gram.main] ++ ld.gram.includes) t := ⟨t1, A, g, r, b, trivial, t3, t4⟩
  obtain ⟨v, hv⟩ := (k2 ld rfl).mono h3 t hlit
  obtain ⟨v', hv'⟩ := (k2' ld rfl).mono h3' t hlit
  obtain ⟨e1, lit, toks, e2, e3⟩ := ((h1.trans k1).trans h3).known hv
  obtain ⟨e1', lit', toks', e2', e3'⟩ := ((h1'.trans k1').trans h3').known hv'
  obtain ⟨q1, q2⟩ := hf t ⟨t1, t2, g, t3, A, r, b, t4⟩ _ _ _ _ _ _ e2 e3 e1 e2' e3' e1'
  exact ⟨v, v', hv, hv', q1, q2⟩

/-! ## why it fails -/

def sawLit : Token := { text := "x", lemma_ := "x" }
def sawOther : Token := { text := "x", lemma_ := "y" }

/-- an annotator for which the lemma of `x` depends on the word before it -/
def sawLoad : LoadWorld := { noFiles asciiLex with
  ref := { annot := fun s => if s = "x" then some [sawLit] else if s = "a x" then some [{ text := "a" }, sawOther] else some [],
           ascii := id, hash := fun _ => some 0 } }

def sawText : List Char := ['<', 's', '>', '=', '"', '(', '?', 'l', ')', 'x', '"', ';', '\n']
def sawBefore : List Char := ['<', 't', '>', '=', '"', '(', '?', 'l', ')', 'a', ' ', 'x', '"', ';', '\n']

def sawWorld : World where
  trim := id
  annotate := fun b => some { text := b, tokens := [sawLit], spans := [] }
  ctxTagger := ""
  annotateCtx := fun _ _ => none
  hash := fun _ => some 0
  find := fun _ _ => none
  lower := id
  registry := fun _ => none
  ord := fun _ _ _ _ l => l

/-- the trees of the text `x` after a load of `<s>="(?l)x"` -/
def sawTrees (reg : Registry) : Option Nat :=
  match Loads sawLoad 60 1 (.inl (sawText, "g")) reg with
  | .ok (some ld, st) =>
    match apiParse { sawWorld with registry := fun k => st.reg.lookup k } ld.gram 40 "" [120] ["s"] with
    | .ok ns => some ns.length
    | _ => none
  | _ => none

theorem sawTrees_some {reg : Registry} {n : Nat} (h : sawTrees reg = some n) : ∃ ld st ns,
    Loads sawLoad 60 1 (.inl (sawText, "g")) reg = .ok (some ld, st) ∧
    apiParse { sawWorld with registry := fun k => st.reg.lookup k } ld.gram 40 "" [120] ["s"] = .ok ns ∧ ns.length = n := by
  unfold sawTrees at h
  split at h
  · rename_i ld st e
    split at h
    · rename_i ns e'
      exact ⟨ld, st, ns, e, e', Option.some.inj h⟩
    · cases h
  · cases h

/-- a load that gives a grammar, and a registry with this property -/
def loadsTo (o : Out (Option Loaded × LoadSt)) (P : Registry → Bool) : Bool :=
  match o with
  | .ok (some _, st) => P st.reg
  | _ => false

theorem loadsTo_true {P : Registry → Bool} : ∀ {o : Out (Option Loaded × LoadSt)}, loadsTo o P = true →
    ∃ ld st, o = .ok (some ld, st) ∧ P st.reg = true
  | .ok (some ld, st), h => ⟨ld, st, rfl, h⟩

/-- The text `x` has one tree with the grammar `<s>="(?l)x"`, but none if `<t>="(?l)a x"` was loaded before. -/
theorem C108_before : sawTrees [] = some 1 ∧ ∃ ld st, Loads sawLoad 60 1 (.inl (sawBefore, "h")) [] = .ok (some ld, st) ∧
    sawTrees st.reg = some 0 := by
  refine ⟨by decide +kernel, ?_⟩
  have h : loadsTo (Loads sawLoad 60 1 (.inl (sawBefore, "h")) []) (fun reg => decide (sawTrees reg = some 0)) = true := by decide +kernel
  obtain ⟨ld, st, e, h⟩ := loadsTo_true h
  exact ⟨ld, st, e, of_decide_eq_true h⟩

theorem C108_false : ¬ C108_statement := by
  intro hs
  obtain ⟨h1, ld0, st0, h2, h3⟩ := C108_before
  obtain ⟨ld, st, ns, e1, e2, e3⟩ := sawTrees_some h1
  obtain ⟨ld', st', ns', e1', e2', e3'⟩ := sawTrees_some h3
  have hld := loads_same e1 e1'
  subst hld
  have := (hs sawLoad sawWorld 60 1 (.inl (sawText, "g")) ld' st.reg st'.reg asciiLex_ok (fun _ _ _ _ _ => List.Perm.refl _)
    ⟨⟨[], st, .refl _, e1, .refl _⟩, ⟨st0.reg, st', (registers_loads (w := sawLoad) asciiLex_ok h2).1, e1', .refl _⟩⟩ 40 "" [120] ["s"]).1
  rw [e2, e2'] at this
  cases this
  omega

/-- Non-vacuity of `C108_partial`: an annotator that knows words only. -/
example : ∃ ld R R', TwoRuns exLoad 60 1 (.inl (sawText, "g")) ld R R' ∧ R' ≠ R ∧
    ∀ k, WordFixed exLoad.ref.annot id k := by
  have hc : loadsTo (Loads exLoad 60 1 (.inl (sawText, "g")) []) (fun r => loadsTo (Loads exLoad 60 1 (.inl (sawBefore, "h")) []) (fun r0 =>
      loadsTo (Loads exLoad 60 1 (.inl (sawText, "g")) r0) (fun r' => decide (r' ≠ r)))) = true := by decide +kernel
  obtain ⟨ld, st, e, hc⟩ := loadsTo_true hc
  obtain ⟨ld0, st0, e0, hc⟩ := loadsTo_true hc
  obtain ⟨ld', st', e', hc⟩ := loadsTo_true hc
  have hld := loads_same e e'
  subst hld
  refine ⟨ld', st.reg, st'.reg, ⟨⟨[], st, .refl _, e, .refl _⟩,
    ⟨st0.reg, st', (registers_loads (w := exLoad) asciiLex_ok e0).1, e', .refl _⟩⟩, of_decide_eq_true hc, ?_⟩
  intro k lit toks a lit' toks' a' h1 h2 h3 h4 h5 h6
  cases h1
  cases h4
  rw [List.mem_singleton] at h2 h5
  subst h2 h5
  have : lit = lit' := h3.trans h6.symm
  subst this
  exact ⟨rfl, rfl⟩

end Fmr
