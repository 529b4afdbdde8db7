import Verif.Spec.Includes
import Verif.Proofs.LexerInv
import Verif.Proofs.LexerPost
import Verif.Proofs.LoadHalt

/-!
# What a successful load has visited
-/

namespace Fmr

section
variable {w : LoadWorld}

theorem Includes.trans {dir d q p : String} {text t : List Char} (h1 : Includes w dir text q) (hr : w.read q = some t)
    (hd : w.dir q = some d) (h2 : Includes w d t p) : Includes w dir text p := by
  induction h2 with
  | direct hf => exact .step h1 hr hd hf
  | step _ hr' hd' hf ih => exact .step ih hr' hd' hf

theorem Includes.mono {dir : String} {a b : List Char} (h : ∀ f, Target w.lex a f → Target w.lex b f) {p : String}
    (hp : Includes w dir a p) : Includes w dir b p := by
  induction hp with
  | direct hf => exact .direct (h _ hf)
  | step _ hr hd hf ih => exact .step ih hr hd hf

/-! ### the directives of a text -/

theorem target_cons {t l : List Char} {f : String} (h : IncludeSyn w.lex t f) : Target w.lex (t ++ l) f :=
  ⟨[f], .cons h .nil, List.mem_singleton.mpr rfl⟩

theorem target_tail {t l : List Char} {f f' : String} (h : IncludeSyn w.lex t f) (h' : Target w.lex l f') :
    Target w.lex (t ++ l) f' := by
  obtain ⟨fs, hh, hm⟩ := h'
  exact ⟨f :: fs, .cons h hh, List.mem_cons_of_mem _ hm⟩

/-- The directive that the parser finds is the first one of the text. -/
theorem target_directive (hw : w.lex.OK) {inp : List Char} (hg : runeError ∉ inp) {n : Nat} {ps ps' : PSt}
    {o : Option String} (h : directive w.lex inp n ps = .ok (o, ps')) {f' : String}
    (hf : Target w.lex (inp.drop ps.pos) f') :
    ∃ f, o = some f ∧ (f' = f ∨ Target w.lex (inp.drop ps'.pos) f') := by
  obtain ⟨fs, hh, hm⟩ := hf
  generalize hl : inp.drop ps.pos = l at hh
  cases hh with
  | nil => cases hm
  | @cons t l f fs ht hh =>
    obtain ⟨s', e, hs'⟩ := reads_directive (ρ := ps.regexps) hg hw (r := l) ht
      (n := max n ((t ++ l).length + 1)) (by omega) ps ⟨hl, rfl⟩
    have e2 : directive w.lex inp (max n ((t ++ l).length + 1)) ps = directive w.lex inp n ps :=
      le_directive _ _ (Nat.le_max_left _ _) ps (by rw [h]; simp)
    rw [e2, h] at e
    cases e
    refine ⟨f, rfl, ?_⟩
    rcases List.mem_cons.mp hm with rfl | hm
    · exact .inl rfl
    · exact .inr ⟨fs, by rw [hs'.1]; exact hh, hm⟩

/-! ### the invariant -/

/-- what happened between two states of a load, `new` the grammars appended to the list of includes -/
structure Visited (w : LoadWorld) (root : Option String) (R : String → Prop) (st st' : LoadSt) (new : List Grammar) : Prop where
  log : st'.log = st.log ++ new.map (·.name)
  reach : ∀ g ∈ new, R g.name
  closed : ∀ g ∈ new, ∀ t d, w.read g.name = some t → w.dir g.name = some d → ∀ f, Target w.lex t f →
    1 ≤ st'.count (w.join d f)
  counted : Counted st st'
  known : (∀ q, 1 ≤ st.count q → q ∈ st.log ∨ root = some q) → ∀ q, 1 ≤ st'.count q → q ∈ st'.log ∨ root = some q
  once : ∀ L, ((L ++ st.log).Nodup ∧ ∀ q ∈ L ++ st.log, 1 ≤ st.count q) →
    (L ++ st'.log).Nodup ∧ ∀ q ∈ L ++ st'.log, 1 ≤ st'.count q

theorem Visited.refl {root : Option String} {R : String → Prop} (st : LoadSt) : Visited w root R st st [] :=
  ⟨by simp, by simp, by simp, .refl _, id, fun _ => id⟩

theorem Visited.trans {root : Option String} {R R' : String → Prop} {a b c : LoadSt} {n1 n2 : List Grammar}
    (h1 : Visited w root R a b n1) (h2 : Visited w root R' b c n2) {S : String → Prop} (hS : ∀ p, R p → S p)
    (hS' : ∀ p, R' p → S p) : Visited w root S a c (n1 ++ n2) := by
  refine ⟨by rw [h2.log, h1.log]; simp, ?_, ?_, h1.counted.trans h2.counted, h2.known ∘ h1.known, fun L => h2.once L ∘ h1.once L⟩
  · intro g hg
    rcases List.mem_append.mp hg with hg | hg
    · exact hS _ (h1.reach g hg)
    · exact hS' _ (h2.reach g hg)
  · intro g hg t d hr hd f hf
    rcases List.mem_append.mp hg with hg | hg
    · exact Nat.le_trans (h1.closed g hg t d hr hd f hf) (h2.counted _)
    · exact h2.closed g hg t d hr hd f hf

/-! ### tables of regexps -/

theorem RegStep.merge {lw : LexWorld} {b : List (String × String)} (hb : RegWF lw b) :
    ∀ {a : List (String × String)}, RegWF lw a →
      RegStep lw a (b.foldl (fun m e => mapSet m e.1 e.2) a) ∧ KeysIn b (b.foldl (fun m e => mapSet m e.1 e.2) a) := by
  obtain ⟨-, hb⟩ := hb
  induction b with
  | nil => intro a ha; exact ⟨.refl ha, fun e he => by cases he⟩
  | cons e b ih =>
    intro a ha
    have ha' : RegWF lw (mapSet a e.1 e.2) := by
      refine ⟨ha.1.mapSet _ _, fun e' he => ?_⟩
      rw [← (ha.1.mapSet _ _).lookup, lookup_mapSet] at he
      split at he
      · rename_i hk
        have := hb e List.mem_cons_self
        rw [hk, ← Option.some.inj he]
        exact this
      · exact ha.2 e' (mem_of_lookup he)
    obtain ⟨h1, h2⟩ := ih (fun e he => hb e (List.mem_cons_of_mem _ he)) ha'
    refine ⟨⟨h1.wf, (KeysIn.mapSet a _ _).trans h1.keys⟩, fun e' he => ?_⟩
    rcases List.mem_cons.mp he with rfl | he
    · refine h1.keys _ (mem_of_lookup (v := e'.2) ?_)
      rw [lookup_mapSet, if_pos rfl]
    · exact h2 e' he

/-! ### the loader -/

/-- the set of files is closed under include directives, and its texts are readable -/
structure ReadableFiles (w : LoadWorld) (G : String → Prop) : Prop where
  read : ∀ p t, G p → w.read p = some t → runeError ∉ t
  step : ∀ q t d f, G q → w.read q = some t → w.dir q = some d → Target w.lex t f → G (w.join d f)

variable {root : Option String} {G : String → Prop} (hw : w.lex.OK) (hread : ReadableFiles w G)
include hw hread

/-- a refined grammar of some text -/
def FromText (w : LoadWorld) (g : Grammar) : Prop :=
  ∃ fuel reg reg' g0, GrammarWF w.lex g0 ∧ refine w.ref "g" fuel reg g0 = .ok (reg', g)

/-- what is known of a loaded grammar -/
structure LoadedOK (w : LoadWorld) (ld : Loaded) : Prop where
  wf : RegWF w.lex ld.gram.main.regexps
  keys : ∀ g ∈ ld.gram.includes, RegWF w.lex g.regexps ∧ KeysIn g.regexps ld.gram.main.regexps
  origin : ∀ g ∈ ld.gram.main :: ld.gram.includes, FromText w g

/-- what an include does -/
def IncPost (w : LoadWorld) (root : Option String) (p : String) (st : LoadSt) (r : Option Loaded) (st' : LoadSt) : Prop :=
  1 ≤ st'.count p ∧
  match r with
  | none => Visited w root (fun _ => False) st st' []
  | some ld => LoadedOK w ld ∧ ∃ t d, w.read p = some t ∧ w.dir p = some d ∧
      Visited w root (fun q => q = p ∨ Includes w d t q) st st' (ld.gram.main :: ld.gram.includes)

omit hread in
theorem visited_directives {inc : String → LoadSt → Out (Option Loaded × LoadSt)}
    (hinc : ∀ p st r st', G p → inc p (st.incr p) = .ok (r, st') → IncPost w root p st r st')
    {inp : List Char} (hg : runeError ∉ inp) {dir : String} {f0 : Nat} (n : Nat) :
    ∀ {gs : List Grammar} {st : LoadSt} {ps : PSt} {gs' : List Grammar} {st' : LoadSt} {ps' : PSt},
      directives w inc inp dir f0 n gs st ps = .ok ((gs', st'), ps') → RegWF w.lex ps.regexps →
      (∀ f, Target w.lex (inp.drop ps.pos) f → G (w.join dir f)) →
      ∃ new, gs' = gs ++ new ∧ Visited w root (Includes w dir (inp.drop ps.pos)) st st' new ∧
        (∀ f, Target w.lex (inp.drop ps.pos) f → 1 ≤ st'.count (w.join dir f)) ∧
        RegStep w.lex ps.regexps ps'.regexps ∧ ∀ g ∈ new, (RegWF w.lex g.regexps ∧ KeysIn g.regexps ps'.regexps) ∧ FromText w g := by
  induction n with
  | zero => intro _ _ _ _ _ _ h; cases h
  | succ n ih =>
    intro gs st ps gs' st' ps' h hρ hG
    rw [directives_succ] at h
    obtain ⟨⟨o, ps1⟩, h1, h⟩ := Out.bind_eq_ok.mp h
    obtain ⟨hρ1, -⟩ := post_directive _ _ _ hρ h1
    cases o with
    | none =>
      cases h
      refine ⟨[], by simp, .refl _, fun f hf => ?_, hρ1, by simp⟩
      obtain ⟨f', e, -⟩ := target_directive hw hg h1 hf
      cases e
    | some ifile =>
      obtain ⟨t, l', ρ', e, hs, -, hsyn⟩ := inv_directive (ρ := ps.regexps) hg hw ps _ _ ⟨rfl, rfl⟩ h1
      replace hsyn := hsyn _ rfl
      obtain ⟨⟨r, st1⟩, h2, h⟩ := Out.bind_eq_ok.mp h
      obtain ⟨hc, hr⟩ := hinc _ _ _ _ (hG _ (by rw [e]; exact target_cons hsyn)) h2
      have htail : ∀ f, Target w.lex (inp.drop ps1.pos) f → Target w.lex (inp.drop ps.pos) f := by
        intro f hf
        rw [e]
        rw [hs.1] at hf
        exact target_tail hsyn hf
      have hall : ∀ st', Counted st1 st' → (∀ f, Target w.lex (inp.drop ps1.pos) f → 1 ≤ st'.count (w.join dir f)) →
          ∀ f, Target w.lex (inp.drop ps.pos) f → 1 ≤ st'.count (w.join dir f) := by
        intro st' hst' ht f hf
        obtain ⟨f', e', h⟩ := target_directive hw hg h1 hf
        cases e'
        rcases h with rfl | h
        · exact Nat.le_trans hc (hst' _)
        · exact ht f h
      cases r with
      | none =>
        obtain ⟨new, e1, hv, ht, hρ2, hk⟩ := ih h hρ1.wf fun f hf => hG f (htail f hf)
        refine ⟨new, e1, ?_, hall _ hv.counted ht, ⟨hρ2.wf, hρ1.keys.trans hρ2.keys⟩, hk⟩
        exact Visited.trans hr hv (fun p h => h.elim) fun p h => h.mono htail
      | some ld =>
        obtain ⟨hld, t', d', hrd, hdir, hv1⟩ := hr
        obtain ⟨hm, hmk⟩ := RegStep.merge hld.wf hρ1.wf
        obtain ⟨new, e1, hv, ht, hρ2, hk⟩ := ih h hm.wf fun f hf => hG f (htail f hf)
        have hp : Includes w dir (inp.drop ps.pos) (w.join dir ifile) := by
          rw [e]
          exact .direct (target_cons hsyn)
        refine ⟨(ld.gram.main :: ld.gram.includes) ++ new, by rw [e1]; simp, ?_, hall _ hv.counted ht,
          ⟨hρ2.wf, (hρ1.keys.trans hm.keys).trans hρ2.keys⟩, ?_⟩
        · refine Visited.trans hv1 hv ?_ fun p h => h.mono htail
          rintro p (rfl | h)
          · exact hp
          · exact hp.trans hrd hdir h
        · intro g hg
          rcases List.mem_append.mp hg with hg | hg
          · rcases List.mem_cons.mp hg with rfl | hg
            · exact ⟨⟨hld.wf, hmk.trans hρ2.keys⟩, hld.origin _ List.mem_cons_self⟩
            · exact ⟨⟨(hld.keys g hg).1, ((hld.keys g hg).2.trans hmk).trans hρ2.keys⟩,
                hld.origin _ (List.mem_cons_of_mem _ hg)⟩
          · exact hk g hg

omit hread in
/-- what loading a text does -/
theorem visited_fromString {inc : String → LoadSt → Out (Option Loaded × LoadSt)} {fuel : Nat}
    (hinc : ∀ p st r st', G p → inc p (st.incr p) = .ok (r, st') → IncPost w root p st r st')
    {d : List Char} (hg : runeError ∉ d) {name dir : String} (hG : ∀ f, Target w.lex d f → G (w.join dir f))
    {st st' : LoadSt} {ld : Loaded}
    (h : fromString w inc fuel d name dir st = .ok (some ld, st')) :
    LoadedOK w ld ∧ ld.gram.main.name = name ∧ ∃ st1, st' = st1.incr name ∧
      Visited w root (Includes w dir d) st st1 ld.gram.includes ∧
      ∀ f, Target w.lex d f → 1 ≤ st1.count (w.join dir f) := by
  unfold fromString at h
  split at h
  · cases h
  obtain ⟨⟨ld', st1⟩, h1, h2⟩ := Out.bind_eq_ok.mp h
  cases h2
  unfold grammarText at h1
  obtain ⟨⟨⟨gs, st2⟩, ps⟩, h3, h1⟩ := Out.bind_eq_ok.mp h1
  obtain ⟨⟨g, ps'⟩, h4, h1⟩ := Out.bind_eq_ok.mp h1
  obtain ⟨gi, h5, h1⟩ := Out.bind_eq_ok.mp h1
  obtain ⟨⟨reg, g'⟩, h6, h1⟩ := Out.bind_eq_ok.mp h1
  cases h1
  obtain ⟨new, e1, hv, ht, hρ, hk⟩ := visited_directives hw hinc hg _ h3 ⟨KeysNodup.nil, by simp⟩ hG
  obtain ⟨hρ2, hname, hwf⟩ := post_grammarRules hw _ _ _ hρ.wf h4
  obtain ⟨-, e2, -, e3, -⟩ := C25_structure hwf.unrefined h6
  rw [List.nil_append] at e1
  subst e1
  have e4 := grammarRules_regexps h4
  refine ⟨⟨?_, ?_, ?_⟩, ?_, _, rfl, ⟨hv.log, hv.reach, hv.closed, hv.counted, hv.known, hv.once⟩, ht⟩
  · show RegWF _ g'.regexps
    rw [e3, e4]
    exact hρ2.wf
  · intro g hg
    show _ ∧ KeysIn _ g'.regexps
    rw [e3, e4]
    exact ⟨(hk g hg).1.1, (hk g hg).1.2.trans hρ2.keys⟩
  · intro g1 hg1
    rcases List.mem_cons.mp hg1 with rfl | hg1
    · exact ⟨_, _, _, _, hwf, h6⟩
    · exact (hk g1 hg1).2
  · exact e2.trans hname

theorem visited_fromFile {fuel : Nat} (depth : Nat) :
    ∀ p st r st', G p → fromFile w fuel depth p (st.incr p) = .ok (r, st') → IncPost w root p st r st' := by
  induction depth with
  | zero => intro p st r st' _ h; cases h
  | succ depth ih =>
    intro p st r st' hGp h
    have hc := counted_fromFile _ _ _ _ _ h
    have hp1 : 1 ≤ st'.count p := by
      have := hc p
      rw [count_incr, if_pos rfl] at this
      omega
    refine ⟨hp1, ?_⟩
    unfold fromFile at h
    split at h
    · rename_i h2
      cases h
      rw [count_incr, if_pos rfl] at h2
      refine ⟨by simp [LoadSt.incr], by simp, by simp, counted_incr _ _, fun hk q hq => ?_, fun L ho => ⟨ho.1, fun q hq => ?_⟩⟩
      · rw [count_incr] at hq
        split at hq
        · subst_vars
          exact hk _ (by omega)
        · exact hk q hq
      · exact Nat.le_trans (ho.2 q hq) (counted_incr st p q)
    · rename_i h2
      rw [count_incr, if_pos rfl] at h2
      split at h
      · cases h
      rename_i t hr
      split at h
      · cases h
      rename_i dir hd
      cases r with
      | none =>
        unfold fromString at h
        split at h
        · rename_i h3
          have e : ({ st.incr p with log := (st.incr p).log ++ [p] } : LoadSt).count p = (st.incr p).count p := rfl
          rw [e, count_incr, if_pos rfl] at h3
          omega
        · obtain ⟨⟨ld', st1⟩, h1, h2⟩ := Out.bind_eq_ok.mp h
          cases h2
      | some ld =>
        obtain ⟨hok, hname, st1, rfl, hv, ht⟩ := visited_fromString hw (root := root) ih (hread.read p t hGp hr)
          (fun f hf => hread.step p t dir f hGp hr hd hf) h
        refine ⟨hok, t, dir, hr, hd, ?_⟩
        have hce : ∀ q, ({ st.incr p with log := (st.incr p).log ++ [p] } : LoadSt).count q = (st.incr p).count q := fun _ => rfl
        have hle : Counted st1 (st1.incr p) := counted_incr _ _
        refine ⟨?_, ?_, ?_, ?_, ?_, ?_⟩
        · show st1.log = _
          rw [hv.log, List.map_cons, hname]
          simp [LoadSt.incr]
        · intro g hg
          rcases List.mem_cons.mp hg with rfl | hg
          · exact .inl hname
          · exact .inr (hv.reach g hg)
        · intro g hg t' d' hr' hd' f hf
          rcases List.mem_cons.mp hg with rfl | hg
          · rw [hname] at hr' hd'
            rw [hr] at hr'
            rw [hd] at hd'
            cases hr'
            cases hd'
            exact Nat.le_trans (ht f hf) (hle _)
          · exact Nat.le_trans (hv.closed g hg t' d' hr' hd' f hf) (hle _)
        · exact (counted_incr st p).trans hc
        · intro hk q hq
          have hk1 := hv.known (fun q hq => ?_)
          · rw [count_incr] at hq
            split at hq
            · subst_vars
              exact .inl (by show _ ∈ st1.log; rw [hv.log]; simp)
            · exact hk1 q hq
          · rw [hce, count_incr] at hq
            split at hq
            · subst_vars
              exact .inl (by simp)
            · rcases hk q hq with h | h
              · exact .inl (List.mem_append_left _ h)
              · exact .inr h
        · intro L ho
          have hpl : p ∉ L ++ st.log := fun hm => by have := ho.2 p hm; omega
          have h1 := hv.once L ⟨?_, fun q hq => ?_⟩
          · refine ⟨h1.1, fun q hq => Nat.le_trans (h1.2 q hq) (hle q)⟩
          · show (L ++ (st.log ++ [p])).Nodup
            rw [← List.append_assoc, List.nodup_append]
            refine ⟨ho.1, by simp, ?_⟩
            rintro a ha b hb rfl
            rw [List.mem_singleton] at hb
            exact hpl (hb ▸ ha)
          · rw [hce, count_incr]
            split
            · omega
            · have hq : q ∈ L ++ (st.log ++ [p]) := hq
              rw [← List.append_assoc] at hq
              rcases List.mem_append.mp hq with hq | hq
              · exact ho.2 q hq
              · exact absurd (List.mem_singleton.mp hq) ‹_›

end

end Fmr
