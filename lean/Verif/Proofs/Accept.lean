import Verif.Spec.Accept
import Verif.Proofs.WholeHeld
import Verif.Props.LexerExact
import Verif.Props.Load
import Verif.Props.Index

/-!
# Which grammar files can be loaded (for C79)
-/

namespace Fmr

/-! ### accepted texts are in the syntax -/

theorem DefsSyn.gap {w : LexWorld} {g l : List Char} {ds : List Def} {ρ ρ' : List (String × String)} (hg : Gap w g)
    (h : DefsSyn w l ds ρ ρ') : DefsSyn w (g ++ l) ds ρ ρ' := by
  cases h with
  | nil h => exact .nil (hg.append h)
  | cons h1 h2 h3 =>
    rw [← List.append_assoc]
    exact .cons (hg.append h1) h2 h3

section
variable {w : LexWorld} {inp : List Char} (hg : runeError ∉ inp) (hw : w.OK)
include hg hw

/-- without a directive only a gap is read -/
theorem directive_none {n : Nat} {s s' : PSt} (h : directive w inp n s = .ok (none, s')) :
    ∃ g, inp.drop s.pos = g ++ inp.drop s'.pos ∧ Gap w g := by
  have key : OnOk inp (directive w inp n) (inp.drop s.pos) s.regexps (fun o t _ _ => o = none → Gap w t) := by
    unfold directive
    refine OnOk.bind (inv_comments hg) ?_
    rintro _ g l1 _ - ⟨rfl, hgap⟩
    refine OnOk.bind (inv_peek hg) ?_
    rintro r _ l4 _ - ⟨rfl, rfl, rfl⟩
    refine OnOk.ite (fun _ => OnOk.pure fun _ => by simpa using hgap) fun hr => ?_
    refine OnOk.bind (inv_next hg) ?_
    rintro _ t l5 _ - -
    refine OnOk.bind (inv_ws hg) ?_
    rintro _ s1 l6 _ - -
    refine OnOk.bind (inv_text hg) ?_
    rintro _ x l7 _ - -
    refine OnOk.ite (fun _ => OnOk.fail) fun hn => ?_
    refine OnOk.bind (inv_ws hg) ?_
    rintro _ s2 l8 _ - -
    refine OnOk.bind (inv_terminal hg hw) ?_
    rintro _ _ l9 _ - -
    exact OnOk.pure fun e => by cases e
  obtain ⟨t, l', ρ', e, hs, ht⟩ := key s _ _ ⟨rfl, rfl⟩ h
  exact ⟨t, by rw [hs.1]; exact e, ht rfl⟩

/-- what the parser accepts are definitions, and the grammar holds these -/
theorem grammarRules_accepted {n : Nat} {name : String} {s s' : PSt} {g : Grammar}
    (h : grammarRules w inp n name s = .ok (g, s')) :
    ∃ ds, DefsSyn w (inp.drop s.pos) ds s.regexps g.regexps ∧ HashedBody w.hash ds := by
  unfold grammarRules at h
  obtain ⟨m, s1, e1, h⟩ := P.bind_eq_ok.mp h
  obtain ⟨r, s2, e2, h⟩ := P.bind_eq_ok.mp h
  obtain ⟨t, l', ρ, hl, hs1, ds, kds, hds, hk, rfl⟩ := inv_rulesLoop hg hw s m s1 ⟨rfl, rfl⟩ e1
  obtain ⟨t2, l2, ρ2, hl2, hs2, rfl, hr⟩ := inv_next hg s1 r s2 hs1 e2
  rcases hr with ⟨rfl, rfl, rfl⟩ | ⟨c, rfl, -⟩
  · rw [List.append_nil] at hl2
    subst hl2
    rw [List.append_nil] at hl
    have h : Out.ok (Grammar.mk name (addDefs ([], []) kds).1 (addDefs ([], []) kds).2 s2.regexps false, s2) =
      Out.ok (g, s') := h
    cases h
    simp only [hs2.2]
    exact ⟨ds, hl ▸ hds, forall₂_hashed hk⟩
  · have h : Out.err = Out.ok (g, s') := h
    cases h

end

/-- The literals that refinement has replaced could be split into tokens. -/
theorem refine_literals {w : RefineWorld} {pre : String} {fuel : Nat} {reg reg' : Registry} {g g' : Grammar}
    (hg : g.refined = false) (h : refine w pre fuel reg g = .ok (reg', g')) {A : String} {ts : List Term} (hs : g.source A ts)
    {t : Term} (ht : t ∈ ts) (htt : t.type = .terminal) : w.annot t.value ≠ none := by
  obtain ⟨es, rules, hr, -⟩ := refine_spec hg h
  obtain ⟨e, he, e1⟩ := hr.entry_of hs ht htt
  obtain ⟨toks, e2⟩ := hr.annot e he
  rw [← e1, e2]
  simp

/-- What is found in a text that has been loaded: its definitions, and, if their hashes are different, literals that
can be split. -/
def TextTaken (w : LoadWorld) (t : List Char) : Prop :=
  ∃ ds ρ, FileSyn w.lex t ds ρ ∧ HashedBody w.lex.hash ds ∧ (NoCollision w.lex.hash ds → LiteralsRead w.ref.annot ds)

/-- a file that has been loaded -/
def FileTaken (w : LoadWorld) (q : String) : Prop :=
  ∃ t, w.read q = some t ∧ w.dir q ≠ none ∧ TextTaken w t

section
variable {w : LoadWorld} {G : String → Prop} (hw : w.lex.OK)
  (hG : ∀ q t, G q → w.read q = some t → runeError ∉ t)
  (hstep : ∀ q t d f, G q → w.read q = some t → w.dir q = some d → Target w.lex t f → G (w.join d f))
include hw hG hstep

omit hG hstep in
theorem taken_directives {inc : String → LoadSt → Out (Option Loaded × LoadSt)}
    (hinc : ∀ p st o st', G p → inc p st = .ok (o, st') → ∀ q ∈ st'.log, q ∈ st.log ∨ FileTaken w q)
    {inp : List Char} (hg : runeError ∉ inp) {dir : String} {f0 : Nat} (n : Nat) :
    ∀ {gs : List Grammar} {st : LoadSt} {ps : PSt} {gs' : List Grammar} {st' : LoadSt} {ps' : PSt},
      directives w inc inp dir f0 n gs st ps = .ok ((gs', st'), ps') →
      (∀ f, Target w.lex (inp.drop ps.pos) f → G (w.join dir f)) → RegWF w.lex ps.regexps →
      (∀ p st ld st', G p → inc p st = .ok (some ld, st') → RegWF w.lex ld.gram.main.regexps) →
      (∀ ds ρ, DefsSyn w.lex (inp.drop ps'.pos) ds [] ρ → FileSyn w.lex (inp.drop ps.pos) ds ρ) ∧
        RegWF w.lex ps'.regexps ∧ ∀ q ∈ st'.log, q ∈ st.log ∨ FileTaken w q := by
  induction n with
  | zero => intro _ _ _ _ _ _ h; cases h
  | succ n ih =>
    intro gs st ps gs' st' ps' h ht hρ hinc'
    rw [directives_succ] at h
    obtain ⟨⟨o, ps1⟩, h1, h⟩ := Out.bind_eq_ok.mp h
    obtain ⟨hρ1, -⟩ := post_directive _ _ _ hρ h1
    cases o with
    | none =>
      cases h
      obtain ⟨g, e, hgap⟩ := directive_none hg hw h1
      exact ⟨fun ds ρ hd => by rw [e]; exact .defs (hd.gap hgap), hρ1.wf, fun q hq => .inl hq⟩
    | some ifile =>
      obtain ⟨t, l', ρ', e, hs, -, hsyn⟩ := inv_directive (ρ := ps.regexps) hg hw ps _ _ ⟨rfl, rfl⟩ h1
      replace hsyn := hsyn _ rfl
      obtain ⟨⟨r, st1⟩, h2, h⟩ := Out.bind_eq_ok.mp h
      have hGp : G (w.join dir ifile) := ht _ (by rw [e]; exact target_cons hsyn)
      have hl := hinc _ _ _ _ hGp h2
      have ht' : ∀ f, Target w.lex (inp.drop ps1.pos) f → G (w.join dir f) := fun f hf => by
        rw [hs.1] at hf
        exact ht f (by rw [e]; exact target_tail hsyn hf)
      have hend : ∀ {ps2 : PSt}, RegWF w.lex ps2.regexps → ps2.pos = ps1.pos → ∀ {gs2},
          directives w inc inp dir f0 n gs2 st1 ps2 = .ok ((gs', st'), ps') →
          (∀ ds ρ, DefsSyn w.lex (inp.drop ps'.pos) ds [] ρ → FileSyn w.lex (inp.drop ps.pos) ds ρ) ∧
            RegWF w.lex ps'.regexps ∧ ∀ q ∈ st'.log, q ∈ st.log ∨ FileTaken w q := by
        intro ps2 hρ2 e2 gs2 h
        obtain ⟨k1, k2, k3⟩ := ih h (by rw [e2]; exact ht') hρ2 hinc'
        refine ⟨fun ds ρ hd => ?_, k2, fun q hq => ?_⟩
        · have := k1 ds ρ hd
          rw [e2, hs.1] at this
          rw [e]
          exact .incl hsyn this
        · rcases k3 q hq with hq | hq
          · exact hl q hq
          · exact .inr hq
      cases r with
      | none => exact hend hρ1.wf rfl h
      | some ld =>
        exact hend (ps2 := { ps1 with regexps := ld.gram.main.regexps.foldl (fun m e => mapSet m e.1 e.2) ps1.regexps })
          (RegStep.merge (hinc' _ _ _ _ hGp h2) hρ1.wf).1.wf rfl h

omit hG hstep in
theorem taken_fromString {inc : String → LoadSt → Out (Option Loaded × LoadSt)}
    (hinc : ∀ p st o st', G p → inc p st = .ok (o, st') → ∀ q ∈ st'.log, q ∈ st.log ∨ FileTaken w q)
    (hinc' : ∀ p st ld st', G p → inc p st = .ok (some ld, st') → RegWF w.lex ld.gram.main.regexps)
    {fuel : Nat} {d : List Char} (hg : runeError ∉ d) {name dir : String}
    (ht : ∀ f, Target w.lex d f → G (w.join dir f)) {st st' : LoadSt} {o : Option Loaded}
    (h : fromString w inc fuel d name dir st = .ok (o, st')) :
    (∀ q ∈ st'.log, q ∈ st.log ∨ FileTaken w q) ∧
      ∀ ld, o = some ld → TextTaken w d ∧ RegWF w.lex ld.gram.main.regexps := by
  unfold fromString at h
  split at h
  · cases h
    exact ⟨fun q hq => .inl hq, fun ld e => by cases e⟩
  obtain ⟨⟨ld', st1⟩, h1, h2⟩ := Out.bind_eq_ok.mp h
  cases h2
  unfold grammarText at h1
  obtain ⟨⟨⟨gs, st2⟩, ps⟩, h3, h1⟩ := Out.bind_eq_ok.mp h1
  obtain ⟨⟨g, ps'⟩, h4, h1⟩ := Out.bind_eq_ok.mp h1
  obtain ⟨gi, h5, h1⟩ := Out.bind_eq_ok.mp h1
  obtain ⟨⟨reg, g'⟩, h6, h1⟩ := Out.bind_eq_ok.mp h1
  cases h1
  obtain ⟨k1, k2, k3⟩ := taken_directives hw hinc hg _ h3 ht ⟨KeysNodup.nil, by simp⟩ hinc'
  obtain ⟨hρ2, hname, hwf⟩ := post_grammarRules hw _ _ _ k2 h4
  obtain ⟨-, -, -, e3, -⟩ := C25_structure hwf.unrefined h6
  obtain ⟨ds, hd, hh⟩ := grammarRules_accepted hg hw h4
  obtain ⟨δ, he, hall⟩ := hd.table
  obtain ⟨ρ, hd', he'⟩ := hall []
  refine ⟨k3, fun ld e => ?_⟩
  cases e
  refine ⟨⟨ds, ρ, k1 ds ρ hd', hh, fun hc A b t hb hm htt => ?_⟩, ?_⟩
  · obtain ⟨-, h7, -⟩ := grammarRules_defs hg hw hd hc rfl h4
    exact refine_literals hwf.unrefined h6 ((h7.source hc A b.terms).2 ⟨b, hb, rfl⟩) hm htt
  · show RegWF _ g'.regexps
    rw [e3]
    exact ⟨hwf.regexpKeys, hwf.regexps⟩

theorem taken_fromFile {fuel : Nat} (depth : Nat) :
    ∀ p st o st', G p → fromFile w fuel depth p st = .ok (o, st') →
      (∀ q ∈ st'.log, q ∈ st.log ∨ FileTaken w q) ∧ ∀ ld, o = some ld → RegWF w.lex ld.gram.main.regexps := by
  induction depth with
  | zero => intro p st o st' _ h; cases h
  | succ depth ih =>
    intro p st o st' hp h
    unfold fromFile at h
    split at h
    · cases h
      exact ⟨fun q hq => .inl hq, fun ld e => by cases e⟩
    rename_i hcount
    split at h
    · cases h
    rename_i t hr
    split at h
    · cases h
    rename_i d hd
    have hnone : o ≠ none := by
      rintro rfl
      unfold fromString at h
      rw [if_neg (by simpa [LoadSt.count] using hcount)] at h
      obtain ⟨_, -, h2⟩ := Out.bind_eq_ok.mp h
      cases h2
    obtain ⟨ld, rfl⟩ := Option.ne_none_iff_exists'.1 hnone
    obtain ⟨k1, k2⟩ := taken_fromString hw (fun p st o st' hp h => (ih p st o st' hp h).1)
      (fun p st ld st' hp h => (ih p st _ st' hp h).2 ld rfl) (hG p t hp hr) (fun f hf => hstep p t d f hp hr hd hf) h
    obtain ⟨k3, k4⟩ := k2 ld rfl
    refine ⟨fun q hq => ?_, fun ld' e => by cases e; exact k4⟩
    rcases k1 q hq with hq | hq
    · rcases List.mem_append.1 hq with hq | hq
      · exact .inl hq
      · rw [List.mem_singleton.1 hq]
        exact .inr ⟨t, hr, by rw [hd]; simp, k3⟩
    · exact .inr hq

end

/-! ### texts in the syntax are accepted -/

/-- the result is a value with the property, the same for all large values of the three bounds -/
def EvOk {α : Type} (f : Nat → Nat → Nat → Out α) (P : α → Prop) : Prop :=
  ∃ N x, P x ∧ ∀ a b c, N ≤ a → N ≤ b → N ≤ c → f a b c = .ok x

theorem EvOk.pure {α : Type} {x : α} {P : α → Prop} (h : P x) : EvOk (fun _ _ _ => .ok x) P := ⟨0, x, h, fun _ _ _ _ _ _ => rfl⟩

theorem EvOk.congr {α : Type} {f g : Nat → Nat → Nat → Out α} {P : α → Prop} (hg : EvOk g P) (N : Nat)
    (h : ∀ a b c, N ≤ a → N ≤ b → N ≤ c → f a b c = g a b c) : EvOk f P := by
  obtain ⟨M, r, hr, hM⟩ := hg
  refine ⟨max N M, r, hr, fun a b c ha hb hc => ?_⟩
  rw [h a b c (by omega) (by omega) (by omega)]
  exact hM a b c (by omega) (by omega) (by omega)

theorem EvOk.bind {α β : Type} {f : Nat → Nat → Nat → Out α} {g : α → Nat → Nat → Nat → Out β} {P : α → Prop} {Q : β → Prop}
    (hf : EvOk f P) (hg : ∀ x, P x → (∃ a b c, f a b c = .ok x) → EvOk (g x) Q) :
    EvOk (fun a b c => f a b c >>= fun x => g x a b c) Q := by
  obtain ⟨N, x, hx, hN⟩ := hf
  refine EvOk.congr (hg x hx ⟨N, N, N, hN N N N (Nat.le_refl _) (Nat.le_refl _) (Nat.le_refl _)⟩) N fun a b c ha hb hc => ?_
  rw [hN a b c ha hb hc]
  rfl

theorem EvOk.shift {α : Type} {f : Nat → Nat → Nat → Out α} {P : α → Prop} (h : EvOk f P) (i j : Nat) :
    EvOk (fun a b c => f a (b - i) (c - j)) P := by
  obtain ⟨N, r, hr, hN⟩ := h
  exact ⟨N + i + j, r, hr, fun a b c ha hb hc => hN a (b - i) (c - j) (by omega) (by omega) (by omega)⟩

theorem EvOk.of_le {α : Type} {x : Nat → P α} {s : PSt} (hmono : ∀ {n m}, n ≤ m → P.le (x n) (x m)) {N : Nat} {a : α × PSt}
    {Q : α × PSt → Prop} (h : x N s = .ok a) (hq : Q a) : EvOk (fun n _ _ => x n s) Q :=
  ⟨N, a, hq, fun n _ _ hn _ _ => (hmono hn s (by rw [h]; simp)).trans h⟩

theorem mapState_not_err {σ α : Type} {f : σ → α → Out (σ × α)} : ∀ {l : List α}, (∀ a ∈ l, ∀ s, f s a ≠ .err) →
    ∀ s, mapState f s l ≠ .err
  | [], _, _ => by simp [mapState]
  | a :: l, h, s => by
    intro e
    unfold mapState at e
    rcases Out.bind_eq_err.mp e with h1 | ⟨⟨s1, a'⟩, -, h1⟩
    · exact h a List.mem_cons_self _ h1
    · rcases Out.bind_eq_err.mp h1 with h2 | ⟨⟨s2, l'⟩, -, h2⟩
      · exact mapState_not_err (fun a ha => h a (List.mem_cons_of_mem _ ha)) _ h2
      · cases h2

/-- If all literals can be split into tokens and the hash never fails, refinement gives a grammar. -/
theorem refine_not_err {w : RefineWorld} {pre : String} {fuel : Nat} {reg : Registry} {g : Grammar}
    (hh : ∀ b, w.hash b ≠ none) (ha : ∀ t, g.Literal t → w.annot t.value ≠ none) : refine w pre fuel reg g ≠ .err := by
  have h1 : ∀ t, (t.type = .terminal → w.annot t.value ≠ none) → ∀ st, refineTerm w pre g.rules fuel st t ≠ .err := by
    intro t ha st h
    unfold refineTerm at h
    split at h
    · cases h
    rename_i htt
    split at h
    · cases h
    · rcases Out.bind_eq_err.mp h with h1 | ⟨_, -, h⟩
      · rw [ne_eq, Classical.not_not] at htt
        cases e : w.annot t.value with
        | none => exact ha htt e
        | some x => rw [e] at h1; cases h1
      rcases Out.bind_eq_err.mp h with h1 | ⟨n, -, h⟩
      · revert h1
        generalize freshName _ _ _ _ _ = o
        cases o <;> simp [Out.ofFuel]
      rcases Out.bind_eq_err.mp h with h1 | ⟨_, -, h⟩
      · revert h1
        generalize e : w.hash _ = o
        cases o
        · exact absurd e (hh _)
        · simp [Out.ofErr]
      cases h
  intro h
  unfold refine at h
  split at h
  · cases h
  rcases Out.bind_eq_err.mp h with h | ⟨_, -, h⟩
  · refine mapState_not_err (fun e he st h => ?_) _ h
    unfold refineRule at h
    rcases Out.bind_eq_err.mp h with h | ⟨_, -, h⟩
    · refine mapState_not_err (fun b hb st h => ?_) _ h
      unfold refineBody at h
      rcases Out.bind_eq_err.mp h with h | ⟨_, -, h⟩
      · refine mapState_not_err (fun t ht st h => ?_) _ h
        exact h1 t (fun htt => ha t ⟨e, he, b.2, List.mem_map_of_mem hb, ht, htt⟩) st h
      · cases h
    · cases h
  · cases h

section
variable {w : LoadWorld} (hw : w.lex.OK) (hi : ∀ t s, w.idx.update t s = true) (hh : ∀ b, w.ref.hash b ≠ none)
  {F : List String} {G : String → Prop} (hF : ∀ p, G p → p ∈ F)
  (hG : ∀ p, G p → ∃ t d, w.read p = some t ∧ w.dir p = some d ∧ runeError ∉ t ∧ ∃ ds ρ, FileSyn w.lex t ds ρ ∧
    NoCollision w.lex.hash ds ∧ LiteralsRead w.ref.annot ds)
  (hstep : ∀ q t d f, G q → w.read q = some t → w.dir q = some d → Target w.lex t f → G (w.join d f))
include hw hF hG

omit hw in
theorem fromFile_ev {k : Nat}
    (ih : ∀ p t d st, G p → w.read p = some t → w.dir p = some d → fresh F st < k →
      EvOk (fun a b _ => fromString w (fromFile w a b) a t p d st) fun x => ∀ ld, x.1 = some ld → RegWF w.lex ld.gram.main.regexps)
    {p : String} (hp : G p) {st : LoadSt} (hk : fresh F st ≤ k) :
    EvOk (fun a b _ => fromFile w a b p (st.incr p)) fun x => ∀ ld, x.1 = some ld → RegWF w.lex ld.gram.main.regexps := by
  have hc1 : (st.incr p).count p = st.count p + 1 := by rw [count_incr, if_pos rfl]
  by_cases h2 : 2 ≤ (st.incr p).count p
  · refine EvOk.congr (EvOk.pure (x := (none, st.incr p)) fun ld e => by cases e) 1 fun a b c _ hb _ => ?_
    cases b with
    | zero => omega
    | succ b => unfold fromFile; rw [if_pos h2]
  · obtain ⟨t, d, hr, hd, -⟩ := hG p hp
    have hfr : fresh F { st.incr p with log := (st.incr p).log ++ [p] } < k := by
      refine Nat.lt_of_lt_of_le (fresh_incr (hF p hp) (st := st) (by omega) ?_ ?_) hk
      · have e : ({ st.incr p with log := (st.incr p).log ++ [p] } : LoadSt).count p = (st.incr p).count p := rfl
        omega
      · exact (counted_incr st p).trans (counted_of_files rfl)
    refine EvOk.congr ((ih p t d _ hp hr hd hfr).shift 1 0) 1 fun a b c _ hb _ => ?_
    cases b with
    | zero => omega
    | succ b => rw [fromFile, if_neg h2, hr, hd]; rfl

/-- the include directives of a text are read, if loading with fewer fresh files succeeds -/
theorem ok_directives {k : Nat}
    (ih : ∀ p t d st, G p → w.read p = some t → w.dir p = some d → fresh F st < k →
      EvOk (fun a b _ => fromString w (fromFile w a b) a t p d st) fun x => ∀ ld, x.1 = some ld → RegWF w.lex ld.gram.main.regexps)
    {inp : List Char} (hg : runeError ∉ inp) {dir : String} {l : List Char} {ds : List Def} {ρ : List (String × String)}
    (hsyn : FileSyn w.lex l ds ρ) :
    ∀ {gs : List Grammar} {st : LoadSt} {ps : PSt}, inp.drop ps.pos = l → (∀ f, Target w.lex l f → G (w.join dir f)) →
      RegWF w.lex ps.regexps → fresh F st ≤ k →
      EvOk (fun a b c => directives w (fromFile w a b) inp dir a c gs st ps) fun x =>
        DefsSyn w.lex (inp.drop x.2.pos) ds [] ρ ∧ RegWF w.lex x.2.regexps := by
  have hunfold : ∀ {gs st ps} {P : (List Grammar × LoadSt) × PSt → Prop}, EvOk (fun a b c => directive w.lex inp a ps >>= fun x =>
      match x.1 with
      | none => .ok ((gs, st), x.2)
      | some ifile => fromFile w a b (w.join dir ifile) (st.incr (w.join dir ifile)) >>= fun y =>
        match y.1 with
        | none => directives w (fromFile w a b) inp dir a (c - 1) gs y.2 x.2
        | some ig => directives w (fromFile w a b) inp dir a (c - 1) (gs ++ [ig.gram.main] ++ ig.gram.includes) y.2
          { x.2 with regexps := ig.gram.main.regexps.foldl (fun m e => mapSet m e.1 e.2) x.2.regexps }) P →
      EvOk (fun a b c => directives w (fromFile w a b) inp dir a c gs st ps) P := by
    intro gs st ps P h
    refine EvOk.congr h 1 fun a b c _ _ hc => ?_
    cases c with
    | zero => omega
    | succ c => rw [directives_succ]; rfl
  induction hsyn with
  | @defs r ds ρ hd =>
    intro gs st ps hl ht hρ hk
    apply hunfold
    obtain ⟨s', e⟩ : ∃ s', directive w.lex inp (r.length + 1) ps = .ok (none, s') := by
      have key : ∀ g l', r = g ++ l' → Gap w.lex g → Stop w.lex l' → l'.head? ≠ some '#' →
          ∃ s', directive w.lex inp (r.length + 1) ps = .ok (none, s') := by
        rintro g l' rfl hgap hstop hne
        obtain ⟨s1, e, -⟩ := (show Reads inp (directive w.lex inp ((g ++ l').length + 1)) (g ++ l') ps.regexps none l' ps.regexps by
          unfold directive
          refine Reads.bind (reads_comments hg hw hgap hstop (by omega)) ?_
          refine Reads.bind (reads_peek hg) ?_
          rw [if_pos hne]
          exact Reads.pure _) ps ⟨hl, rfl⟩
        exact ⟨s1, e⟩
      cases hd with
      | nil hgap => exact key r [] (by simp) hgap (fun c hc => by cases hc) (by simp)
      | @cons g l r d ds ρ ρ1 ρ2 hgap hd hds =>
        refine key g (l ++ r) rfl hgap ?_ ?_
        · cases hd with
          | rule => exact stop_of_punct hw rfl (by decide)
          | frame => exact stop_of_punct hw rfl (by decide)
        · cases hd <;> simp
    obtain ⟨-, e1, e2⟩ := directive_defs hg hw hd hl e
    refine EvOk.bind (P := fun x => x = (none, s')) (EvOk.of_le (fun h => le_directive _ _ h) e rfl) ?_
    rintro _ rfl -
    exact EvOk.pure ⟨e2, by rw [e1]; exact hρ⟩
  | @incl t l f ds ρ hinc hsyn ihs =>
    intro gs st ps hl ht hρ hk
    apply hunfold
    obtain ⟨s', e, hs'⟩ := reads_directive (ρ := ps.regexps) hg hw (r := l) hinc
      (n := (t ++ l).length + 1) (by omega) ps ⟨hl, rfl⟩
    refine EvOk.bind (P := fun x => x = (some f, s')) (EvOk.of_le (fun h => le_directive _ _ h) e rfl) ?_
    rintro _ rfl -
    have ht' : ∀ f, Target w.lex l f → G (w.join dir f) := fun f hf => ht f (target_tail hinc hf)
    refine EvOk.bind (fromFile_ev hF hG ih (ht f (target_cons hinc)) hk) ?_
    rintro ⟨og, st'⟩ hog ⟨a1, b1, -, e1⟩
    have hk' : fresh F st' ≤ k :=
      Nat.le_trans (fresh_mono ((counted_incr st _).trans (counted_fromFile b1 _ _ _ _ e1))) hk
    have hρ' : RegWF w.lex s'.regexps := by rw [hs'.2]; exact hρ
    cases og with
    | none => exact (ihs hs'.1 ht' hρ' hk').shift 0 1
    | some ig =>
      exact (ihs (ps := { s' with regexps := ig.gram.main.regexps.foldl (fun m e => mapSet m e.1 e.2) s'.regexps })
        hs'.1 ht' (RegStep.merge (hog ig rfl) hρ').1.wf hk').shift 0 1

include hi hh in
/-- one text, if loading with fewer fresh files succeeds -/
theorem ok_text {k : Nat}
    (ih : ∀ p t d st, G p → w.read p = some t → w.dir p = some d → fresh F st < k →
      EvOk (fun a b _ => fromString w (fromFile w a b) a t p d st) fun x => ∀ ld, x.1 = some ld → RegWF w.lex ld.gram.main.regexps)
    {text : List Char} (hg : runeError ∉ text) {ds : List Def} {ρ : List (String × String)}
    (hsyn : FileSyn w.lex text ds ρ) (hc : NoCollision w.lex.hash ds) (hlit : LiteralsRead w.ref.annot ds) {name dir : String}
    (ht : ∀ f, Target w.lex text f → G (w.join dir f)) {st : LoadSt} (hk : fresh F st ≤ k) :
    EvOk (fun a b _ => grammarText w (fromFile w a b) a text name dir st) fun x => RegWF w.lex x.1.gram.main.regexps := by
  unfold grammarText
  have hdirs := ok_directives hw hF hG ih hg hsyn (gs := []) (st := st) (ps := { pos := 0, width := 0 }) rfl ht
    ⟨KeysNodup.nil, by simp⟩ hk
  refine EvOk.bind (f := fun a b _ => directives w (fromFile w a b) text dir a a [] st { pos := 0, width := 0 })
    (P := fun x => DefsSyn w.lex (text.drop x.2.pos) ds [] ρ ∧ RegWF w.lex x.2.regexps) ?_ ?_
  · obtain ⟨N, r, hr, hN⟩ := hdirs
    exact ⟨N, r, hr, fun a b _ ha hb _ => hN a b a ha hb ha⟩
  rintro ⟨⟨gs, st'⟩, ps⟩ ⟨hd, hρ⟩ -
  simp only at hd hρ ⊢
  obtain ⟨δ, he, hall⟩ := hd.table
  obtain ⟨ρ0, hd', -⟩ := hall ps.regexps
  obtain ⟨kds, hkd⟩ := keyed_all hc.1
  have h1 := reads_rulesLoop hg hw (n0 := (text.drop ps.pos).length + 1) (n := (text.drop ps.pos).length + 1) (m := ([], [])) hd' hkd
    (by omega) (by omega)
  obtain ⟨s1, e1, hs1⟩ := h1 ps ⟨rfl, rfl⟩
  obtain ⟨s2, e2, hs2⟩ := reads_next hg s1 hs1
  have e : ∃ g, grammarRules w.lex text ((text.drop ps.pos).length + 1) name ps = .ok (g, s2) := by
    refine ⟨⟨name, (addDefs ([], []) kds).1, (addDefs ([], []) kds).2, ρ0, false⟩, ?_⟩
    unfold grammarRules
    rw [P.bind_run, e1]
    simp only [Out.bind_ok]
    rw [P.bind_run, e2, ← hs2.2]
    rfl
  obtain ⟨g, e⟩ := e
  refine EvOk.bind (f := fun a _ _ => grammarRules w.lex text a name ps) (P := fun x => x = (g, s2))
    (EvOk.of_le (fun h => le_grammarRules _ _ h) e rfl) ?_
  rintro _ rfl -
  obtain ⟨hρ2, hname, hwf⟩ := post_grammarRules hw _ _ _ hρ e
  obtain ⟨-, h7, -⟩ := grammarRules_defs hg hw hd' hc rfl e
  obtain ⟨gi, hgi⟩ := C37_build hi ⟨g, gs⟩ hwf.unrefined
  refine EvOk.bind (f := fun _ _ _ => buildIndex w.idx ⟨g, gs⟩) (P := fun _ => True)
    ⟨0, gi, trivial, fun _ _ _ _ _ _ => hgi⟩ ?_
  rintro gi - -
  have hne : ∀ n, refine w.ref "g" n st'.reg g ≠ .err := fun n => refine_not_err hh fun t ht => by
    obtain ⟨htt, A, ts, hs, hm⟩ := hwf.literal ht
    obtain ⟨b, hb, rfl⟩ := (h7.source hc A ts).1 hs
    exact hlit A b t hb hm htt
  obtain ⟨n, hn⟩ := C25_terminates w.ref "g" st'.reg g
  have hok : ∃ x, refine w.ref "g" n st'.reg g = .ok x := by
    cases hx : refine w.ref "g" n st'.reg g with
    | ok x => exact ⟨x, rfl⟩
    | err => exact absurd hx (hne n)
    | panic => exact absurd hx refine_no_panic
    | div => exact absurd hx (hn n (Nat.le_refl _))
  obtain ⟨⟨reg', g'⟩, hx⟩ := hok
  obtain ⟨-, -, -, e3, -⟩ := C25_structure hwf.unrefined hx
  refine EvOk.bind (f := fun a _ _ => refine w.ref "g" a st'.reg g) (P := fun x => x = (reg', g')) ?_ ?_
  · refine ⟨n, _, rfl, fun a _ _ ha _ _ => ?_⟩
    obtain ⟨j, rfl⟩ := Nat.exists_eq_add_of_le ha
    exact (C25_mono j (hn n (Nat.le_refl _))).trans hx
  rintro _ rfl -
  refine EvOk.pure ?_
  show RegWF _ g'.regexps
  rw [e3]
  exact ⟨hwf.regexpKeys, hwf.regexps⟩

include hi hh hstep in
/-- files that can all be loaded -/
theorem ok_file (k : Nat) : ∀ p t d st, G p → w.read p = some t → w.dir p = some d → fresh F st < k →
    EvOk (fun a b _ => fromString w (fromFile w a b) a t p d st) fun x => ∀ ld, x.1 = some ld → RegWF w.lex ld.gram.main.regexps := by
  induction k with
  | zero => intro p t d st _ _ _ hk; omega
  | succ k ih =>
    intro p t d st hp hr hd hk
    unfold fromString
    by_cases h2 : 2 ≤ st.count p
    · simp only [if_pos h2]
      exact EvOk.pure fun ld e => by cases e
    · simp only [if_neg h2]
      obtain ⟨t', d', hr', hd', hg, ds, ρ, hsyn, hc, hlit⟩ := hG p hp
      rw [hr] at hr'
      cases hr'
      refine EvOk.bind (f := fun a b _ => grammarText w (fromFile w a b) a t p d st)
        (ok_text hw hi hh hF hG ih hg hsyn hc hlit (fun f hf => hstep p t d f hp hr hd hf) (Nat.le_of_lt_succ hk)) ?_
      rintro x hx -
      exact EvOk.pure fun ld e => by cases e; exact hx

include hi hh hstep in
/-- a text in the syntax whose files can all be loaded -/
theorem ok_string {text : List Char} (hg : runeError ∉ text) {ds : List Def} {ρ : List (String × String)}
    (hsyn : FileSyn w.lex text ds ρ) (hc : NoCollision w.lex.hash ds) (hlit : LiteralsRead w.ref.annot ds) {name dir : String}
    (ht : ∀ f, Target w.lex text f → G (w.join dir f)) {st : LoadSt} (h2 : ¬ 2 ≤ st.count name) :
    ∃ N ld st', ∀ fuel depth, N ≤ fuel → N ≤ depth →
      fromString w (fromFile w fuel depth) fuel text name dir st = .ok (some ld, st') := by
  obtain ⟨N, x, -, hN⟩ := ok_text hw hi hh hF hG (ok_file hw hi hh hF hG hstep (fresh F st)) hg hsyn hc hlit (name := name) ht
    (Nat.le_refl _)
  refine ⟨N, x.1, x.2.incr name, fun a b ha hb => ?_⟩
  unfold fromString
  have e : grammarText w (fromFile w a b) a text name dir st = .ok x := hN a b N ha hb (Nat.le_refl _)
  rw [if_neg h2, e]
  rfl

end

end Fmr
