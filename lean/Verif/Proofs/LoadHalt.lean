import Verif.Model.Load
import Verif.Proofs.LexerHalt
import Verif.Proofs.LexerMono
import Verif.Proofs.Maps
import Verif.Props.Refine

/-!
# The loader terminates

For texts without U+FFFD in which every `//` is followed by a newline, and finitely many readable files.
-/

namespace Fmr

/-- no count has decreased -/
def Counted (st st' : LoadSt) : Prop := ∀ p, st.count p ≤ st'.count p

theorem Counted.refl (st : LoadSt) : Counted st st := fun _ => Nat.le_refl _

theorem Counted.trans {a b c : LoadSt} (h1 : Counted a b) (h2 : Counted b c) : Counted a c := fun p => Nat.le_trans (h1 p) (h2 p)

theorem count_incr (st : LoadSt) (k p : String) : (st.incr k).count p = if p = k then st.count k + 1 else st.count p := by
  unfold LoadSt.incr LoadSt.count
  simp only [lookup_mapSet]
  split <;> simp_all

theorem counted_incr (st : LoadSt) (k : String) : Counted st (st.incr k) := by
  intro p
  rw [count_incr]
  split
  · subst_vars; omega
  · exact Nat.le_refl _

theorem counted_of_files {a b : LoadSt} (h : b.files = a.files) : Counted a b := by
  intro p
  unfold LoadSt.count
  rw [h]

section
variable {w : LoadWorld}

theorem counted_directives {inc : String → LoadSt → Out (Option Loaded × LoadSt)} {inp : List Char} {dir : String} {f0 : Nat}
    (hinc : ∀ p st r st', inc p st = .ok (r, st') → Counted st st') (n : Nat) :
    ∀ {gs st ps gs' st' ps'}, directives w inc inp dir f0 n gs st ps = .ok ((gs', st'), ps') → Counted st st' := by
  induction n with
  | zero => intro _ _ _ _ _ _ h; cases h
  | succ n ih =>
    intro gs st ps gs' st' ps' h
    unfold directives at h
    split at h
    · cases h
    · cases h
    · cases h
    · cases h; exact Counted.refl _
    · simp only at h
      split at h
      · cases h
      · cases h
      · cases h
      · rename_i e
        exact ((counted_incr st _).trans (hinc _ _ _ _ e)).trans (ih h)
      · rename_i e
        exact ((counted_incr st _).trans (hinc _ _ _ _ e)).trans (ih h)

theorem counted_fromString {inc : String → LoadSt → Out (Option Loaded × LoadSt)} {fuel : Nat}
    (hinc : ∀ p st r st', inc p st = .ok (r, st') → Counted st st') {d : List Char} {name dir : String}
    {st st' : LoadSt} {r : Option Loaded} (h : fromString w inc fuel d name dir st = .ok (r, st')) : Counted st st' := by
  unfold fromString at h
  split at h
  · cases h; exact Counted.refl _
  · obtain ⟨⟨ld, st1⟩, h1, h2⟩ := Out.bind_eq_ok.mp h
    cases h2
    unfold grammarText at h1
    obtain ⟨⟨⟨gs, st2⟩, ps⟩, h3, h1⟩ := Out.bind_eq_ok.mp h1
    obtain ⟨g, h4, h1⟩ := Out.bind_eq_ok.mp h1
    obtain ⟨gi, h5, h1⟩ := Out.bind_eq_ok.mp h1
    obtain ⟨rr, h6, h1⟩ := Out.bind_eq_ok.mp h1
    cases h1
    exact ((counted_directives hinc _ h3).trans (counted_of_files rfl)).trans (counted_incr _ _)

theorem counted_fromFile {fuel : Nat} (depth : Nat) :
    ∀ p st r st', fromFile w fuel depth p st = .ok (r, st') → Counted st st' := by
  induction depth with
  | zero => intro p st r st' h; cases h
  | succ depth ih =>
    intro p st r st' h
    unfold fromFile at h
    split at h
    · cases h; exact Counted.refl _
    · split at h
      · cases h
      · split at h
        · cases h
        · refine Counted.trans ?_ (counted_fromString ih h)
          exact counted_of_files rfl

end

/-! ## Eventually constant results -/

/-- a value or an error -/
def Done {α : Type} (r : Out α) : Prop := r ≠ .div ∧ r ≠ .panic

/-- the result is there and the same for all large values of the three bounds -/
def Ev {α : Type} (f : Nat → Nat → Nat → Out α) : Prop :=
  ∃ N r, Done r ∧ ∀ a b c, N ≤ a → N ≤ b → N ≤ c → f a b c = r

theorem Ev.const {α : Type} {r : Out α} (h : Done r) : Ev (fun _ _ _ => r) := ⟨0, r, h, fun _ _ _ _ _ _ => rfl⟩

theorem Ev.congr {α : Type} {f g : Nat → Nat → Nat → Out α} (hg : Ev g) (N : Nat)
    (h : ∀ a b c, N ≤ a → N ≤ b → N ≤ c → f a b c = g a b c) : Ev f := by
  obtain ⟨M, r, hr, hM⟩ := hg
  refine ⟨max N M, r, hr, fun a b c ha hb hc => ?_⟩
  rw [h a b c (by omega) (by omega) (by omega)]
  exact hM a b c (by omega) (by omega) (by omega)

theorem Ev.bind {α β : Type} {f : Nat → Nat → Nat → Out α} {g : α → Nat → Nat → Nat → Out β} (hf : Ev f)
    (hg : ∀ x, (∃ a b c, f a b c = .ok x) → Ev (g x)) : Ev (fun a b c => f a b c >>= fun x => g x a b c) := by
  obtain ⟨N, r, hr, hN⟩ := hf
  cases r with
  | ok x =>
    refine Ev.congr (hg x ⟨N, N, N, hN N N N (Nat.le_refl _) (Nat.le_refl _) (Nat.le_refl _)⟩) N fun a b c ha hb hc => ?_
    rw [hN a b c ha hb hc]
    rfl
  | err => exact ⟨N, .err, by simp [Done], fun a b c ha hb hc => by simp only [hN a b c ha hb hc]; rfl⟩
  | panic => exact absurd rfl hr.2
  | div => exact absurd rfl hr.1

theorem Done.ok {α : Type} {a : α} : Done (.ok a) := ⟨by simp, by simp⟩

theorem Done.err {α : Type} : Done (.err : Out α) := ⟨by simp, by simp⟩

theorem foldOut_done {σ α : Type} {f : σ → α → Out σ} (h : ∀ s a, Done (f s a)) (l : List α) :
    ∀ s, Done (foldOut f s l) := by
  induction l with
  | nil => intro s; exact .ok
  | cons a l ih =>
    intro s
    unfold foldOut
    cases e : f s a with
    | ok s' => exact ih s'
    | err => exact .err
    | panic => exact absurd e (h s a).2
    | div => exact absurd e (h s a).1

theorem buildIndex_done {w : IndexWorld} {g : Gram} : Done (buildIndex w g) := by
  have h1 : ∀ cate v gi t, Done (indexTerm w cate v gi t) := by
    intro cate v gi t
    unfold indexTerm
    simp only
    split
    · exact .ok
    · split
      · split
        · exact .ok
        · exact .err
      · exact .ok
      · exact .ok
  have h2 : ∀ cate rules gi, Done (indexRules w cate rules gi) := by
    intro cate rules gi
    exact foldOut_done (fun gi e => foldOut_done (fun gi b => foldOut_done (fun gi t => h1 _ _ _ _) _ _) _ _) _ _
  unfold buildIndex
  split
  · exact .err
  · refine foldOut_done (fun gi ig => ?_) _ _
    cases e : indexRules w .frame ig.frames gi with
    | ok gi' => exact h2 _ _ _
    | err => exact .err
    | panic => exact absurd e (h2 _ _ _).2
    | div => exact absurd e (h2 _ _ _).1

theorem mapState_no_panic {σ α : Type} {f : σ → α → Out (σ × α)} (h : ∀ s a, f s a ≠ .panic) (l : List α) :
    ∀ s, mapState f s l ≠ .panic := by
  induction l with
  | nil => intro s; simp [mapState]
  | cons a l ih =>
    intro s hp
    unfold mapState at hp
    rcases Out.bind_eq_panic.mp hp with h1 | ⟨⟨s1, a'⟩, -, h1⟩
    · exact h _ _ h1
    · rcases Out.bind_eq_panic.mp h1 with h2 | ⟨⟨s2, l'⟩, -, h2⟩
      · exact ih _ h2
      · cases h2

theorem ofErr_no_panic {α : Type} {x : Option α} : Out.ofErr x ≠ .panic := by
  cases x <;> simp [Out.ofErr]

theorem ofFuel_no_panic {α : Type} {x : Option α} : Out.ofFuel x ≠ .panic := by
  cases x <;> simp [Out.ofFuel]

theorem refine_no_panic {w : RefineWorld} {pre : String} {fuel : Nat} {reg : Registry} {g : Grammar} :
    refine w pre fuel reg g ≠ .panic := by
  have h1 : ∀ rules st t, refineTerm w pre rules fuel st t ≠ .panic := by
    intro rules st t h
    unfold refineTerm at h
    split at h
    · cases h
    · split at h
      · cases h
      · rcases Out.bind_eq_panic.mp h with h1 | ⟨_, -, h⟩
        · exact ofErr_no_panic h1
        rcases Out.bind_eq_panic.mp h with h1 | ⟨n, -, h⟩
        · exact ofFuel_no_panic h1
        rcases Out.bind_eq_panic.mp h with h1 | ⟨_, -, h⟩
        · exact ofErr_no_panic h1
        cases h
  have h2 : ∀ rules st b, refineBody w pre rules fuel st b ≠ .panic := by
    intro rules st b h
    unfold refineBody at h
    rcases Out.bind_eq_panic.mp h with h | ⟨_, -, h⟩
    · exact mapState_no_panic (h1 rules) _ _ h
    · cases h
  have h3 : ∀ rules st e, refineRule w pre rules fuel st e ≠ .panic := by
    intro rules st e h
    unfold refineRule at h
    rcases Out.bind_eq_panic.mp h with h | ⟨_, -, h⟩
    · exact mapState_no_panic (h2 rules) _ _ h
    · cases h
  intro h
  unfold refine at h
  split at h
  · cases h
  · rcases Out.bind_eq_panic.mp h with h | ⟨_, -, h⟩
    · exact mapState_no_panic (h3 _) _ _ h
    · cases h

/-- the texts the loader surely can process -/
structure TextOK (inp : List Char) : Prop where
  good : runeError ∉ inp
  lines : LineOK inp

/-- number of files not counted yet -/
def fresh (F : List String) (st : LoadSt) : Nat := F.countP fun p => st.count p = 0

theorem fresh_mono {F : List String} {st st' : LoadSt} (h : Counted st st') : fresh F st' ≤ fresh F st := by
  refine List.countP_mono_left fun p _ hp => ?_
  simp only [decide_eq_true_eq] at hp ⊢
  have := h p
  omega

theorem fresh_incr {F : List String} {st st' : LoadSt} {p : String} (hp : p ∈ F) (h0 : st.count p = 0)
    (h1 : st'.count p ≠ 0) (h : Counted st st') : fresh F st' < fresh F st := by
  unfold fresh
  induction F with
  | nil => cases hp
  | cons q F ih =>
    have hle : fresh F st' ≤ fresh F st := fresh_mono h
    unfold fresh at hle
    rw [List.countP_cons, List.countP_cons]
    by_cases hq : q = p
    · subst hq
      simp only [h0, decide_true, if_true, h1, decide_false, Bool.false_eq_true, if_false]
      omega
    · have := ih ((List.mem_cons.mp hp).resolve_left (Ne.symm hq))
      have hqq := h q
      by_cases hc : st'.count q = 0
      · have : st.count q = 0 := by omega
        simp only [hc, this, decide_true, if_true]
        omega
      · simp only [hc, decide_false, Bool.false_eq_true, if_false]
        omega

section
variable {w : LoadWorld} (hw : w.lex.OK) {F : List String} (hF : ∀ p, w.read p ≠ none → p ∈ F)
  (hread : ∀ p t, w.read p = some t → TextOK t)
include hw hF hread


omit hw hF hread in
theorem Ev.shift {α : Type} {f : Nat → Nat → Nat → Out α} (h : Ev f) (i j : Nat) : Ev (fun a b c => f a (b - i) (c - j)) := by
  obtain ⟨N, r, hr, hN⟩ := h
  exact ⟨N + i + j, r, hr, fun a b c ha hb hc => hN a (b - i) (c - j) (by omega) (by omega) (by omega)⟩

omit hw hF hread in
theorem directives_succ {inc : String → LoadSt → Out (Option Loaded × LoadSt)} {inp : List Char} {dir : String}
    {f0 c : Nat} {gs : List Grammar} {st : LoadSt} {ps : PSt} :
    directives w inc inp dir f0 (c + 1) gs st ps = directive w.lex inp f0 ps >>= fun x =>
      match x.1 with
      | none => .ok ((gs, st), x.2)
      | some ifile => inc (w.join dir ifile) (st.incr (w.join dir ifile)) >>= fun y =>
        match y.1 with
        | none => directives w inc inp dir f0 c gs y.2 x.2
        | some ig => directives w inc inp dir f0 c (gs ++ [ig.gram.main] ++ ig.gram.includes) y.2
          { x.2 with regexps := ig.gram.main.regexps.foldl (fun m e => mapSet m e.1 e.2) x.2.regexps } := by
  rw [directives]
  split <;> rename_i h <;> rw [h]
  · rfl
  · rfl
  · rfl
  · rfl
  · simp only [Out.bind_ok]
    split <;> rename_i h <;> rw [h] <;> rfl

omit hw hF hread in
theorem Ev.of_le {α : Type} {x : Nat → P α} {s : PSt} (hmono : ∀ {n m}, n ≤ m → P.le (x n) (x m)) {N : Nat}
    (h : Done (x N s)) : Ev (fun a _ _ => x a s) :=
  ⟨N, x N s, h, fun a _ _ ha _ _ => hmono ha s h.1⟩

omit hw in
/-- the loop over include directives ends, if loading with fewer fresh files ends -/
theorem ev_directives {k : Nat}
    (ih : ∀ text name dir st, TextOK text → fresh F st < k →
      Ev (fun a b _ => fromString w (fromFile w a b) a text name dir st))
    {inp : List Char} (hi : TextOK inp) {dir : String} (m : Nat) :
    ∀ {gs : List Grammar} {st : LoadSt} {ps : PSt}, (inp.drop ps.pos).length < m → fresh F st ≤ k →
      Ev (fun a b c => directives w (fromFile w a b) inp dir a c gs st ps) := by
  induction m with
  | zero =>
    intro gs st ps hm hk
    omega
  | succ m ihm =>
    intro gs st ps hm hk
    have hl : LineOK (inp.drop ps.pos) := hi.lines.suffix (List.drop_suffix _ _)
    have hd := haltsD_directive (w := w.lex) hi.good hl (Nat.lt_succ_self _) ps rfl
    refine Ev.congr (g := fun a b c => directive w.lex inp a ps >>= fun x =>
      match x.1 with
      | none => .ok ((gs, st), x.2)
      | some ifile => fromFile w a b (w.join dir ifile) (st.incr (w.join dir ifile)) >>= fun y =>
        match y.1 with
        | none => directives w (fromFile w a b) inp dir a (c - 1) gs y.2 x.2
        | some ig => directives w (fromFile w a b) inp dir a (c - 1) (gs ++ [ig.gram.main] ++ ig.gram.includes) y.2
          { x.2 with regexps := ig.gram.main.regexps.foldl (fun m e => mapSet m e.1 e.2) x.2.regexps }) ?_ 1 ?_
    · refine Ev.bind (f := fun a _ _ => directive w.lex inp a ps) (Ev.of_le (fun h => le_directive _ _ h) ⟨hd.1, hd.2.1⟩) ?_
      rintro ⟨o, ps'⟩ ⟨a0, -, -, e0⟩
      cases o with
      | none => exact Ev.const .ok
      | some ifile =>
        -- the remaining text is shorter
        have hlt : (inp.drop ps'.pos).length < m := by
          have h0 : directive w.lex inp (max a0 ((inp.drop ps.pos).length + 1)) ps = .ok (some ifile, ps') := by
            rw [le_directive _ _ (Nat.le_max_left _ _) ps (by rw [e0]; simp), e0]
          have h1 : directive w.lex inp (max a0 ((inp.drop ps.pos).length + 1)) ps = _ :=
            le_directive _ _ (Nat.le_max_right _ _) ps hd.1
          rw [h1] at h0
          have := (hd.2.2 _ _ h0).2
          simp only [Option.isSome_some, if_true] at this
          omega
        simp only
        refine Ev.bind (f := fun a b _ => fromFile w a b (w.join dir ifile) (st.incr (w.join dir ifile))) ?_ ?_
        · generalize hp : w.join dir ifile = p
          have hc1 : (st.incr p).count p = st.count p + 1 := by rw [count_incr, if_pos rfl]
          by_cases h2 : 2 ≤ (st.incr p).count p
          · refine Ev.congr (Ev.const (r := .ok (none, st.incr p)) .ok) 1 fun a b c _ hb _ => ?_
            cases b with
            | zero => omega
            | succ b => unfold fromFile; rw [if_pos h2]
          · cases hr : w.read p with
            | none =>
              refine Ev.congr (Ev.const (r := .err) .err) 1 fun a b c _ hb _ => ?_
              cases b with
              | zero => omega
              | succ b => unfold fromFile; rw [if_neg h2, hr]
            | some t =>
              cases hdir : w.dir p with
              | none =>
                refine Ev.congr (Ev.const (r := .err) .err) 1 fun a b c _ hb _ => ?_
                cases b with
                | zero => omega
                | succ b => unfold fromFile; rw [if_neg h2, hr, hdir]
              | some dir' =>
                have hfr : fresh F { st.incr p with log := (st.incr p).log ++ [p] } < k := by
                  refine Nat.lt_of_lt_of_le (fresh_incr (hF p (by rw [hr]; simp)) (st := st) (by omega) ?_ ?_) hk
                  · have e : ({ st.incr p with log := (st.incr p).log ++ [p] } : LoadSt).count p = (st.incr p).count p := rfl
                    omega
                  · exact (counted_incr st p).trans (counted_of_files rfl)
                refine Ev.congr ((ih t p dir' _ (hread p t hr) hfr).shift 1 0) 1 fun a b c _ hb _ => ?_
                cases b with
                | zero => omega
                | succ b => rw [fromFile, if_neg h2, hr, hdir]; rfl
        · rintro ⟨og, st'⟩ ⟨a1, b1, -, e1⟩
          have hk' : fresh F st' ≤ k :=
            Nat.le_trans (fresh_mono ((counted_incr st _).trans (counted_fromFile b1 _ _ _ _ e1))) hk
          cases og with
          | none => exact (ihm hlt hk').shift 0 1
          | some ig =>
            exact (ihm (ps := { ps' with regexps := ig.gram.main.regexps.foldl (fun m e => mapSet m e.1 e.2) ps'.regexps })
              hlt hk').shift 0 1
    · intro a b c _ _ hc
      cases c with
      | zero => omega
      | succ c => rw [directives_succ]; rfl

theorem ev_fromString (k : Nat) : ∀ text name dir st, TextOK text → fresh F st ≤ k →
    Ev (fun a b _ => fromString w (fromFile w a b) a text name dir st) := by
  induction k using Nat.strong_induction_on with
  | _ k ih =>
    intro text name dir st ht hk
    unfold fromString
    by_cases h2 : 2 ≤ st.count name
    · simp only [if_pos h2]
      exact Ev.const .ok
    · simp only [if_neg h2]
      refine Ev.bind (f := fun a b _ => grammarText w (fromFile w a b) a text name dir st) ?_ fun _ _ => Ev.const .ok
      unfold grammarText
      have hdirs := ev_directives hF hread (k := k) (dir := dir) (fun text name dir st ht hlt => ih _ hlt text name dir st ht (Nat.le_refl _))
        ht (text.length + 1) (gs := []) (st := st) (ps := { pos := 0, width := 0 }) (by simp) hk
      refine Ev.bind (f := fun a b _ => directives w (fromFile w a b) text dir a a [] st { pos := 0, width := 0 }) ?_ ?_
      · obtain ⟨N, r, hr, hN⟩ := hdirs
        exact ⟨N, r, hr, fun a b _ ha hb _ => hN a b a ha hb ha⟩
      rintro ⟨⟨gs, st'⟩, ps⟩ -
      refine Ev.bind (f := fun a _ _ => grammarRules w.lex text a name ps) ?_ ?_
      · have hl : LineOK (text.drop ps.pos) := ht.lines.suffix (List.drop_suffix _ _)
        have := halts_grammarRules (w := w.lex) (name := name) ht.good hw hl (Nat.le_refl _) ps rfl
        exact Ev.of_le (fun h => le_grammarRules _ _ h) ⟨this.1, this.2.1⟩
      rintro ⟨g, ps'⟩ -
      refine Ev.bind (f := fun _ _ _ => buildIndex w.idx ⟨g, gs⟩) (Ev.const buildIndex_done) ?_
      rintro gi -
      refine Ev.bind (f := fun a _ _ => refine w.ref "g" a st'.reg g) ?_ fun _ _ => Ev.const .ok
      obtain ⟨n, hn⟩ := C25_terminates w.ref "g" st'.reg g
      refine ⟨n, _, ⟨hn n (Nat.le_refl _), refine_no_panic⟩, fun a _ _ ha _ _ => ?_⟩
      obtain ⟨j, rfl⟩ := Nat.exists_eq_add_of_le ha
      exact C25_mono j (hn n (Nat.le_refl _))

end

end Fmr
