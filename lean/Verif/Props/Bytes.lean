import Verif.Proofs.BytesSim
import Verif.Props.FrameWitness

/-!
# The parser on bytes and the positions of its errors: C67, C68
-/

namespace Fmr

/-- the outcome without the position of an error -/
def BOut.erase {α : Type} : BOut α → Out α
  | .ok a => .ok a
  | .err _ => .err
  | .panic => .panic
  | .div => .div

/-- the world in which the files are read as runes -/
def LoadWorld.withRead (w : LoadWorld) (read : String → Option Bytes) : LoadWorld :=
  { w with read := fun p => (read p).map runes }

/-- The position of an error message: nil, or the position of a rune of the text. -/
def InText (text : List Char) (p : Option Position) : Prop := ∃ k, k ≤ text.length ∧ p = posOf (text.take k)

/-- The two outcomes are the same, and a position in an error message is in the text `T f` of the named file. -/
structure BAgree {α : Type} (T : String → Bytes → Prop) (x : BOut α) (y : Out α) : Prop where
  eq : x.erase = y
  pos : ∀ f p, x = .err (some (f, p)) → ∃ t, T f t ∧ InText (runes t) p

theorem BAgree.bind {α β : Type} {T : String → Bytes → Prop} {x : BOut α} {y : Out α} {f : α → BOut β} {g : α → Out β}
    (h : BAgree T x y) (hf : ∀ a, x = .ok a → BAgree T (f a) (g a)) : BAgree T (x >>= f) (y >>= g) := by
  obtain ⟨rfl, h2⟩ := h
  cases x with
  | ok a => exact hf a rfl
  | err e => exact ⟨rfl, fun f p he => h2 f p (by cases he; rfl)⟩
  | panic => exact ⟨rfl, fun f p he => nomatch he⟩
  | div => exact ⟨rfl, fun f p he => nomatch he⟩

theorem BAgree.lift {α : Type} {T : String → Bytes → Prop} (y : Out α) : BAgree T (.lift y) y := by
  cases y <;> exact ⟨rfl, fun f p he => nomatch he⟩

theorem BAgree.ok {α : Type} {T : String → Bytes → Prop} (a : α) : BAgree T (.ok a) (.ok a) :=
  ⟨rfl, fun _ _ he => nomatch he⟩

theorem BAgree.none {α : Type} {T : String → Bytes → Prop} : BAgree (α := α) T (.err none) .err :=
  ⟨rfl, fun _ _ he => nomatch he⟩

theorem BAgree.div {α : Type} {T : String → Bytes → Prop} : BAgree (α := α) T .div .div :=
  ⟨rfl, fun _ _ he => nomatch he⟩

section
variable {w : LoadWorld} {read : String → Option Bytes} {T : String → Bytes → Prop}
  {incB : String → LoadSt → BOut (Option Loaded × LoadSt)} {inc : String → LoadSt → Out (Option Loaded × LoadSt)}

theorem agree_directives (hinc : ∀ p st, BAgree T (incB p st) (inc p st)) {b : Bytes} {name : String} (hT : T name b)
    (dir : String) (fuel0 fuel : Nat) (gs : List Grammar) (st : LoadSt) {f : Bool} {hw : Nat} {sb : BSt} {sr : PSt}
    (h : Prog.Rel b f hw sb sr) :
    ∃ z : BOut ((List Grammar × LoadSt) × PSt), BAgree T z (directives (w.withRead read) inc (runes b) dir fuel0 fuel gs st sr) ∧
      ((∃ a sb' sr' f' hw', bdirectives w incB b name dir fuel0 fuel gs st sb = .ok (a, sb') ∧ z = .ok (a, sr') ∧
        Prog.Rel b f' hw' sb' sr') ∨
      (∃ e, bdirectives w incB b name dir fuel0 fuel gs st sb = .err e ∧ z = .err e) ∨
      (bdirectives w incB b name dir fuel0 fuel gs st sb = .panic ∧ z = .panic) ∨
      (bdirectives w incB b name dir fuel0 fuel gs st sb = .div ∧ z = .div)) := by
  induction fuel generalizing gs st f hw sb sr with
  | zero => exact ⟨.div, BAgree.div, .inr (.inr (.inr ⟨rfl, rfl⟩))⟩
  | succ fuel ih =>
    have hs := Prog.sim name b (Prog.directive w.lex fuel0) (Prog.good_directive w.lex fuel0).d h
    rw [Prog.run_directive] at hs
    unfold bdirectives directives
    show ∃ z, BAgree T z (match directive w.lex (runes b) fuel0 sr with
      | .err => _ | .panic => _ | .div => _ | .ok (none, ps) => _ | .ok (some ifile, ps) => _) ∧ _
    generalize hx : (Prog.directive w.lex fuel0).runB name b sb = x at hs
    generalize hy : directive w.lex (runes b) fuel0 sr = y at hs
    cases hs with
    | silent => exact ⟨.err none, BAgree.none, .inr (.inl ⟨_, rfl, rfl⟩)⟩
    | @err k hk =>
      exact ⟨.err (some (name, posOf ((runes b).take k))), ⟨rfl, fun f p he => by
        cases he; exact ⟨b, hT, k, hk, rfl⟩⟩, .inr (.inl ⟨_, rfl, rfl⟩)⟩
    | div => exact ⟨.div, BAgree.div, .inr (.inr (.inr ⟨rfl, rfl⟩))⟩
    | @ok a f' hw' sb' sr' _ hrel =>
      cases a with
      | none => exact ⟨.ok ((gs, st), sr'), BAgree.ok _, .inl ⟨_, _, _, _, _, rfl, rfl, hrel⟩⟩
      | some ifile =>
        have hi := hinc (w.join dir ifile) (st.incr (w.join dir ifile))
        simp only
        show ∃ z, BAgree T z (match inc (w.join dir ifile) (st.incr (w.join dir ifile)) with
          | .err => _ | .panic => _ | .div => _ | .ok (none, st) => _ | .ok (some ig, st) => _) ∧ _
        obtain ⟨he, hp⟩ := hi
        rw [← he]
        generalize incB (w.join dir ifile) (st.incr (w.join dir ifile)) = z at *
        cases z with
        | err e => exact ⟨.err e, ⟨rfl, fun f p h => hp f p (by cases h; rfl)⟩, .inr (.inl ⟨_, rfl, rfl⟩)⟩
        | panic => exact ⟨.panic, ⟨rfl, fun f p h => nomatch h⟩, .inr (.inr (.inl ⟨rfl, rfl⟩))⟩
        | div => exact ⟨.div, BAgree.div, .inr (.inr (.inr ⟨rfl, rfl⟩))⟩
        | ok r =>
          obtain ⟨r, st'⟩ := r
          cases r with
          | none => exact ih gs st' hrel
          | some ig =>
            refine ih _ st' (f := f') (hw := hw') ⟨hrel.le, hrel.top, hrel.pos, ?_, hrel.clean, hrel.width, hrel.cur, hrel.info⟩
            simp only [hrel.reg]

theorem agree_grammarText (hinc : ∀ p st, BAgree T (incB p st) (inc p st)) {b : Bytes} {name : String} (hT : T name b)
    (fuel : Nat) (dir : String) (st : LoadSt) :
    BAgree T (bgrammarText w incB fuel b name dir st) (grammarText (w.withRead read) inc fuel (runes b) name dir st) := by
  unfold bgrammarText grammarText
  obtain ⟨z, hz, h⟩ := agree_directives (w := w) (read := read) hinc hT dir fuel fuel [] st (Prog.Rel.init b)
  rcases h with ⟨a, sb, sr, f, hw, h1, rfl, hrel⟩ | ⟨e, h1, rfl⟩ | ⟨h1, rfl⟩ | ⟨h1, rfl⟩
  · rw [h1, ← hz.eq]
    show BAgree T ((Prog.grammarRules w.lex fuel name).runB name b sb >>= _) (grammarRules w.lex (runes b) fuel name sr >>= _)
    have hs := Prog.sim name b (Prog.grammarRules w.lex fuel name) (Prog.good_grammarRules w.lex fuel name).d hrel
    rw [Prog.run_grammarRules] at hs
    generalize (Prog.grammarRules w.lex fuel name).runB name b sb = x at hs
    generalize grammarRules w.lex (runes b) fuel name sr = y at hs
    cases hs with
    | silent => exact BAgree.none
    | @err k hk => exact ⟨rfl, fun f p he => by cases he; exact ⟨b, hT, k, hk, rfl⟩⟩
    | div => exact BAgree.div
    | ok _ _ =>
      refine BAgree.bind (BAgree.lift _) fun gi _ => ?_
      exact BAgree.bind (BAgree.lift _) fun r _ => BAgree.ok _
  · rw [h1, ← hz.eq]
    exact ⟨rfl, fun f p he => hz.pos f p (by cases he; rfl)⟩
  · rw [h1, ← hz.eq]
    exact ⟨rfl, fun f p he => nomatch he⟩
  · rw [h1, ← hz.eq]
    exact BAgree.div

theorem agree_fromString (hinc : ∀ p st, BAgree T (incB p st) (inc p st)) {b : Bytes} {name : String} (hT : T name b)
    (fuel : Nat) (dir : String) (st : LoadSt) :
    BAgree T (bfromString w incB fuel b name dir st) (fromString (w.withRead read) inc fuel (runes b) name dir st) := by
  unfold bfromString fromString
  split
  · exact BAgree.ok _
  · exact BAgree.bind (agree_grammarText hinc hT fuel dir st) fun r _ => BAgree.ok _

theorem agree_fromFile (hT : ∀ p b, read p = some b → T p b) (fuel depth : Nat) (p : String) (st : LoadSt) :
    BAgree T (bfromFile w read fuel depth p st) (fromFile (w.withRead read) fuel depth p st) := by
  induction depth generalizing p st with
  | zero => exact BAgree.div
  | succ depth ih =>
    unfold bfromFile fromFile
    split
    · exact BAgree.ok _
    · show BAgree T _ (match (read p).map runes with | none => _ | some b => _)
      cases hr : read p with
      | none => exact BAgree.none
      | some b =>
        show BAgree T _ (match w.dir p with | none => _ | some dir => _)
        simp only
        cases hd : w.dir p with
        | none => exact BAgree.none
        | some dir => exact agree_fromString (fun p st => ih p st) (hT p b hr) fuel dir _

end

/-! ## C67 bytes and runes -/

/-- Loading a byte string gives what the rune-level model gives for its runes: the same grammar, an error in the
same cases, and the same non-termination. (In particular no slice is ever out of range: `panic` does not occur in
the parser.) All theorems about `loadString` are therefore theorems about byte strings. -/
theorem C67_string (w : LoadWorld) (read : String → Option Bytes) (fuel depth : Nat) (d : Bytes) (name : String) (reg : Registry) :
    (bloadString w read fuel depth d name reg).erase = loadString (w.withRead read) fuel depth (runes d) name reg :=
  (agree_fromString (T := fun _ _ => True)
    (fun p st => agree_fromFile (fun _ _ _ => trivial) fuel depth p st) trivial fuel "." { reg := reg }).1

theorem agree_loadFile (w : LoadWorld) (read : String → Option Bytes) (fuel depth : Nat) (file : String) (reg : Registry) :
    BAgree (fun f t => read f = some t) (bloadFile w read fuel depth file reg) (loadFile (w.withRead read) fuel depth file reg) := by
  unfold bloadFile loadFile
  show BAgree _ _ (match (read file).map runes with | none => _ | some b => _)
  cases hr : read file with
  | none => exact BAgree.none
  | some b =>
    show BAgree _ _ (match w.dir file with | none => _ | some dir => _)
    simp only
    cases hd : w.dir file with
    | none => exact BAgree.none
    | some dir => exact agree_fromString (fun p st => agree_fromFile (fun _ _ h => h) fuel depth p st) hr fuel dir _

theorem C67_file (w : LoadWorld) (read : String → Option Bytes) (fuel depth : Nat) (file : String) (reg : Registry) :
    (bloadFile w read fuel depth file reg).erase = loadFile (w.withRead read) fuel depth file reg :=
  (agree_loadFile w read fuel depth file reg).1

/-- `runes` is the usual decoding: the runes of the UTF-8 encoding of a string are its characters. -/
theorem C67_runes (s : String) : runes (utf8 s) = s.toList := runes_utf8 s

/-! ## C68 positions -/

theorem isPos_posOf {l : List Char} {p : Position} (h : posOf l = some p) : IsPos l p := by
  induction l using List.reverseRecOn generalizing p with
  | nil => cases h
  | append_singleton l r ih =>
    rw [posOf_snoc] at h
    rcases List.eq_nil_or_concat l with rfl | ⟨l', c', rfl⟩
    · cases h
      exact ⟨rfl, rfl, [], [r], rfl, by simp, fun h => absurd rfl h, rfl⟩
    · have hq : ∃ q, posOf (l' ++ [c']) = some q := by rw [posOf_snoc]; exact ⟨_, rfl⟩
      rw [List.concat_eq_append] at *
      obtain ⟨q, hq⟩ := hq
      obtain ⟨-, h2, a, b, hab, hb, hhd, hcol⟩ := ih hq
      rw [hq] at h
      simp only [stepPos, Option.some.injEq] at h
      have htail : (l' ++ [c'] ++ [r]).tail = (l' ++ [c']).tail ++ [r] := by
        cases l' <;> rfl
      by_cases hr : r = '\n'
      · rw [if_pos hr] at h
        subst h
        refine ⟨by simp, ?_, l' ++ [c'], [r], rfl, by simp, fun _ => by simp [hr], by simp [byteLen]⟩
        rw [htail, List.count_append, h2, hr]
        simp; omega
      · rw [if_neg hr] at h
        subst h
        have hbne : b ≠ [] := by
          rintro rfl
          rw [List.append_nil] at hab
          have := hhd (by rw [← hab]; simp)
          cases this
        have hlen : ∀ x y, byteLen (x ++ y) = byteLen x + byteLen y := by
          intro x y
          induction x with
          | nil => simp [byteLen]
          | cons c x ih => simp [byteLen, ih, Nat.add_assoc]
        refine ⟨by simp, ?_, a, b ++ [r], by rw [hab, List.append_assoc], ?_, ?_, ?_⟩
        · rw [htail, List.count_append, h2]
          simp [hr]
        · obtain ⟨x, b, rfl⟩ := List.exists_cons_of_ne_nil hbne
          simpa [Ne.symm hr] using hb
        · intro ha
          obtain ⟨x, b, rfl⟩ := List.exists_cons_of_ne_nil hbne
          simpa using hhd ha
        · rw [hlen, hcol]
          simp [byteLen]

theorem posOf_take_zero (l : List Char) : posOf (l.take 0) = none := rfl

theorem posOf_take_pos {l : List Char} {k : Nat} (h0 : 0 < k) (hk : k ≤ l.length) : ∃ p, posOf (l.take k) = some p := by
  obtain ⟨k, rfl⟩ : ∃ n, k = n + 1 := ⟨k - 1, by omega⟩
  rw [posOf_take (List.getElem?_eq_getElem (show k < l.length by omega))]
  exact ⟨_, rfl⟩

/-- The position in an error message: `f` is the loaded text or a file that was read, and the position is nil (no
rune has been read, or all have been given back) or the position of a rune of this text. -/
theorem C68_string {w : LoadWorld} {read : String → Option Bytes} {fuel depth : Nat} {d : Bytes} {name f : String}
    {reg : Registry} {p : Option Position} (h : bloadString w read fuel depth d name reg = .err (some (f, p))) :
    ∃ t, ((f = name ∧ t = d) ∨ read f = some t) ∧
      (p = none ∨ ∃ k q, 0 < k ∧ k ≤ (runes t).length ∧ p = some q ∧ IsPos ((runes t).take k) q) := by
  obtain ⟨t, ht, k, hk, rfl⟩ := (agree_fromString (w := w) (read := read)
    (T := fun f t => (f = name ∧ t = d) ∨ read f = some t)
    (fun p st => agree_fromFile (fun _ _ h => .inr h) fuel depth p st) (.inl ⟨rfl, rfl⟩) fuel "." { reg := reg }).2 f p h
  refine ⟨t, ht, ?_⟩
  by_cases h0 : 0 < k
  · obtain ⟨q, hq⟩ := posOf_take_pos h0 hk
    exact .inr ⟨k, q, h0, hk, hq, isPos_posOf hq⟩
  · rw [show k = 0 by omega]
    exact .inl rfl

theorem C68_file {w : LoadWorld} {read : String → Option Bytes} {fuel depth : Nat} {file f : String}
    {reg : Registry} {p : Option Position} (h : bloadFile w read fuel depth file reg = .err (some (f, p))) :
    ∃ t, read f = some t ∧
      (p = none ∨ ∃ k q, 0 < k ∧ k ≤ (runes t).length ∧ p = some q ∧ IsPos ((runes t).take k) q) := by
  obtain ⟨t, ht, k, hk, rfl⟩ := (agree_loadFile w read fuel depth file reg).2 f p h
  refine ⟨t, ht, ?_⟩
  by_cases h0 : 0 < k
  · obtain ⟨q, hq⟩ := posOf_take_pos h0 hk
    exact .inr ⟨k, q, h0, hk, hq, isPos_posOf hq⟩
  · rw [show k = 0 by omega]
    exact .inl rfl

/-- A text has one last position. -/
theorem IsPos.unique {pre : List Char} {p q : Position} (hp : IsPos pre p) (hq : IsPos pre q) : p = q := by
  have h1 : p.row = q.row := by rw [hp.row, hq.row]
  have h2 : p.r = q.r := Option.some.inj (hp.rune.symm.trans hq.rune)
  have key : ∀ a b a' b' : List Char, pre = a ++ b → pre = a' ++ b' → '\n' ∉ b.tail → (a' ≠ [] → b'.head? = some '\n') →
      a.length ≤ a'.length → b = b' := by
    intro a b a' b' e e' hb hh hle
    have ha : a <+: a' := List.prefix_of_prefix_length_le ⟨b, e.symm⟩ ⟨b', e'.symm⟩ hle
    obtain ⟨c, rfl⟩ := ha
    rw [e, List.append_assoc] at e'
    have e2 := List.append_cancel_left e'
    cases c with
    | nil => exact e2
    | cons x c =>
      exfalso
      have hb' := hh (by simp)
      subst e2
      obtain ⟨y, b', rfl⟩ : ∃ y l, b' = y :: l := by cases b' with
        | nil => cases hb'
        | cons y l => exact ⟨y, l, rfl⟩
      cases hb'
      simp at hb
  have h3 : p.col = q.col := by
    obtain ⟨a, b, e, hb, hh, hc⟩ := hp.col
    obtain ⟨a', b', e', hb', hh', hc'⟩ := hq.col
    rw [hc, hc']
    rcases Nat.le_total a.length a'.length with hl | hl
    · rw [key a b a' b' e e' hb hh' hl]
    · rw [key a' b' a b e' e hb' hh hl]
  cases p; cases q; simp_all

theorem isPos_iff {l : List Char} {p : Position} : IsPos l p ↔ posOf l = some p := by
  refine ⟨fun h => ?_, isPos_posOf⟩
  rcases List.eq_nil_or_concat l with rfl | ⟨l', c, rfl⟩
  · have := h.rune; cases this
  · rw [List.concat_eq_append] at *
    have hq : ∃ q, posOf (l' ++ [c]) = some q := by rw [posOf_snoc]; exact ⟨_, rfl⟩
    obtain ⟨q, hq⟩ := hq
    rw [hq, h.unique (isPos_posOf hq)]

theorem posOf_lt {l : List Char} {j k : Nat} (hj : j < k) (hk : k ≤ l.length) : ∃ q, posOf (l.take k) = some q ∧
    ∀ p, posOf (l.take j) = some p → p.row < q.row ∨ (p.row = q.row ∧ p.col < q.col) := by
  induction k with
  | zero => omega
  | succ k ih =>
    have hg := List.getElem?_eq_getElem (show k < l.length by omega)
    have hn := posOf_take hg
    have hsz := Char.utf8Size_pos l[k]
    have hstep : ∃ q, posOf (l.take (k + 1)) = some q ∧
        ∀ p, posOf (l.take k) = some p → p.row < q.row ∨ (p.row = q.row ∧ p.col < q.col) := by
      refine ⟨_, hn, fun p hp => ?_⟩
      rw [hp]
      simp only
      split
      · exact .inl (Nat.lt_succ_self _)
      · exact .inr ⟨rfl, Nat.lt_add_of_pos_right hsz⟩
    obtain ⟨q, hq, hlt⟩ := hstep
    refine ⟨q, hq, fun p hp => ?_⟩
    by_cases hjk : j = k
    · subst hjk; exact hlt p hp
    · obtain ⟨r, hr, h1⟩ := ih (by omega) (by omega)
      have h2 := h1 p hp
      have h3 := hlt r hr
      omega

/-- Row and column locate the rune: no two runes of a text have the same. -/
theorem C68_unique {l : List Char} {j k : Nat} (hj : j ≤ l.length) (hk : k ≤ l.length) {p q : Position}
    (hp : IsPos (l.take j) p) (hq : IsPos (l.take k) q) (hr : p.row = q.row) (hc : p.col = q.col) : j = k := by
  rw [isPos_iff] at hp hq
  rcases Nat.lt_trichotomy j k with h | h | h
  · obtain ⟨r, h1, h2⟩ := posOf_lt h hk
    have := h2 p hp
    rw [hq] at h1
    cases h1
    omega
  · exact h
  · obtain ⟨r, h1, h2⟩ := posOf_lt h hj
    have := h2 q hq
    rw [hp] at h1
    cases h1
    omega

/-- The full statement: the row is the number of the line (lines are numbered from 1, and a newline ends its
line). -/
def C68_statement : Prop :=
  ∀ (w : LoadWorld) (read : String → Option Bytes) (fuel depth : Nat) (d : Bytes) (name f : String) (reg : Registry) (q : Position),
    bloadString w read fuel depth d name reg = .err (some (f, some q)) →
    ∃ t, ((f = name ∧ t = d) ∨ read f = some t) ∧ ∃ k, ((runes t).take k).getLast? = some q.r ∧
      q.row = 1 + ((runes t).take k).dropLast.count '\n'

/-- For a rune other than a newline of a text that does not begin with a newline: the row is the number of
the line; the column is the number of bytes from the start of the line up to and including the rune, plus one on all
lines but the first. -/
theorem IsPos.line {pre : List Char} {q : Position} (h : IsPos pre q) (hn : pre.head? ≠ some '\n') (hr : q.r ≠ '\n') :
    q.row = 1 + pre.dropLast.count '\n' ∧
    ∃ a b, pre = a ++ b ∧ '\n' ∉ b ∧ ((a = [] ∧ q.col = byteLen b) ∨ (a.getLast? = some '\n' ∧ q.col = byteLen b + 1)) := by
  have hne : pre ≠ [] := by rintro rfl; have := h.rune; cases this
  constructor
  · rw [h.row]
    congr 1
    rcases List.eq_nil_or_concat pre with rfl | ⟨l, c, rfl⟩
    · rfl
    · have hc : c = q.r := by have := h.rune; simpa using this
      subst hc
      rw [List.concat_eq_append] at *
      rw [List.dropLast_concat]
      cases l with
      | nil => simp
      | cons x l =>
        have hx : x ≠ '\n' := by simpa using hn
        simp [hx, hr]
  · obtain ⟨a, b, e, hb, hh, hc⟩ := h.col
    by_cases ha : a = []
    · subst ha
      refine ⟨[], b, e, ?_, .inl ⟨rfl, hc⟩⟩
      simp only [List.nil_append] at e
      subst e
      obtain ⟨x, l, rfl⟩ := List.exists_cons_of_ne_nil hne
      simp only [List.mem_cons, not_or]
      exact ⟨fun hx => hn (by rw [hx]; rfl), hb⟩
    · have hhd := hh ha
      cases b with
      | nil => cases hhd
      | cons x l =>
        cases hhd
        refine ⟨a ++ ['\n'], l, by rw [e]; simp, hb, .inr ⟨by simp, ?_⟩⟩
        rw [hc, byteLen]
        have : ('\n' : Char).utf8Size = 1 := by decide
        omega

/-- Proved: the statement for a rune other than a newline in a text that does not begin with a newline. -/
theorem C68_partial {w : LoadWorld} {read : String → Option Bytes} {fuel depth : Nat} {d : Bytes} {name f : String}
    {reg : Registry} {q : Position} (h : bloadString w read fuel depth d name reg = .err (some (f, some q))) :
    ∃ t, ((f = name ∧ t = d) ∨ read f = some t) ∧ ∃ k, ((runes t).take k).getLast? = some q.r ∧
      ((runes t).head? ≠ some '\n' → q.r ≠ '\n' →
        q.row = 1 + ((runes t).take k).dropLast.count '\n' ∧
        ∃ a b, (runes t).take k = a ++ b ∧ '\n' ∉ b ∧
          ((a = [] ∧ q.col = byteLen b) ∨ (a.getLast? = some '\n' ∧ q.col = byteLen b + 1))) := by
  obtain ⟨t, ht, hp | ⟨k, q', h0, _, he, hp⟩⟩ := C68_string h
  · cases hp
  · cases he
    refine ⟨t, ht, k, hp.rune, fun h1 h2 => hp.line ?_ h2⟩
    rwa [List.head?_take, if_neg (by omega)]

/-- the position of the error of an outcome -/
def BOut.errAt {α : Type} : BOut α → Option (Option (String × Option Position))
  | .err e => some e
  | _ => none

theorem BOut.errAt_eq {α : Type} {x : BOut α} {e : Option (String × Option Position)} (h : x.errAt = some e) : x = .err e := by
  cases x <;> first | (cases h; rfl) | cases h

/-- False: a newline at the start of the text is not counted. The error is in line 2, the message says row 1. -/
theorem C68_false : ¬ C68_statement := by
  intro h
  have e : bloadString exLoad (fun _ => none) 9 9 (utf8 "\n<a") "g" [] = .err (some ("g", some ⟨1, 3, 'a'⟩)) :=
    BOut.errAt_eq (by decide +kernel)
  obtain ⟨t, ht, k, h1, h2⟩ := h _ _ _ _ _ _ _ _ _ e
  rcases ht with ⟨_, rfl⟩ | ht
  · rw [C67_runes] at h1 h2
    have hs : ("\n<a" : String).toList = ['\n', '<', 'a'] := by decide +kernel
    rw [hs] at h1 h2
    have : k = 0 ∨ k = 1 ∨ k = 2 ∨ 3 ≤ k := by omega
    rcases this with rfl | rfl | rfl | hk
    · cases h1
    · simp at h1
    · simp at h1
    · rw [List.take_of_length_le (by simpa using hk)] at h2
      simp at h2
  · cases ht

/-- non-vacuity: an error in the third line of an included file, with the column counted in bytes -/
example : bloadString exLoad (fun p => if p = "./i" then some (utf8 "<a>=\"x\";\n\n<b>=\"é\" ]") else none) 60 5
    (utf8 "#include \"i\"\n") "g" [] = .err (some ("./i", some ⟨3, 11, ']'⟩)) :=
  BOut.errAt_eq (by decide +kernel)

end Fmr
