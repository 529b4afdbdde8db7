import Verif.Spec.Utf8Text
import Verif.Props.Bytes
import Verif.Props.LexerExact

/-!
# C113: a text that is accepted can be read
-/

namespace Fmr

theorem runeError_eq : runeError = '\uFFFD' := by decide

theorem utf8_flat (s : String) : utf8 s = s.toList.flatMap String.utf8EncodeChar := by
  unfold utf8
  rw [String.toUTF8_eq_toByteArray, ← String.utf8Encode_toList]
  simp [List.utf8Encode]

theorem utf8_cons (c : Char) (l : List Char) : utf8 (String.ofList (c :: l)) = String.utf8EncodeChar c ++ utf8 (String.ofList l) := by
  simp [utf8_flat]

theorem utf8Text_of_runes : ∀ (n : Nat) (b : Bytes), b.length ≤ n → runeError ∉ runes b → utf8 (String.ofList (runes b)) = b := by
  intro n
  induction n with
  | zero =>
    intro b hb _
    obtain rfl := List.length_eq_zero_iff.1 (Nat.le_zero.1 hb)
    rfl
  | succ n ih =>
    intro b hb h
    by_cases h0 : b = []
    · subst h0; rfl
    · rw [runes_eq h0] at h ⊢
      rw [List.mem_cons, not_or] at h
      have hw := decodeRune_width h0
      have h1 : (decodeRune b).1 ≠ runeError := fun e => h.1 e.symm
      rw [utf8_cons, ih _ (by rw [List.length_drop]; omega) h.2, ← decodeRune_encode h1, List.take_append_drop]

theorem utf8Text_iff {b : Bytes} : Utf8Text b ↔ runeError ∉ runes b := by
  constructor
  · rintro ⟨s, rfl, h⟩
    rw [runes_utf8, runeError_eq]
    exact h
  · intro h
    exact ⟨_, (utf8Text_of_runes _ b le_rfl h).symm, by rw [String.toList_ofList, ← runeError_eq]; exact h⟩

theorem badStart_iff {b : Bytes} : BadStart b ↔ (runes b).head? = some runeError := by
  constructor
  · rintro ⟨h0, h⟩
    rw [runes_eq h0, List.head?_cons]
    by_contra hne
    have hne : (decodeRune b).1 ≠ runeError := fun e => hne (by rw [e])
    refine hne ?_
    rw [runeError_eq]
    refine h _ (b.drop (decodeRune b).2) ?_
    rw [← decodeRune_encode hne, List.take_append_drop]
  · intro h
    have h0 : b ≠ [] := by rintro rfl; simp at h
    refine ⟨h0, ?_⟩
    rintro c rest rfl
    rw [runes_append, List.head?_cons, Option.some.injEq] at h
    rw [h, runeError_eq]

/-! ## the parser cannot get past such a rune -/

/-- the parser is in front of the rune at `i`, and the last rune it read is in front of it -/
def Before (i : Nat) (s : PSt) : Prop := s.pos ≤ i ∧ (s.width = 1 ∨ (s.pos = 0 ∧ s.width = 0))

section
variable {inp : List Char} {i : Nat} (hi : inp[i]? = some runeError) (hlt : ∀ j < i, ∃ c, inp[j]? = some c ∧ c ≠ runeError)
  (h0 : 0 < i)
include hi hlt h0

theorem Before.next {s s' : PSt} {r : Option Char} (hs : Before i s) (h : Fmr.next inp s = .ok (r, s')) :
    Before i s' ∧ ((∃ c, r = some c ∧ s'.pos = s.pos + 1 ∧ s'.width = 1) ∨ (r = none ∧ s' = s ∧ s.width = 1 ∧ s.pos = i)) := by
  obtain ⟨h1, h2⟩ := hs
  unfold Fmr.next at h
  rcases Nat.lt_or_ge s.pos i with hp | hp
  · obtain ⟨c, hc, hne⟩ := hlt s.pos hp
    rw [hc] at h
    simp only [if_neg hne, Out.ok.injEq, Prod.mk.injEq] at h
    obtain ⟨rfl, rfl⟩ := h
    exact ⟨⟨hp, .inl rfl⟩, .inl ⟨c, rfl, rfl, rfl⟩⟩
  · have he : s.pos = i := by omega
    rw [he, hi] at h
    simp only [if_true, Out.ok.injEq, Prod.mk.injEq] at h
    obtain ⟨rfl, rfl⟩ := h
    exact ⟨⟨h1, h2⟩, .inr ⟨rfl, rfl, by omega, he⟩⟩

theorem Before.run {α : Type} : ∀ (x : Prog α) {s s' : PSt} {a : α}, Before i s → x.run inp s = .ok (a, s') → Before i s'
  | .ret a, s, s', _, hs, h => by
    simp only [Prog.run] at h
    cases h
    exact hs
  | .next k, s, s', a, hs, h => by
    rw [Prog.run, P.bind_eq_ok] at h
    obtain ⟨r, s1, h1, h2⟩ := h
    exact Before.run (k r) (hs.next hi hlt h0 h1).1 h2
  | .backup k, s, s', a, hs, h => by
    rw [Prog.run, P.bind_eq_ok] at h
    obtain ⟨_, s1, h1, h2⟩ := h
    refine Before.run k ?_ h2
    cases h1
    obtain ⟨g1, g2⟩ := hs
    unfold Before
    dsimp only
    omega
  | .put x y k, s, s', a, hs, h => by
    rw [Prog.run, P.bind_eq_ok] at h
    obtain ⟨_, s1, h1, h2⟩ := h
    refine Before.run k ?_ h2
    cases h1
    exact hs
  | .get k, s, s', a, hs, h => Before.run (k s.regexps) hs (by rw [Prog.run] at h; exact h)
  | .fail _, s, s', a, hs, h => by cases h
  | .div, s, s', a, hs, h => by cases h

theorem Before.rulesLoop {w : LexWorld} {m : Nat} : ∀ (n : Nat) {g g' : List (String × Rule) × List (String × Rule)} {s s' : PSt},
    Before i s → Fmr.rulesLoop w inp m n g s = .ok (g', s') → s'.pos < i
  | 0, g, g', s, s', hs, h => by cases h
  | n+1, g, g', s, s', hs, h => by
    rw [Fmr.rulesLoop, P.bind_eq_ok] at h
    obtain ⟨_, s1, h1, h⟩ := h
    rw [← Prog.run_comments] at h1
    have hs1 := Before.run hi hlt h0 _ hs h1
    rw [P.bind_eq_ok] at h
    obtain ⟨c, s2, h2, h⟩ := h
    have h2' := h2
    rw [← Prog.run_peek] at h2'
    have hs2 := Before.run hi hlt h0 _ hs1 h2'
    split at h
    · rw [P.bind_eq_ok] at h
      obtain ⟨r, s3, h3, h⟩ := h
      rw [← Prog.run_rule] at h3
      exact Before.rulesLoop n (Before.run hi hlt h0 _ hs2 h3) h
    · cases h
      unfold Fmr.peek at h2
      rw [P.bind_eq_ok] at h2
      obtain ⟨r, s3, h3, h2⟩ := h2
      rw [P.bind_eq_ok] at h2
      obtain ⟨_, s4, h4, h2⟩ := h2
      cases h4
      cases h2
      obtain ⟨⟨g1, -⟩, ⟨c', -, e1, e2⟩ | ⟨-, rfl, e1, e2⟩⟩ := hs1.next hi hlt h0 h3 <;> (dsimp only; omega)

theorem Before.grammarRules {w : LexWorld} {n : Nat} {name : String} {s s' : PSt} {g : Grammar} (hs : Before i s) :
    Fmr.grammarRules w inp n name s ≠ .ok (g, s') := by
  intro h
  rw [Fmr.grammarRules, P.bind_eq_ok] at h
  obtain ⟨m, s1, h1, h⟩ := h
  have hp := Before.rulesLoop hi hlt h0 n hs h1
  rw [P.bind_eq_ok] at h
  obtain ⟨r, s2, h2, h⟩ := h
  obtain ⟨c, hc, hne⟩ := hlt s1.pos hp
  unfold Fmr.next at h2
  rw [hc] at h2
  simp only [if_neg hne, Out.ok.injEq, Prod.mk.injEq] at h2
  obtain ⟨rfl, rfl⟩ := h2
  simp [P.fail] at h

theorem Before.directives {w : LoadWorld} {inc : String → LoadSt → Out (Option Loaded × LoadSt)} {dir : String} {m : Nat} :
    ∀ (n : Nat) {gs : List Grammar} {st : LoadSt} {s s' : PSt} {r : List Grammar × LoadSt}, Before i s →
      Fmr.directives w inc inp dir m n gs st s = .ok (r, s') → Before i s'
  | 0, gs, st, s, s', r, hs, h => by cases h
  | n+1, gs, st, s, s', r, hs, h => by
    unfold Fmr.directives at h
    split at h
    · cases h
    · cases h
    · cases h
    · next ps hd =>
      rw [← Prog.run_directive] at hd
      cases h
      exact Before.run hi hlt h0 _ hs hd
    · next ifile ps hd =>
      rw [← Prog.run_directive] at hd
      have := Before.run hi hlt h0 _ hs hd
      dsimp only at h
      split at h
      · cases h
      · cases h
      · cases h
      · exact Before.directives n this h
      · refine Before.directives n ?_ h
        exact this

end

/-- a text that is accepted has an unreadable rune at most in front -/
theorem accepted_first {w : LoadWorld} {inc : String → LoadSt → Out (Option Loaded × LoadSt)} {fuel : Nat} {inp : List Char}
    {name dir : String} {st : LoadSt} {x : Loaded × LoadSt} (h : grammarText w inc fuel inp name dir st = .ok x) :
    runeError ∉ inp ∨ inp.head? = some runeError := by
  by_contra hc
  rw [not_or, not_not] at hc
  obtain ⟨hm, hh⟩ := hc
  obtain ⟨a, b, rfl, ha⟩ := List.eq_append_cons_of_mem hm
  have h0 : 0 < a.length := by
    rcases a with _ | ⟨c, a⟩
    · simp at hh
    · simp
  have hi : (a ++ runeError :: b)[a.length]? = some runeError := by simp
  have hlt : ∀ j < a.length, ∃ c, (a ++ runeError :: b)[j]? = some c ∧ c ≠ runeError := by
    intro j hj
    refine ⟨a[j], by rw [List.getElem?_append_left hj, List.getElem?_eq_getElem hj], fun e => ha ?_⟩
    rw [← e]
    exact List.getElem_mem hj
  unfold grammarText at h
  simp only [Out.bind_eq_ok] at h
  obtain ⟨⟨d, ps⟩, h1, ⟨g, ps'⟩, h2, -⟩ := h
  exact Before.grammarRules hi hlt h0 (Before.directives hi hlt h0 fuel (s := { pos := 0, width := 0 })
    ⟨Nat.zero_le _, .inr ⟨rfl, rfl⟩⟩ h1) h2

/-! ## what is in front of the whole text hides it -/

section
variable {inp : List Char} {s : PSt} (hp : inp[s.pos]? = some runeError) (hw : s.width = 0)
include hp

theorem stuck_next : next inp s = .ok (none, s) := by
  unfold next
  rw [hp]
  rfl

include hw

theorem stuck_backup : backup s = .ok ((), s) := by
  obtain ⟨pos, width, re⟩ := s
  subst hw
  rfl

theorem stuck_peek : peek inp s = .ok (none, s) := by
  unfold peek
  rw [P.bind_run, stuck_next hp, Out.bind_ok, P.bind_run, stuck_backup hp hw]
  rfl

theorem stuck_ws (w : LexWorld) (n : Nat) : ws w inp (n+1) s = .ok ((), s) := by
  unfold ws
  rw [P.bind_run, stuck_next hp, Out.bind_ok]
  exact stuck_backup hp hw

theorem stuck_comment (n : Nat) : comment inp n s = .ok (false, s) := by
  unfold comment
  rw [P.bind_run, stuck_next hp, Out.bind_ok, if_pos (by simp), P.bind_run, stuck_backup hp hw]
  rfl

theorem stuck_comments (w : LexWorld) (n : Nat) : comments w inp (n+1) s = .ok ((), s) := by
  unfold comments commentsLoop
  rw [P.bind_run, P.bind_run, stuck_ws hp hw, Out.bind_ok, P.bind_run, stuck_comment hp hw, Out.bind_ok]
  exact stuck_ws hp hw w n

theorem stuck_directive (w : LexWorld) (n : Nat) : directive w inp (n+1) s = .ok (none, s) := by
  unfold directive
  rw [P.bind_run, stuck_comments hp hw, Out.bind_ok, P.bind_run, stuck_peek hp hw, Out.bind_ok, if_pos (by simp)]
  rfl

theorem stuck_rulesLoop (w : LexWorld) (n : Nat) (g : List (String × Rule) × List (String × Rule)) :
    rulesLoop w inp (n+1) (n+1) g s = .ok (g, s) := by
  unfold rulesLoop
  rw [P.bind_run, stuck_comments hp hw, Out.bind_ok, P.bind_run, stuck_peek hp hw, Out.bind_ok]
  rfl

theorem stuck_grammarRules (w : LexWorld) (n : Nat) (name : String) :
    grammarRules w inp (n+1) name s = .ok ({ name := name, rules := [], frames := [], regexps := s.regexps }, s) := by
  unfold grammarRules
  rw [P.bind_run, stuck_rulesLoop hp hw, Out.bind_ok, P.bind_run, stuck_next hp, Out.bind_ok]
  rfl

end

/-- what is loaded from such a text -/
def hidden (name : String) : Loaded := { gram := { main := { name := name, rules := [], refined := true }, includes := [] }, index := {} }

theorem stuck_text (w : LoadWorld) (inc : String → LoadSt → Out (Option Loaded × LoadSt)) {fuel : Nat} (hf : 0 < fuel)
    {inp : List Char} (hh : inp.head? = some runeError) (name dir : String) (st : LoadSt) :
    grammarText w inc fuel inp name dir st = .ok (hidden name, st) := by
  obtain ⟨n, rfl⟩ : ∃ n, fuel = n + 1 := ⟨fuel - 1, by omega⟩
  have hp : inp[({ pos := 0, width := 0 } : PSt).pos]? = some runeError := by rw [← List.head?_eq_getElem?]; exact hh
  unfold grammarText
  have hd : directives w inc inp dir (n+1) (n+1) [] st { pos := 0, width := 0 } = .ok (([], st), { pos := 0, width := 0 }) := by
    unfold directives
    rw [stuck_directive hp rfl]
  rw [hd, Out.bind_ok, stuck_grammarRules hp rfl, Out.bind_ok]
  rfl

/-! ## C113 -/

/-- C113 in full: a text that is loaded can be read. -/
def C113_statement : Prop :=
  ∀ (w : LoadWorld) (read : String → Option Bytes) (fuel depth : Nat) (d : Bytes) (name : String) (reg : Registry)
    (ld : Loaded) (st : LoadSt), bloadString w read fuel depth d name reg = .ok (some ld, st) → Utf8Text d

theorem fromString_first {w : LoadWorld} {inc : String → LoadSt → Out (Option Loaded × LoadSt)} {fuel : Nat} {d : Bytes}
    {name dir : String} {st st' : LoadSt} {ld : Loaded} (h : fromString w inc fuel (runes d) name dir st = .ok (some ld, st')) :
    Utf8Text d ∨ BadStart d := by
  rw [utf8Text_iff, badStart_iff]
  unfold fromString at h
  split at h
  · simp at h
  · obtain ⟨x, h1, -⟩ := Out.bind_eq_ok.1 h
    exact accepted_first h1

theorem BOut.erase_ok {α : Type} {x : BOut α} {a : α} : x.erase = .ok a ↔ x = .ok a := by
  cases x <;> simp [BOut.erase]

/-- C113 up to the first rune: a text that is loaded can be read, or its first rune cannot.
Missing: texts whose first rune cannot be read, see `C113_silent` and `C113_false`. -/
theorem C113_partial {w : LoadWorld} {read : String → Option Bytes} {fuel depth : Nat} {d : Bytes} {name : String}
    {reg : Registry} {ld : Loaded} {st : LoadSt} (h : bloadString w read fuel depth d name reg = .ok (some ld, st)) :
    Utf8Text d ∨ BadStart d := by
  rw [← BOut.erase_ok, C67_string] at h
  exact fromString_first h

/-- the same for files -/
theorem C113_file_partial {w : LoadWorld} {read : String → Option Bytes} {fuel depth : Nat} {file : String}
    {reg : Registry} {ld : Loaded} {st : LoadSt} (h : bloadFile w read fuel depth file reg = .ok (some ld, st)) :
    ∃ d, read file = some d ∧ (Utf8Text d ∨ BadStart d) := by
  rw [← BOut.erase_ok, C67_file] at h
  unfold loadFile at h
  cases hr : read file with
  | none =>
    have : (w.withRead read).read file = none := by show (read file).map runes = none; rw [hr]; rfl
    rw [this] at h
    cases h
  | some d =>
    have : (w.withRead read).read file = some (runes d) := by show (read file).map runes = _; rw [hr]; rfl
    rw [this] at h
    refine ⟨d, rfl, ?_⟩
    dsimp only at h
    split at h
    · cases h
    · exact fromString_first h

/-- the files read between two states can be read as texts, or their first rune cannot -/
def NewFiles (read : String → Option Bytes) (st st' : LoadSt) : Prop :=
  ∀ p ∈ st'.log, p ∈ st.log ∨ ∃ d, read p = some d ∧ (Utf8Text d ∨ BadStart d)

theorem NewFiles.trans {read : String → Option Bytes} {a b c : LoadSt} (h1 : NewFiles read a b) (h2 : NewFiles read b c) :
    NewFiles read a c := fun p hp => (h2 p hp).elim (h1 p) .inr

theorem newFiles_directives {read : String → Option Bytes} {w : LoadWorld} {inc : String → LoadSt → Out (Option Loaded × LoadSt)}
    (hi : ∀ p st r, inc p st = .ok r → NewFiles read st r.2) {inp : List Char} {dir : String} {fuel0 : Nat} :
    ∀ (fuel : Nat) (gs : List Grammar) (st : LoadSt) (ps : PSt) (r : (List Grammar × LoadSt) × PSt),
      directives w inc inp dir fuel0 fuel gs st ps = .ok r → NewFiles read st r.1.2
  | 0, _, _, _, _, h => by cases h
  | fuel + 1, gs, st, ps, r, h => by
    rw [directives] at h
    split at h <;> try (cases h; done)
    · cases h
      exact fun p hp => .inl hp
    · dsimp only at h
      split at h <;> try (cases h; done)
      · next e =>
        have h1 := hi _ _ _ e
        exact NewFiles.trans (a := st) h1 (newFiles_directives hi fuel _ _ _ r h)
      · next e =>
        have h1 := hi _ _ _ e
        exact NewFiles.trans (a := st) h1 (newFiles_directives hi fuel _ _ _ r h)

theorem newFiles_fromString {read : String → Option Bytes} {w : LoadWorld} {inc : String → LoadSt → Out (Option Loaded × LoadSt)}
    (hi : ∀ p st r, inc p st = .ok r → NewFiles read st r.2) {fuel : Nat} {d : List Char} {name dir : String} {st : LoadSt}
    {r : Option Loaded × LoadSt} (h : fromString w inc fuel d name dir st = .ok r) : NewFiles read st r.2 := by
  unfold fromString at h
  split at h
  · cases h
    exact fun p hp => .inl hp
  · obtain ⟨x, h1, h2⟩ := Out.bind_eq_ok.1 h
    cases h2
    unfold grammarText at h1
    obtain ⟨y, h3, h1⟩ := Out.bind_eq_ok.1 h1
    obtain ⟨g, -, h1⟩ := Out.bind_eq_ok.1 h1
    obtain ⟨gi, -, h1⟩ := Out.bind_eq_ok.1 h1
    obtain ⟨q, -, h1⟩ := Out.bind_eq_ok.1 h1
    cases h1
    exact newFiles_directives hi _ _ _ _ _ h3

theorem newFiles_fromFile (w : LoadWorld) (read : String → Option Bytes) (fuel : Nat) : ∀ (depth : Nat) (p : String) (st : LoadSt)
    (r : Option Loaded × LoadSt), fromFile (w.withRead read) fuel depth p st = .ok r → NewFiles read st r.2
  | 0, _, _, _, h => by cases h
  | depth + 1, p, st, r, h => by
    rw [fromFile] at h
    split at h
    · cases h
      exact fun p hp => .inl hp
    · next hc =>
      cases hr : read p with
      | none =>
        have : (w.withRead read).read p = none := by show (read p).map runes = none; rw [hr]; rfl
        rw [this] at h
        cases h
      | some d =>
        have : (w.withRead read).read p = some (runes d) := by show (read p).map runes = _; rw [hr]; rfl
        rw [this] at h
        dsimp only at h
        split at h
        · cases h
        · have hn := newFiles_fromString (newFiles_fromFile w read fuel depth) h
          have hd : Utf8Text d ∨ BadStart d := by
            obtain ⟨o, st'⟩ := r
            cases o with
            | some ld => exact fromString_first h
            | none =>
              unfold fromString at h
              rw [if_neg (show ¬ 2 ≤ ({ st with log := st.log ++ [p] } : LoadSt).count p from hc)] at h
              obtain ⟨x, -, h2⟩ := Out.bind_eq_ok.1 h
              cases h2
          intro q hq
          rcases hn q hq with h | h
          · rcases List.mem_append.1 h with h | h
            · exact .inl h
            · obtain rfl := List.mem_singleton.1 h
              exact .inr ⟨d, hr, hd⟩
          · exact .inr h

/-- C113 up to the first rune for all files that a text includes, however deep. -/
theorem C113_includes_partial {w : LoadWorld} {read : String → Option Bytes} {fuel depth : Nat} {d : Bytes} {name : String}
    {reg : Registry} {ld : Loaded} {st : LoadSt} (h : bloadString w read fuel depth d name reg = .ok (some ld, st)) :
    ∀ p ∈ st.log, ∃ d, read p = some d ∧ (Utf8Text d ∨ BadStart d) := by
  rw [← BOut.erase_ok, C67_string] at h
  intro p hp
  rcases newFiles_fromString (newFiles_fromFile w read fuel depth) h p hp with h | h
  · simp at h
  · exact h

/-- the same for all files that a file includes -/
theorem C113_file_includes_partial {w : LoadWorld} {read : String → Option Bytes} {fuel depth : Nat} {file : String}
    {reg : Registry} {ld : Loaded} {st : LoadSt} (h : bloadFile w read fuel depth file reg = .ok (some ld, st)) :
    ∀ p ∈ st.log, ∃ d, read p = some d ∧ (Utf8Text d ∨ BadStart d) := by
  rw [← BOut.erase_ok, C67_file] at h
  unfold loadFile at h
  split at h
  · cases h
  · split at h
    · cases h
    · intro p hp
      rcases newFiles_fromString (newFiles_fromFile w read fuel depth) h p hp with h | h
      · simp at h
      · exact h

/-- Every text whose first rune cannot be read is loaded without an error, as a grammar without rules. -/
theorem C113_silent (w : LoadWorld) (read : String → Option Bytes) {fuel : Nat} (hf : 0 < fuel) (depth : Nat) {d : Bytes}
    (hd : BadStart d) (name : String) (reg : Registry) :
    ∃ st, bloadString w read fuel depth d name reg = .ok (some (hidden name), st) := by
  rw [badStart_iff] at hd
  have h : loadString (w.withRead read) fuel depth (runes d) name reg = .ok (some (hidden name), ({ reg := reg } : LoadSt).incr name) := by
    unfold loadString fromString
    rw [if_neg (by simp [LoadSt.count]), stuck_text _ _ hf hd]
    rfl
  rw [← C67_string] at h
  exact ⟨_, BOut.erase_ok.1 h⟩

/-- the text `<a>="b";` in UTF-16 with its byte order mark -/
def utf16Text : Bytes := [0xFF, 0xFE] ++ (utf8 "<a>=\"b\";").flatMap (fun c => [c, 0])

theorem utf16_bad : BadStart utf16Text := badStart_iff.2 (by decide +kernel)

/-- C113 fails for a grammar in UTF-16: it is loaded, without its rule. -/
theorem C113_false : ¬ C113_statement := by
  intro h
  obtain ⟨st, hs⟩ := C113_silent (noFiles asciiLex) (fun _ => none) (fuel := 1) (by omega) 0 utf16_bad "g" []
  exact utf8Text_iff.1 (h _ _ _ _ _ _ _ _ _ hs) (List.mem_of_head? (badStart_iff.1 utf16_bad))

/-- non-vacuity: the same text in UTF-8 is loaded, with its rule -/
example : ∃ ld st, bloadString (noFiles asciiLex) (fun _ => none) 40 1 (utf8 "<a>=\"b\";") "g" [] = .ok (some ld, st) ∧
    ld.gram.main.rules ≠ [] := by
  have h : (match bloadString (noFiles asciiLex) (fun _ => none) 40 1 (utf8 "<a>=\"b\";") "g" [] with
    | .ok (some ld, _) => !ld.gram.main.rules.isEmpty
    | _ => false) = true := by decide +kernel
  revert h
  generalize bloadString (noFiles asciiLex) (fun _ => none) 40 1 (utf8 "<a>=\"b\";") "g" [] = x
  intro h
  split at h
  · next ld st => exact ⟨ld, st, rfl, by simpa using h⟩
  · cases h

/-- non-vacuity of `C113_includes_partial`, and a file that is lost: an included file in UTF-16 is read, and its rule is not there -/
example : (match bloadString { noFiles asciiLex with dir := fun _ => some ".", join := fun a b => a ++ b } (fun _ => some utf16Text) 40 2 (utf8 "#include \"i\"\n<s>=\"b\";") "g" [] with
    | .ok (some ld, st) => decide (st.log.length = 1) && ld.gram.includes.all (fun g => g.rules.isEmpty) && !ld.gram.main.rules.isEmpty
    | _ => false) = true := by decide +kernel

/-! ## C56 -/

/-- C56 in full: every text is accepted iff it is a text of definitions that can all be hashed. -/
def C56_statement : Prop :=
  ∀ (w : LexWorld), w.OK → ∀ (inp : List Char) (name : String) (fuel : Nat), inp.length < fuel →
    ((∃ g s, grammarRules w inp fuel name pst0 = .ok (g, s)) ↔ ∃ ds ρ, DefsSyn w inp ds [] ρ ∧ HashedBody w.hash ds)

/-- C56 fails for the text that is U+FFFD: it is accepted and no text of definitions. -/
theorem C56_false : ¬ C56_statement := by
  intro h
  obtain ⟨ds, ρ, hd, -⟩ := (h asciiLex asciiLex_ok [runeError] "g" 2 (by simp)).1
    ⟨_, _, stuck_grammarRules (s := pst0) rfl rfl asciiLex 1 "g"⟩
  generalize hr : [runeError] = inp at hd
  cases hd with
  | nil hg =>
    cases hg with
    | spaces hs =>
      subst hr
      have : asciiLex.isSpace runeError = true := hs _ (by simp)
      revert this
      decide
    | line _ _ _ => have := congrArg List.length hr; simp at this; omega
    | block _ _ _ => have := congrArg List.length hr; simp at this; omega
  | cons hg hd hr' =>
    have := congrArg List.length hr
    cases hd <;> (simp at this; omega)

end Fmr
