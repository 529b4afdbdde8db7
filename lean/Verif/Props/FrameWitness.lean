import Verif.Props.FrameSlots

/-!
# Frames: counterexamples and examples

Every grammar here is loaded from its text by the model of the loader.
-/

namespace Fmr

/-- the tokens of an ASCII text: its bytes except spaces -/
def exTokens : Nat → Bytes → List Token
  | _, [] => []
  | i, b :: bs =>
    if b = 32 then exTokens (i+1) bs
    else { text := String.ofList [Char.ofNat b.toNat], startByte := i, endByte := i + 1 } :: exTokens (i+1) bs

/-- a world whose annotator returns these tokens and no spans -/
def exWorld : World :=
  { wWorld [] with annotate := fun b => some { text := b, tokens := exTokens 0 b, spans := [] } }

/-- a loader whose only file, `./i`, defines one frame; literals are single tokens -/
def exLoad : LoadWorld :=
  { noFiles asciiLex with
    ref := { annot := fun s => some [tk s], ascii := id, hash := fun _ => some 0 }
    read := fun p => if p = "./i" then some "[h]=\"x\";\n".toList else none
    dir := fun _ => some "."
    join := fun a b => a ++ "/" ++ b }

theorem exWorld_ord : exWorld.OrdOK := fun _ _ _ _ _ => List.Perm.refl _

/-- the text loads, with a result that passes a check -/
def exCheck (gt : String) (P : Loaded → Bool) : Bool :=
  match loadString exLoad 60 5 gt.toList "g" [] with
  | .ok (some ld, _) => P ld
  | _ => false

theorem exCheck_ok {gt : String} {P : Loaded → Bool} (h : exCheck gt P = true) :
    ∃ ld st main, loadString exLoad 60 5 gt.toList "g" [] = .ok (some ld, st) ∧ LoadedBy exLoad ld ∧
      ld.From exLoad main ∧ P ld = true := by
  unfold exCheck at h
  cases e : loadString exLoad 60 5 gt.toList "g" [] with
  | ok x =>
    obtain ⟨o, st⟩ := x
    rw [e] at h
    cases o with
    | none => simp at h
    | some ld =>
      obtain ⟨main, hm⟩ := loadString_from (w := exLoad) asciiLex_ok e
      exact ⟨ld, st, main, rfl, ⟨asciiLex_ok, _, _, _, _, _, _, e⟩, hm, h⟩
  | err => rw [e] at h; simp at h
  | panic => rw [e] at h; simp at h
  | div => rw [e] at h; simp at h

/-- non-vacuity of `C37_loaded`: a text with a rule and a frame, whose literals are in the trie -/
example : ∃ ld st main, loadString exLoad 60 5 "<s>=\"x\" \"y\";\n[f]=\"x\" <s>;\n".toList "g" [] = .ok (some ld, st) ∧
    LoadedBy exLoad ld ∧ ld.From exLoad main ∧ decide (ld.index.trie = ["x", "y"]) = true :=
  exCheck_ok (P := fun ld => decide (ld.index.trie = ["x", "y"])) (by decide +kernel)

/-- a check of the results of the annotator -/
def textCheck (ld : Loaded) (text : Bytes) (P : List Token → Option Grammar → Bool) : Bool :=
  match process exWorld ld.gram "" text with
  | .ok (tokens, l) => tokens.all (fun t => decide (t.startByte ≤ t.endByte) && decide (t.endByte ≤ text.length)) &&
      decide (tokens.Pairwise (fun a b => a.endByte ≤ b.startByte)) && ld.gram.main.regexps.isEmpty && P tokens l
  | _ => false

theorem textCheck_ok {ld : Loaded} {text : Bytes} {P : List Token → Option Grammar → Bool}
    (h : textCheck ld text P = true) : SpansInside exWorld ld.gram "" text ∧ ∃ tokens l,
      process exWorld ld.gram "" text = .ok (tokens, l) ∧ TokensOrdered text tokens ∧ P tokens l = true := by
  unfold textCheck at h
  cases e : process exWorld ld.gram "" text with
  | ok x =>
    obtain ⟨tokens, l⟩ := x
    rw [e] at h
    simp only [Bool.and_eq_true, List.all_eq_true, decide_eq_true_eq, List.isEmpty_iff] at h
    refine ⟨?_, tokens, l, rfl, ⟨h.1.1.1, h.1.1.2⟩, h.2⟩
    intro d hd
    refine ⟨?_, fun hne => absurd h.1.2 hne⟩
    have : d.spans = [] := by
      have hd := annotates_iff.1 hd
      simp only [annotateText, exWorld, wWorld] at hd
      split at hd
      · cases hd; rfl
      · cases hd
    intro sp hsp
    rw [this] at hsp
    simp at hsp
  | err => rw [e] at h; simp at h
  | panic => rw [e] at h; simp at h
  | div => rw [e] at h; simp at h

/-- a check of the assumptions of the theorems -/
def caseCheck (ld : Loaded) (text : Bytes) : Bool :=
  ld.gram.includes.all (·.frames.isEmpty) &&
  (ld.gram.main :: ld.gram.includes).all (fun g => g.rules.all (fun e => e.1 != gammaRule && e.2.name != gammaRule)) &&
  textCheck ld text (fun tokens l => (envFor exWorld ld.gram l tokens [] 0).checkNoEmpty &&
    (envFor exWorld ld.gram l tokens [] 0).allBodies.all (fun p => p.1 != gammaRule &&
      p.2.terms.all (fun t => t.value != gammaRule)))

theorem exCase {gt : String} {ld : Loaded} {st : LoadSt} {main : Grammar}
    (hload : loadString exLoad 60 5 gt.toList "g" [] = .ok (some ld, st)) (hm : ld.From exLoad main) {text : Bytes}
    (h : caseCheck ld text = true) :
    FrameCase exLoad.idx ⟨main, ld.gram.includes⟩ ld wFrames exWorld "" text ∧ ∃ tokens l,
      process exWorld ld.gram "" text = .ok (tokens, l) := by
  unfold caseCheck at h
  simp only [Bool.and_eq_true, List.all_eq_true, bne_iff_ne, List.isEmpty_iff] at h
  obtain ⟨⟨h1, h2⟩, h3⟩ := h
  obtain ⟨h4, tokens, l, h5, h6, h7⟩ := textCheck_ok h3
  simp only [Bool.and_eq_true, List.all_eq_true, bne_iff_ne] at h7
  refine ⟨frameCase_loaded asciiLex_ok hload hm h1 wFrames_ok exWorld_ord ?_ h4 h2 ?_, tokens, l, h5⟩
  · intro d hd
    have : d.spans = [] := by
      simp only [annotateText, exWorld, wWorld] at hd
      split at hd
      · cases hd; rfl
      · cases hd
    rw [this]
    intro sp hsp
    simp at hsp
  · intro tokens' l' hp
    rw [h5, Out.ok.injEq, Prod.mk.injEq] at hp
    obtain ⟨rfl, rfl⟩ := hp
    refine ⟨h6, Env.checkNoEmpty_ok h7.1, ?_, ?_⟩
    · intro A rb hd
      exact (h7.2 _ (Env.Defines.mem_allBodies hd)).1
    · rintro t ⟨A, rb, hd, ht⟩
      exact (h7.2 _ (Env.Defines.mem_allBodies hd)).2 t ht

/-! ## C40 -/

theorem wPlain_returns : CallsReturn wPlain := by
  intro fn vs
  show Settled (if fn = "f" then .ok (Value.list vs) else .err)
  split
  · exact .ok
  · exact .err

def panics {α : Type} : Out α → Bool
  | .panic => true
  | _ => false

theorem panics_eq {α : Type} {x : Out α} (h : panics x = true) : x = .panic := by
  cases x <;> simp_all [panics]

/-- a frame defined in an included file: `MatchFrames` looks it up in the including grammar -/
theorem C40_false_include : ∃ ld, LoadedBy exLoad ld ∧ SpansInside exWorld ld.gram "" (asciiBytes "x") ∧
    (∀ tokens l, process exWorld ld.gram "" (asciiBytes "x") = .ok (tokens, l) → TokensOrdered (asciiBytes "x") tokens) ∧
    matchFrames wFrames exWorld ld 60 "" (asciiBytes "x") = .panic := by
  obtain ⟨ld, st, main, -, hl, -, h⟩ := exCheck_ok (gt := "#include \"i\"\n<s>=\"a\";\n")
    (P := fun ld => textCheck ld (asciiBytes "x") (fun _ _ => true) &&
      panics (matchFrames wFrames exWorld ld 60 "" (asciiBytes "x"))) (by decide +kernel)
  rw [Bool.and_eq_true] at h
  obtain ⟨h1, tokens, l, h2, h3, -⟩ := textCheck_ok h.1
  refine ⟨ld, hl, h1, fun tokens' l' h => ?_, panics_eq h.2⟩
  rw [h2, Out.ok.injEq, Prod.mk.injEq] at h
  exact h.1 ▸ h3

/-- a rule that derives the empty text -/
theorem C40_false_empty : ∃ ld, LoadedBy exLoad ld ∧ ld.gram.includes = [] ∧
    SpansInside exWorld ld.gram "" (asciiBytes "a") ∧
    (∀ tokens l, process exWorld ld.gram "" (asciiBytes "a") = .ok (tokens, l) → TokensOrdered (asciiBytes "a") tokens) ∧
    matchFrames wFrames exWorld ld 60 "" (asciiBytes "a") = .panic := by
  obtain ⟨ld, st, main, -, hl, -, h⟩ := exCheck_ok (gt := "<s>=\"a\" \"b\"|(any{0,1});\n[f]=<s>;\n")
    (P := fun ld => ld.gram.includes.isEmpty && (textCheck ld (asciiBytes "a") (fun _ _ => true) &&
      panics (matchFrames wFrames exWorld ld 60 "" (asciiBytes "a")))) (by decide +kernel)
  rw [Bool.and_eq_true, Bool.and_eq_true, List.isEmpty_iff] at h
  obtain ⟨h1, tokens, l, h2, h3, -⟩ := textCheck_ok h.2.1
  refine ⟨ld, hl, h.1, h1, fun tokens' l' h => ?_, panics_eq h.2.2⟩
  rw [h2, Out.ok.injEq, Prod.mk.injEq] at h
  exact h.1 ▸ h3

/-- a function of a frame with the argument `@`: here `MatchFrames` returns, and `FrameFMR` panics -/
theorem C40_false_context : ∃ ld main, LoadedBy exLoad ld ∧
    FrameCase exLoad.idx ⟨main, ld.gram.includes⟩ ld wFrames exWorld "" (asciiBytes "a") ∧
    (∃ frames, matchFrames wFrames exWorld ld 60 "" (asciiBytes "a") = .ok frames) ∧
    frameFMR wFrames exWorld wPlain ld 60 "" (asciiBytes "a") = .panic := by
  obtain ⟨ld, st, main, h0, hl, hm, h⟩ := exCheck_ok (gt := "<s>=\"a\";\n[f]=<s> {f(@)};\n")
    (P := fun ld => caseCheck ld (asciiBytes "a") &&
      (panics (frameFMR wFrames exWorld wPlain ld 60 "" (asciiBytes "a")) &&
        match matchFrames wFrames exWorld ld 60 "" (asciiBytes "a") with
        | .ok _ => true
        | _ => false)) (by decide +kernel)
  rw [Bool.and_eq_true, Bool.and_eq_true] at h
  refine ⟨ld, main, hl, (exCase h0 hm h.1).1, ?_, panics_eq h.2.1⟩
  have h2 := h.2.2
  cases e : matchFrames wFrames exWorld ld 60 "" (asciiBytes "a") with
  | ok x => exact ⟨x, rfl⟩
  | err => rw [e] at h2; simp at h2
  | panic => rw [e] at h2; simp at h2
  | div => rw [e] at h2; simp at h2

theorem C40_false : ¬ C40_statement := by
  intro h
  obtain ⟨ld, h1, h2, h3, h4⟩ := C40_false_include
  exact (h exLoad ld h1 wFrames wFrames_ok exWorld exWorld_ord wPlain wPlain_returns 60 "" _ h2 h3).1 h4

/-! ## keys of `wFrames` -/

theorem foldDigits_inj {B : Nat} (hB : 0 < B) : ∀ (l l' : List Nat) (a a' : Nat), 0 < a → a < B → 0 < a' → a' < B →
    (∀ c ∈ l, c < B) → (∀ c ∈ l', c < B) →
    l.foldr (fun c n => B * n + c) a = l'.foldr (fun c n => B * n + c) a' → a = a' ∧ l = l'
  | [], [], a, a', _, _, _, _, _, _, h => ⟨h, rfl⟩
  | c :: l, [], a, a', h1, h2, h3, h4, h5, h6, h => by
    exfalso
    have : 0 < l.foldr (fun c n => B * n + c) a := by
      clear h h5
      induction l with
      | nil => exact h1
      | cons d l ih => exact Nat.lt_of_lt_of_le (Nat.mul_pos hB ih) (Nat.le_add_right _ _)
    simp only [List.foldr_cons, List.foldr_nil] at h
    have := Nat.le_mul_of_pos_right B this
    omega
  | [], c :: l, a, a', h1, h2, h3, h4, h5, h6, h => by
    exfalso
    have : 0 < l.foldr (fun c n => B * n + c) a' := by
      clear h h6
      induction l with
      | nil => exact h3
      | cons d l ih => exact Nat.lt_of_lt_of_le (Nat.mul_pos hB ih) (Nat.le_add_right _ _)
    simp only [List.foldr_cons, List.foldr_nil] at h
    have := Nat.le_mul_of_pos_right B this
    omega
  | c :: l, d :: l', a, a', h1, h2, h3, h4, h5, h6, h => by
    simp only [List.foldr_cons] at h
    have hc := h5 c (by simp)
    have hd := h6 d (by simp)
    have e1 : c = d := by
      have := congrArg (· % B) h
      simpa [Nat.mul_add_mod, Nat.mod_eq_of_lt hc, Nat.mod_eq_of_lt hd] using this
    subst e1
    have e2 := Nat.eq_of_mul_eq_mul_left hB (Nat.add_right_cancel h)
    obtain ⟨e3, e4⟩ := foldDigits_inj hB l l' a a' h1 h2 h3 h4 (fun c hc => h5 c (by simp [hc]))
      (fun c hc => h6 c (by simp [hc])) e2
    exact ⟨e3, by rw [e4]⟩

/-- the keys have no collisions -/
theorem wFrames_key {t t' : Term} (h : wFrames.termKey t = wFrames.termKey t') :
    termKind t = termKind t' ∧ t.value = t'.value := by
  have hk : ∀ t, 0 < termKind t ∧ termKind t < 1114112 := by
    intro t
    unfold termKind
    split <;> decide
  have hc : ∀ (s : String), ∀ c ∈ (s.toList.map Char.toNat).reverse, c < 1114112 := by
    intro s c hc
    obtain ⟨x, -, rfl⟩ := List.mem_map.1 (List.mem_reverse.1 hc)
    have := x.valid
    unfold UInt32.isValidChar Nat.isValidChar at this
    unfold Char.toNat
    omega
  have h' : (t.value.toList.map Char.toNat).foldl (fun n c => 1114112 * n + c) (termKind t) =
    (t'.value.toList.map Char.toNat).foldl (fun n c => 1114112 * n + c) (termKind t') := h
  rw [← List.foldr_reverse, ← List.foldr_reverse] at h'
  obtain ⟨e1, e2⟩ := foldDigits_inj (by decide) _ _ _ _ (hk t).1 (hk t).2 (hk t').1 (hk t').2 (hc _) (hc _) h'
  refine ⟨e1, ?_⟩
  have := List.reverse_inj.1 e2
  have := List.map_injective_iff.2 (fun a b (h : Char.toNat a = Char.toNat b) => Char.toNat_inj.1 h) this
  exact String.toList_inj.1 this

theorem termKind_one {t : Term} (h : termKind t = 1) : t.type = .terminal ∧ t.meta = .nil := by
  unfold termKind at h
  split at h <;> simp_all

theorem termKind_two {t : Term} (h : termKind t = 2) : t.type = .nonterminal ∧ t.meta = .nil := by
  unfold termKind at h
  split at h <;> simp_all

theorem wFrames_apart {rb : RuleBody} (h : ∀ t ∈ rb.terms, ∀ t' ∈ rb.terms, termKind t = termKind t' →
    t.value = t'.value → t = t') : KeysApart wFrames rb := by
  refine ⟨fun t ht t' ht' hk => h t ht t' ht' (wFrames_key hk).1 (wFrames_key hk).2, fun t ht v => ⟨fun hk => ?_, fun hk => ?_⟩⟩
  · obtain ⟨e1, e2⟩ := wFrames_key hk
    obtain ⟨e3, e4⟩ := termKind_one e1.symm
    cases t
    simp_all
  · obtain ⟨e1, e2⟩ := wFrames_key hk
    obtain ⟨e3, e4⟩ := termKind_two e1.symm
    cases t
    simp_all

theorem wFrames_ref (trim : String → String) (g0 : Gram) (k : RbKey) (S : String) : RefApart wFrames trim g0 k S := by
  refine ⟨fun v _ h => (wFrames_key h).2, fun v _ h => ?_⟩
  have := (wFrames_key h).1
  simp [termKind] at this

/-! ## C39 -/

/-- a check of the only frame found in a text -/
def frameCheck (ld : Loaded) (text : Bytes) (P : RbKey → Frame → RuleBody → Bool) : Bool :=
  match matchFrames wFrames exWorld ld 60 "" text with
  | .ok [(k, f)] =>
    match frameBody ld.gram.main k with
    | .ok rb => P k f rb
    | _ => false
  | _ => false

theorem frameCheck_ok {ld : Loaded} {text : Bytes} {P : RbKey → Frame → RuleBody → Bool}
    (h : frameCheck ld text P = true) : ∃ k f rb, matchFrames wFrames exWorld ld 60 "" text = .ok [(k, f)] ∧
      frameBody ld.gram.main k = .ok rb ∧ P k f rb = true := by
  unfold frameCheck at h
  split at h
  · next k f e =>
    split at h
    · next rb e2 => exact ⟨k, f, rb, e, e2, h⟩
    · simp at h
  · simp at h

/-- a check for `Filled` -/
def filledCheck (f : Frame) (t : Term) : Bool :=
  match f.slots.lookup (wFrames.termKey t) with
  | some (_ :: _) => true
  | _ => false

theorem filledCheck_iff {f : Frame} {t : Term} : filledCheck f t = true ↔ Filled wFrames f t := by
  unfold filledCheck Filled
  split
  · next s ss e => simp [e]
  · next h =>
    simp only [Bool.false_eq_true, false_iff]
    rintro ⟨s, ss, e⟩
    exact h s ss e

/-- C39 fails for `[f] = <s> <s>`: on `a a` both terms have their (common) slot, but the frame is not complete. -/
theorem C39_false : ¬ C39_statement := by
  intro h
  obtain ⟨ld, st, main, h0, hl, hm, h1⟩ := exCheck_ok (gt := "<s>=\"a\";\n[f]=<s> <s>;\n")
    (P := fun ld => caseCheck ld (asciiBytes "a a") && frameCheck ld (asciiBytes "a a") (fun _ f rb =>
      !f.complete && rb.terms.all (filledCheck f) && decide (rb.terms = [nt "s", nt "s"]))) (by decide +kernel)
  rw [Bool.and_eq_true] at h1
  obtain ⟨k, f, rb, h2, h3, h4⟩ := frameCheck_ok h1.2
  simp only [Bool.and_eq_true, List.all_eq_true, decide_eq_true_eq, Bool.not_eq_true', filledCheck_iff] at h4
  have := (h exLoad ld main hl hm wFrames exWorld "" _ (exCase h0 hm h1.1).1 60 _ h2 k f (by simp) rb h3
    (wFrames_apart (by rw [h4.2]; decide))).2 h4.1.2
  rw [h4.1.1] at this
  simp at this

/-- C39 fails for `[f] = "(?i)b"`: on `a b` the frame is complete, but the slot has the key of the literal without
flags. -/
theorem C39_false_flags : ∃ ld main k f rb, LoadedBy exLoad ld ∧ ld.From exLoad main ∧
    FrameCase exLoad.idx ⟨main, ld.gram.includes⟩ ld wFrames exWorld "" (asciiBytes "a b") ∧
    matchFrames wFrames exWorld ld 60 "" (asciiBytes "a b") = .ok [(k, f)] ∧ frameBody ld.gram.main k = .ok rb ∧
    KeysApart wFrames rb ∧ f.complete = true ∧ ∀ t ∈ rb.terms, ¬ Filled wFrames f t := by
  obtain ⟨ld, st, main, h0, hl, hm, h1⟩ := exCheck_ok (gt := "<s>=\"a\";\n[f]=\"(?i)b\";\n")
    (P := fun ld => caseCheck ld (asciiBytes "a b") && frameCheck ld (asciiBytes "a b") (fun _ f rb =>
      f.complete && rb.terms.all (fun t => !filledCheck f t) &&
        decide (rb.terms = [⟨"b", .terminal, .flags "i"⟩]))) (by decide +kernel)
  rw [Bool.and_eq_true] at h1
  obtain ⟨k, f, rb, h2, h3, h4⟩ := frameCheck_ok h1.2
  simp only [Bool.and_eq_true, List.all_eq_true, decide_eq_true_eq, Bool.not_eq_true', ← Bool.not_eq_true,
    filledCheck_iff] at h4
  exact ⟨ld, main, k, f, rb, hl, hm, (exCase h0 hm h1.1).1, h2, h3, wFrames_apart (by rw [h4.2]; decide), h4.1⟩

/-- C39 holds for `[f] = "b" <s>`: on `a b` it is complete and both terms have slots; on `a` it is not complete -/
example : ∃ ld main k f rb f', LoadedBy exLoad ld ∧
    FrameCase exLoad.idx ⟨main, ld.gram.includes⟩ ld wFrames exWorld "" (asciiBytes "a b") ∧
    FrameCase exLoad.idx ⟨main, ld.gram.includes⟩ ld wFrames exWorld "" (asciiBytes "a") ∧
    matchFrames wFrames exWorld ld 60 "" (asciiBytes "a b") = .ok [(k, f)] ∧
    matchFrames wFrames exWorld ld 60 "" (asciiBytes "a") = .ok [(k, f')] ∧ frameBody ld.gram.main k = .ok rb ∧
    PlainTerms exLoad.idx rb ∧ (rb.terms.map wFrames.termKey).Nodup ∧ f.complete = true ∧
    (∀ t ∈ rb.terms, Filled wFrames f t) ∧ f'.complete = false ∧ ∃ t ∈ rb.terms, ¬ Filled wFrames f' t := by
  obtain ⟨ld, st, main, h0, hl, hm, h1⟩ := exCheck_ok (gt := "<s>=\"a\";\n[f]=\"b\" <s>;\n")
    (P := fun ld => (caseCheck ld (asciiBytes "a b") && caseCheck ld (asciiBytes "a")) &&
      (frameCheck ld (asciiBytes "a b") (fun k f rb => f.complete && decide (rb.terms = [tt "b", nt "s"] ∧ k = ⟨"f", 2⟩)) &&
        frameCheck ld (asciiBytes "a") (fun k f _ => !f.complete && decide (k = ⟨"f", 2⟩)))) (by decide +kernel)
  simp only [Bool.and_eq_true] at h1
  obtain ⟨⟨h1, h1'⟩, h2, h3⟩ := h1
  obtain ⟨k, f, rb, h4, h5, h6⟩ := frameCheck_ok h2
  obtain ⟨k', f', rb', h4', h5', h6'⟩ := frameCheck_ok h3
  simp only [Bool.and_eq_true, decide_eq_true_eq, Bool.not_eq_true'] at h6 h6'
  obtain ⟨h6, h7, rfl⟩ := h6
  obtain ⟨h6', rfl⟩ := h6'
  have hp : PlainTerms exLoad.idx rb := by
    rw [PlainTerms, h7]
    intro t ht _
    rcases List.mem_cons.1 ht with rfl | ht
    · exact ⟨rfl, rfl⟩
    · rw [List.mem_singleton] at ht
      subst ht
      exact ⟨rfl, rfl⟩
  have hn : (rb.terms.map wFrames.termKey).Nodup := by rw [h7]; decide +kernel
  have hc := exCase h0 hm h1
  have hc' := exCase h0 hm h1'
  refine ⟨ld, main, _, f, rb, f', hl, hc.1, hc'.1, h4, h4', h5, hp, hn, h6,
    (C39_partial hc.1 h4 (by simp) h5 hp).1 h6, h6', ?_⟩
  by_contra hall
  simp only [not_exists, not_and, not_not] at hall
  have := (C39_partial hc'.1 h4' (by simp) h5 hp).2 hn hall
  rw [h6'] at this
  simp at this

/-! ## C41 -/

/-- C41 fails for `<s> = "a"; [f] = "b" <s>` on `b`: no literal of a rule occurs, and `MatchFrames` fails. -/
theorem C41_false : ¬ C41_statement := by
  intro h
  obtain ⟨ld, st, main, h0, hl, hm, h1⟩ := exCheck_ok (gt := "<s>=\"a\";\n[f]=\"b\" <s>;\n")
    (P := fun ld => caseCheck ld (asciiBytes "b") &&
      match getCandidates wFrames ld.gram.main ld.index 60 (asciiBytes "b") with
      | .ok (_, []) => true
      | _ => false) (by decide +kernel)
  rw [Bool.and_eq_true] at h1
  obtain ⟨hc, tokens, l, hp⟩ := exCase h0 hm h1.1
  have hms : wFrames.multiMatch ld.index.trie (asciiBytes "b") = some (findWords ld.index.trie (asciiBytes "b")) := rfl
  have hno : NoRuleLiteral exLoad.idx ⟨main, ld.gram.includes⟩ (findWords ld.index.trie (asciiBytes "b")) := by
    have h2 := h1.2
    cases e : getCandidates wFrames ld.gram.main ld.index 60 (asciiBytes "b") with
    | ok x =>
      obtain ⟨fr, starts⟩ := x
      rw [e] at h2
      refine (starts_nil_iff hc.index hc.world e hms).1 ?_
      cases starts with
      | nil => rfl
      | cons a l => simp at h2
    | err => rw [e] at h2; simp at h2
    | panic => rw [e] at h2; simp at h2
    | div => rw [e] at h2; simp at h2
  obtain ⟨n, hn⟩ := h exLoad ld main hl hm wFrames exWorld "" _ hc _ hms hno tokens l hp
  obtain ⟨n', hn'⟩ := (C41_partial hc).1 (.inr (.inr ⟨_, hms, hno⟩))
  obtain ⟨frames, hf⟩ := hn (max n n') (Nat.le_max_left _ _)
  rw [hn' _ (Nat.le_max_right _ _)] at hf
  simp at hf

/-! ## C45 -/

def isProj : FMR → Bool
  | .mk fn [.mk t (.int i)] => fn == "nf.I" && t == "index" && i == 1
  | _ => false

theorem isProj_eq {f : FMR} (h : isProj f = true) : f = .mk "nf.I" [.mk "index" (.int ((0 : Nat) + 1))] := by
  unfold isProj at h
  split at h
  · simp only [Bool.and_eq_true, beq_iff_eq] at h
    obtain ⟨⟨rfl, rfl⟩, rfl⟩ := h
    rfl
  · simp at h

/-- C45 fails for `[f] = "b" <s> {nf.I($1)}`: on `a b` the literal `"b"` has a slot, and prints as `null`. -/
theorem C45_false : ¬ C45_statement := by
  intro h
  obtain ⟨ld, st, main, h0, hl, hm, h1⟩ := exCheck_ok (gt := "<s>=\"a\";\n[f]=\"b\" <s> {nf.I($1)};\n")
    (P := fun ld => caseCheck ld (asciiBytes "a b") && frameCheck ld (asciiBytes "a b") (fun k f rb =>
      (match rb.f with
        | some fm => isProj fm
        | none => false) && decide (rb.terms = [tt "b", nt "s"]) &&
      (match f.slots.lookup (wFrames.termKey (tt "b")) with
        | some [s] => s.trees.isEmpty
        | _ => false) &&
      decide (frameStr wFrames wPlain ld.gram.main (k, f) = .ok "null"))) (by decide +kernel)
  rw [Bool.and_eq_true] at h1
  obtain ⟨k, f, rb, h2, h3, h4⟩ := frameCheck_ok h1.2
  simp only [Bool.and_eq_true, decide_eq_true_eq] at h4
  obtain ⟨⟨⟨h4, h5⟩, h6⟩, h7⟩ := h4
  cases hf : rb.f with
  | none => rw [hf] at h4; simp at h4
  | some fm =>
    rw [hf] at h4
    have := isProj_eq h4
    subst this
    have := (h exLoad ld main hl hm wFrames exWorld "" _ (exCase h0 hm h1.1).1 60 _ h2 k f (by simp) rb _ h3 hf
      wPlain "null").1 h7
    generalize hn : "null" = null at this
    cases this with
    | call hne _ => exact hne rfl
    | proj ha =>
      subst hn
      obtain ⟨-, ⟨e, -⟩ | ⟨i, e, t, ht, hs⟩⟩ := frameArg_inv ha
      · simp at e
      · have : i = 0 := by omega
        subst this
        rw [h5] at ht
        cases ht
        split at h6
        · next s e =>
          rcases hs with ⟨hs, -⟩ | ⟨-, p, n, ⟨s', ss, ts, e2, e3⟩, -⟩
          · exact hs ⟨s, [], e⟩
          · rw [e] at e2
            cases e2
            rw [e3] at h6
            simp at h6
        · simp at h6

/-- C45: with `{nf.I($2)}` the same text prints the semantic of `<s>`, and with `{g($1,$2)}` both -/
example : exCheck "<s>=\"a\";\n[f]=\"b\" <s> {nf.I($2)};\n" (fun ld => caseCheck ld (asciiBytes "a b") &&
    decide (frameFMR wFrames exWorld wPlain ld 60 "" (asciiBytes "a b") = .ok ["\"a\""])) = true ∧
    exCheck "<s>=\"a\";\n<t>=\"c\";\n[f]=<s> <t> {g($1,$2)};\n" (fun ld => caseCheck ld (asciiBytes "b c a") &&
    decide (frameFMR wFrames exWorld wPlain ld 60 "" (asciiBytes "b c a") = .ok ["g(\"a\", \"c\")"])) = true := by
  constructor <;> decide +kernel

/-! ## C57 -/

instance (S : String) (j : Nat) (s : TState) : Decidable (MatchFor S j s) := by unfold MatchFor; infer_instance

/-- C57 fails for `<s> = "a"; <n> = (any{1,1}); [f] = <n> <s>` on `a b`: both tokens are derived from `<n>`, but no
literal leads to `<n>`, and it gets no slot. -/
theorem C57_false : ¬ C57_statement := by
  intro h
  obtain ⟨ld, st, main, h0, hl, hm, h1⟩ := exCheck_ok (gt := "<s>=\"a\";\n[f]=<n> <s>;\n<n>=(any{1,1});\n")
    (P := fun ld => caseCheck ld (asciiBytes "a b") &&
      (textCheck ld (asciiBytes "a b") (fun tokens l => (envFor exWorld ld.gram l tokens ["n"] 0).checkWF &&
          (envFor exWorld ld.gram l tokens [] 0).checkNoEmpty && (envFor exWorld ld.gram l tokens [] 0).checkUniform &&
          decide (tokens.map (·.endByte) = [1, 3]) && decide (tokens.map (·.startByte) = [0, 2])) &&
        ((match earleyParseAll exWorld ld.gram 60 "" (asciiBytes "a b") ["n"] with
          | .ok ps => ps.any (fun p => decide (p.off = 0) && p.res.finals.any (fun s => decide (MatchFor "n" 1 s)))
          | _ => false) &&
          (frameCheck ld (asciiBytes "a b") (fun k f _ => !filledCheck f (nt "n") && decide (k = ⟨"f", 2⟩)) &&
          ((ld.index.ruleIndex.lookup "n").any (fun i : Index => decide ((⟨"f", 2⟩ : RbKey) ∈ i.frames)))))))
    (by decide +kernel)
  simp only [Bool.and_eq_true] at h1
  obtain ⟨h1, h2, h3, h4, h5⟩ := h1
  obtain ⟨-, tokens, l, hp, -, h6⟩ := textCheck_ok h2
  simp only [Bool.and_eq_true, decide_eq_true_eq] at h6
  obtain ⟨⟨⟨⟨g1, g2⟩, g3⟩, g4⟩, g5⟩ := h6
  obtain ⟨k, f, rb, h7, -, h8⟩ := frameCheck_ok h4
  simp only [Bool.and_eq_true, decide_eq_true_eq, Bool.not_eq_true'] at h8
  obtain ⟨h8, rfl⟩ := h8
  have hc := (exCase h0 hm h1).1
  have hlen : tokens.length = 2 := by simpa using congrArg List.length g4
  have hder : Derives (envFor exWorld ld.gram l tokens [] 0) "n" ((tokens.drop 0).take 1) := by
    cases e : earleyParseAll exWorld ld.gram 60 "" (asciiBytes "a b") ["n"] with
    | ok ps =>
      rw [e] at h3
      simp only [List.any_eq_true, Bool.and_eq_true, decide_eq_true_eq] at h3
      exact (C19_derivable_partial exWorld ld.gram 60 "" _ ["n"] tokens l hp ps (Env.checkWF_wf g1) exWorld_ord
        (show NoEmpty (envFor exWorld ld.gram l tokens ["n"] 0) from Env.checkNoEmpty_ok g2).nullSafe (Env.checkUniform_ok g3) e "n" (by simp) 0 1 (by omega) (by omega)).1 h3
    | err => rw [e] at h3; simp at h3
    | panic => rw [e] at h3; simp at h3
    | div => rw [e] at h3; simp at h3
  have hhas : Gram.Has ⟨main, ld.gram.includes⟩ exLoad.idx.trim .frame .nonterminal ⟨"f", 2⟩ "n" := by
    refine ((C37_index hc.index "n").2.2.2.2.2.1 ⟨"f", 2⟩).1 ?_
    rw [Option.any_eq_true] at h5
    obtain ⟨i, hi, hmem⟩ := h5
    exact ⟨i, hi, by simpa using hmem⟩
  match tokens, hlen with
  | [x, y], _ =>
    have := (h exLoad ld main hl hm wFrames exWorld "" _ hc 60 _ h7 _ l hp (Env.checkUniform_ok g3) _ "n" hhas
      (wFrames_ref _ _ _ "n") ⟨x.startByte, x.endByte⟩).2 ⟨0, 1, ⟨by decide, x, x, rfl, rfl, rfl⟩, hder⟩
    obtain ⟨f', hf', ss, hss, s, hs, -⟩ := this
    rw [List.mem_singleton] at hf'
    cases hf'
    rw [Bool.eq_false_iff] at h8
    refine h8 (filledCheck_iff.2 ?_)
    cases ss with
    | nil => simp at hs
    | cons s' ss => exact ⟨s', ss, hss⟩

/-- C57: on `a c a` the reference `<s>` of `[f] = <s> <t>` with `<t> = <s> "c"` has two slots and `<t>` one -/
example : exCheck "<s>=\"a\";\n<t>=<s> \"c\";\n[f]=<s> <t>;\n" (fun ld => caseCheck ld (asciiBytes "a c a") &&
    frameCheck ld (asciiBytes "a c a") (fun _ f _ =>
      decide ((f.slots.lookup (wFrames.termKey (nt "s"))).map (·.map (·.pos)) = some [⟨0, 1⟩, ⟨4, 5⟩]) &&
      decide ((f.slots.lookup (wFrames.termKey (nt "t"))).map (·.map (·.pos)) = some [⟨0, 3⟩]))) = true := by
  decide +kernel

end Fmr
