import Verif.Spec.Whole
import Verif.Proofs.IntOf

/-!
# A reader for grammar texts

To show that a given text is in the syntax of `Spec/Syntax`, for all worlds that know its characters. The reader runs
over the text once; it is not the parser of the library and nothing is said about texts that it refuses.
-/

namespace Fmr

/-- white space that occurs in the texts -/
def isSp (c : Char) : Bool := c == ' ' || c == '\n' || c == '\t'

def isIdStart (c : Char) : Bool := (decide ('a' ≤ c) && decide (c ≤ 'z')) || (decide ('A' ≤ c) && decide (c ≤ 'Z')) || c == '_'

def isDig (c : Char) : Bool := decide ('0' ≤ c) && decide (c ≤ '9')

def isIdc (c : Char) : Bool := isIdStart c || isDig c

/-- What is asked of the Unicode classes and of the number scanners: capital letters are letters, decimal numbers without
leading zeros are read. -/
structure PlainLex (w : LexWorld) (floats : List (String × Rat)) : Prop where
  ok : w.OK
  capitals : ∀ c, 'A' ≤ c → c ≤ 'Z' → w.isLetter c = true
  ints : ∀ n : Nat, w.scanInt (String.ofList (Nat.toDigits 10 n)) = some (n : Int)
  floats : ∀ s q, (s, q) ∈ floats → w.scanFloat s = some q

/-- the white space of the text is that known to the reader -/
def PlainText (w : LexWorld) (l : List Char) : Prop := ∀ c ∈ l, w.isSpace c = true → isSp c = true

theorem PlainText.right {w : LexWorld} {p r : List Char} (h : PlainText w (p ++ r)) : PlainText w r :=
  fun c hc => h c (List.mem_append_right _ hc)

theorem PlainText.tail {w : LexWorld} {c : Char} {r : List Char} (h : PlainText w (c :: r)) : PlainText w r :=
  fun x hx => h x (List.mem_cons_of_mem _ hx)

def expect (c : Char) : List Char → Option (List Char)
  | x :: r => if x = c then some r else none
  | [] => none

theorem expect_sound {c : Char} {l r : List Char} (h : expect c l = some r) : l = c :: r := by
  cases l with
  | nil => cases h
  | cons x l =>
    simp only [expect] at h
    split at h
    · next e => cases h; rw [e]
    · cases h

section
variable {w : LexWorld} {fl : List (String × Rat)} (hw : PlainLex w fl)

def skipSp (l : List Char) : List Char := l.dropWhile isSp

include hw in
theorem isSp_space {c : Char} (h : isSp c = true) : w.isSpace c = true := by
  refine hw.ok.spaces c ?_
  simp only [isSp, Bool.or_eq_true, beq_iff_eq] at h
  rcases h with (rfl | rfl) | rfl <;> simp

include hw in
theorem skipSp_sound (l : List Char) : ∃ s, l = s ++ skipSp l ∧ Spaces w s :=
  ⟨l.takeWhile isSp, (List.takeWhile_append_dropWhile (p := isSp)).symm,
    fun c hc => isSp_space hw (List.all_eq_true.1 List.all_takeWhile c hc)⟩

theorem skipSp_head {l : List Char} {c : Char} (h : (skipSp l).head? = some c) : isSp c = false := by
  have := List.head?_dropWhile_not isSp l
  unfold skipSp at h
  rw [h] at this
  simpa using this

def afterLine : List Char → Option (List Char)
  | [] => none
  | c :: l => if c = '\n' then some l else afterLine l

theorem afterLine_sound {r : List Char} : ∀ {l : List Char}, afterLine l = some r → ∃ b, '\n' ∉ b ∧ l = b ++ '\n' :: r
  | [], h => by cases h
  | c :: l, h => by
    simp only [afterLine] at h
    split at h
    · next e =>
      cases h
      exact ⟨[], by simp, by rw [e]; rfl⟩
    · next e =>
      obtain ⟨b, h1, h2⟩ := afterLine_sound h
      exact ⟨c :: b, by simp [h1, Ne.symm e], by rw [h2]; rfl⟩

def afterBlock : List Char → Option (List Char)
  | [] => none
  | a :: l =>
    match l with
    | b :: l' => if a = '*' ∧ b = '/' then some l' else afterBlock l
    | [] => none

theorem afterBlock_sound {r : List Char} : ∀ {l : List Char}, afterBlock l = some r →
    ∃ b, ¬ ['*', '/'] <:+: b ∧ l = b ++ '*' :: '/' :: r
  | [], h => by cases h
  | [a], h => by cases h
  | a :: b :: l, h => by
    rw [afterBlock] at h
    split at h
    · next e =>
      cases h
      exact ⟨[], by simp, by rw [e.1, e.2]; rfl⟩
    · next e =>
      obtain ⟨x, h1, h2⟩ := afterBlock_sound h
      refine ⟨a :: x, fun hi => ?_, by rw [h2]; rfl⟩
      rcases List.infix_cons_iff.1 hi with hp | hi
      · cases x with
        | nil =>
          obtain ⟨_, hp⟩ := hp
          simp at hp
        | cons y x =>
          simp only [List.cons_append, List.cons.injEq] at h2
          have h3 := (List.cons_prefix_cons.1 hp)
          have h4 := (List.cons_prefix_cons.1 h3.2).1
          exact e ⟨h3.1.symm, by rw [h2.1, h4]⟩
      · exact h1 hi

def skipGap : Nat → List Char → Option (List Char)
  | 0, _ => none
  | n + 1, l =>
    match skipSp l with
    | '/' :: '/' :: r => (afterLine r).bind (skipGap n)
    | '/' :: '*' :: r => (afterBlock r).bind (skipGap n)
    | r => some r

include hw in
theorem skipGap_sound {r : List Char} : ∀ {n : Nat} {l : List Char}, skipGap n l = some r → ∃ g, l = g ++ r ∧ Gap w g
  | 0, _, h => by cases h
  | n + 1, l, h => by
    obtain ⟨s, hs, hsp⟩ := skipSp_sound hw l
    rw [skipGap] at h
    split at h
    · next x e =>
      obtain ⟨y, h1, h2⟩ := Option.bind_eq_some_iff.1 h
      obtain ⟨b, h3, h4⟩ := afterLine_sound h1
      obtain ⟨g, h5, h6⟩ := skipGap_sound h2
      exact ⟨s ++ '/' :: '/' :: (b ++ '\n' :: g), by rw [hs, e, h4, h5]; simp, .line hsp h3 h6⟩
    · next x e =>
      obtain ⟨y, h1, h2⟩ := Option.bind_eq_some_iff.1 h
      obtain ⟨b, h3, h4⟩ := afterBlock_sound h1
      obtain ⟨g, h5, h6⟩ := skipGap_sound h2
      exact ⟨s ++ '/' :: '*' :: (b ++ '*' :: '/' :: g), by rw [hs, e, h4, h5]; simp, .block hsp h3 h6⟩
    · cases h
      exact ⟨s, hs, .spaces hsp⟩

include hw in
theorem idStart_sound {c : Char} (h : isIdStart c = true) : w.isLetter c = true ∨ c = '_' := by
  simp only [isIdStart, Bool.or_eq_true, Bool.and_eq_true, decide_eq_true_eq, beq_iff_eq] at h
  rcases h with (h | h) | h
  · exact .inl (hw.ok.letters c h.1 h.2)
  · exact .inl (hw.capitals c h.1 h.2)
  · exact .inr h

include hw in
theorem idc_sound {c : Char} (h : isIdc c = true) : w.isLetter c = true ∨ c = '_' ∨ w.isDigit c = true := by
  simp only [isIdc, Bool.or_eq_true] at h
  rcases h with h | h
  · rcases idStart_sound hw h with h | h
    · exact .inl h
    · exact .inr (.inl h)
  · simp only [isDig, Bool.and_eq_true, decide_eq_true_eq] at h
    exact .inr (.inr (hw.ok.digits c h.1 h.2))

def rdIdent (l : List Char) : Option (List Char × List Char) :=
  match l.takeWhile isIdc with
  | [] => none
  | c :: t => if isIdStart c then some (c :: t, l.dropWhile isIdc) else none

include hw in
theorem rdIdent_sound {l x r : List Char} (h : rdIdent l = some (x, r)) : l = x ++ r ∧ Ident w x := by
  unfold rdIdent at h
  split at h
  · cases h
  · next c t e =>
    split at h
    · next hc =>
      cases h
      refine ⟨by rw [← e, List.takeWhile_append_dropWhile], .mk (idStart_sound hw hc) fun d hd => idc_sound hw ?_⟩
      exact List.all_eq_true.1 (List.all_takeWhile (p := isIdc) (l := l)) d (by rw [e]; exact List.mem_cons_of_mem _ hd)
    · cases h

def noDots : List Char → Bool
  | a :: l =>
    match l with
    | b :: _ => !(a == '.' && b == '.') && noDots l
    | [] => true
  | [] => true

theorem noDots_sound : ∀ {l : List Char}, noDots l = true → ¬ ['.', '.'] <:+: l
  | [], _, h => by simp at h
  | [a], _, h => by
    have := h.length_le
    simp at this
  | a :: b :: l, h, hi => by
    rw [noDots] at h
    simp only [Bool.and_eq_true, Bool.not_eq_true', Bool.and_eq_false_imp, beq_iff_eq] at h
    rcases List.infix_cons_iff.1 hi with hp | hi
    · have h3 := List.cons_prefix_cons.1 hp
      have h4 := (List.cons_prefix_cons.1 h3.2).1
      have := h.1 h3.1.symm
      rw [← h4] at this
      simp at this
    · exact noDots_sound h.2 hi

def rdFnName (l : List Char) : Option (List Char × List Char) :=
  match l.takeWhile (fun c => isIdc c || c == '.') with
  | [] => none
  | c :: t => if isIdStart c && noDots t then some (c :: t, l.dropWhile (fun c => isIdc c || c == '.')) else none

include hw in
theorem rdFnName_sound {l x r : List Char} (h : rdFnName l = some (x, r)) : l = x ++ r ∧ FnName w x := by
  unfold rdFnName at h
  split at h
  · cases h
  · next c t e =>
    split at h
    · next hc =>
      cases h
      rw [Bool.and_eq_true] at hc
      refine ⟨by rw [← e, List.takeWhile_append_dropWhile], .mk (idStart_sound hw hc.1) (fun d hd => ?_) (noDots_sound hc.2)⟩
      have := List.all_eq_true.1 (List.all_takeWhile (p := fun c => isIdc c || c == '.') (l := l)) d
        (by rw [e]; exact List.mem_cons_of_mem _ hd)
      rw [Bool.or_eq_true, beq_iff_eq] at this
      rcases this with h | h
      · rcases idc_sound hw h with h | h | h
        · exact .inl h
        · exact .inr (.inl h)
        · exact .inr (.inr (.inl h))
      · exact .inr (.inr (.inr h))
    · cases h

def escOf (c : Char) : Option Char :=
  if c = '\\' then some '\\' else if c = 'n' then some '\n' else if c = 't' then some '\t'
  else if c = '"' then some '"' else if c = '(' then some '(' else none

theorem escOf_sound {c x : Char} (h : escOf c = some x) :
    (c, x) ∈ [('\\', '\\'), ('n', '\n'), ('t', '\t'), ('"', '"'), ('(', '(')] := by
  unfold escOf at h
  split at h
  · next e => cases h; rw [e]; simp
  · split at h
    · next e => cases h; rw [e]; simp
    · split at h
      · next e => cases h; rw [e]; simp
      · split at h
        · next e => cases h; rw [e]; simp
        · split at h
          · next e => cases h; rw [e]; simp
          · cases h

/-- the value of a literal and what follows the closing quote -/
def rdLitBody : List Char → Option (List Char × List Char)
  | [] => none
  | c :: l =>
    if c = '"' then some ([], l)
    else if c = '\\' then
      match l with
      | [] => none
      | e :: l =>
        match escOf e, rdLitBody l with
        | some x, some (v, r) => some (x :: v, r)
        | _, _ => none
    else
      match rdLitBody l with
      | some (v, r) => some (c :: v, r)
      | none => none

theorem rdLitBody_sound {v r : List Char} : ∀ {l : List Char}, rdLitBody l = some (v, r) →
    ∃ t, l = t ++ '"' :: r ∧ LitText t v
  | [], h => by cases h
  | c :: l, h => by
    rw [rdLitBody.eq_def] at h
    simp only at h
    split at h
    · next e =>
      cases h
      exact ⟨[], by rw [e]; rfl, .nil⟩
    · next e =>
      split at h
      · next e' =>
        split at h
        · cases h
        · next x l =>
          split at h
          · next y v' r' h1 h2 =>
            cases h
            obtain ⟨t, h3, h4⟩ := rdLitBody_sound h2
            exact ⟨'\\' :: x :: t, by rw [e', h3]; rfl, .esc (escOf_sound h1) h4⟩
          · cases h
      · next e' =>
        split at h
        · next v' r' h2 =>
          cases h
          obtain ⟨t, h3, h4⟩ := rdLitBody_sound h2
          exact ⟨c :: t, by rw [h3]; rfl, .plain e e' h4⟩
        · cases h
termination_by l => l.length

/-- a literal without flags -/
def rdLit (l : List Char) : Option (List Char × List Char) :=
  match expect '"' l with
  | none => none
  | some l => if (skipSp l).head? = some '(' then none else rdLitBody (skipSp l)

include hw in
theorem rdLit_sound {l v r : List Char} (hp : PlainText w l) (h : rdLit l = some (v, r)) :
    ∃ p, l = p ++ r ∧ LitSyn w p "" (String.ofList v) := by
  unfold rdLit at h
  split at h
  · cases h
  · next l' e =>
    have e := expect_sound e
    subst e
    split at h
    · cases h
    · next h0 =>
      obtain ⟨s, hs, hsp⟩ := skipSp_sound hw l'
      obtain ⟨t, h1, h2⟩ := rdLitBody_sound h
      refine ⟨'"' :: (s ++ (t ++ ['"'])), by rw [hs, h1]; simp, .plain hsp h2 fun c hc => ?_⟩
      have hc' : (skipSp l').head? = some c := by
        rw [h1]
        cases t with
        | nil => cases hc
        | cons _ _ => exact hc
      refine ⟨?_, fun e => h0 (e ▸ hc')⟩
      cases hsc : w.isSpace c with
      | false => rfl
      | true =>
        have hm : c ∈ '"' :: l' := by
          rw [hs, h1]
          cases t with
          | nil => cases hc
          | cons a t => cases hc; simp
        have := hp c hm hsc
        rw [skipSp_head hc'] at this
        cases this

/-- a number below 2^63 -/
def rdNum (l : List Char) : Option (List Char × List Char) :=
  match l.takeWhile isDig with
  | [] => none
  | c :: t => some (c :: t, l.dropWhile isDig)

theorem rdNum_sound {l x r : List Char} (h : rdNum l = some (x, r)) :
    l = x ++ r ∧ x ≠ [] ∧ ∀ c ∈ x, '0' ≤ c ∧ c ≤ '9' := by
  unfold rdNum at h
  split at h
  · cases h
  · next c t e =>
    cases h
    refine ⟨by rw [← e, List.takeWhile_append_dropWhile], by simp, fun d hd => ?_⟩
    have := List.all_eq_true.1 (List.all_takeWhile (p := isDig) (l := l)) d (by rw [e]; exact hd)
    simpa [isDig] using this

def natOf (x : List Char) : Nat := Nat.ofDigitChars 10 x 0

/-- an argument that is no function -/
def rdConst (fl : List (String × Rat)) (l : List Char) : Option (Arg × List Char) :=
  match l with
  | [] => none
  | c :: l' =>
    if c = '@' then some (.mk "context" (.str "@"), l')
    else if c = '$' then
      match rdNum l' with
      | none => none
      | some (x, r) => if natOf x < 2 ^ 63 then some (.mk "index" (.int (natOf x : Nat)), r) else none
    else if c = '"' then
      match rdLit l with
      | none => none
      | some (v, r) => some (.mk "string" (.str (String.ofList v)), r)
    else
      match rdNum l with
      | none => none
      | some (x, r) =>
        match r with
        | '.' :: r' =>
          match rdNum r' with
          | none => none
          | some (y, r'') =>
            match fl.lookup (String.ofList (x ++ '.' :: y)) with
            | none => none
            | some q => some (.mk "float" (.bigFloat q), r'')
        | _ => if Nat.toDigits 10 (natOf x) = x then some (.mk "int" (.bigInt (natOf x : Nat)), r) else none

include hw in
theorem numTok_int {x : List Char} (hne : x ≠ []) (h : ∀ c ∈ x, '0' ≤ c ∧ c ≤ '9') : NumTok w x false := by
  refine ⟨hne, fun c hc => .inl (hw.ok.digits c (h c hc).1 (h c hc).2), ?_⟩
  rw [List.count_eq_zero_of_not_mem fun hm => absurd (h _ hm).1 (by decide)]
  rfl

include hw in
theorem numTok_float {x y : List Char} (h : ∀ c ∈ x, '0' ≤ c ∧ c ≤ '9') (h' : ∀ c ∈ y, '0' ≤ c ∧ c ≤ '9') :
    NumTok w (x ++ '.' :: y) true := by
  refine ⟨by simp, fun c hc => ?_, ?_⟩
  · rcases List.mem_append.1 hc with hc | hc
    · exact .inl (hw.ok.digits c (h c hc).1 (h c hc).2)
    · rcases List.mem_cons.1 hc with hc | hc
      · exact .inr hc
      · exact .inl (hw.ok.digits c (h' c hc).1 (h' c hc).2)
  · rw [List.count_append, List.count_cons_self, List.count_eq_zero_of_not_mem fun hm => absurd (h _ hm).1 (by decide),
      List.count_eq_zero_of_not_mem fun hm => absurd (h' _ hm).1 (by decide)]
    rfl

theorem head_num {x y : List Char} (hne : x ≠ []) (h : ∀ c ∈ x, '0' ≤ c ∧ c ≤ '9') : (x ++ y).head? ≠ some '.' := by
  cases x with
  | nil => exact absurd rfl hne
  | cons c x =>
    intro e
    cases e
    exact absurd (h '.' (by simp)).1 (by decide)

include hw in
theorem rdConst_sound {l r : List Char} {a : Arg} (hp : PlainText w l) (h : rdConst fl l = some (a, r)) :
    ∃ p, l = p ++ r ∧ ArgSyn w p a := by
  unfold rdConst at h
  split at h
  · cases h
  · next c l' =>
    split at h
    · next e =>
      cases h
      exact ⟨['@'], by rw [e]; rfl, .context⟩
    · split at h
      · next e =>
        split at h
        · cases h
        · next x r' hn =>
          split at h
          · next hlt =>
            cases h
            obtain ⟨h1, h2, h3⟩ := rdNum_sound hn
            exact ⟨'$' :: x, by rw [e, h1]; rfl, .index (num_small h2 h3 hlt)⟩
          · cases h
      · split at h
        · next e =>
          split at h
          · cases h
          · next v r' hl =>
            cases h
            obtain ⟨p, h1, h2⟩ := rdLit_sound hw hp hl
            exact ⟨p, h1, .string h2⟩
        · split at h
          · cases h
          · next x r' hn =>
            obtain ⟨h1, h2, h3⟩ := rdNum_sound hn
            split at h
            · next r' =>
              split at h
              · cases h
              · next y r'' hm =>
                obtain ⟨h4, h5, h6⟩ := rdNum_sound hm
                split at h
                · cases h
                · next q hq =>
                  cases h
                  refine ⟨x ++ '.' :: y, by rw [h1, h4]; simp, .float (numTok_float hw h3 h6) (head_num h2 h3) ?_⟩
                  obtain ⟨l1, l2, h7, _⟩ := List.lookup_eq_some_iff.1 hq
                  exact hw.floats _ _ (by rw [h7]; simp)
            · split at h
              · next hd =>
                cases h
                refine ⟨x, h1, .int (numTok_int hw h2 h3) (by simpa using head_num (y := []) h2 h3) ?_⟩
                have := hw.ints (natOf x)
                rwa [hd] at this
              · cases h

mutual
def rdFmr (fl : List (String × Rat)) : Nat → List Char → Option (FMR × List Char)
  | 0, _ => none
  | n + 1, l =>
    match rdFnName (skipSp l) with
    | none => none
    | some (x, r) =>
      match expect '(' (skipSp r) with
      | none => none
      | some r =>
        match rdArgs fl n r with
        | none => none
        | some (as, r) => some (.mk (String.ofList x) as, skipSp r)
def rdArgs (fl : List (String × Rat)) : Nat → List Char → Option (List Arg × List Char)
  | 0, _ => none
  | n + 1, l =>
    match rdArg fl n (skipSp l) with
    | none => none
    | some (a, r) =>
      match skipSp r with
      | [] => none
      | c :: r =>
        if c = ')' then some ([a], r)
        else if c = ',' then
          match rdArgs fl n r with
          | none => none
          | some (as, r) => some (a :: as, r)
        else none
def rdArg (fl : List (String × Rat)) : Nat → List Char → Option (Arg × List Char)
  | 0, _ => none
  | n + 1, l =>
    match rdConst fl l with
    | some x => some x
    | none =>
      match rdFmr fl n l with
      | none => none
      | some (f, r) => some (.mk "func" (.fmr f), r)
end

include hw

mutual
theorem rdFmr_sound : ∀ {n : Nat} {l r : List Char} {f : FMR}, PlainText w l → rdFmr fl n l = some (f, r) →
    ∃ p, l = p ++ r ∧ FmrSyn w p f
  | 0, _, _, _, _, h => by rw [rdFmr] at h; cases h
  | n + 1, l, r, f, hp, h => by
    rw [rdFmr] at h
    obtain ⟨s1, e1, hs1⟩ := skipSp_sound hw l
    split at h
    · cases h
    · next x r1 hx =>
      obtain ⟨e2, hx⟩ := rdFnName_sound hw hx
      obtain ⟨s2, e3, hs2⟩ := skipSp_sound hw r1
      split at h
      · cases h
      · next r2 he =>
        have e4 := expect_sound he
        split at h
        · cases h
        · next as r3 ha =>
          cases h
          have ep : l = (s1 ++ (x ++ (s2 ++ ['(']))) ++ r2 := by rw [e1, e2, e3, e4]; simp
          obtain ⟨p, e5, ha⟩ := rdArgs_sound (ep ▸ hp).right ha
          obtain ⟨s3, e6, hs3⟩ := skipSp_sound hw r3
          refine ⟨s1 ++ (x ++ (s2 ++ '(' :: (p ++ s3))), ?_, .mk hs1 hx hs2 ha hs3⟩
          rw [ep, e5]
          conv_lhs => rw [e6]
          simp
theorem rdArgs_sound : ∀ {n : Nat} {l r : List Char} {as : List Arg}, PlainText w l → rdArgs fl n l = some (as, r) →
    ∃ p, l = p ++ r ∧ ArgsSyn w p as
  | 0, _, _, _, _, h => by rw [rdArgs] at h; cases h
  | n + 1, l, r, as, hp, h => by
    rw [rdArgs] at h
    obtain ⟨s1, e1, hs1⟩ := skipSp_sound hw l
    split at h
    · cases h
    · next a r1 ha =>
      have hp1 : PlainText w (skipSp l) := (e1 ▸ hp).right
      obtain ⟨p, e2, ha⟩ := rdArg_sound hp1 ha
      obtain ⟨s2, e3, hs2⟩ := skipSp_sound hw r1
      split at h
      · cases h
      · next c r2 e4 =>
        rw [e4] at e3
        have ep : l = (s1 ++ (p ++ (s2 ++ [c]))) ++ r2 := by rw [e1, e2, e3]; simp
        split at h
        · next hc =>
          cases h
          exact ⟨s1 ++ (p ++ (s2 ++ [')'])), by rw [ep, hc], .last hs1 ha hs2⟩
        · split at h
          · next hc =>
            split at h
            · cases h
            · next bs r3 hb =>
              cases h
              obtain ⟨q, e5, hb⟩ := rdArgs_sound (ep ▸ hp).right hb
              exact ⟨s1 ++ (p ++ (s2 ++ ',' :: q)), by rw [ep, hc, e5]; simp, .more hs1 ha hs2 hb⟩
          · cases h
theorem rdArg_sound : ∀ {n : Nat} {l r : List Char} {a : Arg}, PlainText w l → rdArg fl n l = some (a, r) →
    ∃ p, l = p ++ r ∧ ArgSyn w p a
  | 0, _, _, _, _, h => by rw [rdArg] at h; cases h
  | n + 1, l, r, a, hp, h => by
    rw [rdArg] at h
    split at h
    · next hc =>
      cases h
      exact rdConst_sound hw hp hc
    · split at h
      · cases h
      · next f r1 hf =>
        cases h
        obtain ⟨p, e, hf⟩ := rdFmr_sound hp hf
        exact ⟨p, e, .func hf⟩
end

/-- an optional range with the surrounding white space -/
def rdRange (l : List Char) : Option (Meta × List Char) :=
  match skipSp l with
  | '{' :: r =>
    match rdNum (skipSp r) with
    | none => none
    | some (x, r) =>
      match expect ',' (skipSp r) with
      | none => none
      | some r =>
        match rdNum (skipSp r) with
        | none => none
        | some (y, r) =>
          match expect '}' (skipSp r) with
          | none => none
          | some r =>
            if natOf x ≤ natOf y ∧ natOf y < 2 ^ 63 then some (.range (natOf x : Nat) (natOf y : Nat), skipSp r) else none
  | r => some (.nil, r)

theorem rdRange_sound {l r : List Char} {m : Meta} (h : rdRange l = some (m, r)) : ∃ p, l = p ++ r ∧ RangeSyn w p m := by
  obtain ⟨s0, e0, hs0⟩ := skipSp_sound hw l
  unfold rdRange at h
  split at h
  · next r1 e =>
    obtain ⟨s1, e1, hs1⟩ := skipSp_sound hw r1
    split at h
    · cases h
    · next x r2 hx =>
      obtain ⟨x1, x2, x3⟩ := rdNum_sound hx
      obtain ⟨s2, e2, hs2⟩ := skipSp_sound hw r2
      split at h
      · cases h
      · next r3 h3 =>
        have e3 := expect_sound h3
        obtain ⟨s3, e4, hs3⟩ := skipSp_sound hw r3
        split at h
        · cases h
        · next y r4 hy =>
          obtain ⟨y1, y2, y3⟩ := rdNum_sound hy
          obtain ⟨s4, e5, hs4⟩ := skipSp_sound hw r4
          split at h
          · cases h
          · next r5 h5 =>
            have e6 := expect_sound h5
            obtain ⟨s5, e7, hs5⟩ := skipSp_sound hw r5
            split at h
            · next hle =>
              cases h
              refine ⟨_, ?_, .some hs0 hs1 hs2 hs3 hs4 hs5 (num_small x2 x3 (Nat.lt_of_le_of_lt hle.1 hle.2)) (num_small y2 y3 hle.2)
                (by exact_mod_cast hle.1)⟩
              have ee : l = s0 ++ '{' :: (s1 ++ (x ++ (s2 ++ ',' :: (s3 ++ (y ++ (s4 ++ '}' :: (s5 ++ skipSp r5))))))) := by
                rw [← e7, ← e6, ← e5, ← y1, ← e4, ← e3, ← e2, ← x1, ← e1, ← e, ← e0]
              simpa using ee
            · cases h
  · cases h
    exact ⟨s0, e0, .none hs0⟩

/-- `any` or `list`, after the opening parenthesis -/
def rdSpecial (l : List Char) : Option (Term × List Char) :=
  let q := skipSp l
  if q.take 3 = ['a', 'n', 'y'] then
    match rdRange (q.drop 3) with
    | none => none
    | some (m, r) =>
      match expect ')' r with
      | none => none
      | some r => some (⟨"any", .any, m⟩, r)
  else if q.take 4 = ['l', 'i', 's', 't'] then
    match expect '<' (skipSp (q.drop 4)) with
    | none => none
    | some r =>
      match rdIdent r with
      | none => none
      | some (x, r) =>
        match expect '>' r with
        | none => none
        | some r =>
          match rdRange r with
          | none => none
          | some (m, r) =>
            match expect ')' r with
            | none => none
            | some r => some (⟨String.ofList x, .list, m⟩, r)
  else none

theorem rdSpecial_sound {l r : List Char} {t : Term} (h : rdSpecial l = some (t, r)) :
    ∃ p, '(' :: l = p ++ r ∧ ∀ ρ, TermSyn w p t ρ ρ := by
  obtain ⟨s1, e1, hs1⟩ := skipSp_sound hw l
  unfold rdSpecial at h
  simp only at h
  split at h
  · next hq =>
    have e2 : skipSp l = ['a', 'n', 'y'] ++ (skipSp l).drop 3 := by rw [← hq, List.take_append_drop]
    split at h
    · cases h
    · next m r1 hm =>
      obtain ⟨p, e3, hr⟩ := rdRange_sound hw hm
      split at h
      · cases h
      · next r2 h2 =>
        cases h
        have e4 := expect_sound h2
        refine ⟨_, ?_, fun _ => .any hs1 hr⟩
        have ee : l = s1 ++ (['a', 'n', 'y'] ++ (p ++ ')' :: r)) := by rw [← e4, ← e3, ← e2, ← e1]
        simpa using ee
  · split at h
    · next hq =>
      have e2 : skipSp l = ['l', 'i', 's', 't'] ++ (skipSp l).drop 4 := by rw [← hq, List.take_append_drop]
      obtain ⟨s2, e3, hs2⟩ := skipSp_sound hw ((skipSp l).drop 4)
      split at h
      · cases h
      · next r1 h1 =>
        have e4 := expect_sound h1
        split at h
        · cases h
        · next x r2 hx =>
          obtain ⟨e5, hx⟩ := rdIdent_sound hw hx
          split at h
          · cases h
          · next r3 h3 =>
            have e6 := expect_sound h3
            split at h
            · cases h
            · next m r4 hm =>
              obtain ⟨p, e7, hr⟩ := rdRange_sound hw hm
              split at h
              · cases h
              · next r5 h5 =>
                cases h
                have e8 := expect_sound h5
                refine ⟨_, ?_, fun _ => .list hs1 hs2 hx hr⟩
                have ee : l = s1 ++ (['l', 'i', 's', 't'] ++ (s2 ++ '<' :: (x ++ '>' :: (p ++ ')' :: r)))) := by
                  rw [← e8, ← e7, ← e6, ← e5, ← e4, ← e3, ← e2, ← e1]
                simpa using ee
    · cases h

/-- a term that is no regexp -/
def rdTerm (l : List Char) : Option (Term × List Char) :=
  match l with
  | [] => none
  | c :: l' =>
    if c = '<' then
      match rdIdent l' with
      | none => none
      | some (x, r) =>
        match expect '>' r with
        | none => none
        | some r => some (⟨String.ofList x, .nonterminal, .nil⟩, r)
    else if c = '(' then rdSpecial l'
    else
      match rdLit l with
      | none => none
      | some (v, r) => some (⟨String.ofList v, .terminal, .nil⟩, r)

theorem rdTerm_sound {l r : List Char} {t : Term} (hp : PlainText w l) (h : rdTerm l = some (t, r)) :
    ∃ p, l = p ++ r ∧ ∀ ρ, TermSyn w p t ρ ρ := by
  unfold rdTerm at h
  split at h
  · cases h
  · next c l' =>
    split at h
    · next hc =>
      split at h
      · cases h
      · next x r1 hx =>
        obtain ⟨e1, hx⟩ := rdIdent_sound hw hx
        split at h
        · cases h
        · next r2 he =>
          cases h
          have e2 := expect_sound he
          exact ⟨'<' :: (x ++ ['>']), by rw [hc, e1, e2]; simp, fun _ => .nonterminal hx⟩
    · split at h
      · next hc =>
        rw [hc]
        exact rdSpecial_sound hw h
      · split at h
        · cases h
        · next v r1 hv =>
          cases h
          obtain ⟨p, e, hv⟩ := rdLit_sound hw hp hv
          exact ⟨p, e, fun _ => .literal hv⟩

/-- terms up to the first character that starts none -/
def rdTerms : Nat → List Char → Option (List Term × List Char)
  | 0, _ => none
  | n + 1, l =>
    match rdTerm l with
    | none => none
    | some (t, r) =>
      match skipGap n r with
      | none => none
      | some r =>
        if r.head? = some '<' ∨ r.head? = some '"' ∨ r.head? = some '(' then
          match rdTerms n r with
          | none => none
          | some (ts, r) => some (t :: ts, r)
        else some ([t], r)

theorem rdTerms_sound : ∀ {n : Nat} {l r : List Char} {ts : List Term}, PlainText w l → rdTerms n l = some (ts, r) →
    ∃ p, l = p ++ r ∧ ∀ ρ, TermsSyn w p ts ρ ρ
  | 0, _, _, _, _, h => by rw [rdTerms] at h; cases h
  | n + 1, l, r, ts, hp, h => by
    rw [rdTerms] at h
    split at h
    · cases h
    · next t r1 ht =>
      obtain ⟨p, e1, ht⟩ := rdTerm_sound hw hp ht
      split at h
      · cases h
      · next r2 hg0 =>
        obtain ⟨g, e2, hg⟩ := skipGap_sound hw hg0
        have ep : l = (p ++ g) ++ r2 := by rw [e1, e2]; simp
        split at h
        · split at h
          · cases h
          · next us r3 hu =>
            cases h
            obtain ⟨q, e3, hu⟩ := rdTerms_sound (ep ▸ hp).right hu
            exact ⟨p ++ (g ++ q), by rw [ep, e3]; simp, fun ρ => .more (ht ρ) hg (hu ρ)⟩
        · cases h
          exact ⟨p ++ g, ep, fun ρ => .one (ht ρ) hg⟩

def rdBody (fl : List (String × Rat)) (n : Nat) (l : List Char) : Option (RuleBody × List Char) :=
  match rdTerms n l with
  | none => none
  | some (ts, r) =>
    match r with
    | '{' :: r' =>
      match rdFmr fl n r' with
      | none => none
      | some (f, r') =>
        match expect '}' r' with
        | none => none
        | some r' =>
          match skipGap n r' with
          | none => none
          | some r' => some (⟨ts, some f⟩, r')
    | _ => some (⟨ts, none⟩, r)

theorem rdBody_sound {n : Nat} {l r : List Char} {b : RuleBody} (hp : PlainText w l) (h : rdBody fl n l = some (b, r)) :
    ∃ p, l = p ++ r ∧ ∀ ρ, BodySyn w p b ρ ρ := by
  unfold rdBody at h
  split at h
  · cases h
  · next ts r1 ht0 =>
    obtain ⟨p, e1, ht⟩ := rdTerms_sound hw hp ht0
    split at h
    · next r2 =>
      split at h
      · cases h
      · next f r3 hf =>
        obtain ⟨q, e2, hf⟩ := rdFmr_sound hw (e1 ▸ hp).right.tail hf
        split at h
        · cases h
        · next r4 he =>
          have e3 := expect_sound he
          split at h
          · cases h
          · next r5 hg =>
            cases h
            obtain ⟨g, e4, hg⟩ := skipGap_sound hw hg
            exact ⟨p ++ '{' :: (q ++ '}' :: g), by rw [e1, e2, e3, e4]; simp, fun ρ => .fn (ht ρ) hf hg⟩
    · cases h
      exact ⟨p, e1, fun ρ => .plain (ht ρ)⟩

def rdBodies (fl : List (String × Rat)) : Nat → List Char → Option (List RuleBody × List Char)
  | 0, _ => none
  | n + 1, l =>
    match rdBody fl n l with
    | none => none
    | some (b, r) =>
      match r with
      | '|' :: r' =>
        match skipGap n r' with
        | none => none
        | some r' =>
          match rdBodies fl n r' with
          | none => none
          | some (bs, r') => some (b :: bs, r')
      | _ => some ([b], r)

theorem rdBodies_sound : ∀ {n : Nat} {l r : List Char} {bs : List RuleBody}, PlainText w l → rdBodies fl n l = some (bs, r) →
    ∃ p, l = p ++ r ∧ ∀ ρ, BodiesSyn w p bs ρ ρ
  | 0, _, _, _, _, h => by rw [rdBodies] at h; cases h
  | n + 1, l, r, bs, hp, h => by
    rw [rdBodies] at h
    split at h
    · cases h
    · next b r1 hb0 =>
      obtain ⟨p, e1, hb⟩ := rdBody_sound hw hp hb0
      split at h
      · next r2 =>
        split at h
        · cases h
        · next r3 hg =>
          obtain ⟨g, e2, hg⟩ := skipGap_sound hw hg
          split at h
          · cases h
          · next cs r4 hc =>
            cases h
            have ep : l = (p ++ '|' :: g) ++ r3 := by rw [e1, e2]; simp
            obtain ⟨q, e3, hc⟩ := rdBodies_sound (ep ▸ hp).right hc
            exact ⟨p ++ '|' :: (g ++ q), by rw [ep, e3]; simp, fun ρ => .more (hb ρ) hg (hc ρ)⟩
      · cases h
        exact ⟨p, e1, fun ρ => .one (hb ρ)⟩

/-- a rule or a frame -/
def rdDef (fl : List (String × Rat)) (n : Nat) (l : List Char) : Option (Def × List Char) :=
  match l with
  | [] => none
  | c :: l' =>
    match rdIdent l' with
    | none => none
    | some (x, r) =>
      match expect (if c = '[' then ']' else '>') r with
      | none => none
      | some r =>
        match skipGap n r with
        | none => none
        | some r =>
          match expect '=' r with
          | none => none
          | some r =>
            match skipGap n r with
            | none => none
            | some r =>
              match rdBodies fl n r with
              | none => none
              | some (bs, r) =>
                match expect ';' r with
                | none => none
                | some r => if c = '<' ∨ c = '[' then some (⟨c == '[', String.ofList x, bs⟩, r) else none

theorem rdDef_sound {n : Nat} {l r : List Char} {d : Def} (hp : PlainText w l) (h : rdDef fl n l = some (d, r)) :
    ∃ p, l = p ++ r ∧ ∀ ρ, DefSyn w p d ρ ρ := by
  unfold rdDef at h
  split at h
  · cases h
  · next c l' =>
    split at h
    · cases h
    · next x r1 hx =>
      obtain ⟨e1, hx⟩ := rdIdent_sound hw hx
      split at h
      · cases h
      · next r2 h2 =>
        have e2 := expect_sound h2
        split at h
        · cases h
        · next r3 h3 =>
          obtain ⟨g1, e3, hg1⟩ := skipGap_sound hw h3
          split at h
          · cases h
          · next r4 h4 =>
            have e4 := expect_sound h4
            split at h
            · cases h
            · next r5 h5 =>
              obtain ⟨g2, e5, hg2⟩ := skipGap_sound hw h5
              split at h
              · cases h
              · next bs r6 h6 =>
                have ep : c :: l' = (c :: (x ++ (if c = '[' then ']' else '>') :: (g1 ++ '=' :: g2))) ++ r5 := by
                  rw [e1, e2, e3, e4, e5]; simp
                obtain ⟨q, e6, hb⟩ := rdBodies_sound hw (ep ▸ hp).right h6
                split at h
                · cases h
                · next r7 h7 =>
                  have e7 := expect_sound h7
                  split at h
                  · next hc =>
                    cases h
                    rcases hc with rfl | rfl
                    · exact ⟨'<' :: (x ++ '>' :: (g1 ++ '=' :: (g2 ++ (q ++ [';'])))), by rw [ep, e6, e7]; simp,
                        fun ρ => .rule hx hg1 hg2 (hb ρ)⟩
                    · exact ⟨'[' :: (x ++ ']' :: (g1 ++ '=' :: (g2 ++ (q ++ [';'])))), by rw [ep, e6, e7]; simp,
                        fun ρ => .frame hx hg1 hg2 (hb ρ)⟩
                  · cases h

def rdDefs (fl : List (String × Rat)) : Nat → List Char → Option (List Def)
  | 0, _ => none
  | n + 1, l =>
    match skipGap n l with
    | none => none
    | some [] => some []
    | some r =>
      match rdDef fl n r with
      | none => none
      | some (d, r) =>
        match rdDefs fl n r with
        | none => none
        | some ds => some (d :: ds)

theorem rdDefs_sound : ∀ {n : Nat} {l : List Char} {ds : List Def}, PlainText w l → rdDefs fl n l = some ds →
    ∀ ρ, DefsSyn w l ds ρ ρ
  | 0, _, _, _, h => by rw [rdDefs] at h; cases h
  | n + 1, l, ds, hp, h => by
    intro ρ
    rw [rdDefs] at h
    split at h
    · cases h
    · next hg =>
      cases h
      obtain ⟨g, e, hg⟩ := skipGap_sound hw hg
      rw [List.append_nil] at e
      exact e ▸ .nil hg
    · next r hne hg =>
      obtain ⟨g, e, hg⟩ := skipGap_sound hw hg
      split at h
      · cases h
      · next d r1 hd =>
        obtain ⟨p, e1, hd⟩ := rdDef_sound hw (e ▸ hp).right hd
        split at h
        · cases h
        · next ds' hds =>
          cases h
          rw [e, e1]
          refine .cons hg (hd ρ) (rdDefs_sound ?_ hds ρ)
          rw [e, e1, ← List.append_assoc] at hp
          exact hp.right

/-- the text consists of directives for the files, in this order, and of the definitions -/
inductive FileIs (w : LexWorld) : List Char → List String → List Def → List (String × String) → Prop
  | defs {r : List Char} {ds : List Def} {ρ : List (String × String)} : DefsSyn w r ds [] ρ → FileIs w r [] ds ρ
  | incl {t l : List Char} {f : String} {fs : List String} {ds : List Def} {ρ : List (String × String)} : IncludeSyn w t f →
      FileIs w l fs ds ρ → FileIs w (t ++ l) (f :: fs) ds ρ

/-- include directives, then definitions -/
def rdFile (fl : List (String × Rat)) : Nat → List Char → Option (List String × List Def)
  | 0, _ => none
  | n + 1, l =>
    match skipGap n l with
    | none => none
    | some r =>
      match r with
      | '#' :: r' =>
        let q := skipSp r'
        if q.take 7 = "include".toList then
          match rdLit (skipSp (q.drop 7)) with
          | none => none
          | some (v, r') =>
            match rdFile fl n r' with
            | none => none
            | some (fs, ds) => some (String.ofList v :: fs, ds)
        else none
      | _ =>
        match rdDefs fl n l with
        | none => none
        | some ds => some ([], ds)

theorem rdFile_sound : ∀ {n : Nat} {l : List Char} {fs : List String} {ds : List Def}, PlainText w l →
    rdFile fl n l = some (fs, ds) → FileIs w l fs ds []
  | 0, _, _, _, _, h => by rw [rdFile] at h; cases h
  | n + 1, l, fs, ds, hp, h => by
    rw [rdFile] at h
    split at h
    · cases h
    · next r hg0 =>
      obtain ⟨g, e1, hg⟩ := skipGap_sound hw hg0
      split at h
      · next r' =>
        obtain ⟨s1, e2, hs1⟩ := skipSp_sound hw r'
        simp only at h
        split at h
        · next hi =>
          have e3 : skipSp r' = "include".toList ++ (skipSp r').drop 7 := by rw [← hi, List.take_append_drop]
          obtain ⟨s2, e4, hs2⟩ := skipSp_sound hw ((skipSp r').drop 7)
          have ep : l = (g ++ '#' :: (s1 ++ ("include".toList ++ s2))) ++ skipSp ((skipSp r').drop 7) := by
            rw [e1, List.append_assoc]
            congr 1
            rw [List.cons_append]
            congr 1
            refine e2.trans ?_
            rw [List.append_assoc]
            congr 1
            refine e3.trans ?_
            rw [List.append_assoc]
            congr 1
          split at h
          · cases h
          · next v r2 hv =>
            obtain ⟨p, e5, hv⟩ := rdLit_sound hw (ep ▸ hp).right hv
            split at h
            · cases h
            · next fs' ds' hr =>
              cases h
              have ep2 : l = (g ++ '#' :: (s1 ++ ("include".toList ++ (s2 ++ p)))) ++ r2 := by
                rw [ep, e5]; simp
              have hi := IncludeSyn.mk hg hs1 hs2 hv
              have := rdFile_sound (ep2 ▸ hp).right hr
              rw [ep2]
              exact .incl hi this
        · cases h
      · split at h
        · cases h
        · next ds' hd =>
          cases h
          exact .defs (rdDefs_sound hw hp hd [])

end

end Fmr
