import Verif.Props.Bytes

/-!
# Which errors of the parser have a position
-/

namespace Fmr

/-- The library functions that the grammar parser calls do not fail: a digit is an ASCII digit, rule bodies can be
hashed, numbers can be read. -/
structure LexWorld.Speaks (w : LexWorld) : Prop where
  digit : ∀ c, w.isDigit c = true → (parseDigit c).isSome
  hash : ∀ r, (w.hash r).isSome
  int : ∀ l : List Char, l ≠ [] → (∀ c ∈ l, w.isDigit c = true) →
    (w.scanInt (String.ofList l)).isSome ∧ (w.scanInt (String.ofList ('-' :: l))).isSome
  float : ∀ l : List Char, '.' ∈ l → (∀ c ∈ l, w.isDigit c = true ∨ c = '.') →
    (w.scanFloat (String.ofList l)).isSome ∧ (w.scanFloat (String.ofList ('-' :: l))).isSome

namespace Prog

variable {α β : Type} {w : LexWorld}

/-- every error of the program has a position, every result satisfies `Q` -/
def AllLoud (Q : α → Prop) : Prog α → Prop
  | ret a => Q a
  | next k => ∀ r, AllLoud Q (k r)
  | backup k => AllLoud Q k
  | put _ _ k => AllLoud Q k
  | get k => ∀ m, AllLoud Q (k m)
  | fail b => b = true
  | div => True

theorem AllLoud.bind {Q : α → Prop} {R : β → Prop} {x : Prog α} {g : α → Prog β} (hx : x.AllLoud Q)
    (hg : ∀ a, Q a → (g a).AllLoud R) : (x >>= g).AllLoud R := by
  show (Prog.bind x g).AllLoud R
  induction x with
  | ret a => exact hg a hx
  | next k ih => exact fun r => ih r (hx r)
  | backup k ih => exact ih hx
  | put h s k ih => exact ih hx
  | get k ih => exact fun m => ih m (hx m)
  | fail b => exact hx
  | div => trivial

structure Loud (x : Prog α) : Prop where
  d : x.AllLoud (fun _ => True)

theorem Loud.bind {x : Prog α} {g : α → Prog β} (hx : Loud x) (hg : ∀ a, Loud (g a)) : Loud (x >>= g) :=
  ⟨AllLoud.bind hx.d fun a _ => (hg a).d⟩

theorem Loud.ite {c : Prop} [Decidable c] {x y : Prog α} (hx : Loud x) (hy : Loud y) : Loud (if c then x else y) := by
  split <;> assumption

theorem Loud.pure (a : α) : Loud (Pure.pure a : Prog α) := ⟨trivial⟩
theorem Loud.fail : Loud (fail true : Prog α) := ⟨rfl⟩
theorem Loud.div : Loud (div : Prog α) := ⟨trivial⟩
theorem Loud.put (h s : String) : Loud (put h s (ret ())) := ⟨trivial⟩
theorem Loud.rd : Loud Prog.rd := ⟨fun _ => trivial⟩
theorem Loud.un : Loud Prog.un := ⟨trivial⟩

/-- one step of the check of a program -/
macro "loud1" : tactic => `(tactic| first
  | assumption
  | with_reducible exact Loud.pure _ | with_reducible exact Loud.fail | with_reducible exact Loud.div
  | with_reducible exact Loud.rd | with_reducible exact Loud.un | with_reducible exact Loud.put _ _
  | with_reducible apply Loud.ite | with_reducible apply Loud.bind
  | intro _)

theorem loud_eat (c : Char) : Loud (eat c) := by unfold eat; repeat loud1
theorem loud_peek : Loud peek := by unfold peek; repeat loud1

theorem loud_ws (n : Nat) : Loud (ws w n) := by
  induction n with
  | zero => exact Loud.div
  | succ n ih => unfold ws; repeat loud1

theorem loud_textLoop (n : Nat) (b : Bool) : Loud (textLoop w n b) := by
  induction n generalizing b with
  | zero => exact Loud.div
  | succ n ih =>
    unfold textLoop
    refine Loud.bind Loud.rd fun r => ?_
    cases r <;> repeat (first | exact ih _ | loud1)

theorem loud_text (n : Nat) : Loud (text w n) := by
  unfold text; repeat (first | exact loud_textLoop _ _ | loud1)

theorem loud_token (n : Nat) (b e : Char) : Loud (token w n b e) := by
  unfold token; repeat (first | exact loud_eat _ | exact loud_text _ | loud1)

theorem loud_nonterminal (n : Nat) : Loud (nonterminal w n) := loud_token n _ _
theorem loud_frame (n : Nat) : Loud (frame w n) := loud_token n _ _

theorem loud_terminalText (n : Nat) (b : Bool) : Loud (terminalText n b) := by
  induction n generalizing b with
  | zero => exact Loud.div
  | succ n ih =>
    unfold terminalText
    refine Loud.bind Loud.rd fun r => ?_
    cases r with
    | none => exact Loud.fail
    | some ch =>
      refine Loud.ite (Loud.bind Loud.un fun _ => Loud.pure _) (Loud.ite ?_ (Loud.ite (ih _) (Loud.bind (ih _) fun _ => Loud.pure _)))
      cases unescape ch with
      | none => exact Loud.fail
      | some x => exact Loud.bind (ih _) fun _ => Loud.pure _

theorem loud_terminalFlags (n : Nat) : Loud (terminalFlags w n) := by
  unfold terminalFlags
  repeat (first | exact loud_peek | exact loud_ws _ | exact loud_eat _ | exact loud_text _ | loud1)

theorem loud_terminal (n : Nat) : Loud (terminal w n) := by
  unfold terminal
  repeat (first
    | exact loud_eat _ | exact loud_ws _ | exact loud_terminalFlags _ | exact loud_terminalText _ _ | loud1)

theorem loud_getIntLoop (hw : w.Speaks) (n : Nat) (i : Int) : Loud (getIntLoop w n i) := by
  induction n generalizing i with
  | zero => exact Loud.div
  | succ n ih =>
    unfold getIntLoop
    refine Loud.bind Loud.rd fun r => ?_
    cases r with
    | none => exact Loud.pure _
    | some ch =>
      show Loud (if _ then _ else _)
      split
      · rename_i hd
        obtain ⟨k, hk⟩ := Option.isSome_iff_exists.1 (hw.digit ch hd)
        rw [hk]
        exact ih _
      · exact Loud.pure _

theorem loud_getInt (hw : w.Speaks) (n : Nat) : Loud (getInt w n) := by
  unfold getInt
  repeat (first | exact loud_getIntLoop hw _ _ | loud1)

theorem loud_lineLoop (n : Nat) : Loud (lineLoop n) := by
  induction n with
  | zero => exact Loud.div
  | succ n ih => unfold lineLoop; repeat loud1

theorem loud_lineComment (n : Nat) : Loud (lineComment n) := by
  unfold lineComment; repeat (first | exact loud_eat _ | exact loud_lineLoop _ | loud1)

theorem loud_multiLoop (n : Nat) (b : Bool) : Loud (multiLoop n b) := by
  induction n generalizing b with
  | zero => exact Loud.div
  | succ n ih =>
    unfold multiLoop
    refine Loud.bind Loud.rd fun r => ?_
    cases r <;> repeat (first | exact ih _ | loud1)

theorem loud_multiLineComment (n : Nat) : Loud (multiLineComment n) := by
  unfold multiLineComment; repeat (first | exact loud_eat _ | exact loud_multiLoop _ _ | loud1)

theorem loud_comment (n : Nat) : Loud (comment n) := by
  unfold comment
  repeat (first | exact loud_peek | exact loud_lineComment _ | exact loud_multiLineComment _ | loud1)

theorem loud_commentsLoop (m n : Nat) : Loud (commentsLoop w m n) := by
  induction n with
  | zero => exact Loud.div
  | succ n ih => unfold commentsLoop; repeat (first | exact loud_ws _ | exact loud_comment _ | loud1)

theorem loud_comments (n : Nat) : Loud (comments w n) := by
  unfold comments; repeat (first | exact loud_commentsLoop _ _ | exact loud_ws _ | loud1)

theorem loud_specialMeta (hw : w.Speaks) (n : Nat) : Loud (specialMeta w n) := by
  unfold specialMeta
  repeat (first | exact loud_ws _ | exact loud_peek | exact loud_getInt hw _ | exact loud_eat _ | loud1)

theorem loud_listTerm (hw : w.Speaks) (n : Nat) : Loud (listTerm w n) := by
  unfold listTerm
  repeat (first | exact loud_nonterminal _ | exact loud_specialMeta hw _ | exact loud_eat _ | loud1)

theorem loud_anyTerm (hw : w.Speaks) (n : Nat) : Loud (anyTerm w n) := by
  unfold anyTerm; repeat (first | exact loud_specialMeta hw _ | exact loud_eat _ | loud1)

theorem loud_special (hw : w.Speaks) (n : Nat) : Loud (special w n) := by
  unfold special
  repeat (first
    | exact loud_eat _ | exact loud_ws _ | exact loud_text _ | exact loud_anyTerm hw _ | exact loud_listTerm hw _ | loud1)

theorem loud_regexLoop (n : Nat) : Loud (regexLoop n) := by
  induction n with
  | zero => exact Loud.div
  | succ n ih =>
    unfold regexLoop
    refine Loud.bind Loud.rd fun r => ?_
    cases r <;> repeat loud1

theorem loud_regex (n : Nat) : Loud (regex w n) := by
  unfold regex
  refine Loud.bind (loud_eat _) fun _ => Loud.bind (loud_ws _) fun _ => Loud.bind (loud_regexLoop _) fun ret => ?_
  exact Loud.ite Loud.fail (Loud.ite (Loud.bind (Loud.put _ _) fun _ => Loud.pure _) Loud.fail)

theorem loud_term (hw : w.Speaks) (n : Nat) : Loud (term w n) := by
  unfold term
  repeat (first
    | exact loud_peek | exact loud_nonterminal _ | exact loud_terminal _ | exact loud_special hw _ | exact loud_regex _ | loud1)

theorem loud_funcNameLoop (n : Nat) (b d : Bool) : Loud (funcNameLoop w n b d) := by
  induction n generalizing b d with
  | zero => exact Loud.div
  | succ n ih =>
    unfold funcNameLoop
    refine Loud.bind Loud.rd fun r => ?_
    cases r <;> repeat (first | exact ih _ _ | loud1)

theorem loud_funcName (n : Nat) : Loud (funcName w n) := by
  unfold funcName; repeat (first | exact loud_funcNameLoop _ _ _ | exact loud_ws _ | loud1)

theorem loud_contextArg : Loud contextArg := by unfold contextArg; repeat (first | exact loud_eat _ | loud1)

theorem loud_idxArg (hw : w.Speaks) (n : Nat) : Loud (idxArg w n) := by
  unfold idxArg; repeat (first | exact loud_eat _ | exact loud_getInt hw _ | loud1)

theorem loud_strArg (n : Nat) : Loud (strArg w n) := by
  unfold strArg; repeat (first | exact loud_terminal _ | loud1)

/-- the runes of a number -/
def NumText (w : LexWorld) (b : Bool) (x : List Char × Bool) : Prop :=
  (∀ c ∈ x.1, w.isDigit c = true ∨ c = '.') ∧ (x.2 = true → b = true ∨ '.' ∈ x.1) ∧
    (x.2 = false → ∀ c ∈ x.1, w.isDigit c = true) ∧ (b = true → x.2 = true)

theorem loud_numLoop (n : Nat) (b : Bool) : (numLoop w n b).AllLoud (NumText w b) := by
  induction n generalizing b with
  | zero => trivial
  | succ n ih =>
    unfold numLoop
    show ∀ r, _
    intro r
    have h0 : NumText w b ([], b) := ⟨by simp, fun h => .inl h, by simp, fun h => h⟩
    cases r with
    | none => exact h0
    | some ch =>
      show AllLoud _ (if _ then _ else _)
      split
      · rename_i hd
        refine AllLoud.bind (ih _) fun x hx => ?_
        obtain ⟨h1, h2, h3, h4⟩ := hx
        refine ⟨?_, fun h => (h2 h).imp id fun h => by simp [h], fun h => ?_, h4⟩
        · intro c hc
          rcases List.mem_cons.1 hc with rfl | hc
          · exact .inl hd
          · exact h1 c hc
        · intro c hc
          rcases List.mem_cons.1 hc with rfl | hc
          · exact hd
          · exact h3 h c hc
      · split
        · split
          · rfl
          · rename_i hdot _
            refine AllLoud.bind (ih _) fun x hx => ?_
            obtain ⟨h1, h2, h3, h4⟩ := hx
            have ht := h4 rfl
            refine ⟨?_, fun _ => .inr (by simp [hdot]), fun h => ?_, fun _ => ht⟩
            · intro c hc
              rcases List.mem_cons.1 hc with rfl | hc
              · exact .inr hdot
              · exact h1 c hc
            · rw [ht] at h; cases h
        · exact h0

theorem loud_numArg (hw : w.Speaks) (n : Nat) (b : Bool) : Loud (numArg w n b) := by
  unfold numArg
  refine ⟨AllLoud.bind (loud_numLoop n false) fun x hx => ?_⟩
  obtain ⟨h1, h2, h3, _⟩ := hx
  have hif : ∀ {c : Prop} [Decidable c] {x y : Prog Arg}, (c → x.AllLoud fun _ => True) → (¬ c → y.AllLoud fun _ => True) →
      (if c then x else y).AllLoud fun _ => True := by
    intro c _ x y hx hy
    split
    · exact hx (by assumption)
    · exact hy (by assumption)
  refine hif (fun _ => rfl) fun hne => ?_
  refine AllLoud.bind (Q := fun _ => True) trivial fun _ _ => hif (fun hd => ?_) fun hd => ?_
  · have := hw.float x.1 ((h2 hd).resolve_left (by simp)) h1
    have hs : (w.scanFloat (String.ofList (if b then '-' :: x.1 else x.1))).isSome := by
      cases b
      · exact this.1
      · exact this.2
    obtain ⟨v, hv⟩ := Option.isSome_iff_exists.1 hs
    rw [hv]
    trivial
  · have := hw.int x.1 (by rintro e; exact hne (by rw [e]; rfl)) (h3 (by simpa using hd))
    have hs : (w.scanInt (String.ofList (if b then '-' :: x.1 else x.1))).isSome := by
      cases b
      · exact this.1
      · exact this.2
    obtain ⟨v, hv⟩ := Option.isSome_iff_exists.1 hs
    rw [hv]
    trivial

theorem loud_funcArg (hw : w.Speaks) (n : Nat) {x : Prog FMR} (h : Loud x) (r : Option Char) : Loud (funcArg w n x r) := by
  unfold funcArg
  repeat (first
    | exact loud_contextArg | exact loud_idxArg hw _ | exact loud_strArg _ | exact loud_numArg hw _ _ | exact loud_eat _ | loud1)

theorem loud_sem (hw : w.Speaks) (m n : Nat) : Loud (semanticFn w m n) ∧ Loud (funcArgsLoop w m n) := by
  induction n with
  | zero => exact ⟨by rw [semanticFn]; exact Loud.div, by rw [funcArgsLoop]; exact Loud.div⟩
  | succ n ih =>
    refine ⟨?_, ?_⟩
    · rw [semanticFn]
      repeat (first | exact loud_ws _ | exact loud_funcName _ | exact loud_eat _ | exact ih.2 | loud1)
    · rw [funcArgsLoop]
      repeat (first
        | exact loud_ws _ | exact loud_peek | exact loud_funcArg hw _ ih.1 _ | exact ih.2 | loud1)

theorem loud_ruleBodyLoop (hw : w.Speaks) (m n : Nat) : Loud (ruleBodyLoop w m n) := by
  induction n with
  | zero => exact Loud.div
  | succ n ih =>
    unfold ruleBodyLoop
    repeat (first | exact loud_comments _ | exact loud_peek | exact loud_term hw _ | loud1)

theorem loud_ruleBodyFn (hw : w.Speaks) (n : Nat) : Loud (ruleBodyFn w n) := by
  unfold ruleBodyFn
  repeat (first
    | exact loud_comments _ | exact loud_peek | exact (loud_sem hw _ _).1 | exact loud_eat _ | loud1)

theorem loud_ruleBody (hw : w.Speaks) (n : Nat) : Loud (ruleBody w n) := by
  unfold ruleBody
  repeat (first
    | exact loud_comments _ | exact loud_term hw _ | exact loud_ruleBodyLoop hw _ _ | exact loud_ruleBodyFn hw _ | loud1)

theorem loud_hashBody (hw : w.Speaks) (r : RuleBody) : Loud (hashBody w r) := by
  unfold hashBody
  obtain ⟨v, hv⟩ := Option.isSome_iff_exists.1 (hw.hash r)
  rw [hv]
  exact ⟨trivial⟩

theorem loud_ruleBodiesLoop (hw : w.Speaks) (m n : Nat) (l : List (Nat × RuleBody)) : Loud (ruleBodiesLoop w m n l) := by
  induction n generalizing l with
  | zero => exact Loud.div
  | succ n ih =>
    unfold ruleBodiesLoop
    repeat (first
      | exact loud_comments _ | exact loud_peek | exact loud_ruleBody hw _ | exact loud_hashBody hw _ | exact ih _ | loud1)

theorem loud_ruleBodies (hw : w.Speaks) (n : Nat) : Loud (ruleBodies w n) := by
  unfold ruleBodies
  repeat (first | exact loud_ruleBody hw _ | exact loud_hashBody hw _ | exact loud_ruleBodiesLoop hw _ _ _ | loud1)

theorem loud_ruleName (n : Nat) (c : Option Char) : Loud (ruleName w n c) := by
  unfold ruleName
  repeat (first | exact loud_nonterminal _ | exact loud_frame _ | loud1)

theorem loud_rule (hw : w.Speaks) (n : Nat) (c : Option Char) : Loud (rule w n c) := by
  unfold rule
  repeat (first
    | exact loud_ruleName _ _ | exact loud_comments _ | exact loud_eat _ | exact loud_ruleBodies hw _ | loud1)

theorem loud_rulesLoop (hw : w.Speaks) (m n : Nat) (g : List (String × Rule) × List (String × Rule)) : Loud (rulesLoop w m n g) := by
  induction n generalizing g with
  | zero => exact Loud.div
  | succ n ih =>
    unfold rulesLoop
    repeat (first
      | exact loud_comments _ | exact loud_peek | exact loud_rule hw _ _ | exact ih _ | loud1)

theorem loud_directive (n : Nat) : Loud (directive w n) := by
  unfold directive
  repeat (first
    | exact loud_comments _ | exact loud_peek | exact loud_ws _ | exact loud_text _ | exact loud_terminal _ | loud1)

theorem loud_grammarRules (hw : w.Speaks) (n : Nat) (name : String) :
    (grammarRules w n name).AllLoud fun g => g.refined = false := by
  unfold grammarRules
  refine AllLoud.bind (loud_rulesLoop hw _ _ _).d fun g _ => AllLoud.bind Loud.rd.d fun r _ => ?_
  split
  · rfl
  · exact fun _ => rfl

theorem AllLoud.runB {Q : α → Prop} (name : String) (b : Bytes) {x : Prog α} (h : x.AllLoud Q) (s : BSt) :
    x.runB name b s ≠ .err none := by
  induction x generalizing s with
  | ret a => intro e; cases e
  | next k ih => exact ih _ (h _) _
  | backup k ih =>
    unfold Prog.runB
    split
    · intro e; cases e
    · exact ih h _
  | put y r k ih => exact ih h _
  | get k ih => exact ih _ (h _) _
  | fail p =>
    have hp : p = true := h
    subst hp
    intro e
    cases e
  | div => intro e; cases e

theorem AllLoud.runB_ok {Q : α → Prop} (name : String) (b : Bytes) {x : Prog α} (h : x.AllLoud Q) {s s' : BSt} {a : α}
    (e : x.runB name b s = .ok (a, s')) : Q a := by
  induction x generalizing s with
  | ret a => cases e; exact h
  | next k ih => exact ih _ (h _) e
  | backup k ih =>
    unfold Prog.runB at e
    split at e
    · cases e
    · exact ih h e
  | put y r k ih => exact ih h e
  | get k ih => exact ih _ (h _) e
  | fail p => cases e
  | div => cases e

end Prog

end Fmr
