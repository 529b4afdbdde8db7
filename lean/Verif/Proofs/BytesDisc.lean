import Verif.Proofs.BytesRun

/-!
# Every `backup` of the parser comes directly after a `next`
-/

namespace Fmr.Prog

variable {α β : Type} (w : LexWorld)

/-- `x.Disc Q f`: when the program is started with `f` (the last step was a `next`), each `backup` comes
directly after a `next`, and the flag at the end satisfies `Q`. -/
def Disc (Q : Bool → Prop) : Bool → Prog α → Prop
  | f, ret _ => Q f
  | _, next k => ∀ r, Disc Q true (k r)
  | f, backup k => f = true ∧ Disc Q false k
  | f, put _ _ k => Disc Q f k
  | f, get k => ∀ m, Disc Q f (k m)
  | _, fail _ => True
  | _, div => True

theorem Disc.bind {Q R : Bool → Prop} {x : Prog α} {g : α → Prog β} {f : Bool} (hx : x.Disc Q f)
    (hg : ∀ a f, Q f → (g a).Disc R f) : (x >>= g).Disc R f := by
  show (Prog.bind x g).Disc R f
  induction x generalizing f with
  | ret a => exact hg a f hx
  | next k ih => exact fun r => ih r (hx r)
  | backup k ih => exact ⟨hx.1, ih hx.2⟩
  | put h s k ih => exact ih (f := f) hx
  | get k ih => exact fun m => ih m (hx m)
  | fail b => trivial
  | div => trivial

/-- started in any way -/
structure Good (x : Prog α) : Prop where
  d : ∀ {f}, x.Disc (fun _ => True) f

/-- as `Disc`, with any flag at the end -/
abbrev D (f : Bool) (x : Prog α) : Prop := x.Disc (fun _ => True) f

theorem D.ite {c : Prop} [Decidable c] {f : Bool} {x y : Prog α} (hx : D f x) (hy : D f y) : D f (if c then x else y) := by
  split <;> assumption

theorem D.bind {f : Bool} {x : Prog α} {g : α → Prog β} (hx : Good x) (hg : ∀ a, Good (g a)) : D f (x >>= g) :=
  Disc.bind hx.d fun a _ _ => (hg a).d

theorem Good.bind {x : Prog α} {g : α → Prog β} (hx : Good x) (hg : ∀ a, Good (g a)) : Good (x >>= g) :=
  ⟨D.bind hx hg⟩

theorem Good.ite {c : Prop} [Decidable c] {x y : Prog α} (hx : Good x) (hy : Good y) : Good (if c then x else y) := by
  split <;> assumption

theorem Good.pure (a : α) : Good (Pure.pure a : Prog α) := ⟨trivial⟩
theorem Good.fail (b : Bool) : Good (fail b : Prog α) := ⟨trivial⟩
theorem Good.div : Good (div : Prog α) := ⟨trivial⟩
theorem Good.put (h s : String) : Good (put h s (ret ())) := ⟨trivial⟩
theorem Good.rd : Good Prog.rd := ⟨fun _ => trivial⟩
theorem Good.rd_bind {k : Option Char → Prog α} (h : ∀ r, D true (k r)) : Good (Prog.rd >>= k) := ⟨h⟩
theorem D.un : D true Prog.un := ⟨rfl, trivial⟩
theorem D.un_bind {k : Unit → Prog α} (h : Good (k ())) : D true (Prog.un >>= k) := ⟨rfl, h.d⟩

/-- one step of the check of a program -/
macro "disc1" : tactic => `(tactic| first
  | assumption
  | with_reducible exact Good.pure _ | with_reducible exact Good.fail _ | with_reducible exact Good.div | with_reducible exact Good.rd | with_reducible exact Good.put _ _
  | with_reducible exact D.un
  | with_reducible apply Good.rd_bind | with_reducible apply D.un_bind
  | with_reducible apply Good.ite | with_reducible apply D.ite
  | with_reducible apply Good.bind | with_reducible apply D.bind
  | intro _
  | with_reducible apply Good.d)

theorem good_eat (c : Char) : Good (eat c) := by unfold eat; repeat disc1
theorem good_peek : Good peek := by unfold peek; repeat disc1

theorem good_ws (n : Nat) : Good (ws w n) := by
  induction n with
  | zero => exact Good.div
  | succ n ih => unfold ws; repeat (first | exact ih _ | exact ih | disc1)

theorem good_textLoop (n : Nat) (b : Bool) : Good (textLoop w n b) := by
  induction n generalizing b with
  | zero => exact Good.div
  | succ n ih =>
    unfold textLoop
    apply Good.rd_bind
    intro r
    cases r <;> repeat (first | exact ih _ | exact ih | disc1)

theorem good_text (n : Nat) : Good (text w n) := by
  unfold text; repeat (first | exact good_textLoop w _ _ | disc1)

theorem good_token (n : Nat) (b e : Char) : Good (token w n b e) := by
  unfold token; repeat (first | exact good_eat _ | exact good_text w _ | disc1)

theorem good_nonterminal (n : Nat) : Good (nonterminal w n) := good_token w n _ _
theorem good_frame (n : Nat) : Good (frame w n) := good_token w n _ _

theorem good_terminalText (n : Nat) (b : Bool) : Good (terminalText n b) := by
  induction n generalizing b with
  | zero => exact Good.div
  | succ n ih =>
    unfold terminalText
    apply Good.rd_bind
    intro r
    cases r with
    | none => trivial
    | some ch =>
      have h : ∀ b, D true (terminalText n b) := fun b => (ih b).d
      refine D.ite (D.un_bind (Good.pure _)) (D.ite ?_ (D.ite (h _) (D.bind (ih _) fun _ => Good.pure _)))
      cases unescape ch with
      | none => trivial
      | some x => exact D.bind (ih _) fun _ => Good.pure _

theorem good_terminalFlags (n : Nat) : Good (terminalFlags w n) := by
  unfold terminalFlags
  repeat (first | exact good_peek | exact good_ws w _ | exact good_eat _ | exact good_text w _ | disc1)

theorem good_terminal (n : Nat) : Good (terminal w n) := by
  unfold terminal
  repeat (first
    | exact good_eat _ | exact good_ws w _ | exact good_terminalFlags w _ | exact good_terminalText _ _ | disc1)

theorem disc_getIntLoop (n : Nat) (i : Int) (f : Bool) : (getIntLoop w n i).Disc (· = true) f := by
  induction n generalizing i f with
  | zero => trivial
  | succ n ih =>
    unfold getIntLoop
    show ∀ r, _
    intro r
    cases r with
    | none => exact rfl
    | some ch =>
      show Disc _ true (if _ then _ else _)
      split
      · cases parseDigit ch with
        | none => trivial
        | some k => exact ih _ true
      · exact rfl

theorem good_getInt (n : Nat) : Good (getInt w n) := by
  refine ⟨fun {f} => ?_⟩
  unfold getInt
  refine Disc.bind (disc_getIntLoop w n _ f) fun i f hf => ?_
  subst hf
  exact D.ite trivial (D.un_bind (Good.pure _))

theorem good_lineLoop (n : Nat) : Good (lineLoop n) := by
  induction n with
  | zero => exact Good.div
  | succ n ih => unfold lineLoop; repeat (first | exact ih _ | exact ih | disc1)

theorem good_lineComment (n : Nat) : Good (lineComment n) := by
  unfold lineComment; repeat (first | exact good_eat _ | exact good_lineLoop _ | disc1)

theorem good_multiLoop (n : Nat) (b : Bool) : Good (multiLoop n b) := by
  induction n generalizing b with
  | zero => exact Good.div
  | succ n ih =>
    unfold multiLoop
    apply Good.rd_bind
    intro r
    cases r <;> repeat (first | exact ih _ | exact (ih _).d | disc1)

theorem good_multiLineComment (n : Nat) : Good (multiLineComment n) := by
  unfold multiLineComment; repeat (first | exact good_eat _ | exact good_multiLoop _ _ | disc1)

theorem good_comment (n : Nat) : Good (comment n) := by
  unfold comment
  apply Good.rd_bind
  intro r
  refine D.ite (D.un_bind (Good.pure _)) (D.bind good_peek fun r => ?_)
  repeat (first | exact good_lineComment _ | exact good_multiLineComment _ | disc1)

theorem good_commentsLoop (m n : Nat) : Good (commentsLoop w m n) := by
  induction n with
  | zero => exact Good.div
  | succ n ih => unfold commentsLoop; repeat (first | exact ih | exact good_ws w _ | exact good_comment _ | disc1)

theorem good_comments (n : Nat) : Good (comments w n) := by
  unfold comments; repeat (first | exact good_commentsLoop w _ _ | exact good_ws w _ | disc1)

theorem good_specialMeta (n : Nat) : Good (specialMeta w n) := by
  unfold specialMeta
  repeat (first | exact good_ws w _ | exact good_peek | exact good_getInt w _ | exact good_eat _ | disc1)

theorem good_listTerm (n : Nat) : Good (listTerm w n) := by
  unfold listTerm
  repeat (first | exact good_nonterminal w _ | exact good_specialMeta w _ | exact good_eat _ | disc1)

theorem good_anyTerm (n : Nat) : Good (anyTerm w n) := by
  unfold anyTerm; repeat (first | exact good_specialMeta w _ | exact good_eat _ | disc1)

theorem good_special (n : Nat) : Good (special w n) := by
  unfold special
  repeat (first
    | exact good_eat _ | exact good_ws w _ | exact good_text w _ | exact good_anyTerm w _ | exact good_listTerm w _ | disc1)

theorem good_regexLoop (n : Nat) : Good (regexLoop n) := by
  induction n with
  | zero => exact Good.div
  | succ n ih =>
    unfold regexLoop
    apply Good.rd_bind
    intro r
    cases r <;> repeat (first | exact ih _ | exact ih | disc1)

theorem good_regex (n : Nat) : Good (regex w n) := by
  unfold regex
  refine Good.bind (good_eat _) fun _ => Good.bind (good_ws w _) fun _ => Good.bind (good_regexLoop _) fun ret => ?_
  exact Good.ite (Good.fail _) (Good.ite (Good.bind (Good.put _ _) fun _ => Good.pure _) (Good.fail _))

theorem good_term (n : Nat) : Good (term w n) := by
  unfold term
  repeat (first
    | exact good_peek | exact good_nonterminal w _ | exact good_terminal w _ | exact good_special w _ | exact good_regex w _ | disc1)

theorem good_funcNameLoop (n : Nat) (b d : Bool) : Good (funcNameLoop w n b d) := by
  induction n generalizing b d with
  | zero => exact Good.div
  | succ n ih =>
    unfold funcNameLoop
    apply Good.rd_bind
    intro r
    cases r <;> repeat (first | exact ih _ _ | disc1)

theorem good_funcName (n : Nat) : Good (funcName w n) := by
  unfold funcName; repeat (first | exact good_funcNameLoop w _ _ _ | exact good_ws w _ | disc1)

theorem good_contextArg : Good contextArg := by unfold contextArg; repeat (first | exact good_eat _ | disc1)

theorem good_idxArg (n : Nat) : Good (idxArg w n) := by
  unfold idxArg; repeat (first | exact good_eat _ | exact good_getInt w _ | disc1)

theorem good_strArg (n : Nat) : Good (strArg w n) := by
  unfold strArg; repeat (first | exact good_terminal w _ | disc1)

theorem disc_numLoop (n : Nat) (b : Bool) (f : Bool) : (numLoop w n b).Disc (· = true) f := by
  induction n generalizing b f with
  | zero => trivial
  | succ n ih =>
    unfold numLoop
    show ∀ r, _
    intro r
    cases r with
    | none => exact rfl
    | some ch =>
      show Disc _ true (if _ then _ else _)
      split
      · exact Disc.bind (ih _ _) fun _ _ h => h
      · split
        · split
          · trivial
          · exact Disc.bind (ih _ _) fun _ _ h => h
        · exact rfl

theorem good_numArg (n : Nat) (b : Bool) : Good (numArg w n b) := by
  refine ⟨fun {f} => ?_⟩
  unfold numArg
  refine Disc.bind (disc_numLoop w n _ f) fun i f hf => ?_
  subst hf
  refine D.ite trivial (D.un_bind (Good.ite ?_ ?_))
  · cases w.scanFloat _ <;> exact ⟨trivial⟩
  · cases w.scanInt _ <;> exact ⟨trivial⟩

theorem good_funcArg (n : Nat) {x : Prog FMR} (h : Good x) (r : Option Char) : Good (funcArg w n x r) := by
  unfold funcArg
  repeat (first
    | exact good_contextArg | exact good_idxArg w _ | exact good_strArg w _ | exact good_numArg w _ _ | exact good_eat _ | disc1)

theorem good_sem (m n : Nat) : Good (semanticFn w m n) ∧ Good (funcArgsLoop w m n) := by
  induction n with
  | zero => exact ⟨by rw [semanticFn]; exact Good.div, by rw [funcArgsLoop]; exact Good.div⟩
  | succ n ih =>
    refine ⟨?_, ?_⟩
    · rw [semanticFn]
      repeat (first | exact good_ws w _ | exact good_funcName w _ | exact good_eat _ | exact ih.2 | disc1)
    · rw [funcArgsLoop]
      repeat (first
        | exact good_ws w _ | exact good_peek | exact good_funcArg w _ ih.1 _ | exact ih.2 | exact ih.2 _ | disc1)

theorem good_ruleBodyLoop (m n : Nat) : Good (ruleBodyLoop w m n) := by
  induction n with
  | zero => exact Good.div
  | succ n ih =>
    unfold ruleBodyLoop
    repeat (first | exact good_comments w _ | exact good_peek | exact good_term w _ | exact ih | disc1)

theorem good_ruleBodyFn (n : Nat) : Good (ruleBodyFn w n) := by
  unfold ruleBodyFn
  repeat (first
    | exact good_comments w _ | exact good_peek | exact (good_sem w _ _).1 | exact good_eat _ | disc1)

theorem good_ruleBody (n : Nat) : Good (ruleBody w n) := by
  unfold ruleBody
  repeat (first
    | exact good_comments w _ | exact good_term w _ | exact good_ruleBodyLoop w _ _ | exact good_ruleBodyFn w _ | disc1)

theorem good_hashBody (r : RuleBody) : Good (hashBody w r) := by
  unfold hashBody
  cases w.hash r <;> exact ⟨trivial⟩

theorem good_ruleBodiesLoop (m n : Nat) (l : List (Nat × RuleBody)) : Good (ruleBodiesLoop w m n l) := by
  induction n generalizing l with
  | zero => exact Good.div
  | succ n ih =>
    unfold ruleBodiesLoop
    repeat (first
      | exact good_comments w _ | exact good_peek | exact good_ruleBody w _ | exact good_hashBody w _ | exact ih _ | exact ih | disc1)

theorem good_ruleBodies (n : Nat) : Good (ruleBodies w n) := by
  unfold ruleBodies
  repeat (first | exact good_ruleBody w _ | exact good_hashBody w _ | exact good_ruleBodiesLoop w _ _ _ | disc1)

theorem good_ruleName (n : Nat) (c : Option Char) : Good (ruleName w n c) := by
  unfold ruleName
  repeat (first | exact good_nonterminal w _ | exact good_frame w _ | disc1)

theorem good_rule (n : Nat) (c : Option Char) : Good (rule w n c) := by
  unfold rule
  repeat (first
    | exact good_ruleName w _ _ | exact good_comments w _ | exact good_eat _ | exact good_ruleBodies w _ | disc1)

theorem good_rulesLoop (m n : Nat) (g : List (String × Rule) × List (String × Rule)) : Good (rulesLoop w m n g) := by
  induction n generalizing g with
  | zero => exact Good.div
  | succ n ih =>
    unfold rulesLoop
    repeat (first
      | exact good_comments w _ | exact good_peek | exact good_rule w _ _ | exact ih _ | exact ih | disc1)

theorem good_directive (n : Nat) : Good (directive w n) := by
  unfold directive
  repeat (first
    | exact good_comments w _ | exact good_peek | exact good_ws w _ | exact good_text w _ | exact good_terminal w _ | disc1)

theorem good_grammarRules (n : Nat) (name : String) : Good (grammarRules w n name) := by
  unfold grammarRules
  refine Good.bind (good_rulesLoop w _ _ _) fun g => Good.bind Good.rd fun r => Good.ite (Good.fail _) ⟨fun _ => trivial⟩

end Fmr.Prog
