import Verif.Model.Bytes

/-!
# The programs of `Model/Bytes.lean` on runes are the functions of `Model/Lexer.lean`
-/

namespace Fmr.Prog

variable {α β : Type} (w : LexWorld) (inp : List Char)

theorem P.bind_assoc {α β γ : Type} (x : P α) (f : α → P β) (g : β → P γ) :
    ((x >>= f) >>= g) = (x >>= fun a => f a >>= g) := by
  funext s
  show P.bind (P.bind x f) g s = P.bind x (fun a => P.bind (f a) g) s
  unfold P.bind
  cases x s <;> rfl

theorem P.pure_bind {α β : Type} (a : α) (f : α → P β) : ((pure a : P α) >>= f) = f a := rfl
theorem P.fail_bind {α β : Type} (f : α → P β) : ((P.fail : P α) >>= f) = P.fail := rfl
theorem P.div_bind {α β : Type} (f : α → P β) : ((P.div : P α) >>= f) = P.div := rfl

theorem run_bind (x : Prog α) (f : α → Prog β) : (x >>= f).run inp = (x.run inp >>= fun a => (f a).run inp) := by
  show (Prog.bind x f).run inp = _
  induction x with
  | ret a => rfl
  | next k ih => simp only [Prog.bind, run, ih, P.bind_assoc]
  | backup k ih => simp only [Prog.bind, run, ih, P.bind_assoc]
  | put h s k ih => simp only [Prog.bind, run, ih, P.bind_assoc]
  | get k ih =>
    funext s
    simp only [Prog.bind, run, ih]
    rfl
  | fail b => rfl
  | div => rfl

theorem run_pure (a : α) : (pure a : Prog α).run inp = pure a := rfl
theorem run_rd : rd.run inp = Fmr.next inp := by
  funext s
  show P.bind (Fmr.next inp) _ s = _
  unfold P.bind
  cases Fmr.next inp s <;> rfl
theorem run_un : un.run inp = Fmr.backup := rfl
theorem run_fail (b : Bool) : (fail b : Prog α).run inp = P.fail := rfl
theorem run_div : (div : Prog α).run inp = P.div := rfl

theorem run_ite {c : Prop} [Decidable c] (x y : Prog α) :
    (if c then x else y).run inp = if c then x.run inp else y.run inp := by split <;> rfl

theorem run_eat (c : Char) : (eat c).run inp = Fmr.eat inp c := by
  simp only [eat, Fmr.eat, run_bind, run_rd, run_ite, run_fail, run_pure]

theorem run_peek : peek.run inp = Fmr.peek inp := by
  simp only [peek, Fmr.peek, run_bind, run_rd, run_un, run_pure]

theorem run_ws (n : Nat) : (ws w n).run inp = Fmr.ws w inp n := by
  induction n with
  | zero => rfl
  | succ n ih => simp only [ws, Fmr.ws, run_bind, run_rd, run_ite, run_un, ih]

theorem run_textLoop (n : Nat) (b : Bool) : (textLoop w n b).run inp = Fmr.textLoop w inp n b := by
  induction n generalizing b with
  | zero => rfl
  | succ n ih =>
    simp only [textLoop, Fmr.textLoop, run_bind, run_rd]
    refine congrArg _ (funext fun r => ?_)
    cases r <;> simp only [run_bind, run_ite, run_un, run_pure, ih]

theorem run_text (n : Nat) : (text w n).run inp = Fmr.text w inp n := by
  simp only [text, Fmr.text, run_bind, run_textLoop, run_ite, run_fail, run_pure]

theorem run_token (n : Nat) (b e : Char) : (token w n b e).run inp = Fmr.token w inp n b e := by
  simp only [token, Fmr.token, run_bind, run_eat, run_text, run_pure]

theorem run_nonterminal (n : Nat) : (nonterminal w n).run inp = Fmr.nonterminal w inp n := run_token w inp n _ _
theorem run_frame (n : Nat) : (frame w n).run inp = Fmr.frame w inp n := run_token w inp n _ _

theorem run_terminalText (n : Nat) (b : Bool) : (terminalText n b).run inp = Fmr.terminalText inp n b := by
  induction n generalizing b with
  | zero => rfl
  | succ n ih =>
    simp only [terminalText, Fmr.terminalText, run_bind, run_rd]
    refine congrArg _ (funext fun r => ?_)
    cases r with
    | none => rfl
    | some ch =>
      simp only [run_bind, run_ite, run_un, run_pure, ih]
      cases unescape ch <;> simp only [run_bind, run_pure, run_fail, ih]

theorem run_terminalFlags (n : Nat) : (terminalFlags w n).run inp = Fmr.terminalFlags w inp n := by
  simp only [terminalFlags, Fmr.terminalFlags, run_bind, run_peek, run_ite, run_rd, run_ws, run_eat, run_text, run_pure]

theorem run_terminal (n : Nat) : (terminal w n).run inp = Fmr.terminal w inp n := by
  simp only [terminal, Fmr.terminal, run_bind, run_ws, run_eat, run_terminalFlags, run_terminalText, run_pure]

theorem run_getIntLoop (n : Nat) (i : Int) : (getIntLoop w n i).run inp = Fmr.getIntLoop w inp n i := by
  induction n generalizing i with
  | zero => rfl
  | succ n ih =>
    simp only [getIntLoop, Fmr.getIntLoop, run_bind, run_rd]
    refine congrArg _ (funext fun r => ?_)
    cases r with
    | none => rfl
    | some ch =>
      simp only [run_ite, run_pure]
      cases parseDigit ch <;> simp only [run_fail, ih]

theorem run_getInt (n : Nat) : (getInt w n).run inp = Fmr.getInt w inp n := by
  simp only [getInt, Fmr.getInt, run_bind, run_getIntLoop, run_ite, run_fail, run_un, run_pure]

theorem run_lineLoop (n : Nat) : (lineLoop n).run inp = Fmr.lineLoop inp n := by
  induction n with
  | zero => rfl
  | succ n ih => simp only [lineLoop, Fmr.lineLoop, run_bind, run_rd, run_ite, run_pure, ih]

theorem run_lineComment (n : Nat) : (lineComment n).run inp = Fmr.lineComment inp n := by
  simp only [lineComment, Fmr.lineComment, run_bind, run_eat, run_lineLoop]

theorem run_multiLoop (n : Nat) (b : Bool) : (multiLoop n b).run inp = Fmr.multiLoop inp n b := by
  induction n generalizing b with
  | zero => rfl
  | succ n ih =>
    simp only [multiLoop, Fmr.multiLoop, run_bind, run_rd]
    refine congrArg _ (funext fun r => ?_)
    cases r <;> simp only [run_ite, run_pure, run_fail, ih]

theorem run_multiLineComment (n : Nat) : (multiLineComment n).run inp = Fmr.multiLineComment inp n := by
  simp only [multiLineComment, Fmr.multiLineComment, run_bind, run_eat, run_multiLoop]

theorem run_comment (n : Nat) : (comment n).run inp = Fmr.comment inp n := by
  simp only [comment, Fmr.comment, run_bind, run_rd, run_ite, run_un, run_pure, run_peek, run_lineComment,
    run_multiLineComment, run_fail]

theorem run_commentsLoop (m n : Nat) : (commentsLoop w m n).run inp = Fmr.commentsLoop w inp m n := by
  induction n with
  | zero => rfl
  | succ n ih =>
    simp only [commentsLoop, Fmr.commentsLoop, run_bind, run_ws, run_comment, run_ite, run_pure, ih]

theorem run_comments (n : Nat) : (comments w n).run inp = Fmr.comments w inp n := by
  simp only [comments, Fmr.comments, run_bind, run_ws, run_commentsLoop]

theorem run_specialMeta (n : Nat) : (specialMeta w n).run inp = Fmr.specialMeta w inp n := by
  simp only [specialMeta, Fmr.specialMeta, run_bind, run_ws, run_peek, run_ite, run_rd, run_getInt, run_eat,
    run_fail, run_pure]

theorem run_listTerm (n : Nat) : (listTerm w n).run inp = Fmr.listTerm w inp n := by
  simp only [listTerm, Fmr.listTerm, run_bind, run_nonterminal, run_specialMeta, run_eat, run_pure]

theorem run_anyTerm (n : Nat) : (anyTerm w n).run inp = Fmr.anyTerm w inp n := by
  simp only [anyTerm, Fmr.anyTerm, run_bind, run_specialMeta, run_eat, run_pure]

theorem run_special (n : Nat) : (special w n).run inp = Fmr.special w inp n := by
  simp only [special, Fmr.special, run_bind, run_ws, run_text, run_eat, run_ite, run_anyTerm, run_listTerm, run_fail]

theorem run_regexLoop (n : Nat) : (regexLoop n).run inp = Fmr.regexLoop inp n := by
  induction n with
  | zero => rfl
  | succ n ih =>
    simp only [regexLoop, Fmr.regexLoop, run_bind, run_rd]
    refine congrArg _ (funext fun r => ?_)
    cases r <;> simp only [run_ite, run_bind, run_pure, run_fail, ih]

theorem run_put (h s : String) : (put h s (ret ())).run inp = putRegexp h s := rfl

theorem run_regex (n : Nat) : (regex w n).run inp = Fmr.regex w inp n := by
  simp only [regex, Fmr.regex, run_bind, run_eat, run_ws, run_regexLoop, run_ite, run_fail, run_put, run_pure]

theorem run_term (n : Nat) : (term w n).run inp = Fmr.term w inp n := by
  simp only [term, Fmr.term, run_bind, run_peek, run_ite, run_nonterminal, run_terminal, run_special, run_regex,
    run_fail, run_pure]

theorem run_funcNameLoop (n : Nat) (b d : Bool) : (funcNameLoop w n b d).run inp = Fmr.funcNameLoop w inp n b d := by
  induction n generalizing b d with
  | zero => rfl
  | succ n ih =>
    simp only [funcNameLoop, Fmr.funcNameLoop, run_bind, run_rd]
    refine congrArg _ (funext fun r => ?_)
    cases r <;> simp only [run_ite, run_bind, run_un, run_pure, ih]

theorem run_funcName (n : Nat) : (funcName w n).run inp = Fmr.funcName w inp n := by
  simp only [funcName, Fmr.funcName, run_bind, run_funcNameLoop, run_ite, run_fail, run_ws, run_pure]

theorem run_contextArg : contextArg.run inp = Fmr.contextArg inp := by
  simp only [contextArg, Fmr.contextArg, run_bind, run_eat, run_pure]

theorem run_idxArg (n : Nat) : (idxArg w n).run inp = Fmr.idxArg w inp n := by
  simp only [idxArg, Fmr.idxArg, run_bind, run_eat, run_getInt, run_pure]

theorem run_strArg (n : Nat) : (strArg w n).run inp = Fmr.strArg w inp n := by
  simp only [strArg, Fmr.strArg, run_bind, run_terminal, run_pure]

theorem run_numLoop (n : Nat) (b : Bool) : (numLoop w n b).run inp = Fmr.numLoop w inp n b := by
  induction n generalizing b with
  | zero => rfl
  | succ n ih =>
    simp only [numLoop, Fmr.numLoop, run_bind, run_rd]
    refine congrArg _ (funext fun r => ?_)
    cases r <;> simp only [run_ite, run_bind, run_fail, run_pure, ih]

theorem run_numArg (n : Nat) (b : Bool) : (numArg w n b).run inp = Fmr.numArg w inp n b := by
  simp only [numArg, Fmr.numArg, run_bind, run_numLoop]
  refine congrArg _ (funext fun x => ?_)
  simp only [run_ite, run_bind, run_fail, run_un]
  split
  · rfl
  · refine congrArg _ (funext fun _ => ?_)
    split
    · cases w.scanFloat _ <;> rfl
    · cases w.scanInt _ <;> rfl

theorem run_funcArg (n : Nat) {x : Prog FMR} {y : P FMR} (h : x.run inp = y) (r : Option Char) :
    (funcArg w n x r).run inp = Fmr.funcArg w inp n y r := by
  simp only [funcArg, Fmr.funcArg, run_ite, run_contextArg, run_idxArg, run_strArg, run_numArg, run_bind, run_eat,
    run_pure, h]

theorem run_sem (m n : Nat) : (semanticFn w m n).run inp = Fmr.semanticFn w inp m n ∧
    (funcArgsLoop w m n).run inp = Fmr.funcArgsLoop w inp m n := by
  induction n with
  | zero => exact ⟨by rw [semanticFn, Fmr.semanticFn]; rfl, by rw [funcArgsLoop, Fmr.funcArgsLoop]; rfl⟩
  | succ n ih =>
    refine ⟨?_, ?_⟩
    · rw [semanticFn, Fmr.semanticFn]
      simp only [run_bind, run_ws, run_funcName, run_eat, ih.2, run_pure]
    · rw [funcArgsLoop, Fmr.funcArgsLoop]
      simp only [run_bind, run_ws, run_peek, run_funcArg w inp m ih.1, run_ite, run_rd, ih.2, run_pure, run_fail]

theorem run_ruleBodyLoop (m n : Nat) : (ruleBodyLoop w m n).run inp = Fmr.ruleBodyLoop w inp m n := by
  induction n with
  | zero => rfl
  | succ n ih =>
    simp only [ruleBodyLoop, Fmr.ruleBodyLoop, run_bind, run_comments, run_peek, run_ite, run_term, run_pure, ih]

theorem run_ruleBodyFn (n : Nat) : (ruleBodyFn w n).run inp = Fmr.ruleBodyFn w inp n := by
  simp only [ruleBodyFn, Fmr.ruleBodyFn, run_bind, run_peek, run_ite, run_rd, (run_sem w inp n n).1, run_eat,
    run_comments, run_pure]

theorem run_ruleBody (n : Nat) : (ruleBody w n).run inp = Fmr.ruleBody w inp n := by
  simp only [ruleBody, Fmr.ruleBody, run_bind, run_term, run_comments, run_ruleBodyLoop, run_ruleBodyFn, run_pure]

theorem run_hashBody (r : RuleBody) : (hashBody w r).run inp = Fmr.hashBody w r := by
  unfold hashBody Fmr.hashBody
  cases w.hash r <;> rfl

theorem run_ruleBodiesLoop (m n : Nat) (l : List (Nat × RuleBody)) :
    (ruleBodiesLoop w m n l).run inp = Fmr.ruleBodiesLoop w inp m n l := by
  induction n generalizing l with
  | zero => rfl
  | succ n ih =>
    simp only [ruleBodiesLoop, Fmr.ruleBodiesLoop, run_bind, run_peek, run_ite, run_rd, run_comments, run_ruleBody,
      run_hashBody, run_pure, ih]

theorem run_ruleBodies (n : Nat) : (ruleBodies w n).run inp = Fmr.ruleBodies w inp n := by
  simp only [ruleBodies, Fmr.ruleBodies, run_bind, run_ruleBody, run_hashBody, run_ruleBodiesLoop]

theorem run_ruleName (n : Nat) (c : Option Char) : (ruleName w n c).run inp = Fmr.ruleName w inp n c := by
  simp only [ruleName, Fmr.ruleName, run_ite, run_nonterminal, run_frame, run_fail]

theorem run_rule (n : Nat) (c : Option Char) : (rule w n c).run inp = Fmr.rule w inp n c := by
  simp only [rule, Fmr.rule, run_bind, run_ruleName, run_comments, run_eat, run_ruleBodies, run_pure]

theorem run_rulesLoop (m n : Nat) (g : List (String × Rule) × List (String × Rule)) :
    (rulesLoop w m n g).run inp = Fmr.rulesLoop w inp m n g := by
  induction n generalizing g with
  | zero => rfl
  | succ n ih =>
    simp only [rulesLoop, Fmr.rulesLoop, run_bind, run_comments, run_peek, run_ite, run_rule, run_pure, ih]

theorem run_directive (n : Nat) : (directive w n).run inp = Fmr.directive w inp n := by
  simp only [directive, Fmr.directive, run_bind, run_comments, run_peek, run_ite, run_rd, run_ws, run_text,
    run_terminal, run_fail, run_pure]

theorem run_grammarRules (n : Nat) (name : String) :
    (grammarRules w n name).run inp = Fmr.grammarRules w inp n name := by
  simp only [grammarRules, Fmr.grammarRules, run_bind, run_rulesLoop, run_rd, run_ite, run_fail]
  rfl

end Fmr.Prog
