import Verif.Proofs.Lexer

/-!
# More fuel does not change a finished run of the parser
-/

namespace Fmr

/-- `y` agrees with `x` wherever `x` finishes -/
def P.le {α : Type} (x y : P α) : Prop := ∀ s, x s ≠ .div → y s = x s

section
variable {α β : Type}

theorem P.le.refl (x : P α) : P.le x x := fun _ _ => rfl

theorem P.le.div (y : P α) : P.le P.div y := fun s h => absurd rfl h

theorem P.le.bind {x x' : P α} {f f' : α → P β} (hx : P.le x x') (hf : ∀ a, P.le (f a) (f' a)) :
    P.le (x >>= f) (x' >>= f') := by
  intro s h
  rw [P.bind_run] at h ⊢
  rw [P.bind_run]
  have hne : x s ≠ .div := by
    intro e
    rw [e] at h
    exact h rfl
  rw [hx s hne]
  cases e : x s with
  | ok p =>
    rw [e] at h
    exact hf p.1 p.2 h
  | err => rfl
  | panic => rfl
  | div => exact absurd e hne

theorem P.le.ite {c : Prop} [Decidable c] {x x' y y' : P α} (hx : P.le x x') (hy : P.le y y') :
    P.le (if c then x else y) (if c then x' else y') := by
  split
  · exact hx
  · exact hy

end

section
variable (w : LexWorld) (inp : List Char) {n m n0 m0 : Nat}

theorem le_ws (h : n ≤ m) : P.le (ws w inp n) (ws w inp m) := by
  induction n generalizing m with
  | zero => exact P.le.div _
  | succ n ih =>
    cases m with
    | zero => omega
    | succ m =>
      unfold ws
      exact P.le.bind (P.le.refl _) fun _ => P.le.ite (ih (by omega)) (P.le.refl _)

theorem le_textLoop {first : Bool} (h : n ≤ m) : P.le (textLoop w inp n first) (textLoop w inp m first) := by
  induction n generalizing m first with
  | zero => exact P.le.div _
  | succ n ih =>
    cases m with
    | zero => omega
    | succ m =>
      unfold textLoop
      refine P.le.bind (P.le.refl _) fun r => ?_
      cases r with
      | none => exact P.le.refl _
      | some c => exact P.le.ite (P.le.bind (ih (by omega)) fun _ => P.le.refl _) (P.le.refl _)

theorem le_text (h : n ≤ m) : P.le (text w inp n) (text w inp m) := by
  unfold text
  exact P.le.bind (le_textLoop w inp h) fun _ => P.le.refl _

theorem le_token {b e : Char} (h : n ≤ m) : P.le (token w inp n b e) (token w inp m b e) := by
  unfold token
  exact P.le.bind (P.le.refl _) fun _ => P.le.bind (le_text w inp h) fun _ => P.le.refl _

theorem le_terminalText {esc : Bool} (h : n ≤ m) : P.le (terminalText inp n esc) (terminalText inp m esc) := by
  induction n generalizing m esc with
  | zero => exact P.le.div _
  | succ n ih =>
    cases m with
    | zero => omega
    | succ m =>
      unfold terminalText
      refine P.le.bind (P.le.refl _) fun r => ?_
      cases r with
      | none => exact P.le.refl _
      | some c =>
        refine P.le.ite (P.le.refl _) (P.le.ite ?_ (P.le.ite (ih (by omega)) ?_))
        · cases unescape c with
          | none => exact P.le.refl _
          | some x => exact P.le.bind (ih (by omega)) fun _ => P.le.refl _
        · exact P.le.bind (ih (by omega)) fun _ => P.le.refl _

theorem le_terminal (h : n ≤ m) : P.le (terminal w inp n) (terminal w inp m) := by
  unfold terminal terminalFlags
  refine P.le.bind (P.le.refl _) fun _ => P.le.bind (le_ws w inp h) fun _ => P.le.bind ?_ fun _ => ?_
  · refine P.le.bind (P.le.refl _) fun _ => P.le.ite ?_ (P.le.refl _)
    refine P.le.bind (P.le.refl _) fun _ => P.le.bind (le_ws w inp h) fun _ => P.le.bind (P.le.refl _) fun _ => ?_
    exact P.le.bind (le_ws w inp h) fun _ => P.le.bind (le_text w inp h) fun _ => P.le.refl _
  · exact P.le.bind (le_terminalText inp h) fun _ => P.le.refl _

theorem le_getInt (h : n ≤ m) : P.le (getInt w inp n) (getInt w inp m) := by
  have hl : ∀ {n m : Nat} {idx : Int}, n ≤ m → P.le (getIntLoop w inp n idx) (getIntLoop w inp m idx) := by
    intro n
    induction n with
    | zero => intro _ _ _; exact P.le.div _
    | succ n ih =>
      intro m idx h
      cases m with
      | zero => omega
      | succ m =>
        unfold getIntLoop
        refine P.le.bind (P.le.refl _) fun r => ?_
        cases r with
        | none => exact P.le.refl _
        | some c =>
          refine P.le.ite ?_ (P.le.refl _)
          cases parseDigit c with
          | none => exact P.le.refl _
          | some d => exact ih (by omega)
  unfold getInt
  exact P.le.bind (hl h) fun _ => P.le.refl _

theorem le_comment (h : n ≤ m) : P.le (comment inp n) (comment inp m) := by
  have hl : ∀ {n m : Nat}, n ≤ m → P.le (lineLoop inp n) (lineLoop inp m) := by
    intro n
    induction n with
    | zero => intro _ _; exact P.le.div _
    | succ n ih =>
      intro m h
      cases m with
      | zero => omega
      | succ m =>
        unfold lineLoop
        exact P.le.bind (P.le.refl _) fun r => P.le.ite (P.le.refl _) (ih (by omega))
  have hm : ∀ {n m : Nat} {star : Bool}, n ≤ m → P.le (multiLoop inp n star) (multiLoop inp m star) := by
    intro n
    induction n with
    | zero => intro _ _ _; exact P.le.div _
    | succ n ih =>
      intro m star h
      cases m with
      | zero => omega
      | succ m =>
        unfold multiLoop
        refine P.le.bind (P.le.refl _) fun r => ?_
        cases r with
        | none => exact P.le.refl _
        | some c => exact P.le.ite (P.le.refl _) (ih (by omega))
  unfold comment lineComment multiLineComment
  refine P.le.bind (P.le.refl _) fun _ => P.le.ite (P.le.refl _) (P.le.bind (P.le.refl _) fun _ => ?_)
  refine P.le.ite ?_ (P.le.ite ?_ (P.le.refl _))
  · exact P.le.bind (P.le.bind (P.le.refl _) fun _ => hl h) fun _ => P.le.refl _
  · exact P.le.bind (P.le.bind (P.le.refl _) fun _ => hm h) fun _ => P.le.refl _

theorem le_comments (h : n ≤ m) : P.le (comments w inp n) (comments w inp m) := by
  have hl : ∀ {a b : Nat}, a ≤ b → P.le (commentsLoop w inp n a) (commentsLoop w inp m b) := by
    intro a
    induction a with
    | zero => intro _ _; exact P.le.div _
    | succ a ih =>
      intro b hab
      cases b with
      | zero => omega
      | succ b =>
        unfold commentsLoop
        exact P.le.bind (le_ws w inp h) fun _ => P.le.bind (le_comment inp h) fun _ =>
          P.le.ite (ih (by omega)) (P.le.refl _)
  unfold comments
  exact P.le.bind (hl h) fun _ => le_ws w inp h

theorem le_specialMeta (h : n ≤ m) : P.le (specialMeta w inp n) (specialMeta w inp m) := by
  have hw := le_ws w inp h
  have hi := le_getInt w inp h
  unfold specialMeta
  refine P.le.bind hw fun _ => P.le.bind (P.le.refl _) fun _ => P.le.ite ?_ ?_
  · refine P.le.bind (P.le.refl _) fun _ => P.le.bind hw fun _ => P.le.bind hi fun _ => P.le.bind hw fun _ => ?_
    refine P.le.bind (P.le.refl _) fun _ => P.le.bind hw fun _ => P.le.bind hi fun _ => P.le.ite (P.le.refl _) ?_
    exact P.le.bind hw fun _ => P.le.bind (P.le.refl _) fun _ => P.le.bind hw fun _ => P.le.refl _
  · exact P.le.bind hw fun _ => P.le.refl _

theorem le_term (h : n ≤ m) : P.le (term w inp n) (term w inp m) := by
  have hw := le_ws w inp h
  have hr : ∀ {n m : Nat}, n ≤ m → P.le (regexLoop inp n) (regexLoop inp m) := by
    intro n
    induction n with
    | zero => intro _ _; exact P.le.div _
    | succ n ih =>
      intro m h
      cases m with
      | zero => omega
      | succ m =>
        unfold regexLoop
        refine P.le.bind (P.le.refl _) fun r => ?_
        cases r with
        | none => exact P.le.refl _
        | some c => exact P.le.ite (P.le.refl _) (P.le.bind (ih (by omega)) fun _ => P.le.refl _)
  unfold term special anyTerm listTerm nonterminal regex
  refine P.le.bind (P.le.refl _) fun _ => P.le.ite ?_ (P.le.ite ?_ (P.le.ite ?_ (P.le.ite ?_ (P.le.refl _))))
  · exact P.le.bind (le_token w inp h) fun _ => P.le.refl _
  · exact P.le.bind (le_terminal w inp h) fun _ => P.le.refl _
  · refine P.le.bind (P.le.refl _) fun _ => P.le.bind hw fun _ => P.le.bind (le_text w inp h) fun _ =>
      P.le.bind hw fun _ => P.le.ite ?_ (P.le.ite ?_ (P.le.refl _))
    · exact P.le.bind (le_specialMeta w inp h) fun _ => P.le.refl _
    · exact P.le.bind (le_token w inp h) fun _ => P.le.bind (le_specialMeta w inp h) fun _ => P.le.refl _
  · exact P.le.bind (P.le.refl _) fun _ => P.le.bind hw fun _ => P.le.bind (hr h) fun _ => P.le.refl _

theorem le_funcName (h : n ≤ m) : P.le (funcName w inp n) (funcName w inp m) := by
  have hl : ∀ {n m : Nat} {first dot : Bool}, n ≤ m →
      P.le (funcNameLoop w inp n first dot) (funcNameLoop w inp m first dot) := by
    intro n
    induction n with
    | zero => intro _ _ _ _; exact P.le.div _
    | succ n ih =>
      intro m first dot h
      cases m with
      | zero => omega
      | succ m =>
        unfold funcNameLoop
        refine P.le.bind (P.le.refl _) fun r => ?_
        cases r with
        | none => exact P.le.refl _
        | some c => exact P.le.ite (P.le.bind (ih (by omega)) fun _ => P.le.refl _) (P.le.refl _)
  unfold funcName
  exact P.le.bind (hl h) fun _ => P.le.ite (P.le.refl _) (P.le.bind (le_ws w inp h) fun _ => P.le.refl _)

theorem le_numArg {neg : Bool} (h : n ≤ m) : P.le (numArg w inp n neg) (numArg w inp m neg) := by
  have hl : ∀ {n m : Nat} {hasDot : Bool}, n ≤ m →
      P.le (numLoop w inp n hasDot) (numLoop w inp m hasDot) := by
    intro n
    induction n with
    | zero => intro _ _ _; exact P.le.div _
    | succ n ih =>
      intro m hasDot h
      cases m with
      | zero => omega
      | succ m =>
        unfold numLoop
        refine P.le.bind (P.le.refl _) fun r => ?_
        cases r with
        | none => exact P.le.refl _
        | some c =>
          exact P.le.ite (P.le.bind (ih (by omega)) fun _ => P.le.refl _) (P.le.ite (P.le.ite (P.le.refl _)
            (P.le.bind (ih (by omega)) fun _ => P.le.refl _)) (P.le.refl _))
  unfold numArg
  exact P.le.bind (hl h) fun _ => P.le.refl _

theorem le_sem_args (h0 : n0 ≤ m0) (n : Nat) : ∀ m, n ≤ m →
    P.le (semanticFn w inp n0 n) (semanticFn w inp m0 m) ∧
    P.le (funcArgsLoop w inp n0 n) (funcArgsLoop w inp m0 m) := by
  have hws := le_ws w inp h0
  induction n with
  | zero => exact fun m _ => ⟨by unfold semanticFn; exact P.le.div _, by unfold funcArgsLoop; exact P.le.div _⟩
  | succ n ih =>
    intro m h
    cases m with
    | zero => omega
    | succ m =>
      obtain ⟨ih1, ih2⟩ := ih m (by omega)
      refine ⟨?_, ?_⟩
      · unfold semanticFn
        exact P.le.bind hws fun _ => P.le.bind (le_funcName w inp h0) fun _ => P.le.bind (P.le.refl _) fun _ =>
          P.le.bind ih2 fun _ => P.le.bind hws fun _ => P.le.refl _
      · unfold funcArgsLoop
        refine P.le.bind hws fun _ => P.le.bind (P.le.refl _) fun _ => P.le.bind ?_ fun _ => P.le.ite ?_ ?_
        · unfold funcArg contextArg idxArg strArg
          refine P.le.ite (P.le.refl _) (P.le.ite ?_ (P.le.ite ?_ (P.le.ite (le_numArg w inp h0) (P.le.ite ?_ ?_))))
          · exact P.le.bind (P.le.refl _) fun _ => P.le.bind (le_getInt w inp h0) fun _ => P.le.refl _
          · exact P.le.bind (le_terminal w inp h0) fun _ => P.le.refl _
          · exact P.le.bind (P.le.refl _) fun _ => le_numArg w inp h0
          · exact P.le.bind ih1 fun _ => P.le.refl _
        · exact P.le.bind ih2 fun _ => P.le.refl _
        · refine P.le.bind hws fun _ => P.le.bind (P.le.refl _) fun _ => P.le.ite ?_ (P.le.refl _)
          exact P.le.bind ih2 fun _ => P.le.refl _

theorem le_ruleBody (h : n ≤ m) : P.le (ruleBody w inp n) (ruleBody w inp m) := by
  have hc := le_comments w inp h
  have ht := le_term w inp h
  have hl : ∀ {a b : Nat}, a ≤ b → P.le (ruleBodyLoop w inp n a) (ruleBodyLoop w inp m b) := by
    intro a
    induction a with
    | zero => intro _ _; exact P.le.div _
    | succ a ih =>
      intro b hab
      cases b with
      | zero => omega
      | succ b =>
        unfold ruleBodyLoop
        refine P.le.bind hc fun _ => P.le.bind (P.le.refl _) fun _ => P.le.ite ?_ (P.le.refl _)
        exact P.le.bind ht fun _ => P.le.bind hc fun _ => P.le.bind (ih (by omega)) fun _ => P.le.refl _
  unfold ruleBody ruleBodyFn
  refine P.le.bind ht fun _ => P.le.bind hc fun _ => P.le.bind (hl h) fun _ => P.le.bind ?_ fun _ => P.le.refl _
  refine P.le.bind (P.le.refl _) fun _ => P.le.ite ?_ (P.le.refl _)
  exact P.le.bind (P.le.refl _) fun _ => P.le.bind (le_sem_args w inp h n m h).1 fun _ =>
    P.le.bind (P.le.refl _) fun _ => P.le.bind hc fun _ => P.le.refl _

theorem le_rule {c : Option Char} (h : n ≤ m) : P.le (rule w inp n c) (rule w inp m c) := by
  have hc := le_comments w inp h
  have hl : ∀ {a b : Nat} {r : List (Nat × RuleBody)}, a ≤ b →
      P.le (ruleBodiesLoop w inp n a r) (ruleBodiesLoop w inp m b r) := by
    intro a
    induction a with
    | zero => intro _ _ _; exact P.le.div _
    | succ a ih =>
      intro b r hab
      cases b with
      | zero => omega
      | succ b =>
        unfold ruleBodiesLoop
        refine P.le.bind (P.le.refl _) fun _ => P.le.ite (P.le.refl _) ?_
        exact P.le.bind (P.le.refl _) fun _ => P.le.bind hc fun _ => P.le.bind (le_ruleBody w inp h) fun _ =>
          P.le.bind (P.le.refl _) fun _ => ih (by omega)
  unfold rule ruleName ruleBodies nonterminal frame
  refine P.le.bind ?_ fun _ => P.le.bind hc fun _ => P.le.bind (P.le.refl _) fun _ => P.le.bind hc fun _ =>
    P.le.bind ?_ fun _ => P.le.refl _
  · exact P.le.ite (le_token w inp h) (P.le.ite (le_token w inp h) (P.le.refl _))
  · exact P.le.bind (le_ruleBody w inp h) fun _ => P.le.bind (P.le.refl _) fun _ => hl h

theorem le_grammarRules {name : String} (h : n ≤ m) :
    P.le (grammarRules w inp n name) (grammarRules w inp m name) := by
  have hl : ∀ {a b : Nat} {g : List (String × Rule) × List (String × Rule)}, a ≤ b →
      P.le (rulesLoop w inp n a g) (rulesLoop w inp m b g) := by
    intro a
    induction a with
    | zero => intro _ _ _; exact P.le.div _
    | succ a ih =>
      intro b g hab
      cases b with
      | zero => omega
      | succ b =>
        unfold rulesLoop
        refine P.le.bind (le_comments w inp h) fun _ => P.le.bind (P.le.refl _) fun _ => P.le.ite ?_ (P.le.refl _)
        exact P.le.bind (le_rule w inp h) fun _ => ih (by omega)
  unfold grammarRules
  exact P.le.bind (hl h) fun _ => P.le.refl _

theorem le_directive (h : n ≤ m) : P.le (directive w inp n) (directive w inp m) := by
  have hws := le_ws w inp h
  unfold directive
  refine P.le.bind (le_comments w inp h) fun _ => P.le.bind (P.le.refl _) fun _ => P.le.ite (P.le.refl _) ?_
  refine P.le.bind (P.le.refl _) fun _ => P.le.bind hws fun _ => P.le.bind (le_text w inp h) fun _ => ?_
  exact P.le.ite (P.le.refl _) (P.le.bind hws fun _ => P.le.bind (le_terminal w inp h) fun _ => P.le.refl _)

end

end Fmr
