import Verif.Proofs.Lexer
import Verif.Proofs.Maps
import Verif.Spec.Loaded

/-!
# What the parser returns is well-formed, for every input
-/

namespace Fmr

/-- the table of regexps -/
def RegWF (w : LexWorld) (ρ : List (String × String)) : Prop :=
  KeysNodup ρ ∧ ∀ e ∈ ρ, e.1 = w.md5 e.2 ∧ e.2 ≠ "" ∧ w.regexpOK e.2 = true

/-- entries of the table `a` have their keys in `b` -/
def KeysIn (a b : List (String × String)) : Prop := ∀ e ∈ a, (b.lookup e.1).isSome

theorem KeysIn.refl (a : List (String × String)) : KeysIn a a := by
  intro e he
  rw [lookup_isSome_iff]
  exact List.mem_map_of_mem he

theorem KeysIn.trans {a b c : List (String × String)} (h1 : KeysIn a b) (h2 : KeysIn b c) : KeysIn a c := by
  intro e he
  obtain ⟨v, hv⟩ := Option.isSome_iff_exists.mp (h1 e he)
  exact h2 (e.1, v) (mem_of_lookup hv)

theorem KeysIn.mapSet (a : List (String × String)) (k v : String) : KeysIn a (mapSet a k v) := by
  intro e he
  rw [lookup_mapSet]
  split
  · rfl
  · exact KeysIn.refl a e he

/-- the table of regexps stays well-formed and keeps its keys -/
structure RegStep (w : LexWorld) (ρ ρ' : List (String × String)) : Prop where
  wf : RegWF w ρ'
  keys : KeysIn ρ ρ'

theorem RegStep.refl {w : LexWorld} {ρ : List (String × String)} (h : RegWF w ρ) : RegStep w ρ ρ := ⟨h, .refl _⟩

/-- results of `x` satisfy `Q`; the table of regexps stays well-formed and keeps its keys -/
def Post (w : LexWorld) {α : Type} (x : P α) (Q : α → Prop) : Prop :=
  ∀ s a s', RegWF w s.regexps → x s = .ok (a, s') → RegStep w s.regexps s'.regexps ∧ Q a

section
variable {w : LexWorld} {α β : Type} {inp : List Char}

theorem Post.bind {x : P α} {f : α → P β} {Q : α → Prop} {R : β → Prop} (h1 : Post w x Q)
    (h2 : ∀ a, Q a → Post w (f a) R) : Post w (x >>= f) R := by
  intro s b s' hs e
  obtain ⟨a, s1, e1, e2⟩ := P.bind_eq_ok.mp e
  obtain ⟨r1, r2⟩ := h1 s a s1 hs e1
  obtain ⟨r3, r4⟩ := h2 a r2 s1 b s' r1.wf e2
  exact ⟨⟨r3.wf, r1.keys.trans r3.keys⟩, r4⟩

theorem Post.pure {a : α} {Q : α → Prop} (h : Q a) : Post w (pure a : P α) Q := by
  intro s b s' hs e
  cases e
  exact ⟨.refl hs, h⟩

theorem Post.fail {Q : α → Prop} : Post w (P.fail : P α) Q := by
  intro s b s' hs e
  cases e

theorem Post.div {Q : α → Prop} : Post w (P.div : P α) Q := by
  intro s b s' hs e
  cases e

theorem Post.ite {c : Prop} [Decidable c] {x y : P α} {Q : α → Prop} (h1 : c → Post w x Q)
    (h2 : ¬ c → Post w y Q) : Post w (if c then x else y) Q := by
  split
  · exact h1 ‹_›
  · exact h2 ‹_›

theorem Post.mono {x : P α} {Q R : α → Prop} (h : Post w x Q) (hq : ∀ a, Q a → R a) : Post w x R :=
  fun s a s' hs e => ⟨(h s a s' hs e).1, hq a (h s a s' hs e).2⟩

theorem Post.top {x : P α} {Q : α → Prop} (h : Post w x Q) : Post w x (fun _ => True) := h.mono fun _ _ => trivial

theorem post_next : Post w (next inp) (fun _ => True) := by
  intro s a s' hs e
  unfold next at e
  split at e
  · cases e; exact ⟨.refl hs, trivial⟩
  · split at e <;> · cases e; exact ⟨.refl hs, trivial⟩

theorem post_backup : Post w backup (fun _ => True) := by
  intro s a s' hs e
  cases e
  exact ⟨.refl hs, trivial⟩

theorem post_eat {c : Char} : Post w (eat inp c) (fun _ => True) := by
  unfold eat
  exact post_next.bind fun _ _ => Post.ite (fun _ => Post.fail) fun _ => Post.pure trivial

theorem post_peek : Post w (peek inp) (fun _ => True) := by
  unfold peek
  exact post_next.bind fun _ _ => post_backup.bind fun _ _ => Post.pure trivial

theorem post_ws {n : Nat} : Post w (ws w inp n) (fun _ => True) := by
  induction n with
  | zero => exact Post.div
  | succ n ih =>
    unfold ws
    exact post_next.bind fun _ _ => Post.ite (fun _ => ih) fun _ => post_backup

theorem post_textLoop {n : Nat} {first : Bool} : Post w (textLoop w inp n first) (fun l =>
    (∀ d ∈ l, w.isLetter d = true ∨ d = '_' ∨ w.isDigit d = true) ∧
    (first = true → ∀ c, l.head? = some c → w.isLetter c = true ∨ c = '_')) := by
  induction n generalizing first with
  | zero => exact Post.div
  | succ n ih =>
    unfold textLoop
    refine post_next.bind fun r _ => ?_
    cases r with
    | none => exact post_backup.bind fun _ _ => Post.pure (by simp)
    | some c =>
      refine Post.ite (fun hc => ?_) fun _ => post_backup.bind fun _ _ => Post.pure (by simp)
      refine ih.bind fun l hl => Post.pure ⟨fun d hd => ?_, ?_⟩
      · rcases List.mem_cons.mp hd with rfl | hd
        · rcases hc with h | h | h
          · exact .inl h
          · exact .inr (.inl h)
          · exact .inr (.inr h.1)
        · exact hl.1 d hd
      · rintro rfl c' e
        cases e
        rcases hc with h | h | h
        · exact .inl h
        · exact .inr h
        · cases h.2

theorem post_text {n : Nat} : Post w (text w inp n) (fun s => ∃ x, s = String.ofList x ∧ Ident w x) := by
  unfold text
  refine post_textLoop.bind fun l hl => Post.ite (fun _ => Post.fail) fun hne => Post.pure ⟨l, rfl, ?_⟩
  cases l with
  | nil => exact absurd rfl hne
  | cons c l => exact .mk (hl.2 rfl c rfl) fun d hd => hl.1 d (List.mem_cons_of_mem _ hd)

theorem post_token {n : Nat} {b e : Char} :
    Post w (token w inp n b e) (fun s => ∃ x, s = String.ofList x ∧ Ident w x) := by
  unfold token
  exact post_eat.bind fun _ _ => post_text.bind fun _ h => post_eat.bind fun _ _ => Post.pure h

theorem post_terminalText {n : Nat} {esc : Bool} : Post w (terminalText inp n esc) (fun _ => True) := by
  induction n generalizing esc with
  | zero => exact Post.div
  | succ n ih =>
    unfold terminalText
    refine post_next.bind fun r _ => ?_
    cases r with
    | none => exact Post.fail
    | some c =>
      refine Post.ite (fun _ => post_backup.bind fun _ _ => Post.pure trivial) fun _ => Post.ite (fun _ => ?_) fun _ =>
        Post.ite (fun _ => ih) fun _ => ih.bind fun _ _ => Post.pure trivial
      split
      · exact Post.fail
      · exact ih.bind fun _ _ => Post.pure trivial

theorem post_terminal {n : Nat} : Post w (terminal w inp n)
    (fun p => p.1 = "" ∨ ∃ x, p.1 = String.ofList x ∧ Ident w x) := by
  unfold terminal
  refine post_eat.bind fun _ _ => post_ws.bind fun _ _ => ?_
  have hf : Post w (terminalFlags w inp n) (fun f => f = "" ∨ ∃ x, f = String.ofList x ∧ Ident w x) := by
    unfold terminalFlags
    refine post_peek.bind fun _ _ => Post.ite (fun _ => ?_) fun _ => Post.pure (.inl rfl)
    refine post_next.bind fun _ _ => post_ws.bind fun _ _ => post_eat.bind fun _ _ => post_ws.bind fun _ _ => ?_
    exact post_text.bind fun _ h => post_eat.bind fun _ _ => Post.pure (.inr h)
  exact hf.bind fun _ h => post_terminalText.bind fun _ _ => post_eat.bind fun _ _ => Post.pure h

theorem post_getInt {n : Nat} : Post w (getInt w inp n) (fun _ => True) := by
  have hl : ∀ (n : Nat) (idx : Int), Post w (getIntLoop w inp n idx) (fun _ => True) := by
    intro n
    induction n with
    | zero => exact fun _ => Post.div
    | succ n ih =>
      intro idx
      unfold getIntLoop
      refine post_next.bind fun r _ => ?_
      cases r with
      | none => exact Post.pure trivial
      | some c =>
        refine Post.ite (fun _ => ?_) fun _ => Post.pure trivial
        cases parseDigit c with
        | none => exact Post.fail
        | some d => exact ih _
  unfold getInt
  exact (hl _ _).bind fun _ _ => Post.ite (fun _ => Post.fail) fun _ => post_backup.bind fun _ _ => Post.pure trivial

theorem post_comments {n : Nat} : Post w (comments w inp n) (fun _ => True) := by
  have h1 : ∀ n, Post w (lineLoop inp n) (fun _ => True) := by
    intro n
    induction n with
    | zero => exact Post.div
    | succ n ih =>
      unfold lineLoop
      exact post_next.bind fun _ _ => Post.ite (fun _ => Post.pure trivial) fun _ => ih
  have h2 : ∀ n star, Post w (multiLoop inp n star) (fun _ => True) := by
    intro n
    induction n with
    | zero => exact fun _ => Post.div
    | succ n ih =>
      intro star
      unfold multiLoop
      refine post_next.bind fun r _ => ?_
      cases r with
      | none => exact Post.fail
      | some c => exact Post.ite (fun _ => Post.pure trivial) fun _ => ih _
  have h3 : ∀ n, Post w (comment inp n) (fun _ => True) := by
    intro n
    unfold comment lineComment multiLineComment
    refine post_next.bind fun _ _ => Post.ite (fun _ => post_backup.bind fun _ _ => Post.pure trivial) fun _ => ?_
    refine post_peek.bind fun _ _ => Post.ite (fun _ => ?_) fun _ => Post.ite (fun _ => ?_) fun _ => Post.fail
    · exact (post_eat.bind fun _ _ => h1 n).bind fun _ _ => Post.pure trivial
    · exact (post_eat.bind fun _ _ => h2 n false).bind fun _ _ => Post.pure trivial
  have h4 : ∀ n0 n, Post w (commentsLoop w inp n0 n) (fun _ => True) := by
    intro n0 n
    induction n with
    | zero => exact Post.div
    | succ n ih =>
      unfold commentsLoop
      exact post_ws.bind fun _ _ => (h3 n0).bind fun _ _ => Post.ite (fun _ => ih) fun _ => Post.pure trivial
  unfold comments
  exact (h4 n n).bind fun _ _ => post_ws

theorem post_specialMeta {n : Nat} : Post w (specialMeta w inp n) (fun m => RangeWF (rangeMeta m)) := by
  unfold specialMeta
  refine post_ws.bind fun _ _ => post_peek.bind fun _ _ => Post.ite (fun _ => ?_) fun _ =>
    post_ws.bind fun _ _ => Post.pure .none
  refine post_next.bind fun _ _ => post_ws.bind fun _ _ => post_getInt.bind fun a _ => post_ws.bind fun _ _ =>
    post_eat.bind fun _ _ => post_ws.bind fun _ _ => post_getInt.bind fun b _ => Post.ite (fun _ => Post.fail) fun h => ?_
  exact post_ws.bind fun _ _ => post_eat.bind fun _ _ => post_ws.bind fun _ _ => Post.pure (.some (by omega))

theorem post_putRegexp {s : String} (h1 : s ≠ "") (h2 : w.regexpOK s = true) :
    Post w (putRegexp (w.md5 s) s) (fun _ => True) := by
  intro st a st' hs e
  cases e
  refine ⟨⟨⟨hs.1.mapSet _ _, fun e he => ?_⟩, .mapSet _ _ _⟩, trivial⟩
  rw [← (hs.1.mapSet _ _).lookup, lookup_mapSet] at he
  split at he
  · rename_i hk
    cases he
    exact ⟨hk, h1, h2⟩
  · exact hs.2 e (mem_of_lookup he)

theorem post_term {n : Nat} : Post w (term w inp n) (TermWF w) := by
  unfold term
  refine post_peek.bind fun r _ => Post.ite (fun _ => ?_) fun _ => Post.ite (fun _ => ?_) fun _ =>
    Post.ite (fun _ => ?_) fun _ => Post.ite (fun _ => ?_) fun _ => Post.fail
  · refine post_token.bind fun _ h => Post.pure ?_
    obtain ⟨x, rfl, hx⟩ := h
    exact .nonterminal hx
  · refine post_terminal.bind fun p hp => Post.ite (fun _ => Post.pure .literal) fun hne => Post.pure ?_
    rcases hp with h | ⟨x, h, hx⟩
    · exact absurd h hne
    · rw [h]; exact .flagged hx
  · unfold special anyTerm listTerm
    refine post_eat.bind fun _ _ => post_ws.bind fun _ _ => post_text.bind fun _ _ => post_ws.bind fun _ _ =>
      Post.ite (fun _ => ?_) fun _ => Post.ite (fun _ => ?_) fun _ => Post.fail
    · exact post_specialMeta.bind fun _ h => post_eat.bind fun _ _ => Post.pure (.any h)
    · refine post_token.bind fun _ hx => post_specialMeta.bind fun _ h => post_eat.bind fun _ _ => Post.pure ?_
      obtain ⟨x, rfl, hx⟩ := hx
      exact .list hx h
  · have hl : ∀ n, Post w (regexLoop inp n) (fun _ => True) := by
      intro n
      induction n with
      | zero => exact Post.div
      | succ n ih =>
        unfold regexLoop
        refine post_next.bind fun r _ => ?_
        cases r with
        | none => exact Post.fail
        | some c => exact Post.ite (fun _ => Post.pure trivial) fun _ => ih.bind fun _ _ => Post.pure trivial
    unfold regex
    refine post_eat.bind fun _ _ => post_ws.bind fun _ _ => (hl n).bind fun l _ => Post.ite (fun _ => Post.fail) fun hne =>
      Post.ite (fun hok => ?_) fun _ => Post.fail
    have hs : String.ofList l ≠ "" := by
      intro e
      have := congrArg String.toList e
      simp at this
      exact hne (by simp [this])
    exact (post_putRegexp hs hok).bind fun _ _ => Post.pure (.regex hs hok)

theorem post_funcNameLoop (hw : w.OK) {n : Nat} {first dot : Bool} (hd : first = true → dot = false) :
    Post w (funcNameLoop w inp n first dot) (fun l =>
      (∀ d ∈ l, w.isLetter d = true ∨ d = '_' ∨ w.isDigit d = true ∨ d = '.') ∧
      (first = true → ∀ c, l.head? = some c → w.isLetter c = true ∨ c = '_') ∧
      ¬ ['.', '.'] <:+: l ∧ (dot = true → l.head? ≠ some '.')) := by
  induction n generalizing first dot with
  | zero => exact Post.div
  | succ n ih =>
    have hnil : (∀ d ∈ ([] : List Char), w.isLetter d = true ∨ d = '_' ∨ w.isDigit d = true ∨ d = '.') ∧
      (first = true → ∀ c, ([] : List Char).head? = some c → w.isLetter c = true ∨ c = '_') ∧
      ¬ ['.', '.'] <:+: ([] : List Char) ∧ (dot = true → ([] : List Char).head? ≠ some '.') := by simp
    unfold funcNameLoop
    refine post_next.bind fun r _ => ?_
    cases r with
    | none => exact post_backup.bind fun _ _ => Post.pure hnil
    | some c =>
      refine Post.ite (fun hc => ?_) fun _ => post_backup.bind fun _ _ => Post.pure hnil
      refine (ih (first := false) (dot := decide (c = '.')) (by simp)).bind fun l hl => Post.pure ⟨?_, ?_, ?_, ?_⟩
      · intro d hd
        rcases List.mem_cons.mp hd with rfl | hd
        · rcases hc with h | h | h | h
          · exact .inl h
          · exact .inr (.inl h)
          · exact .inr (.inr (.inl h.1))
          · exact .inr (.inr (.inr h.1))
        · exact hl.1 d hd
      · rintro rfl c' e
        cases e
        rcases hc with h | h | h | h
        · exact .inl h
        · exact .inr h
        · cases h.2
        · cases h.2.2
      · intro hin
        rcases List.infix_cons_iff.mp hin with hp | hin
        · obtain ⟨t, ht⟩ := hp
          cases ht
          exact hl.2.2.2 (by simp) rfl
        · exact hl.2.2.1 hin
      · intro hdot e
        cases e
        rcases hc with h | h | h | h
        · rw [(hw.punct '.' (by decide)).1] at h; cases h
        · exact absurd h (by decide)
        · rw [(hw.punct '.' (by decide)).2.1] at h; cases h.1
        · rw [hdot] at h; cases h.2.1

theorem post_funcName (hw : w.OK) {n : Nat} :
    Post w (funcName w inp n) (fun s => ∃ x, s = String.ofList x ∧ FnName w x) := by
  unfold funcName
  refine (post_funcNameLoop hw (by simp)).bind fun l hl => Post.ite (fun _ => Post.fail) fun hne => ?_
  refine post_ws.bind fun _ _ => Post.pure ⟨l, rfl, ?_⟩
  cases l with
  | nil => exact absurd rfl hne
  | cons c l =>
    refine .mk (hl.2.1 rfl c rfl) (fun d hd => hl.1 d (List.mem_cons_of_mem _ hd)) fun hin => ?_
    exact hl.2.2.1 (List.infix_cons hin)

theorem post_numArg {n : Nat} {neg : Bool} : Post w (numArg w inp n neg) (ArgWF w) := by
  have hl : ∀ (n : Nat) (hasDot : Bool), Post w (numLoop w inp n hasDot) (fun _ => True) := by
    intro n
    induction n with
    | zero => exact fun _ => Post.div
    | succ n ih =>
      intro hasDot
      unfold numLoop
      refine post_next.bind fun r _ => ?_
      cases r with
      | none => exact Post.pure trivial
      | some c =>
        refine Post.ite (fun _ => (ih _).bind fun _ _ => Post.pure trivial) fun _ => Post.ite (fun _ => ?_) fun _ =>
          Post.pure trivial
        exact Post.ite (fun _ => Post.fail) fun _ => (ih _).bind fun _ _ => Post.pure trivial
  unfold numArg
  refine (hl _ _).bind fun x _ => Post.ite (fun _ => Post.fail) fun _ => post_backup.bind fun _ _ => ?_
  refine Post.ite (fun _ => ?_) fun _ => ?_
  · split
    · exact Post.fail
    · exact Post.pure .float
  · split
    · exact Post.fail
    · exact Post.pure .int

theorem post_sem_args (hw : w.OK) {n0 : Nat} (n : Nat) :
    Post w (semanticFn w inp n0 n) (FmrWF w) ∧
    Post w (funcArgsLoop w inp n0 n) (fun l => l ≠ [] ∧ ArgsWF w l) := by
  induction n with
  | zero => exact ⟨by unfold semanticFn; exact Post.div, by unfold funcArgsLoop; exact Post.div⟩
  | succ n ih =>
    obtain ⟨ih1, ih2⟩ := ih
    refine ⟨?_, ?_⟩
    · unfold semanticFn
      refine post_ws.bind fun _ _ => (post_funcName hw).bind fun _ hx => post_eat.bind fun _ _ => ih2.bind fun _ ha =>
        post_ws.bind fun _ _ => Post.pure ?_
      obtain ⟨x, rfl, hx⟩ := hx
      exact .mk hx ha.1 ha.2
    · unfold funcArgsLoop
      have harg : ∀ r, Post w (funcArg w inp n0 (semanticFn w inp n0 n) r) (ArgWF w) := by
        intro r
        unfold funcArg contextArg idxArg strArg
        refine Post.ite (fun _ => ?_) fun _ => Post.ite (fun _ => ?_) fun _ => Post.ite (fun _ => ?_) fun _ =>
          Post.ite (fun _ => post_numArg) fun _ => Post.ite (fun _ => ?_) fun _ => ?_
        · exact post_eat.bind fun _ _ => Post.pure .context
        · exact post_eat.bind fun _ _ => post_getInt.bind fun _ _ => Post.pure .index
        · exact post_terminal.bind fun _ _ => Post.pure .string
        · exact post_eat.bind fun _ _ => post_numArg
        · exact ih1.bind fun _ h => Post.pure (.func h)
      refine post_ws.bind fun _ _ => post_peek.bind fun _ _ => (harg _).bind fun a ha => Post.ite (fun _ => ?_) fun _ => ?_
      · exact ih2.bind fun _ h => Post.pure ⟨by simp, .cons ha h.2⟩
      · refine post_ws.bind fun _ _ => post_next.bind fun _ _ => Post.ite (fun _ => ?_) fun _ =>
          Post.ite (fun _ => Post.pure ⟨by simp, .cons ha .nil⟩) fun _ => Post.fail
        exact ih2.bind fun _ h => Post.pure ⟨by simp, .cons ha h.2⟩

theorem post_ruleBody (hw : w.OK) {n : Nat} : Post w (ruleBody w inp n) (BodyWF w) := by
  have hl : ∀ n0 n, Post w (ruleBodyLoop w inp n0 n) (fun ts => ∀ t ∈ ts, TermWF w t) := by
    intro n0 n
    induction n with
    | zero => exact Post.div
    | succ n ih =>
      unfold ruleBodyLoop
      refine post_comments.bind fun _ _ => post_peek.bind fun _ _ => Post.ite (fun _ => ?_) fun _ => Post.pure (by simp)
      refine post_term.bind fun t ht => post_comments.bind fun _ _ => ih.bind fun ts hts => Post.pure ?_
      intro t' h'
      rcases List.mem_cons.mp h' with rfl | h'
      · exact ht
      · exact hts t' h'
  have hf : Post w (ruleBodyFn w inp n) (fun o => ∀ f, o = some f → FmrWF w f) := by
    unfold ruleBodyFn
    refine post_peek.bind fun _ _ => Post.ite (fun _ => ?_) fun _ => Post.pure (by simp)
    refine post_next.bind fun _ _ => (post_sem_args hw n).1.bind fun f h => post_eat.bind fun _ _ =>
      post_comments.bind fun _ _ => Post.pure ?_
    rintro f' e
    cases e
    exact h
  unfold ruleBody
  refine post_term.bind fun t ht => post_comments.bind fun _ _ => (hl _ _).bind fun ts hts => hf.bind fun f hf =>
    Post.pure ⟨by simp, ?_, hf⟩
  intro t' h'
  rcases List.mem_cons.mp h' with rfl | h'
  · exact ht
  · exact hts t' h'

/-- the alternatives of a rule -/
def BodyMapWF (w : LexWorld) (m : List (Nat × RuleBody)) : Prop :=
  m ≠ [] ∧ KeysNodup m ∧ ∀ e ∈ m, w.hash e.2 = some e.1 ∧ BodyWF w e.2

theorem mapSet_ne_nil {κ ν : Type} [BEq κ] {m : List (κ × ν)} {k : κ} {v : ν} : mapSet m k v ≠ [] := by
  unfold mapSet
  split
  · simp
  · split <;> simp

theorem BodyMapWF.mapSet {m : List (Nat × RuleBody)} {k : Nat} {b : RuleBody} (h : BodyMapWF w m)
    (hk : w.hash b = some k) (hb : BodyWF w b) : BodyMapWF w (mapSet m k b) := by
  refine ⟨mapSet_ne_nil, h.2.1.mapSet _ _, fun e he => ?_⟩
  rw [← (h.2.1.mapSet _ _).lookup, lookup_mapSet] at he
  split at he
  · rename_i hk'
    cases he
    exact ⟨hk'.symm ▸ hk, hb⟩
  · exact h.2.2 e (mem_of_lookup he)

theorem post_hashBody {b : RuleBody} : Post w (hashBody w b) (fun h => w.hash b = some h) := by
  unfold hashBody
  split
  · exact Post.fail
  · rename_i h; exact Post.pure h

theorem post_rule (hw : w.OK) {n : Nat} {c : Option Char} :
    Post w (rule w inp n c) (fun r => (∃ x, r.name = String.ofList x ∧ Ident w x) ∧ BodyMapWF w r.body) := by
  have hl : ∀ n0 n m, BodyMapWF w m → Post w (ruleBodiesLoop w inp n0 n m) (BodyMapWF w) := by
    intro n0 n
    induction n with
    | zero => exact fun _ _ => Post.div
    | succ n ih =>
      intro m hm
      unfold ruleBodiesLoop
      refine post_peek.bind fun _ _ => Post.ite (fun _ => Post.pure hm) fun _ => ?_
      refine post_next.bind fun _ _ => post_comments.bind fun _ _ => (post_ruleBody hw).bind fun b hb =>
        post_hashBody.bind fun h hh => ih _ (hm.mapSet hh hb)
  unfold rule ruleName ruleBodies
  refine Post.bind (Q := fun s => ∃ x, s = String.ofList x ∧ Ident w x) ?_ fun name hname => post_comments.bind fun _ _ =>
    post_eat.bind fun _ _ => post_comments.bind fun _ _ => Post.bind (Q := BodyMapWF w) ?_ fun b hb =>
    post_eat.bind fun _ _ => Post.pure ⟨hname, hb⟩
  · exact Post.ite (fun _ => post_token) fun _ => Post.ite (fun _ => post_token) fun _ => Post.fail
  · refine (post_ruleBody hw).bind fun b hb => post_hashBody.bind fun h hh => hl _ _ _ ⟨by simp, by simp [KeysNodup], ?_⟩
    intro e he
    rw [List.mem_singleton] at he
    subst he
    exact ⟨hh, hb⟩

/-- a rule map -/
def RuleMapWF (w : LexWorld) (m : List (String × Rule)) : Prop :=
  KeysNodup m ∧ ∀ e ∈ m, RuleWF w e.1 e.2

theorem foldl_mapSet_wf {l : List (Nat × RuleBody)} : ∀ {m : List (Nat × RuleBody)}, BodyMapWF w m →
    (∀ e ∈ l, w.hash e.2 = some e.1 ∧ BodyWF w e.2) → BodyMapWF w (l.foldl (fun b e => mapSet b e.1 e.2) m) := by
  induction l with
  | nil => exact fun hm _ => hm
  | cons e l ih =>
    intro m hm hl
    have := hl e List.mem_cons_self
    exact ih (hm.mapSet this.1 this.2) fun e he => hl e (List.mem_cons_of_mem _ he)

theorem RuleMapWF.add {m : List (String × Rule)} {r : Rule} (hm : RuleMapWF w m)
    (hn : ∃ x, r.name = String.ofList x ∧ Ident w x) (hb : BodyMapWF w r.body) : RuleMapWF w (addRule m r) := by
  have hset : ∀ r', r'.name = r.name → BodyMapWF w r'.body → RuleMapWF w (mapSet m r.name r') := by
    intro r' h1 h2
    refine ⟨hm.1.mapSet _ _, fun e he => ?_⟩
    rw [← (hm.1.mapSet _ _).lookup, lookup_mapSet] at he
    split at he
    · rename_i hk
      cases he
      exact ⟨by rw [hk, h1], by rw [hk]; exact hn, h2.1, h2.2.1, fun e he => (h2.2.2 e he).1, fun e he => (h2.2.2 e he).2⟩
    · exact hm.2 e (mem_of_lookup he)
  unfold addRule
  split
  · rename_i r0 h0
    have := hm.2 _ (mem_of_lookup h0)
    refine hset _ this.name (foldl_mapSet_wf ⟨this.ne, this.keys, fun e he => ⟨this.hash e he, this.bodies e he⟩⟩ hb.2.2)
  · exact hset r rfl hb

theorem post_grammarRules (hw : w.OK) {n : Nat} {name : String} :
    Post w (grammarRules w inp n name) (fun g => g.name = name ∧ GrammarWF w g) := by
  have hl : ∀ n0 n m, RuleMapWF w m.1 → RuleMapWF w m.2 →
      Post w (rulesLoop w inp n0 n m) (fun m => RuleMapWF w m.1 ∧ RuleMapWF w m.2) := by
    intro n0 n
    induction n with
    | zero => exact fun _ _ _ => Post.div
    | succ n ih =>
      intro m h1 h2
      unfold rulesLoop
      refine post_comments.bind fun _ _ => post_peek.bind fun _ _ => Post.ite (fun _ => ?_) fun _ => Post.pure ⟨h1, h2⟩
      refine (post_rule hw).bind fun r hr => ?_
      split
      · exact ih _ h1 (h2.add hr.1 hr.2)
      · exact ih _ (h1.add hr.1 hr.2) h2
  have hnil : RuleMapWF w [] := ⟨KeysNodup.nil, by simp⟩
  unfold grammarRules
  refine (hl _ _ _ hnil hnil).bind fun m hm => post_next.bind fun _ _ => Post.ite (fun _ => Post.fail) fun _ => ?_
  intro s g s' hs e
  cases e
  exact ⟨.refl hs, rfl, hm.1.1, hm.1.2, hm.2.1, hm.2.2, hs.1, hs.2, rfl⟩

theorem post_directive {n : Nat} : Post w (directive w inp n) (fun _ => True) := by
  unfold directive
  refine post_comments.bind fun _ _ => post_peek.bind fun _ _ => Post.ite (fun _ => Post.pure trivial) fun _ => ?_
  refine post_next.bind fun _ _ => post_ws.bind fun _ _ => post_text.bind fun _ _ => Post.ite (fun _ => Post.fail) fun _ => ?_
  exact post_ws.bind fun _ _ => post_terminal.bind fun _ _ => Post.pure trivial

/-- the table of the grammar is the table at the end of the text -/
theorem grammarRules_regexps {n : Nat} {name : String} {s s' : PSt} {g : Grammar}
    (h : grammarRules w inp n name s = .ok (g, s')) : g.regexps = s'.regexps := by
  unfold grammarRules at h
  obtain ⟨m, s1, -, h⟩ := P.bind_eq_ok.mp h
  obtain ⟨r, s2, -, h⟩ := P.bind_eq_ok.mp h
  cases r with
  | some c => cases h
  | none => cases h; rfl

end

end Fmr
