import Verif.Proofs.PrintTree
import Verif.Proofs.Item
import Verif.Spec.Trees

/-!
# The states of a chart and the nodes of its trees can be read back
-/

namespace Fmr

/-- Assumptions on the two library functions: a newline is not printable, and the text of a number contains no
quotes, closing braces and newlines. -/
structure StrWorld.OK (p : StrWorld) : Prop where
  newline : p.isPrint '\n' = false
  float : ∀ q, ∀ c ∈ (p.floatStr q).toList, c ≠ '"' ∧ c ≠ '}' ∧ c ≠ '\n'

mutual
/-- the names of all functions in a function -/
def FMR.fns : FMR → List String
  | .mk fn args => fn :: argsFns args
termination_by structural f => f
def argsFns : List Arg → List String
  | [] => []
  | a :: as => a.fns ++ argsFns as
termination_by structural l => l
def Arg.fns : Arg → List String
  | .mk _ v => v.fns
termination_by structural a => a
def Val.fns : Val → List String
  | .fmr f => f.fns
  | .nilFmr | .str _ | .bigInt _ | .bigFloat _ | .int _ | .other _ => []
termination_by structural v => v
end

/-- the name of a rule that can be read back -/
def Shown (x : String) : Prop := '>' ∉ x.toList ∧ '\n' ∉ x.toList

/-- the name of a function that can be read back -/
def FnShown (x : String) : Prop := ∀ c ∈ x.toList, c ≠ '"' ∧ c ≠ '}' ∧ c ≠ '\n'

/-- A grammar whose parse results can be read back: names of rules contain neither `>` nor newlines, names of functions
no quotes, closing braces and newlines. -/
structure Env.Showable (env : Env) : Prop where
  rules : ∀ A rb, env.Defines A rb → Shown A
  starts : ∀ S ∈ env.starts, Shown S
  kinds : ∀ t, env.Occurs t → t.type ≠ .eof
  names : ∀ t, env.Occurs t → t.type = .nonterminal ∨ t.type = .list → Shown t.value
  fns : ∀ A rb f, env.Defines A rb → rb.f = some f → ∀ x ∈ f.fns, FnShown x

section
variable {p : StrWorld}

/-! ### functions -/

theorem calm_join {l : List (List Char)} (h : ∀ x ∈ l, Calm p x) : Calm p (joinComma l) := by
  induction l with
  | nil => exact .nil
  | cons a l ih =>
    cases l with
    | nil => exact h a (by simp)
    | cons b l =>
      rw [joinComma]
      exact (h a (by simp)).append (.char (by decide) (by decide) (by decide) (ih fun x hx => h x (by simp [hx])))

theorem calm_int (i : Int) : Calm p (toString i).toList := by
  have hn : ∀ n : Nat, Calm p (toString n).toList := by
    intro n
    apply Calm.word
    intro c hc
    have := nat_digits hc
    refine ⟨?_, ?_, ?_⟩ <;> (rintro rfl; revert this; decide)
  cases i with
  | ofNat n => exact hn n
  | negSucc n =>
    have e : (toString (Int.negSucc n)).toList = '-' :: (toString (n + 1)).toList := by
      show ("-" ++ Nat.repr (n + 1)).toList = _
      rw [String.toList_append]
      rfl
    rw [e]
    exact .char (by decide) (by decide) (by decide) (hn _)

theorem calm_quote (s : String) : Calm p (quoteStr p.isPrint s).toList := by
  have := Calm.quote (p := p) (s := s) .nil
  simpa using this

theorem calm_nil : Calm p "nf.I($0)".toList := Calm.word (by decide)

mutual
theorem calm_fmr (hp : p.OK) : ∀ f : FMR, (∀ x ∈ f.fns, FnShown x) → Calm p (f.string p)
  | .mk fn args, h => by
    rw [FMR.fns] at h
    rw [FMR.string]
    cases e : argStrings p args with
    | none => exact (Calm.word (by decide) : Calm p "invalid_fmr".toList)
    | some l =>
      refine (Calm.word (h fn (by simp))).append (.char (by decide) (by decide) (by decide) ?_)
      exact (calm_join (calm_args hp args (fun x hx => h x (by simp [hx])) e)).append (Calm.word (by decide))
theorem calm_args (hp : p.OK) : ∀ (as : List Arg) {l : List (List Char)}, (∀ x ∈ argsFns as, FnShown x) →
    argStrings p as = some l → ∀ y ∈ l, Calm p y
  | [], l, _, h => by
    rw [argStrings] at h
    cases h
    simp
  | a :: as, l, hf, h => by
    rw [argsFns] at hf
    rw [argStrings] at h
    cases e1 : argString p a with
    | none => rw [e1] at h; cases h
    | some x =>
      rw [e1] at h
      cases e2 : argStrings p as with
      | none => rw [e2] at h; cases h
      | some l' =>
        rw [e2] at h
        cases h
        intro y hy
        rcases List.mem_cons.1 hy with rfl | hy
        · exact calm_arg hp a (fun x hx => hf x (by simp [hx])) e1
        · exact calm_args hp as (fun x hx => hf x (by simp [hx])) e2 y hy
theorem calm_arg (hp : p.OK) : ∀ (a : Arg) {y : List Char}, (∀ x ∈ a.fns, FnShown x) → argString p a = some y → Calm p y
  | .mk ty v, y, hf, h => by
    rw [Arg.fns] at hf
    unfold argString at h
    split at h
    · split at h
      · cases h; exact calm_quote _
      · cases h
    split at h
    · split at h
      · cases h; exact calm_int _
      · cases h
    split at h
    · split at h
      · cases h; exact Calm.word (hp.float _)
      · cases h
    split at h
    · exact calm_val hp v hf h
    split at h
    · split at h
      · cases h; exact .char (by decide) (by decide) (by decide) (calm_int _)
      · cases h
    · cases h
theorem calm_val (hp : p.OK) : ∀ (v : Val) {y : List Char}, (∀ x ∈ v.fns, FnShown x) → funcString p v = some y → Calm p y
  | .fmr f, y, hf, h => by
    rw [funcString] at h
    cases h
    rw [Val.fns] at hf
    exact calm_fmr hp f hf
  | .nilFmr, y, _, h => by
    rw [funcString] at h
    cases h
    exact calm_nil
  | .str _, _, _, h => by cases h
  | .bigInt _, _, _, h => by cases h
  | .bigFloat _, _, _, h => by cases h
  | .int _, _, _, h => by cases h
  | .other _, _, _, h => by cases h
end

theorem calm_fString (hp : p.OK) {f : Option FMR} (h : ∀ g, f = some g → ∀ x ∈ g.fns, FnShown x) :
    Calm p (fString p f) := by
  cases f with
  | none => exact calm_nil
  | some g => exact calm_fmr hp g (h g rfl)

/-! ### newlines -/

theorem hexDigits_no_newline (k n : Nat) : '\n' ∉ hexDigits k n := by
  have h : ∀ m, m < 16 → hexChar m ≠ '\n' := by decide
  induction k generalizing n with
  | zero => simp [hexDigits]
  | succ k ih =>
    rw [hexDigits, List.mem_append]
    rintro (h1 | h1)
    · exact ih _ h1
    · exact h _ (Nat.mod_lt _ (by decide)) (by simpa using (List.mem_singleton.1 h1).symm)

theorem quote_no_newline (hp : p.OK) (s : String) : '\n' ∉ (quoteStr p.isPrint s).toList := by
  have he : ∀ c, '\n' ∉ escapeRune p.isPrint c := by
    intro c hc
    have hd := hexDigits_no_newline
    unfold escapeRune at hc
    split at hc
    · rename_i h
      rcases h with rfl | rfl <;> revert hc <;> decide
    split at hc
    · rename_i h
      simp only [List.mem_singleton] at hc
      rw [← hc, hp.newline] at h
      cases h
    repeat' split at hc
    all_goals first
      | (revert hc; decide)
      | (simp only [List.mem_cons] at hc
         rcases hc with hc | hc | hc
         · exact absurd hc (by decide)
         · exact absurd hc (by decide)
         · exact hd _ _ hc)
  simp only [quoteStr, String.toList_ofList, quoteRunes, List.mem_cons, List.mem_append, List.mem_flatMap, List.mem_map]
  rintro (h | ⟨g, ⟨c, _, rfl⟩, h⟩ | h | h)
  · exact absurd h (by decide)
  · exact he c h
  · exact absurd h (by decide)
  · exact absurd h List.not_mem_nil

theorem Calm.no_newline (hp : p.OK) {l : List Char} (h : Calm p l) : '\n' ∉ l := by
  induction h with
  | nil => simp
  | char _ _ h _ ih =>
    rw [List.mem_cons]
    rintro (e | e)
    · exact h e.symm
    · exact ih e
  | quote _ ih =>
    rw [List.mem_append]
    rintro (e | e)
    · exact quote_no_newline hp _ e
    · exact ih e

theorem nat_no_newline (n : Nat) : '\n' ∉ (toString n).toList := by
  intro h
  have := nat_digits h
  revert this; decide

theorem span_no_newline (a b : Nat) : '\n' ∉ spanText a b := by
  simp only [spanText, List.mem_cons, List.mem_append, List.not_mem_nil, or_false]
  rintro (h | h | h | h | h)
  · exact absurd h (by decide)
  · exact nat_no_newline _ h
  · exact absurd h (by decide)
  · exact nat_no_newline _ h
  · exact absurd h (by decide)

theorem termText_no_newline (hp : p.OK) {t : Term} (h : t.type = .nonterminal ∨ t.type = .list → '\n' ∉ t.value.toList) :
    '\n' ∉ termText p t := by
  unfold termText
  split
  · rename_i e
    simp only [List.mem_cons, List.mem_append, List.not_mem_nil, or_false]
    rintro (h1 | h1 | h1 | h1)
    · exact absurd h1 (by decide)
    · exact h (.inl e) h1
    · exact absurd h1 (by decide)
    · exact absurd h1 (by decide)
  · simp only [List.mem_append, List.mem_cons, List.not_mem_nil, or_false]
    rintro (h1 | h1)
    · exact quote_no_newline hp _ h1
    · exact absurd h1 (by decide)
  · decide
  · rename_i e
    simp only [List.mem_append]
    rintro (h1 | h1 | h1)
    · exact absurd h1 (by decide)
    · exact h (.inr e) h1
    · exact absurd h1 (by decide)
  · simp

theorem bodyText_no_newline (hp : p.OK) {dot i : Nat} {ts : List Term}
    (h : ∀ t ∈ ts, t.type = .nonterminal ∨ t.type = .list → '\n' ∉ t.value.toList) : '\n' ∉ bodyText p dot i ts := by
  induction ts generalizing i with
  | nil => simp [bodyText]
  | cons t ts ih =>
    rw [bodyText]
    simp only [List.mem_append]
    rintro (h1 | h1 | h1)
    · split at h1
      · revert h1; decide
      · cases h1
    · exact termText_no_newline hp (h t (by simp)) h1
    · exact ih (fun t ht => h t (by simp [ht])) h1

theorem rep_no_newline {x : List Char} {n : Nat} (h : '\n' ∉ x) : '\n' ∉ (List.replicate n x).flatten := by
  intro hc
  obtain ⟨l, hl, hm⟩ := List.mem_flatten.1 hc
  obtain ⟨_, rfl⟩ := List.mem_replicate.1 hl
  exact h hm

theorem listArgs_no_newline (n : Nat) : '\n' ∉ listArgs n := by
  have h : Calm ⟨fun _ => false, fun _ => ""⟩ (listArgs n) := by
    apply calm_join
    intro x hx
    obtain ⟨i, _, rfl⟩ := List.mem_map.1 hx
    exact .char (by decide) (by decide) (by decide) (calm_int (Int.ofNat (i + 1)))
  exact h.no_newline ⟨rfl, fun q c hc => by cases hc⟩

/-! ### states -/

/-- What makes a state readable: kind, names, dot, function. -/
structure TState.Clear (s : TState) : Prop where
  kind : s.term.type ≠ .eof
  name : s.term.type = .nonterminal ∨ s.term.type = .list → Shown s.term.value
  body : s.term.type = .nonterminal → ∃ rb, s.rb = some rb ∧ s.dot ≤ rb.terms.length ∧
    (∀ t ∈ rb.terms, t.type ≠ .eof ∧ (t.type = .nonterminal ∨ t.type = .list → Shown t.value)) ∧
    ∀ f, rb.f = some f → ∀ x ∈ f.fns, FnShown x

theorem TState.Clear.printable (hp : p.OK) {s : TState} (h : s.Clear) : s.Printable p where
  term := ⟨h.kind, fun e => (h.name e).1⟩
  body := fun e => by
    obtain ⟨rb, h1, h2, h3, h4⟩ := h.body e
    exact ⟨rb, h1, h2, fun t ht => ⟨(h3 t ht).1, fun e => ((h3 t ht).2 e).1⟩, calm_fString hp h4⟩

theorem TState.Clear.lined (hp : p.OK) {s : TState} (h : s.Clear) : Lined p s where
  line := by
    cases ht : s.term.type with
    | eof => exact absurd ht h.kind
    | nonterminal =>
      obtain ⟨rb, h1, _, h3, h4⟩ := h.body ht
      rw [string_nt ht h1, dotted]
      simp only [List.mem_cons, List.mem_append, List.not_mem_nil, or_false]
      rintro (h | hv | h | (h | h) | h | h | h | h | h)
      · exact absurd h (by decide)
      · exact (h.name (.inl ht)).2 hv
      · exact absurd h (by decide)
      · exact bodyText_no_newline hp (fun t ht e => ((h3 t ht).2 e).2) h
      · split at h
        · revert h; decide
        · cases h
      · exact absurd h (by decide)
      · exact span_no_newline _ _ h
      · exact absurd h (by decide)
      · exact (calm_fString hp h4).no_newline hp h
      · exact absurd h (by decide)
    | terminal =>
      rw [string_term ht]
      simp only [List.mem_append, List.mem_cons]
      rintro (h | h | h)
      · exact quote_no_newline hp _ h
      · exact absurd h (by decide)
      · exact span_no_newline _ _ h
    | any =>
      rw [string_any ht]
      simp only [List.mem_append, List.mem_cons]
      rintro (h | h | h | h | h | h)
      · exact absurd h (by decide)
      · exact rep_no_newline (by decide) h
      · exact absurd h (by decide)
      · exact absurd h (by decide)
      · exact absurd h (by decide)
      · exact span_no_newline _ _ h
    | list =>
      have hv := (h.name (.inr ht)).2
      rw [string_list ht]
      simp only [List.mem_append, List.mem_cons]
      rintro (h | h | h | h | h | h | h | h | h | h | h)
      · exact absurd h (by decide)
      · exact hv h
      · exact absurd h (by decide)
      · refine rep_no_newline ?_ h
        simp only [List.mem_append, List.mem_cons, List.not_mem_nil, or_false]
        rintro (h | h | h | h)
        · exact absurd h (by decide)
        · exact hv h
        · exact absurd h (by decide)
        · exact absurd h (by decide)
      · exact absurd h (by decide)
      · exact absurd h (by decide)
      · exact absurd h (by decide)
      · exact span_no_newline _ _ h
      · exact absurd h (by decide)
      · exact listArgs_no_newline _ h
      · exact absurd h (by decide)
  head := by
    obtain ⟨c, l, hc, c1, c2, c3, c4⟩ := string_head (h.printable hp)
    refine ⟨c, l, hc, ?_⟩
    cases ht : s.term.type with
    | eof => exact absurd ht h.kind
    | nonterminal => rw [c1 ht]; decide
    | terminal => rw [c2 ht]; decide
    | any => rw [(c3 ht).1]; decide
    | list => rw [(c4 ht).1]; decide

theorem shown_gamma : Shown gammaRule := by unfold Shown; decide

/-- the states of a chart -/
theorem Item.clear {env : Env} (hwf : env.WF) (hs : env.Showable) {i : Nat} {s : TState} (h : Item env i s) : s.Clear := by
  have hb := h.basic hwf
  refine ⟨?_, ?_, ?_⟩
  · rcases hb.kind with e | e | e <;> rw [e] <;> decide
  · rintro (e | e)
    · obtain ⟨rb, _, _, hd | ⟨S, _, hg, _⟩⟩ := hb.nt e
      · exact hs.rules _ _ hd
      · rw [hg]; exact shown_gamma
    · obtain ⟨_, t, ho, ht, hv, _⟩ := hb.list e
      rw [← hv]
      exact hs.names t ho (.inr ht)
  · intro e
    obtain ⟨rb, hrb, hd, hdef | ⟨S, hS, _, _, hg⟩⟩ := hb.nt e
    · refine ⟨rb, hrb, hd, fun t ht => ?_, fun f hf => hs.fns _ _ f hdef hf⟩
      have ho : env.Occurs t := ⟨_, rb, hdef, ht⟩
      exact ⟨hs.kinds t ho, hs.names t ho⟩
    · refine ⟨rb, hrb, hd, ?_⟩
      rw [hrb] at hg
      simp only [gammaState, Option.some.injEq] at hg
      subst hg
      refine ⟨?_, ?_⟩
      · intro t ht
        simp only [List.mem_singleton] at ht
        subst ht
        exact ⟨by simp, fun _ => hs.starts S hS⟩
      · intro f hf
        simp only [Option.some.injEq] at hf
        subst hf
        intro x hx
        simp only [FMR.fns, argsFns, Arg.fns, Val.fns, List.append_nil, List.mem_singleton] at hx
        subst hx
        unfold FnShown
        decide

end

end Fmr
