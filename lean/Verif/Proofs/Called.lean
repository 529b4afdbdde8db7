import Verif.Spec.Called
import Verif.Proofs.CharLang
import Verif.Proofs.OneFile

/-!
# Functions that are not registered
-/

namespace Fmr

set_option linter.unusedSectionVars false

/-! ## expressions -/

section
variable {w : NodeWorld} (hc : CallsReturn w)
include hc

mutual
theorem value_settled : ∀ e : Expr, Settled (e.value w)
  | .str _ => .ok
  | .int _ => .ok
  | .float _ => .ok
  | .leaf _ _ => .ok
  | .ctx _ => .ok
  | .empty => .ok
  | .call fn es => by
    rw [Expr.value]
    exact (values_settled es).bind fun vs _ => hc fn vs
theorem values_settled : ∀ es : List Expr, Settled (values w es)
  | [] => .ok
  | e :: es => by
    rw [values]
    exact (value_settled e).bind fun v _ => (values_settled es).bind fun vs _ => .ok
end

theorem values_err : ∀ {es : List Expr} {e : Expr}, e ∈ es → e.value w = .err → values w es = .err
  | e' :: es, e, h, he => by
    rw [values]
    rcases List.mem_cons.1 h with rfl | h
    · rw [he]; rfl
    · rw [values_err h he]
      rcases value_settled hc e' with ⟨v, h⟩ | h <;> rw [h] <;> rfl

theorem call_err {fn : String} {es : List Expr} (h : (∃ e ∈ es, e.value w = .err) ∨ ∀ vs, w.call fn vs = .err) :
    (Expr.call fn es).value w = .err := by
  rw [Expr.value]
  rcases h with ⟨e, h1, h2⟩ | h
  · rw [values_err hc h1 h2]; rfl
  · rcases values_settled hc es with ⟨vs, h1⟩ | h1
    · rw [h1]; exact h vs
    · rw [h1]; rfl

theorem exprCalls_err {known : List String} (ho : CallsOnly w known) {e : Expr} {g : String} (h : ExprCalls e g) (hg : g ∉ known) :
    e.value w = .err := by
  induction h with
  | here => exact call_err hc (.inr fun vs => ho _ _ hg)
  | inner h1 _ ih => exact call_err hc (.inl ⟨_, h1, ih hg⟩)

end

/-! ## functions of alternatives: `true` if evaluation is sure to fail -/

section
variable (known : List String) (vs : List (Option Bool))

mutual
def fmrBad : FMR → Option Bool
  | .mk fn args =>
    if fn = "nf.I" then
      match args with
      | [a] => argBad a
      | _ => none
    else (argsBad args).map (!known.contains fn || ·)
def argsBad : List Arg → Option Bool
  | [] => some false
  | a :: as => (argBad a).bind fun x => (argsBad as).map (x || ·)
def argBad : Arg → Option Bool
  | .mk t v => valBad t v
def valBad (t : String) : Val → Option Bool
  | .str _ => if t = "string" then some false else none
  | .bigInt _ => if t = "int" then some false else none
  | .bigFloat _ => if t = "float" then some false else none
  | .int i => if t = "index" ∧ 0 < i then (vs[(i - 1).toNat]?).join else none
  | .fmr f => if t = "func" then fmrBad f else none
  | .nilFmr => none
  | .other _ => none
end

end

/-- if so, evaluation fails -/
def FailsIf (w : NodeWorld) (e : Expr) (b : Bool) : Prop := b = true → e.value w = .err

section
variable {w : NodeWorld} (hc : CallsReturn w) {known : List String} (ho : CallsOnly w known) {nl : String} {record : Value}
  {ms : List (Option Expr)} {vs : List (Option Bool)}
  (hv : ∀ (i : Nat) (x : Bool), vs[i]? = some (some x) → ∃ e, ms[i]? = some (some e) ∧ FailsIf w e x)
include hc ho hv

mutual
theorem fmrBad_sound : ∀ (f : FMR) (x : Bool), fmrBad known vs f = some x → ∃ e, funcSays nl record ms f = some e ∧ FailsIf w e x
  | .mk fn args, x, h => by
    rw [fmrBad.eq_def] at h
    simp only at h
    rw [funcSays.eq_def]
    simp only
    split at h
    · next hf =>
      rw [if_pos hf]
      split at h
      · next a => exact argBad_sound a x h
      · cases h
    · next hf =>
      rw [if_neg hf]
      obtain ⟨y, h1, rfl⟩ := Option.map_eq_some_iff.1 h
      obtain ⟨es, h2, h3⟩ := argsBad_sound args y h1
      refine ⟨_, by rw [h2]; rfl, fun hx => call_err hc ?_⟩
      rw [Bool.or_eq_true] at hx
      rcases hx with hx | hx
      · exact .inr fun vs => ho _ _ (by simpa using hx)
      · exact .inl (h3 hx)
theorem argsBad_sound : ∀ (as : List Arg) (x : Bool), argsBad known vs as = some x →
    ∃ es, argsSay nl record ms as = some es ∧ (x = true → ∃ e ∈ es, e.value w = .err)
  | [], x, h => by
    rw [argsBad.eq_def] at h
    cases h
    exact ⟨[], rfl, fun h => by cases h⟩
  | a :: as, x, h => by
    rw [argsBad.eq_def] at h
    simp only at h
    obtain ⟨y, h1, h⟩ := Option.bind_eq_some_iff.1 h
    obtain ⟨z, h2, rfl⟩ := Option.map_eq_some_iff.1 h
    obtain ⟨e, h3, h4⟩ := argBad_sound a y h1
    obtain ⟨es, h5, h6⟩ := argsBad_sound as z h2
    refine ⟨e :: es, by rw [argsSay, h3, h5]; rfl, fun hx => ?_⟩
    rw [Bool.or_eq_true] at hx
    rcases hx with hx | hx
    · exact ⟨e, List.mem_cons_self, h4 hx⟩
    · obtain ⟨e', h7, h8⟩ := h6 hx
      exact ⟨e', List.mem_cons_of_mem _ h7, h8⟩
theorem argBad_sound : ∀ (a : Arg) (x : Bool), argBad known vs a = some x → ∃ e, argSays nl record ms a = some e ∧ FailsIf w e x
  | .mk t v, x, h => by
    rw [argBad.eq_def] at h
    rw [argSays.eq_def]
    exact valBad_sound t v x h
theorem valBad_sound (t : String) : ∀ (v : Val) (x : Bool), valBad known vs t v = some x →
    ∃ e, valSays nl record ms t v = some e ∧ FailsIf w e x
  | .str s, x, h => by
    rw [valBad.eq_def] at h
    simp only at h
    split at h
    · next ht =>
      cases h
      exact ⟨.str s, by rw [valSays.eq_def]; simp only [if_pos ht], fun h => by cases h⟩
    · cases h
  | .bigInt i, x, h => by
    rw [valBad.eq_def] at h
    simp only at h
    split at h
    · next ht =>
      cases h
      exact ⟨.int i, by rw [valSays.eq_def]; simp only [if_pos ht], fun h => by cases h⟩
    · cases h
  | .bigFloat q, x, h => by
    rw [valBad.eq_def] at h
    simp only at h
    split at h
    · next ht =>
      cases h
      exact ⟨.float q, by rw [valSays.eq_def]; simp only [if_pos ht], fun h => by cases h⟩
    · cases h
  | .int i, x, h => by
    rw [valBad.eq_def] at h
    simp only at h
    split at h
    · next ht =>
      obtain ⟨y, h1, rfl⟩ : ∃ y, vs[(i - 1).toNat]? = some y ∧ y = some x := by
        cases hy : vs[(i - 1).toNat]? with
        | none => rw [hy] at h; cases h
        | some y => rw [hy] at h; exact ⟨y, rfl, h⟩
      obtain ⟨e, h2, h3⟩ := hv _ _ h1
      refine ⟨e, ?_, h3⟩
      rw [valSays.eq_def]
      simp only [if_pos ht.1, indexSays]
      rw [if_neg (by omega), if_pos ht.2, h2]
      rfl
    · cases h
  | .fmr f, x, h => by
    rw [valBad.eq_def] at h
    simp only at h
    split at h
    · next ht =>
      obtain ⟨e, h1, h2⟩ := fmrBad_sound f x h
      exact ⟨e, by rw [valSays.eq_def]; simp only [if_pos ht, h1], h2⟩
    · cases h
  | .nilFmr, _, h => by rw [valBad.eq_def] at h; cases h
  | .other _, _, h => by rw [valBad.eq_def] at h; cases h
end

end

theorem fmrBad_ev {w : NodeWorld} (hc : CallsReturn w) {known : List String} (ho : CallsOnly w known) :
    EvSound (fmrBad known) (FailsIf w) :=
  fun _ _ _ _ hv f x hf => fmrBad_sound hc ho hv f x hf

/-! ## texts with a word whose alternatives fail -/

/-- what the terms may give -/
def assigns : List Term → List (List (Option Bool))
  | [] => [[]]
  | t :: ts =>
    if t.type == .terminal then (assigns ts).map (none :: ·)
    else (assigns ts).flatMap fun vs => [some false :: vs, some true :: vs]

/-- A function fails if one of its parts that may contain the word `x` fails, or if it belongs to `x`; the rules `free` are without `x`. -/
def badBody (known : List String) (split : String → List String) (x : String) (free : List String) (b : RuleBody) : Bool :=
  match b.f with
  | none => false
  | some f =>
    let own := b.terms.any fun t => t.type == .terminal && (split t.value).contains x
    (assigns b.terms).all fun vs =>
      match fmrBad known vs f with
      | none => false
      | some r => r || !(own || (b.terms.zip vs).any fun p => !free.contains p.1.value && p.2 == some true)

/-- the rules `free` derive nothing with `x` -/
def freeDefs (split : String → List String) (x : String) (free : List String) (ds : List Def) : Bool :=
  ds.all fun d => !free.contains d.name || d.bodies.all fun b => b.terms.all fun t =>
    if t.type == .terminal then !(split t.value).contains x else free.contains t.value

def badDefs (known : List String) (split : String → List String) (x : String) (free : List String) (ds : List Def) : Bool :=
  freeDefs split x free ds && ds.all fun d => d.bodies.all (badBody known split x free)

section
variable {split : String → List String} {x : String} {free : List String} {ds : List Def}

mutual
theorem WordLang.free {V : Type} {ev : List (Option V) → FMR → Option V} (hb : freeDefs split x free ds = true) :
    ∀ {A : String} {l : List String} {v : Option V}, WordLang (Written ds false) split ev A l v → A ∈ free → x ∉ l
  | A, l, _, .mk (b := b) (vs := vs) hW hs, hA => by
    obtain ⟨d, hd, -, hn, hbm⟩ := hW
    have h3 := List.all_eq_true.1 hb d hd
    rw [hn, Bool.or_eq_true, List.contains_iff_mem.2 hA] at h3
    rcases h3 with h3 | h3
    · cases h3
    · exact hs.free hb (List.all_eq_true.1 h3 b hbm)
theorem WordSeq.free {V : Type} {ev : List (Option V) → FMR → Option V} (hb : freeDefs split x free ds = true) :
    ∀ {ts : List Term} {l : List String} {vs : List (Option V)}, WordSeq (Written ds false) split ev ts l vs →
      (ts.all fun t => if t.type == .terminal then !(split t.value).contains x else free.contains t.value) = true → x ∉ l
  | _, _, _, .nil, _ => List.not_mem_nil
  | _, _, _, .lit (t := t) h1 h2, h => by
    rw [List.all_cons, Bool.and_eq_true, h1] at h
    intro hx
    rcases List.mem_append.1 hx with hx | hx
    · exact absurd h.1 (by simpa using hx)
    · exact h2.free hb h.2 hx
  | _, _, _, .ref (t := t) h1 h2 h3, h => by
    rw [List.all_cons, Bool.and_eq_true, h1] at h
    intro hx
    rcases List.mem_append.1 hx with hx | hx
    · exact h2.free hb (by simpa using h.1) hx
    · exact h3.free hb h.2 hx
end

variable {known : List String} (hb : badDefs known split x free ds = true)
include hb

mutual
theorem WordLang.bad : ∀ {A : String} {l : List String} {v : Option Bool}, WordLang (Written ds false) split (fmrBad known) A l v →
    ∃ r, v = some r ∧ (x ∈ l → r = true)
  | A, l, _, .mk (b := b) (vs := vs) hW hs => by
    obtain ⟨h1, h2⟩ := hs.bad
    obtain ⟨d, hd, -, -, hbm⟩ := hW
    have h3 := List.all_eq_true.1 (List.all_eq_true.1 (Bool.and_eq_true_iff.1 hb).2 d hd) b hbm
    unfold badBody at h3
    split at h3
    · cases h3
    · next f hf =>
      have h4 := List.all_eq_true.1 h3 vs h1
      rw [hf, Option.bind_some]
      split at h4
      · cases h4
      · next r hr =>
        refine ⟨r, hr, fun hx => ?_⟩
        rw [Bool.or_eq_true] at h4
        rcases h4 with h4 | h4
        · exact h4
        · rw [Bool.not_eq_true', Bool.or_eq_false_iff] at h4
          rcases h2 hx with h5 | h5
          · exfalso
            rw [h5] at h4
            cases h4.2
          · exfalso
            rw [h5] at h4
            cases h4.1
theorem WordSeq.bad : ∀ {ts : List Term} {l : List String} {vs : List (Option Bool)}, WordSeq (Written ds false) split (fmrBad known) ts l vs →
    vs ∈ assigns ts ∧ (x ∈ l → ((ts.zip vs).any fun p => !free.contains p.1.value && p.2 == some true) = true ∨
      (ts.any fun t => t.type == .terminal && (split t.value).contains x) = true)
  | _, _, _, .nil => ⟨List.mem_singleton.2 rfl, fun h => by cases h⟩
  | _, _, _, .lit (t := t) h1 h2 => by
    obtain ⟨h3, h4⟩ := h2.bad
    refine ⟨?_, fun hx => ?_⟩
    · rw [assigns, if_pos (by rw [h1]; rfl)]
      exact List.mem_map_of_mem h3
    · rw [List.any_cons, Bool.or_eq_true, List.zip_cons_cons, List.any_cons, Bool.or_eq_true]
      rcases List.mem_append.1 hx with hx | hx
      · exact .inr (.inl (by rw [h1]; simpa using hx))
      · rcases h4 hx with h | h
        · exact .inl (.inr h)
        · exact .inr (.inr h)
  | _, _, _, .ref (t := t) h1 h2 h3 => by
    obtain ⟨r, rfl, h4⟩ := h2.bad
    obtain ⟨h5, h6⟩ := h3.bad
    refine ⟨?_, fun hx => ?_⟩
    · rw [assigns, if_neg (by rw [h1]; decide)]
      refine List.mem_flatMap.2 ⟨_, h5, ?_⟩
      cases r <;> simp
    · rw [List.any_cons, Bool.or_eq_true, List.zip_cons_cons, List.any_cons, Bool.or_eq_true]
      rcases List.mem_append.1 hx with hx | hx
      · rw [h4 hx]
        have := mt (h2.free (Bool.and_eq_true_iff.1 hb).1) (not_not.2 hx)
        exact .inl (.inl (by simpa using this))
      · rcases h6 hx with h | h
        · exact .inl (.inr h)
        · exact .inr (.inr h)
end

theorem wordTree_bad {ws : List String} {nw : NodeWorld} {txt : Bytes} {toks : List Token} {i k : Nat} {S : String} {n : Node}
    (h : WordTree (Written ds false) split (fmrBad known) ws (FailsIf nw) nw txt toks i S k n) (hx : x ∈ (ws.drop i).take k) :
    ∀ p : Parsed, p.text = txt → p.env.tokens = toks.drop i → n.eval nw p = .err := by
  obtain ⟨-, v, h1, h2⟩ := h
  obtain ⟨r, rfl, h3⟩ := h1.bad hb
  obtain ⟨e, h4, h5⟩ := h2 r rfl
  intro p p1 p2
  rw [(h5 p p1 p2).2, h4 (h3 hx)]

end

end Fmr
