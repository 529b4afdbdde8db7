import Verif.Proofs.Visible
import Verif.Props.Eval
import Verif.Props.ArithShown
import Verif.Props.Loaded
import Verif.Proofs.PrintEnv

/-!
# C44: exactly which trees print alike
-/

namespace Fmr

/-- C44, exactly: two trees print alike if and only if the same can be seen of their expressions: the same calls
of the same functions with the same strings, and numbers and contexts with the same texts. -/
theorem C44_exact (w : NodeWorld) (p q : Parsed) (n m : Node) (e f : Expr) (he : Means w p n e)
    (hf : Means w q m f) (le : e.Legible w) (lf : f.Legible w) :
    n.semantic w p = m.semantic w q ↔ e.visible w = f.visible w := by
  rw [(means_ok he).1, (means_ok hf).1, Out.ok.injEq]
  exact print_iff_visible w le lf

/-! ## Which expressions are legible -/

theorem fnName_legible {w : LexWorld} (hw : w.OK) {x : List Char} (h : FnName w x) :
    FnOK (String.ofList x) ∧ (String.ofList x).toList.head? ≠ some '{' := by
  refine ⟨fnName_ok hw (by rw [String.toList_ofList]; exact h), ?_⟩
  rw [String.toList_ofList]
  cases h with
  | mk h1 _ _ =>
    rw [List.head?_cons]
    intro e
    cases e
    have := (hw.punct '{' (by simp)).1
    rcases h1 with h1 | h1
    · rw [this] at h1; cases h1
    · exact absurd h1 (by decide)

/-- A function whose arguments have the types they announce and in which all names can be told from punctuation. -/
def Sayable (f : FMR) : Prop := f.WF ∧ ∀ x ∈ f.fns, FnOK x ∧ x.toList.head? ≠ some '{'

mutual
theorem fnsLegible_fmr {w : LexWorld} (hw : w.OK) : ∀ {f : FMR}, FmrWF w f → ∀ x ∈ f.fns, FnOK x ∧ x.toList.head? ≠ some '{'
  | _, .mk h1 _ h2 => by
    intro x hx
    rw [FMR.fns] at hx
    rcases List.mem_cons.1 hx with rfl | hx
    · exact fnName_legible hw h1
    · exact fnsLegible_args hw h2 x hx
theorem fnsLegible_args {w : LexWorld} (hw : w.OK) : ∀ {l : List Arg}, ArgsWF w l →
    ∀ x ∈ argsFns l, FnOK x ∧ x.toList.head? ≠ some '{'
  | _, .nil => by intro x hx; rw [argsFns] at hx; cases hx
  | _, .cons h1 h2 => by
    intro x hx
    rw [argsFns] at hx
    rcases List.mem_append.1 hx with hx | hx
    · exact fnsLegible_arg hw h1 x hx
    · exact fnsLegible_args hw h2 x hx
theorem fnsLegible_arg {w : LexWorld} (hw : w.OK) : ∀ {a : Arg}, ArgWF w a →
    ∀ x ∈ a.fns, FnOK x ∧ x.toList.head? ≠ some '{'
  | _, .context | _, .index | _, .string | _, .int | _, .float => by
    intro x hx
    rw [Arg.fns, Val.fns] at hx
    cases hx
  | _, .func h => by
    intro x hx
    rw [Arg.fns, Val.fns] at hx
    exact fnsLegible_fmr hw h x hx
end

/-- the functions that can be written in a grammar -/
theorem FmrWF.sayable {lw : LexWorld} (hlw : lw.OK) {f : FMR} (h : FmrWF lw f) : Sayable f :=
  ⟨h.wf, fnsLegible_fmr hlw h⟩

theorem sayable_list (x : String) (m : Nat) (f : FMR) (h : (listBody x m).f = some f) : Sayable f := by
  cases h
  have h1 : ∀ l : List Nat, argsWF (l.map fun (i : Nat) => Arg.mk "index" (.int (i + 1))) ∧
      argsFns (l.map fun (i : Nat) => Arg.mk "index" (.int (i + 1))) = [] := by
    intro l
    induction l with
    | nil => exact ⟨trivial, rfl⟩
    | cons i l ih => exact ⟨⟨rfl, ih.1⟩, by rw [List.map_cons, argsFns, ih.2]; rfl⟩
  refine ⟨(h1 _).1, fun y hy => ?_⟩
  rw [FMR.fns, (h1 _).2, List.mem_singleton] at hy
  subst hy
  exact ⟨⟨by decide +kernel, by decide +kernel⟩, by decide +kernel⟩

theorem sayable_start (S : String) (f : FMR) (h : (startBody S).f = some f) : Sayable f := by
  cases h
  refine ⟨⟨rfl, trivial⟩, fun y hy => ?_⟩
  have : y ∈ ["nf.I"] := hy
  rw [List.mem_singleton] at this
  subst this
  exact ⟨⟨by decide +kernel, by decide +kernel⟩, by decide +kernel⟩

/-- the functions of all alternatives in a tree are such -/
def FnsSayable (n : Node) : Prop :=
  ∀ m, Node.Sub m n → ∀ rb f, m.value.rb = some rb → rb.f = some f → Sayable f

section
variable {w : NodeWorld} {p : Parsed} (hnum : ∀ q, NumberText (w.floatStr q))
  (hobj : ∀ text pos nodes ty, ObjectText (w.marshal (.ctx text pos nodes ty)))
include hnum hobj

mutual
theorem means_legible : ∀ {n : Node} {e : Expr}, FnsSayable n → Means w p n e → e.Legible w
  | n, _, _, .leaf _ _ _ => by rw [Expr.Legible]; trivial
  | n, _, hn, .rule hrb hf _ h => fmrMeans_legible hn (hn n .refl _ _ hrb hf).1 (hn n .refl _ _ hrb hf).2 h
theorem fmrMeans_legible : ∀ {n : Node} {f : FMR} {e : Expr}, FnsSayable n → f.WF →
    (∀ x ∈ f.fns, FnOK x ∧ x.toList.head? ≠ some '{') → FmrMeans w p n f e → e.Legible w
  | n, _, _, hn, hf, hx, .proj h => by
    rw [FMR.WF, argsWF] at hf
    rw [FMR.fns, argsFns] at hx
    exact argMeans_legible hn hf.1 (fun x h => hx x (by simp [h])) h
  | n, _, _, hn, hf, hx, .call _ h => by
    rw [FMR.WF] at hf
    rw [FMR.fns] at hx
    rw [Expr.Legible]
    exact ⟨hx _ (by simp), argsMean_legible hn hf (fun x h => hx x (by simp [h])) h⟩
theorem argsMean_legible : ∀ {n : Node} {as : List Arg} {es : List Expr}, FnsSayable n → argsWF as →
    (∀ x ∈ argsFns as, FnOK x ∧ x.toList.head? ≠ some '{') → ArgsMean w p n as es → AllLegible w es
  | _, _, _, _, _, _, .nil => by rw [AllLegible]; trivial
  | n, _, _, hn, ha, hx, .cons h hs => by
    rw [AllLegible]
    rw [argsWF] at ha
    rw [argsFns] at hx
    exact ⟨argMeans_legible hn ha.1 (fun x h => hx x (by simp [h])) h,
      argsMean_legible hn ha.2 (fun x h => hx x (by simp [h])) hs⟩
theorem argMeans_legible : ∀ {n : Node} {a : Arg} {e : Expr}, FnsSayable n → a.WF →
    (∀ x ∈ a.fns, FnOK x ∧ x.toList.head? ≠ some '{') → ArgMeans w p n a e → e.Legible w
  | _, _, _, _, _, _, .string => by rw [Expr.Legible]; trivial
  | _, _, _, _, _, _, .int => by rw [Expr.Legible]; trivial
  | _, _, _, _, _, _, .float => by rw [Expr.Legible]; exact hnum _
  | _, _, _, _, _, _, .self _ => by rw [Expr.Legible]; trivial
  | n, _, _, hn, _, _, .child hc h =>
    means_legible (fun m hm => hn m (Node.Sub.kid (List.mem_of_getElem? hc) hm)) h
  | n, _, _, hn, ha, hx, .func h => by
    rw [Arg.WF, Val.WFFor] at ha
    rw [Arg.fns, Val.fns] at hx
    exact fmrMeans_legible hn ha.2 hx h
  | _, _, _, _, ha, _, .nilFunc => by rw [Arg.WF, Val.WFFor] at ha; exact ha.elim
  | _, _, _, _, _, _, .context (.mk _ _ _ _ _) => by rw [Expr.Legible]; exact hobj _ _ _ _
end

end

/-- The functions in the trees of a parse are those of the grammar, of lists and of the internal start symbol. -/
theorem trees_sayable {p : Parsed} {flag : Bool} {fuel fuel' : Nat} {ns : List Node} (hwf : p.env.WF) (ho : p.env.OrdOK)
    (hun : Unmixed p.env) (hany : AnyNamed p.env) (hpar : parse p.env flag fuel = some p.res) (h : TreesOf fuel' p ns)
    (hf : ∀ A rb f, p.env.Defines A rb → rb.f = some f → Sayable f) : ∀ n ∈ ns, FnsSayable n := by
  intro n hn
  obtain ⟨S, hS, j, hj, -, -, -, -, hrb, c, hc, hok⟩ := tree_inside hwf ho hun hany hpar h n hn
  have hkid : ∀ m, Node.Sub m c → ∀ rb f, m.value.rb = some rb → rb.f = some f → Sayable f := by
    intro m hm rb f h1 h2
    obtain ⟨t, a, b, ht⟩ := hok.sub hm
    cases ht with
    | terminal _ _ _ _ h5 => rw [h5] at h1; cases h1
    | any _ _ _ _ _ h5 => rw [h5] at h1; cases h1
    | nonterminal _ hd _ _ h5 => rw [h5] at h1; cases h1; exact hf _ _ _ hd h2
    | list _ _ _ _ h5 => rw [h5] at h1; cases h1; exact sayable_list _ _ _ h2
  intro m hm rb f h1 h2
  cases hm with
  | refl => rw [hrb] at h1; cases h1; exact sayable_start _ _ h2
  | child hk hm =>
    rw [hc, List.mem_singleton] at hk
    subst hk
    exact hkid m hm rb f h1 h2

/-- C44 for the trees of parses: two of them print alike if and only if the same can be seen of their expressions. What is
needed: the functions of the grammar are as the loader makes them (`FmrWF.sayable`), numbers are printed as numbers (as
`(*big.Float).String` does, `numberText_bf`) and records as objects (as a JSON encoder does that does not fail). -/
theorem C44_trees (w : NodeWorld) (hnum : ∀ q, NumberText (w.floatStr q))
    (hobj : ∀ text pos nodes ty, ObjectText (w.marshal (.ctx text pos nodes ty)))
    {p q : Parsed} {flag flag' : Bool} {fuel fuel' fuel₁ fuel₂ : Nat} {ns ms : List Node}
    (hwf : p.env.WF) (ho : p.env.OrdOK) (hun : Unmixed p.env) (hany : AnyNamed p.env)
    (hpar : parse p.env flag fuel = some p.res) (h : TreesOf fuel₁ p ns)
    (hf : ∀ A rb f, p.env.Defines A rb → rb.f = some f → Sayable f)
    (hwf' : q.env.WF) (ho' : q.env.OrdOK) (hun' : Unmixed q.env) (hany' : AnyNamed q.env)
    (hpar' : parse q.env flag' fuel' = some q.res) (h' : TreesOf fuel₂ q ms)
    (hf' : ∀ A rb f, q.env.Defines A rb → rb.f = some f → Sayable f) :
    ∀ n ∈ ns, ∀ m ∈ ms, ∀ e f, Means w p n e → Means w q m f →
      (n.semantic w p = m.semantic w q ↔ e.visible w = f.visible w) :=
  fun n hn m hm e f he hf₁ => C44_exact w p q n m e f he hf₁
    (means_legible hnum hobj (trees_sayable hwf ho hun hany hpar h hf n hn) he)
    (means_legible hnum hobj (trees_sayable hwf' ho' hun' hany' hpar' h' hf' m hm) hf₁)

/-! ## The texts of floating point numbers -/

/-- the characters of a number -/
def NumChar (c : Char) : Prop := c.isDigit = true ∨ c = '-' ∨ c = '+' ∨ c = '.' ∨ c = 'e'

theorem tenDigits_chars (q : ℚ) : ∀ c ∈ (tenDigits q).1, NumChar c := by
  intro c hc
  unfold tenDigits trimZeros at hc
  rw [List.mem_reverse] at hc
  have h1 := (List.dropWhile_sublist _).subset hc
  exact .inl (digit_toDigits (List.mem_reverse.1 h1))

theorem fmtF_chars {mant : List Char} (h : ∀ c ∈ mant, NumChar c) (exp : ℤ) :
    fmtF mant exp ≠ [] ∧ ∀ c ∈ fmtF mant exp, NumChar c := by
  have h0 : NumChar '0' := .inl rfl
  unfold fmtF
  dsimp only
  constructor
  · have hip : (if exp ≤ 0 then ['0'] else mant.take exp.toNat ++ List.replicate (exp.toNat - mant.length) '0') ≠ [] := by
      split
      · simp
      · rename_i hx
        intro e
        obtain ⟨e1, e2⟩ := List.append_eq_nil_iff.1 e
        rw [List.replicate_eq_nil_iff] at e2
        rcases List.take_eq_nil_iff.1 e1 with e1 | e1
        · omega
        · subst e1; simp at e2; omega
    generalize (if exp ≤ 0 then ['0'] else mant.take exp.toNat ++ List.replicate (exp.toNat - mant.length) '0') = ip at *
    generalize (if exp < 0 then List.replicate (-exp).toNat '0' ++ mant else mant.drop exp.toNat) = fp at *
    split
    · exact hip
    · simp
  · intro c hc
    have h1 : ∀ c ∈ (if exp ≤ 0 then ['0'] else mant.take exp.toNat ++ List.replicate (exp.toNat - mant.length) '0'),
        NumChar c := by
      intro c hc
      split at hc
      · rw [List.mem_singleton.1 hc]; exact h0
      · rcases List.mem_append.1 hc with hc | hc
        · exact h c ((List.take_sublist _ _).subset hc)
        · rw [(List.mem_replicate.1 hc).2]; exact h0
    have h2 : ∀ c ∈ (if exp < 0 then List.replicate (-exp).toNat '0' ++ mant else mant.drop exp.toNat), NumChar c := by
      intro c hc
      split at hc
      · rcases List.mem_append.1 hc with hc | hc
        · rw [(List.mem_replicate.1 hc).2]; exact h0
        · exact h c hc
      · exact h c ((List.drop_sublist _ _).subset hc)
    generalize (if exp ≤ 0 then ['0'] else mant.take exp.toNat ++ List.replicate (exp.toNat - mant.length) '0') = ip at *
    generalize (if exp < 0 then List.replicate (-exp).toNat '0' ++ mant else mant.drop exp.toNat) = fp at *
    split at hc
    · exact h1 c hc
    · rcases List.mem_append.1 hc with hc | hc
      · exact h1 c hc
      · rcases List.mem_cons.1 hc with rfl | hc
        · exact .inr (.inr (.inr (.inl rfl)))
        · exact h2 c hc

theorem fmtE_chars {mant : List Char} (h : ∀ c ∈ mant, NumChar c) (exp : ℤ) :
    fmtE mant exp ≠ [] ∧ ∀ c ∈ fmtE mant exp, NumChar c := by
  unfold fmtE
  dsimp only
  refine ⟨by simp, fun c hc => ?_⟩
  rcases List.mem_append.1 hc with hc | hc
  · rcases List.mem_append.1 hc with hc | hc
    · exact h c ((List.take_sublist _ _).subset hc)
    · split at hc
      · rcases List.mem_cons.1 hc with rfl | hc
        · exact .inr (.inr (.inr (.inl rfl)))
        · exact h c ((List.drop_sublist _ _).subset hc)
      · cases hc
  · rcases List.mem_cons.1 hc with rfl | hc
    · exact .inr (.inr (.inr (.inr rfl)))
    · rcases List.mem_cons.1 hc with rfl | hc
      · split
        · exact .inr (.inl rfl)
        · exact .inr (.inr (.inl rfl))
      · rcases List.mem_append.1 hc with hc | hc
        · split at hc
          · rw [List.mem_singleton.1 hc]; exact .inl rfl
          · cases hc
        · exact .inl (digit_toDigits hc)

/-- what `(*big.Float).String` writes is a number -/
theorem numberText_bf (x : BF) : NumberText x.text := by
  have key : x.text.toList ≠ [] ∧ ∀ c ∈ x.text.toList, NumChar c := by
    unfold BF.text
    dsimp only
    have hs : ∀ c ∈ (if x.neg then ['-'] else []), NumChar c := by
      intro c hc
      split at hc
      · rw [List.mem_singleton.1 hc]; exact .inr (.inl rfl)
      · cases hc
    generalize (if x.neg then ['-'] else []) = sg at *
    split
    · rw [String.toList_ofList]
      refine ⟨by simp, fun c hc => ?_⟩
      rcases List.mem_append.1 hc with hc | hc
      · exact hs c hc
      · rw [List.mem_singleton.1 hc]; exact .inl rfl
    · rw [String.toList_ofList]
      have h1 := fmtE_chars (tenDigits_chars x.abs) (tenDigits x.abs).2
      have h2 := fmtF_chars (tenDigits_chars x.abs) (tenDigits x.abs).2
      split
      · refine ⟨fun e => h1.1 (List.append_eq_nil_iff.1 e).2, fun c hc => ?_⟩
        rcases List.mem_append.1 hc with hc | hc
        · exact hs c hc
        · exact h1.2 c hc
      · refine ⟨fun e => h2.1 (List.append_eq_nil_iff.1 e).2, fun c hc => ?_⟩
        rcases List.mem_append.1 hc with hc | hc
        · exact hs c hc
        · exact h2.2 c hc
  refine ⟨fun e => key.1 (by rw [e]; rfl), fun c hc => ?_⟩
  have h := key.2 c hc
  refine ⟨?_, ?_, ?_, ?_, ?_⟩ <;> rintro rfl <;> rcases h with h | h | h | h | h <;> exact absurd h (by decide)

/-! ## Witnesses -/

/-- `wPlain` with the texts that `(*big.Float).String` gives -/
def wTen : NodeWorld := { wPlain with floatStr := fun q => (BF.mk (q < 0) |q|).text }

theorem wTen_numbers (q : ℚ) : NumberText (wTen.floatStr q) := numberText_bf _

theorem nProj_means_ten {a : Arg} {e : Expr} (h : ArgMeans wTen pAB (nProj a) a e) : Means wTen pAB (nProj a) e := by
  refine .rule rfl rfl (nl := "a") ⟨[{ text := "a", startByte := 0, endByte := 1 }], rfl, ?_, ?_⟩ (.proj h)
  · intro k hk
    simp only [nProj, Node.value] at hk
    have : k = 0 := by omega
    subst this; rfl
  · decide +kernel

/-- Numbers are printed with ten digits: 1 and 1 + 2^-40 print alike. -/
theorem C44_digits : ¬ ∀ (p q : Parsed) (n m : Node) (x y : ℚ), Means wTen p n (.float x) → Means wTen q m (.float y) →
    n.semantic wTen p = m.semantic wTen q → x = y := by
  intro h
  have := h pAB pAB _ _ _ _ (nProj_means_ten (.float (q := 1))) (nProj_means_ten (.float (q := 1 + 1 / 2 ^ 40)))
    (by decide +kernel)
  exact absurd this (by norm_num)

/-- a record that the JSON encoder refuses (the error is ignored): `f(@)` prints as a call of `f` without arguments -/
def wMute : NodeWorld := { wPlain with marshal := fun _ => "" }

/-- the tree of `<s> = "a" {f(x)}` -/
def nCallOne (args : List Arg) : Node :=
  .mk { term := nt "s", rb := some { terms := [tt "a"], f := some (.mk "f" args) }, start := 0, stop := 1, dot := 1 }
    [.mk { term := tt "a", rb := none, start := 0, stop := 1, dot := 0 } []]

theorem C44_lost_context : (nCallOne [.mk "context" (.str "@")]).semantic wMute pAB = .ok "f()" ∧
    (nCallOne []).semantic wMute pAB = .ok "f()" := by
  constructor <;> decide +kernel

/-- legible expressions: a string that looks like an object or a call, a record with braces in a string, numbers -/
example : (Expr.call "f" [.str "{", .leaf "g(" [], .float (1 / 3), .int (-5), .call "nf.math.sum" []]).Legible wTen := by
  simp only [Expr.Legible, AllLegible, and_true, true_and]
  exact ⟨⟨⟨by decide +kernel, by decide +kernel⟩, by decide +kernel⟩, wTen_numbers _, ⟨by decide +kernel, by decide +kernel⟩,
    by decide +kernel⟩

example : ObjectText "{\"nodes\":[{\"a\":\"}\\\"}\"}],\"text\":\"{\"}" ∧ ¬ ObjectText "{}{}" ∧ ¬ ObjectText "" := by
  refine ⟨⟨_, rfl, by decide +kernel⟩, ?_, ?_⟩
  · rintro ⟨t, h1, h2⟩
    have : t = "}{}".toList := by
      have h3 : "{}{}".toList = '{' :: "}{}".toList := by decide +kernel
      rw [h3] at h1; exact (List.cons.inj h1).2.symm
    subst this
    exact absurd h2 (by decide +kernel)
  · rintro ⟨t, h1, _⟩
    cases h1

/-- `C44_exact` tells 3 and 4 apart, and not 3 and 3.0 -/
example : (Expr.int 3).visible wTen = (Expr.float 3).visible wTen ∧ (Expr.int 3).visible wTen ≠ (Expr.float 4).visible wTen := by
  simp only [Expr.visible, Visible.num.injEq, ne_eq]
  constructor <;> decide +kernel

end Fmr
