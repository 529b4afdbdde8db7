import Verif.Proofs.Expr
import Verif.Proofs.PrintInj
import Verif.Proofs.LexerFwd
import Verif.Props.Extract

/-!
# C42, C43, C44: what Semantic and Eval compute
-/

namespace Fmr

/-! ## C42 -/

/-- Full statement of C42: Semantic prints, and Eval evaluates, the expression denoted by the tree, where a
reader of the printed text cannot see more of a leaf than the string literal printed for it. -/
def C42_statement : Prop :=
  ∀ (w : NodeWorld) (p : Parsed) (n : Node) (e : Expr), Means w p n e →
    n.semantic w p = .ok (e.asPrinted.print w) ∧ n.eval w p = e.asPrinted.value w

mutual
/-- the normalized text of every leaf is its original text -/
def Expr.Faithful : Expr → Prop
  | .leaf nl o => utf8 nl = o
  | .call _ es => AllFaithful es
  | _ => True
def AllFaithful : List Expr → Prop
  | [] => True
  | e :: es => e.Faithful ∧ AllFaithful es
end

mutual
theorem print_asPrinted (w : NodeWorld) : ∀ e : Expr, e.asPrinted.print w = e.print w
  | .leaf _ _ => by simp [Expr.asPrinted, Expr.print]
  | .call fn es => by simp only [Expr.asPrinted, Expr.print, printAll_asPrinted w es]
  | .str _ => rfl
  | .int _ => rfl
  | .float _ => rfl
  | .ctx _ => rfl
  | .empty => rfl
theorem printAll_asPrinted (w : NodeWorld) : ∀ es : List Expr, printAll w (asPrintedAll es) = printAll w es
  | [] => rfl
  | e :: es => by simp only [asPrintedAll, printAll, print_asPrinted w e, printAll_asPrinted w es]
end

mutual
theorem value_asPrinted (w : NodeWorld) : ∀ e : Expr, e.Faithful → e.asPrinted.value w = e.value w
  | .leaf nl o, h => by
    rw [Expr.Faithful] at h
    rw [Expr.asPrinted, Expr.value, Expr.value, h]
  | .call fn es, h => by
    rw [Expr.asPrinted, Expr.value, Expr.value, values_asPrinted w es h]
  | .str _, _ => rfl
  | .int _, _ => rfl
  | .float _, _ => rfl
  | .ctx _, _ => rfl
  | .empty, _ => rfl
theorem values_asPrinted (w : NodeWorld) : ∀ es : List Expr, AllFaithful es →
    values w (asPrintedAll es) = values w es
  | [], _ => rfl
  | e :: es, h => by
    simp only [asPrintedAll, values, value_asPrinted w e h.1, values_asPrinted w es h.2]
end

/-- C42, the computation: if a tree denotes an expression (it does whenever Semantic or Eval succeed, see
`C42_denotes`), Semantic prints exactly this expression and Eval yields exactly its value, where functions are
applied to the values of their arguments and the first error is the result. -/
theorem C42_same_expression (w : NodeWorld) (p : Parsed) (n : Node) (e : Expr) (h : Means w p n e) :
    n.semantic w p = .ok (e.print w) ∧ n.eval w p = e.value w := means_ok h

/-- C42 for trees whose leaves have equal normalized and original texts. Missing: other trees, for which the
literal shown by Semantic is not the string used by Eval (`C42_false`). -/
theorem C42_partial (w : NodeWorld) (p : Parsed) (n : Node) (e : Expr) (h : Means w p n e) (hf : e.Faithful) :
    n.semantic w p = .ok (e.asPrinted.print w) ∧ n.eval w p = e.asPrinted.value w := by
  rw [print_asPrinted, value_asPrinted w e hf]
  exact means_ok h

/-- If Semantic or Eval has a result the tree denotes an expression; so an error of Semantic means that the
tree denotes nothing, and then Eval fails too. -/
theorem C42_denotes (w : NodeWorld) (p : Parsed) (n : Node) (hr : Readable w p n)
    (h : (∃ s, n.semantic w p = .ok s) ∨ (∃ v, n.eval w p = .ok v)) : ∃ e, Means w p n e :=
  result_means n hr h

/-- an error of Semantic is an error of Eval -/
theorem C42_errors (w : NodeWorld) (p : Parsed) (n : Node) (hc : CallsReturn w) (hl : Labelled w p n) :
    ((∃ e, Means w p n e) ↔ ∃ s, n.semantic w p = .ok s) ∧
    (n.semantic w p = .err → n.eval w p = .err) := by
  refine ⟨⟨fun ⟨e, h⟩ => ⟨_, (means_ok h).1⟩, fun h => result_means n hl.1 (.inl h)⟩, fun he => ?_⟩
  rcases (settled_node hc n hl).2 with ⟨v, hv⟩ | hv
  · obtain ⟨e, h⟩ := result_means n hl.1 (.inr ⟨v, hv⟩)
    rw [(means_ok h).1] at he
    simp at he
  · exact hv

/-! ### trees of a parse -/

mutual
theorem TreeOK.no_gamma {env : Env} {L : Lang} (hwf : env.WF) (hlit : env.NoGammaText) : ∀ {n : Node} {t : Term} {a b : Nat},
    TreeOK env L t a b n → t.value ≠ gammaRule → ∀ m, Node.Sub m n → m.value.term.value ≠ gammaRule
  | .mk v cs, t, a, b, h, hg => by
    have hv : v.term.value = t.value := by
      cases h with
      | terminal _ _ _ h4 => simp only [Node.value] at h4; rw [h4]
      | any _ _ _ _ _ _ _ _ _ h10 => exact h10
      | nonterminal _ _ h3 => exact h3
      | list _ _ h3 => exact h3
    intro m hm
    cases hm with
    | refl => simp only [Node.value]; rw [hv]; exact hg
    | @child _ k hk hs =>
      simp only [Node.children] at hk
      cases h with
      | terminal _ _ _ _ _ _ _ h8 => simp only [Node.children] at h8; rw [h8] at hk; simp at hk
      | any _ _ _ _ _ _ _ _ h9 => simp only [Node.children] at h9; rw [h9] at hk; simp at hk
      | nonterminal _ h2 _ _ _ _ _ h8 =>
        exact ForestOK.no_gamma hwf hlit h8 (fun t' ht' => (em (t'.type = .terminal)).elim (hlit t' ⟨_, _, h2, ht'⟩) (hwf.noGamma.2.1 t' ⟨_, _, h2, ht'⟩)) k hk m hs
      | list _ _ _ _ _ _ _ h8 =>
        refine ForestOK.no_gamma hwf hlit h8 (fun t' ht' => ?_) k hk m hs
        rw [List.eq_of_mem_replicate ht']
        exact hg
theorem ForestOK.no_gamma {env : Env} {L : Lang} (hwf : env.WF) (hlit : env.NoGammaText) : ∀ {ns : List Node} {ts : List Term} {a b : Nat},
    ForestOK env L ts a b ns → (∀ t ∈ ts, t.value ≠ gammaRule) → ∀ n ∈ ns, ∀ m, Node.Sub m n →
    m.value.term.value ≠ gammaRule
  | [], _, _, _, _, _ => by simp
  | n :: ns, _, _, _, h, hg => by
    cases h with
    | cons h1 h2 =>
      intro k hk m hm
      rcases List.mem_cons.1 hk with hk | hk
      · rw [hk] at hm
        exact TreeOK.no_gamma hwf hlit h1 (hg _ (by simp)) m hm
      · exact ForestOK.no_gamma hwf hlit h2 (fun t ht => hg t (by simp [ht])) k hk m hm
end

theorem RootOK.labelled {w : NodeWorld} {p : Parsed} {text : Bytes} {S : String} {j : Nat} {n : Node}
    (hwf : p.env.WF) (hlit : p.env.NoGammaText) (hedge : ∀ m, Node.Sub m n → ¬ p.AtEdge m) (hS : S ∈ p.env.starts)
    (hroot : RootOK p.env p.env.relaxedLang S j n) (hj : j ≤ p.env.tokens.length)
    (hord : TokensOrdered text p.env.tokens) (hlen : text.length ≤ p.text.length) : Labelled w p n := by
  refine ⟨fun m hm => ?_, fun m hm => ?_⟩
  · have hin := hroot.inside hj m hm
    refine ⟨?_, ?_⟩
    · refine ⟨_, (p.env.tokens.drop m.value.start).take (m.value.stop - m.value.start), ?_, ?_, rfl⟩
      · simp; omega
      · intro k hk
        rw [List.getElem?_take_of_lt hk, List.getElem?_drop]
    · rcases C21_node p text m hord hlen hin with ⟨_, _, _, _, _, _, h⟩ | ⟨_, _, _, _, _, h⟩ | ⟨h, _⟩
      · exact ⟨_, h⟩
      · exact ⟨_, h⟩
      · exact absurd h (hedge m hm)
  · obtain ⟨g1, _, _, _, g5, c, g6, g7⟩ := hroot
    have hS' : S ≠ gammaRule := fun e => hwf.noGamma.2.2 (e ▸ hS)
    cases hm with
    | refl =>
      rw [nodeTerm, if_pos (show n.value.term.value = gammaRule from g1), g5]
      exact ⟨_, rfl⟩
    | child hk hs =>
      rw [g6, List.mem_singleton] at hk
      subst hk
      exact ⟨_, by rw [nodeTerm, if_neg (TreeOK.no_gamma hwf hlit g7 hS' m hs)]⟩

/-- C42: `F` of the tree of a match is the function of the alternative of the start rule that was matched, and `F` of
any other node that of its own alternative; it does not panic for them. -/
theorem C42_function {env : Env} {L : Lang} {S : String} {k : Nat} {n : Node} (h : RootOK env L S k n) :
    (∃ c rb, n.children = [c] ∧ c.value.rb = some rb ∧ nodeF n = .ok rb.f) ∧
      ∀ m, m.value.term.value ≠ "ɣ" → nodeF m = .ok (match m.value.rb with
        | none => none
        | some rb => if rb.terms = [] then none else rb.f) := by
  obtain ⟨g1, -, -, -, g5, c, g6, g7⟩ := h
  constructor
  · have hrb : ∃ rb, c.value.rb = some rb := by
      generalize ht : ({ value := S, type := .nonterminal, «meta» := .nil } : Term) = t at g7
      cases g7 with
      | nonterminal _ _ _ _ h => exact ⟨_, h⟩
      | terminal h => subst ht; cases h
      | any h => subst ht; cases h
      | list h => subst ht; cases h
    obtain ⟨rb, hrb⟩ := hrb
    refine ⟨c, rb, g6, hrb, ?_⟩
    unfold nodeF
    rw [g5]
    simp only
    rw [if_neg (by simp [startBody]), if_pos (show n.value.term.value = gammaRule from g1), g6]
    simp only [hrb]
  · intro m hm
    unfold nodeF
    cases m.value.rb with
    | none => rfl
    | some rb =>
      simp only
      rw [if_neg (show ¬ m.value.term.value = gammaRule from hm)]
      split <;> rfl

/-- What `F` does with a node of the internal start rule that is not the root of a tree: it panics if the node has no
child, or a child without alternative. -/
theorem C42_function_panics (n : Node) : nodeF n = .panic ↔ n.value.term.value = "ɣ" ∧
    (∃ rb, n.value.rb = some rb ∧ rb.terms ≠ []) ∧ ∀ c, n.children.head? = some c → c.value.rb = none := by
  unfold nodeF
  cases n.value.rb with
  | none => simp
  | some rb =>
    simp only [Option.some.injEq, exists_eq_left']
    by_cases h1 : rb.terms = []
    · simp [h1]
    · by_cases h2 : n.value.term.value = gammaRule
      · rw [if_neg h1, if_pos h2]
        cases n.children with
        | nil => simpa [h1] using (show n.value.term.value = "ɣ" from h2)
        | cons c cs =>
          cases hc : c.value.rb with
          | none => simpa [h1, hc] using (show n.value.term.value = "ɣ" from h2)
          | some rb => simp [hc]
      · rw [if_neg h1, if_neg h2]
        simp only [reduceCtorEq, false_iff]
        exact fun h => h2 h.1

/-- The nodes of a tree of a parse all have a text, a normalized text and a label exactly if none of them is an
empty node at an end of the token list; then neither Semantic nor Eval panics (`C43_no_panic`). For all grammars
and all texts. -/
theorem C42_labelled (w : NodeWorld) (p : Parsed) (flag : Bool) (f fuel : Nat) (ns : List Node)
    (text : Bytes) (hwf : p.env.WF) (hlit : p.env.NoGammaText) (ho : p.env.OrdOK) (hun : Unmixed p.env) (hany : AnyNamed p.env)
    (hpar : parse p.env flag f = some p.res) (h : TreesOf fuel p ns)
    (hord : TokensOrdered text p.env.tokens) (hlen : text.length ≤ p.text.length) :
    ∀ n ∈ ns, Labelled w p n ↔ ∀ m, Node.Sub m n → ¬ p.AtEdge m := by
  intro n hn
  obtain ⟨S, hS, j, hj, hroot⟩ := tree_inside hwf ho hun hany hpar h n hn
  refine ⟨fun hl m hm he => ?_, fun hedge => hroot.labelled hwf hlit hedge hS hj hord hlen⟩
  obtain ⟨o, hot⟩ := (hl.1 m hm).2
  rcases C21_node p text m hord hlen (hroot.inside hj m hm) with ⟨h1, _⟩ | ⟨_, h1, _⟩ | ⟨_, _, h1⟩
  · have := he.1; omega
  · exact h1 he
  · rw [h1] at hot; cases hot

/-- `C42_labelled` for grammars without nullables -/
theorem C42_labelled_partial (w : NodeWorld) (p : Parsed) (flag : Bool) (f fuel : Nat) (ns : List Node)
    (text : Bytes) (hwf : p.env.WF) (hlit : p.env.NoGammaText) (ho : p.env.OrdOK) (hun : Unmixed p.env) (hany : AnyNamed p.env)
    (hne : NoEmpty p.env) (hpar : parse p.env flag f = some p.res) (h : TreesOf fuel p ns)
    (hord : TokensOrdered text p.env.tokens) (hlen : text.length ≤ p.text.length) :
    ∀ n ∈ ns, Labelled w p n := by
  intro n hn
  obtain ⟨S, hS, j, hj, hroot⟩ := tree_inside hwf ho hun hany hpar h n hn
  exact hroot.labelled hwf hlit (hroot.noEdge hne hj) hS hj hord hlen

/-! ### witnesses -/

/-- a parse without grammar, over the text `a  b` with two blanks -/
def pAB : Parsed :=
  { text := [97, 32, 32, 98],
    env := { grammars := [], starts := ["s"], tmatch := plainMatch, ord := idOrd,
             tokens := [{ text := "a", startByte := 0, endByte := 1 }, { text := "b", startByte := 3, endByte := 4 }] },
    res := { chart := [], finals := [] }, off := 0 }

/-- plain printing; `f` puts its first argument into a list, other functions fail -/
def wPlain : NodeWorld :=
  { isPrint := fun c => decide (32 ≤ c.toNat ∧ c.toNat < 127), decode := fun b => b.map (fun x => .rune (Char.ofNat x.toNat)),
    join := " ".intercalate, floatStr := fun q => toString q.num,
    call := fun fn vs => if fn = "f" then .ok (.list vs) else .err, marshal := fun _ => "{}" }

/-- the leaf of `(any)` over both tokens -/
def nAny : Node := .mk { term := ⟨"any", .any, .nil⟩, rb := none, start := 0, stop := 2, dot := 2 } []

theorem nAny_nl : NLOf wPlain pAB nAny "a b" :=
  ⟨pAB.env.tokens, rfl, fun k hk => by simp only [nAny, Node.value, Nat.zero_add], by decide +kernel⟩

theorem nAny_means : Means wPlain pAB nAny (.leaf "a b" [97, 32, 32, 98]) :=
  .leaf (fun rb h => by simp [nAny, Node.value] at h) nAny_nl (by decide +kernel)

/-- C42 fails: for the text `a  b` Semantic of an `(any)` leaf prints `"a b"`, Eval yields `a  b`. -/
theorem C42_false : ¬ C42_statement := by
  intro h
  have h1 := (h wPlain pAB nAny _ nAny_means).2
  rw [(means_ok nAny_means).2] at h1
  simp only [Expr.asPrinted, Expr.value, Out.ok.injEq, Value.str.injEq] at h1
  exact absurd h1 (by decide +kernel)

/-- the tree of `<s> = (any) "b" {f($1, nf.I("x"), $0)}` over the same text -/
def nCall : Node :=
  .mk { term := nt "s",
        rb := some { terms := [⟨"any", .any, .nil⟩, tt "b"],
                     f := some (.mk "f" [.mk "index" (.int 1),
                       .mk "func" (.fmr (.mk "nf.I" [.mk "string" (.str "x")])), .mk "index" (.int 0)]) },
        start := 0, stop := 2, dot := 2 }
    [.mk { term := ⟨"any", .any, .nil⟩, rb := none, start := 0, stop := 1, dot := 1 } [],
     .mk { term := tt "b", rb := none, start := 1, stop := 2, dot := 0 } []]

theorem nCall_means : Means wPlain pAB nCall (.call "f" [.leaf "a" [97], .str "x", .str "a b"]) := by
  have hnl : NLOf wPlain pAB nCall "a b" :=
    ⟨pAB.env.tokens, rfl, fun k hk => by simp only [nCall, Node.value, Nat.zero_add], by decide +kernel⟩
  refine .rule rfl rfl hnl (.call (by decide) (.cons (.child (k := 0) rfl ?_)
    (.cons (.func (.proj .string)) (.cons (.self hnl) .nil))))
  refine .leaf (fun rb h => by simp [Node.value] at h) ⟨[{ text := "a", startByte := 0, endByte := 1 }], rfl, ?_, ?_⟩ ?_
  · intro k hk
    simp only [Node.value] at hk
    have : k = 0 := by omega
    subst this; rfl
  · decide +kernel
  · decide +kernel

/-- `C42_partial` at work -/
example : nCall.semantic wPlain pAB = .ok "f(\"a\", \"x\", \"a b\")" ∧
    nCall.eval wPlain pAB = .ok (.list [.str [97], .str [120], .str [97, 32, 98]]) := by
  have h := C42_partial wPlain pAB nCall _ nCall_means (by
    simp only [Expr.Faithful, AllFaithful, and_true]; decide +kernel)
  rw [h.1, h.2]
  refine ⟨?_, ?_⟩
  · congr 1
  · simp only [Expr.asPrinted, asPrintedAll, Expr.value, values, wPlain, Out.bind_ok, Out.pure_eq, if_true]
    have e1 : utf8 "a" = [97] := by decide +kernel
    have e2 : utf8 "x" = [120] := by decide +kernel
    have e3 : utf8 "a b" = [97, 32, 98] := by decide +kernel
    rw [e1, e2, e3]

/-- `C42_errors` is not vacuous -/
example : CallsReturn wPlain ∧ Labelled wPlain pAB nAny := by
  refine ⟨fun fn vs => ?_, fun m hm => ?_, fun m hm => ?_⟩
  · by_cases h : fn = "f"
    · exact .inl ⟨_, if_pos h⟩
    · exact .inr (if_neg h)
  · cases hm with
    | refl => exact ⟨⟨_, nAny_nl⟩, [97, 32, 32, 98], by decide +kernel⟩
    | child hk _ => simp [nAny, Node.children] at hk
  · cases hm with
    | refl => exact ⟨_, rfl⟩
    | child hk _ => simp [nAny, Node.children] at hk

/-- Eval panics on the empty leaf of `(any{0,1})` at the beginning of a text, Semantic prints `""` for it. -/
theorem C42_empty_leaf_panics :
    (Node.mk { term := ⟨"any", .any, .range 0 1⟩, rb := none, start := 0, stop := 0, dot := 0 } []).semantic
      wPlain pAB = .ok "\"\"" ∧
    (Node.mk { term := ⟨"any", .any, .range 0 1⟩, rb := none, start := 0, stop := 0, dot := 0 } []).eval
      wPlain pAB = .panic := ⟨rfl, rfl⟩

/-! ## C43 -/

/-- C43 for indices: outside `0..number of children` both give an error; 0 is the text of the node; `k+1` is
what child number `k` gives. For every receiver and all children. -/
theorem C43_index (w : NodeWorld) (self : Self) (kids : List Kid) (nl : String) (i : Int) :
    let arg : Arg := .mk "index" (.int i)
    (i < 0 ∨ kids.length < i →
      semStr w self (kids.map some) nl arg = .err ∧ semEval w self (kids.map some) arg = .err) ∧
    (i = 0 → semStr w self (kids.map some) nl arg = .ok nl ∧
      semEval w self (kids.map some) arg = self.nl >>= fun s => .ok (.str (utf8 s))) ∧
    (∀ (k : Nat) (c : Kid), i = k + 1 → kids[k]? = some c →
      semStr w self (kids.map some) nl arg = c.sem ∧ semEval w self (kids.map some) arg = c.eval) ∧
    (0 < i → i ≤ kids.length → ∃ c ∈ kids, semStr w self (kids.map some) nl arg = c.sem ∧
      semEval w self (kids.map some) arg = c.eval) := by
  intro arg
  have e1 : semStr w self (kids.map some) nl arg = indexStr (kids.map some) nl i := by
    simp only [arg, semStr, semVal, if_true]
  have e2 : semEval w self (kids.map some) arg = indexEval self (kids.map some) i := by
    simp only [arg, semEval, evalVal, if_true]
  rw [e1, e2]
  have hchild : ∀ (k : Nat) (c : Kid), i = k + 1 → kids[k]? = some c →
      indexStr (kids.map some) nl i = c.sem ∧ indexEval self (kids.map some) i = c.eval := by
    intro k c hi hc
    have hk := (List.getElem?_eq_some_iff.1 hc).1
    have h1 : ¬ (i < 0 ∨ i > ((kids.map some).length : Int)) := by rw [List.length_map]; omega
    have h2 : ¬ i = 0 := by omega
    have h3 : (i - 1).toNat = k := by omega
    rw [indexStr, indexEval, if_neg h1, if_neg h2, if_neg h1, if_neg h2, h3, List.getElem?_map, hc]
    exact ⟨rfl, rfl⟩
  refine ⟨fun h => ?_, fun h => ?_, hchild, fun h0 h1 => ?_⟩
  · have h1 : i < 0 ∨ i > ((kids.map some).length : Int) := by rw [List.length_map]; exact h
    rw [indexStr, indexEval, if_pos h1, if_pos h1]
    exact ⟨rfl, rfl⟩
  · subst h
    have h1 : ¬ ((0 : Int) < 0 ∨ (0 : Int) > ((kids.map some).length : Int)) := by omega
    rw [indexStr, indexEval, if_neg h1, if_neg h1, if_pos rfl, if_pos rfl]
    exact ⟨rfl, rfl⟩
  · have hk : (i - 1).toNat < kids.length := by omega
    refine ⟨kids[(i - 1).toNat], List.getElem_mem _, hchild (i - 1).toNat _ (by omega) (List.getElem?_eq_getElem hk)⟩

/-- the types of arguments and the values that go with them -/
def Typed : String → Val → Prop
  | "string", .str _ => True
  | "int", .bigInt _ => True
  | "float", .bigFloat _ => True
  | "index", .int _ => True
  | "func", .fmr _ => True
  | "func", .nilFmr => True
  | "context", _ => True
  | _, _ => False

theorem typed_cases {t : String} {x : Val} (h : ¬ Typed t x) : t ≠ "context" ∧
    (∀ s, x = .str s → t ≠ "string") ∧ (∀ i, x = .bigInt i → t ≠ "int") ∧ (∀ q, x = .bigFloat q → t ≠ "float") ∧
    (∀ i, x = .int i → t ≠ "index") ∧ (∀ f, x = .fmr f → t ≠ "func") ∧ (x = .nilFmr → t ≠ "func") := by
  refine ⟨?_, ?_, ?_, ?_, ?_, ?_, ?_⟩
  · rintro rfl; exact h (by simp [Typed])
  all_goals intros; subst_vars; rintro rfl; exact h (by simp [Typed])

/-- C43 for types: an argument whose value does not have its type, or whose type is unknown, gives an error. -/
theorem C43_mistyped (w : NodeWorld) (self : Self) (kids : List (Option Kid)) (nl : String) (t : String) (x : Val)
    (h : ¬ Typed t x) :
    semStr w self kids nl (.mk t x) = .err ∧ semEval w self kids (.mk t x) = .err := by
  obtain ⟨h0, h1, h2, h3, h4, h5, h6⟩ := typed_cases h
  rw [semStr, semEval]
  cases x with
  | str s => simp only [semVal, evalVal, if_neg (h1 s rfl), if_neg h0, and_self]
  | bigInt s => simp only [semVal, evalVal, if_neg (h2 s rfl), if_neg h0, and_self]
  | bigFloat s => simp only [semVal, evalVal, if_neg (h3 s rfl), if_neg h0, and_self]
  | int s => simp only [semVal, evalVal, if_neg (h4 s rfl), if_neg h0, and_self]
  | fmr s => simp only [semVal, evalVal, if_neg (h5 s rfl), if_neg h0, and_self]
  | nilFmr => simp only [semVal, evalVal, if_neg (h6 rfl), if_neg h0, and_self]
  | other s => simp only [semVal, evalVal, if_neg h0, and_self]

/-- C43: neither Semantic nor Eval panics, whatever the rule semantics look like, on a tree all of whose nodes
have texts and labels (see `C42_labelled_partial`), if no registered function panics. -/
theorem C43_no_panic (w : NodeWorld) (p : Parsed) (n : Node) (hc : CallsReturn w) (hl : Labelled w p n) :
    ((∃ s, n.semantic w p = .ok s) ∨ n.semantic w p = .err) ∧ ((∃ v, n.eval w p = .ok v) ∨ n.eval w p = .err) :=
  settled_node hc n hl

/-- the children of a node, for `C43_index` -/
theorem kidsOf_some (w : NodeWorld) (p : Parsed) (cs : List Node) :
    kidsOf w p cs = (cs.map (Node.kid w p)).map some := by
  rw [kidsOf_eq, List.map_map]; rfl

example : ¬ Typed "index" (.str "1") ∧ ¬ Typed "float" (.bigInt 1) ∧ ¬ Typed "foo" (.int 1) ∧ ¬ Typed "" .nilFmr := by
  simp [Typed]

/-- `$3` and `$-1` in a rule with two children -/
example : (semStr wPlain (nodeSelf wPlain pAB nCall.value) (kidsOf wPlain pAB nCall.children) "" (.mk "index" (.int 3))) = .err ∧
    (semStr wPlain (nodeSelf wPlain pAB nCall.value) (kidsOf wPlain pAB nCall.children) "" (.mk "index" (.int (-1)))) = .err ∧
    (semStr wPlain (nodeSelf wPlain pAB nCall.value) (kidsOf wPlain pAB nCall.children) "" (.mk "index" (.int 2)))
      = .ok "\"b\"" := ⟨rfl, rfl, rfl⟩

/-! ## C44 -/

/-- Full statement of C44. Leaves are compared as printed, i.e. as string literals. -/
def C44_statement : Prop :=
  ∀ (w : NodeWorld) (p q : Parsed) (n m : Node) (e f : Expr), Means w p n e → Means w q m f →
    n.semantic w p = m.semantic w q → e.asPrinted = f.asPrinted

/-- C44 without floating point numbers, contexts and nil functions, for function names without `(`, `,`, `)`
that do not begin with a quote (names that can be written in a grammar are such, `fnName_ok`). Missing: see
`C44_false` for numbers; a context is printed by the external JSON encoder. -/
theorem C44_partial (w : NodeWorld) (p q : Parsed) (n m : Node) (e f : Expr) (he : Means w p n e)
    (hf : Means w q m f) (pe : e.Plain) (pf : f.Plain) (h : n.semantic w p = m.semantic w q) :
    e.asPrinted = f.asPrinted := by
  rw [(means_ok he).1, (means_ok hf).1, Out.ok.injEq] at h
  exact print_inj w pe pf h

theorem fnName_ok {w : LexWorld} (hw : w.OK) {fn : String} (h : FnName w fn.toList) : FnOK fn := by
  cases hfn : fn.toList with
  | nil => rw [hfn] at h; cases h
  | cons c t =>
    rw [hfn] at h
    cases h with
    | mk h1 h2 _ =>
      have key : ∀ d ∈ ['(', ',', ')', '"'], ¬ (w.isLetter d = true ∨ d = '_' ∨ w.isDigit d = true ∨ d = '.') := by
        intro d hd
        obtain ⟨k1, k2, _⟩ := hw.punct d (by revert hd; simp; rintro (rfl | rfl | rfl | rfl) <;> simp)
        rw [k1, k2]
        revert hd
        simp
        rintro (rfl | rfl | rfl | rfl) <;> decide
      have h2' : ∀ d ∈ c :: t, w.isLetter d = true ∨ d = '_' ∨ w.isDigit d = true ∨ d = '.' := by
        intro d hd
        rcases List.mem_cons.1 hd with rfl | hd
        · rcases h1 with h1 | h1
          · exact .inl h1
          · exact .inr (.inl h1)
        · exact h2 d hd
      refine ⟨fun d hd => ?_, ?_⟩
      · rw [hfn] at hd
        have := h2' d hd
        refine ⟨?_, ?_, ?_⟩ <;> rintro rfl <;> exact key _ (by simp) this
      · rw [hfn]
        simp only [List.head?_cons, ne_eq, Option.some.injEq]
        rintro rfl
        exact key '"' (by simp) (h2' '"' (by simp))

/-- a node of `<s> = "a" {nf.I(x)}` -/
def nProj (a : Arg) : Node :=
  .mk { term := nt "s", rb := some { terms := [tt "a"], f := some (.mk "nf.I" [a]) }, start := 0, stop := 1, dot := 1 }
    [.mk { term := tt "a", rb := none, start := 0, stop := 1, dot := 0 } []]

theorem nProj_means {a : Arg} {e : Expr} (h : ArgMeans wPlain pAB (nProj a) a e) : Means wPlain pAB (nProj a) e := by
  refine .rule rfl rfl (nl := "a") ⟨[{ text := "a", startByte := 0, endByte := 1 }], rfl, ?_, ?_⟩ (.proj h)
  · intro k hk
    simp only [nProj, Node.value] at hk
    have : k = 0 := by omega
    subst this; rfl
  · decide +kernel

/-- C44 fails: the integer 3 and the floating point number 3.0 print alike (`(*big.Float).String` of 3 is
"3"). -/
theorem C44_false : ¬ C44_statement := by
  intro h
  have := h wPlain pAB pAB _ _ _ _ (nProj_means (.int (i := 3))) (nProj_means (.float (q := 3))) (by decide +kernel)
  simp [Expr.asPrinted] at this

/-- a text that looks like the end of a literal and a call: it stays inside its literal -/
example : (nProj (.mk "string" (.str "\", g(\"x"))).semantic wPlain pAB = .ok "\"\\\", g(\\\"x\"" := rfl

example : (Expr.call "f" [.leaf "a" [97], .str "x", .str "a b"]).Plain := by
  refine ⟨⟨by decide +kernel, by decide +kernel⟩, trivial, trivial, trivial, trivial⟩

end Fmr
