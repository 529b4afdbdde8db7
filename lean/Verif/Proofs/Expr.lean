import Verif.Spec.Expr
import Verif.Spec.Trees

/-!
# Lemmas on Eval and Semantic
-/

namespace Fmr

theorem mapOut_eq_ok {α β : Type} {f : α → Out β} {l : List α} {r : List β} :
    mapOut f l = .ok r ↔ List.Forall₂ (fun a b => f a = .ok b) l r := by
  induction l generalizing r with
  | nil => cases r <;> simp [mapOut]
  | cons a l ih =>
    simp only [mapOut, Out.bind_eq_ok, Out.pure_eq]
    constructor
    · rintro ⟨b, hb, r', hr', h⟩
      cases h
      exact .cons hb (ih.1 hr')
    · intro h
      cases h with
      | cons hb hr => exact ⟨_, hb, _, ih.2 hr, rfl⟩

theorem kidsOf_eq (w : NodeWorld) (p : Parsed) (cs : List Node) :
    kidsOf w p cs = cs.map (fun c => some (c.kid w p)) := by
  induction cs with
  | nil => rfl
  | cons c cs ih => simp [kidsOf, ih]

theorem originalText_mk (p : Parsed) (n : Node) (cs : List Node) :
    p.originalText (.mk n.value cs) = p.originalText n := rfl

theorem pos_mk (p : Parsed) (n : Node) (cs : List Node) : p.pos (.mk n.value cs) = p.pos n := rfl

theorem semantic_eq (w : NodeWorld) (p : Parsed) (n : Node) :
    n.semantic w p = semanticWith w (nodeSelf w p n.value) n.value.rb (kidsOf w p n.children) := by
  cases n; rfl

theorem eval_eq (w : NodeWorld) (p : Parsed) (n : Node) :
    n.eval w p = evalWith w (nodeSelf w p n.value) n.value.rb (kidsOf w p n.children) := by
  cases n; rfl

theorem columnToken_succ (toks : List Token) (k : Nat) : columnToken toks (k+1) = Out.ofIndex toks[k]? := rfl

theorem nodeNL_eq_ok {w : NodeWorld} {p : Parsed} {n : Node} {s : String} :
    nodeNL w p n.value = .ok s ↔ NLOf w p n s := by
  simp only [nodeNL, Out.bind_eq_ok, Out.pure_eq, mapOut_eq_ok, Out.ok.injEq]
  constructor
  · rintro ⟨toks, h, rfl⟩
    refine ⟨toks, ?_, ?_, rfl⟩
    · simpa using h.length_eq.symm
    · intro k hk
      have hl : toks.length = n.value.stop - n.value.start := by simpa using h.length_eq.symm
      have := h.get (i := k) (by simpa using hk) (by omega)
      simp only [List.get_eq_getElem, List.getElem_range] at this
      rw [show n.value.start + 1 + k = (n.value.start + k) + 1 by omega, columnToken_succ,
        Out.ofIndex_eq_ok] at this
      rw [this, List.getElem?_eq_getElem]
  · rintro ⟨toks, hl, h, rfl⟩
    refine ⟨toks, ?_, rfl⟩
    rw [List.forall₂_iff_get]
    refine ⟨by simp [hl], ?_⟩
    intro i h1 h2
    simp only [List.length_range] at h1
    simp only [List.get_eq_getElem, List.getElem_range]
    rw [show n.value.start + 1 + i = (n.value.start + i) + 1 by omega, columnToken_succ, Out.ofIndex_eq_ok,
      h i h1, List.getElem?_eq_getElem]

theorem ctxNodes_eq_ok {w : NodeWorld} {p : Parsed} {cs : List Node} {l : List (String × Value)} :
    ctxNodes (kidsOf w p cs) = .ok l ↔ List.Forall₂ (CtxKid w p) cs l := by
  induction cs generalizing l with
  | nil => cases l <;> simp [kidsOf, ctxNodes]
  | cons c cs ih =>
    have hk : ∀ v, (c.kid w p).ctxVal = Out.ok v ↔
        (c.eval w p = .ok v ∨ c.eval w p = .err ∧ ∃ o, p.originalText c = .ok o ∧ v = .str o) := by
      intro v
      have ho : (c.kid w p).orig = p.originalText c := by cases c; rfl
      have he : (c.kid w p).eval = c.eval w p := rfl
      rw [Kid.ctxVal, ho, he]
      cases h : c.eval w p with
      | err =>
        simp only [Out.bind_eq_ok, Out.pure_eq, Out.ok.injEq, reduceCtorEq, false_or, true_and]
        constructor
        · rintro ⟨o, h1, h2⟩; exact ⟨o, h1, h2.symm⟩
        · rintro ⟨o, h1, h2⟩; exact ⟨o, h1, h2.symm⟩
      | ok a => simp
      | panic => simp
      | div => simp
    have ht : (c.kid w p).term = nodeTerm c.value := by cases c; rfl
    simp only [kidsOf, ctxNodes, Out.bind_eq_ok, Out.pure_eq, hk, ht]
    constructor
    · rintro ⟨v, hv, t, ht, r, hr, h⟩
      cases h
      exact .cons ⟨⟨t, ht, rfl⟩, hv⟩ (ih.1 hr)
    · intro h
      cases h with
      | @cons _ b _ _ h1 h2 =>
        obtain ⟨⟨t, ht, he⟩, hv⟩ := h1
        exact ⟨b.2, hv, t, ht, _, ih.2 h2, by rw [← he]⟩

theorem ctxValue_eq_ok {w : NodeWorld} {p : Parsed} {n : Node} {v : Value} :
    ctxValue (nodeSelf w p n.value) (kidsOf w p n.children) = .ok v ↔ CtxOf w p n v := by
  simp only [ctxValue, Out.bind_eq_ok, Out.pure_eq, ctxNodes_eq_ok, nodeSelf, originalText_mk, pos_mk]
  constructor
  · rintro ⟨nodes, hn, text, ht, pos, hp, t, hT, h⟩
    cases h
    refine .mk ht hp hT hn ?_
    by_cases h : t.type = .terminal <;> simp [h]
  · intro h
    cases h with
    | @mk text pos nodes t ty ht hp hT hn hty =>
      refine ⟨nodes, hn, text, ht, pos, hp, t, hT, ?_⟩
      rcases hty with ⟨h, rfl⟩ | ⟨h, rfl⟩ <;> simp [h]

theorem fmrStr_proj (w : NodeWorld) (self : Self) (kids : List (Option Kid)) (nl : String) (a : Arg) :
    fmrStr w self kids nl (.mk "nf.I" [a]) = semStr w self kids nl a := by
  rw [fmrStr]; rfl

theorem fmrStr_call {w : NodeWorld} {self : Self} {kids : List (Option Kid)} {nl : String} {fn : String}
    (h : fn ≠ "nf.I") (as : List Arg) :
    fmrStr w self kids nl (.mk fn as) =
      (semStrs w self kids nl as >>= fun ss => pure (fn ++ "(" ++ ", ".intercalate ss ++ ")")) := by
  match as with
  | [] => rw [fmrStr, if_neg h]; simp
  | [a] => rw [fmrStr, if_neg h]
  | a :: b :: l => rw [fmrStr, if_neg h]; simp

theorem fmrEval_proj (w : NodeWorld) (self : Self) (kids : List (Option Kid)) (a : Arg) :
    fmrEval w self kids (.mk "nf.I" [a]) = semEval w self kids a := by
  rw [fmrEval]; rfl

theorem fmrEval_call {w : NodeWorld} {self : Self} {kids : List (Option Kid)} {fn : String}
    (h : fn ≠ "nf.I") (as : List Arg) :
    fmrEval w self kids (.mk fn as) = (semEvals w self kids as >>= fun vs => w.call fn vs) := by
  match as with
  | [] => rw [fmrEval, if_neg h]; simp
  | [a] => rw [fmrEval, if_neg h]
  | a :: b :: l => rw [fmrEval, if_neg h]; simp

theorem fmr_arity (w : NodeWorld) (self : Self) (kids : List (Option Kid)) (nl : String) :
    ∀ as : List Arg, as.length ≠ 1 →
    fmrStr w self kids nl (.mk "nf.I" as) = .err ∧ fmrEval w self kids (.mk "nf.I" as) = .err
  | [], _ => by constructor <;> simp [fmrStr, fmrEval]
  | [a], h => by simp at h
  | a :: b :: l, _ => by constructor <;> simp [fmrStr, fmrEval]

/-! ## a tree that means something -/

mutual
theorem means_ok {w : NodeWorld} {p : Parsed} : ∀ {n : Node} {e : Expr}, Means w p n e →
    n.semantic w p = .ok (e.print w) ∧ n.eval w p = e.value w
  | n, _, .leaf hf hnl ho => by
    rw [semantic_eq, eval_eq]
    have h1 : (nodeSelf w p n.value).nl = .ok _ := nodeNL_eq_ok.2 hnl
    have h2 : (nodeSelf w p n.value).orig = .ok _ := ho
    simp only [semanticWith, evalWith, h1, h2, Out.bind_ok]
    cases hrb : n.value.rb with
    | none => exact ⟨rfl, rfl⟩
    | some rb => simp only [hf rb hrb]; exact ⟨rfl, rfl⟩
  | n, _, .rule hrb hf hnl h => by
    rw [semantic_eq, eval_eq]
    have h1 : (nodeSelf w p n.value).nl = .ok _ := nodeNL_eq_ok.2 hnl
    simp only [semanticWith, evalWith, h1, Out.bind_ok, hrb, hf]
    exact fmrMeans_ok h hnl
theorem fmrMeans_ok {w : NodeWorld} {p : Parsed} : ∀ {n : Node} {f : FMR} {e : Expr}, FmrMeans w p n f e →
    ∀ {nl : String}, NLOf w p n nl →
    fmrStr w (nodeSelf w p n.value) (kidsOf w p n.children) (quoteStr w.isPrint nl) f = .ok (e.print w) ∧
    fmrEval w (nodeSelf w p n.value) (kidsOf w p n.children) f = e.value w
  | n, _, _, .proj h, nl, hnl => by
    rw [fmrStr_proj, fmrEval_proj]
    exact argMeans_ok h hnl
  | n, _, _, .call hfn h, nl, hnl => by
    have := argsMean_ok h hnl
    rw [fmrStr_call hfn, fmrEval_call hfn, this.1, this.2, Expr.print, Expr.value]
    exact ⟨rfl, rfl⟩
theorem argsMean_ok {w : NodeWorld} {p : Parsed} : ∀ {n : Node} {as : List Arg} {es : List Expr},
    ArgsMean w p n as es → ∀ {nl : String}, NLOf w p n nl →
    semStrs w (nodeSelf w p n.value) (kidsOf w p n.children) (quoteStr w.isPrint nl) as =
      .ok (printAll w es) ∧
    semEvals w (nodeSelf w p n.value) (kidsOf w p n.children) as = values w es
  | _, _, _, .nil, nl, hnl => by simp [semStrs, semEvals, printAll, values]
  | n, _, _, .cons h hs, nl, hnl => by
    have h1 := argMeans_ok h hnl
    have h2 := argsMean_ok hs hnl
    simp only [semStrs, semEvals, h1.1, h1.2, h2.1, h2.2, Out.bind_ok, Out.pure_eq, printAll, values, true_and]
theorem argMeans_ok {w : NodeWorld} {p : Parsed} : ∀ {n : Node} {a : Arg} {e : Expr}, ArgMeans w p n a e →
    ∀ {nl : String}, NLOf w p n nl →
    semStr w (nodeSelf w p n.value) (kidsOf w p n.children) (quoteStr w.isPrint nl) a = .ok (e.print w) ∧
    semEval w (nodeSelf w p n.value) (kidsOf w p n.children) a = e.value w
  | _, _, _, .string, nl, hnl => by simp [semStr, semVal, semEval, evalVal, Expr.print, Expr.value]
  | _, _, _, .int, nl, hnl => by simp [semStr, semVal, semEval, evalVal, Expr.print, Expr.value]
  | _, _, _, .float, nl, hnl => by simp [semStr, semVal, semEval, evalVal, Expr.print, Expr.value]
  | n, _, _, .self (nl := nl') h, nl, hnl => by
    have h1 := nodeNL_eq_ok.2 h
    have h2 := nodeNL_eq_ok.2 hnl
    rw [h1] at h2
    cases h2
    have h3 : (nodeSelf w p n.value).nl = .ok nl' := h1
    simp [semStr, semVal, semEval, evalVal, indexStr, indexEval, h3, Expr.print, Expr.value]
  | n, _, _, .child (c := c) (k := k) hc h, nl, hnl => by
    have hm := means_ok h
    have hlt : k < n.children.length := by
      rcases Nat.lt_or_ge k n.children.length with h | h
      · exact h
      · rw [List.getElem?_eq_none h] at hc; simp at hc
    have hk : (kidsOf w p n.children)[k]? = some (some (c.kid w p)) := by
      rw [kidsOf_eq, List.getElem?_map, hc]; rfl
    have hlen : (kidsOf w p n.children).length = n.children.length := by rw [kidsOf_eq, List.length_map]
    have hb : ¬ ((k : Int) + 1 < 0 ∨ (k : Int) + 1 > (kidsOf w p n.children).length) := by
      rw [hlen]; omega
    have h0 : ¬ ((k : Int) + 1 = 0) := by omega
    simp only [semStr, semVal, semEval, evalVal, indexStr, indexEval, if_neg hb, if_neg h0, if_true,
      Int.add_sub_cancel, Int.toNat_natCast, hk]
    exact hm
  | n, _, _, .func h, nl, hnl => by
    have := fmrMeans_ok h hnl
    simpa [semStr, semVal, semEval, evalVal] using this
  | _, _, _, .nilFunc, nl, hnl => by simp [semStr, semVal, semEval, evalVal, Expr.print, Expr.value]
  | n, _, _, .context (x := x) h, nl, hnl => by
    have := ctxValue_eq_ok.2 h
    cases x <;> simp [semStr, semVal, semEval, evalVal, ctxStr, this, Expr.print, Expr.value]
end


/-! ## a tree with a result means something -/

/-- `Sub` for the children of a node -/
theorem Node.Sub.kid {m n c : Node} (hc : c ∈ n.children) (h : Node.Sub m c) : Node.Sub m n := .child hc h

section
variable {w : NodeWorld} {p : Parsed}

/-- Semantic or Eval has a result -/
def Result (w : NodeWorld) (p : Parsed) (n : Node) : Prop :=
  (∃ s, n.semantic w p = .ok s) ∨ (∃ v, n.eval w p = .ok v)

theorem kid_at {n : Node} {i : Int} (h0 : ¬ (i < 0 ∨ i > (kidsOf w p n.children).length)) (h1 : i ≠ 0) :
    ∃ (k : Nat) (c : Node), i = k + 1 ∧ n.children[k]? = some c ∧
      (kidsOf w p n.children)[(i - 1).toNat]? = some (some (c.kid w p)) := by
  rw [kidsOf_eq, List.length_map] at h0
  have hlt : (i - 1).toNat < n.children.length := by omega
  refine ⟨(i - 1).toNat, n.children[(i - 1).toNat], by omega, List.getElem?_eq_getElem hlt, ?_⟩
  rw [kidsOf_eq, List.getElem?_map, List.getElem?_eq_getElem hlt]; rfl

mutual
theorem fmr_conv {n : Node} {nl : String} (hnl : NLOf w p n nl)
    (hk : ∀ c ∈ n.children, Result w p c → ∃ e, Means w p c e) : ∀ f : FMR,
    ((∃ s, fmrStr w (nodeSelf w p n.value) (kidsOf w p n.children) (quoteStr w.isPrint nl) f = .ok s) ∨
     (∃ v, fmrEval w (nodeSelf w p n.value) (kidsOf w p n.children) f = .ok v)) → ∃ e, FmrMeans w p n f e
  | .mk fn args, h => by
    by_cases hfn : fn = "nf.I"
    · subst hfn
      match args, h with
      | [a], h =>
        rw [fmrStr_proj, fmrEval_proj] at h
        obtain ⟨e, he⟩ := arg_conv hnl hk a h
        exact ⟨e, .proj he⟩
      | [], h => simp [(fmr_arity w _ _ "" [] (by simp)).2, fmr_arity] at h
      | a :: b :: l, h => simp [(fmr_arity w _ _ "" (a :: b :: l) (by simp)).2, fmr_arity] at h
    · rw [fmrStr_call hfn, fmrEval_call hfn] at h
      simp only [Out.bind_eq_ok] at h
      obtain ⟨es, hes⟩ := args_conv hnl hk args (by
        rcases h with ⟨s, x, hx, _⟩ | ⟨s, x, hx, _⟩
        · exact .inl ⟨x, hx⟩
        · exact .inr ⟨x, hx⟩)
      exact ⟨_, .call hfn hes⟩
theorem args_conv {n : Node} {nl : String} (hnl : NLOf w p n nl)
    (hk : ∀ c ∈ n.children, Result w p c → ∃ e, Means w p c e) : ∀ as : List Arg,
    ((∃ s, semStrs w (nodeSelf w p n.value) (kidsOf w p n.children) (quoteStr w.isPrint nl) as = .ok s) ∨
     (∃ v, semEvals w (nodeSelf w p n.value) (kidsOf w p n.children) as = .ok v)) →
    ∃ es, ArgsMean w p n as es
  | [], _ => ⟨[], .nil⟩
  | a :: as, h => by
    simp only [semStrs, semEvals, Out.bind_eq_ok, Out.pure_eq] at h
    obtain ⟨e, he⟩ := arg_conv hnl hk a (by
      rcases h with ⟨s, x, hx, _⟩ | ⟨s, x, hx, _⟩
      · exact .inl ⟨x, hx⟩
      · exact .inr ⟨x, hx⟩)
    obtain ⟨es, hes⟩ := args_conv hnl hk as (by
      rcases h with ⟨s, x, hx, y, hy, _⟩ | ⟨s, x, hx, y, hy, _⟩
      · exact .inl ⟨y, hy⟩
      · exact .inr ⟨y, hy⟩)
    exact ⟨_, .cons he hes⟩
theorem arg_conv {n : Node} {nl : String} (hnl : NLOf w p n nl)
    (hk : ∀ c ∈ n.children, Result w p c → ∃ e, Means w p c e) : ∀ a : Arg,
    ((∃ s, semStr w (nodeSelf w p n.value) (kidsOf w p n.children) (quoteStr w.isPrint nl) a = .ok s) ∨
     (∃ v, semEval w (nodeSelf w p n.value) (kidsOf w p n.children) a = .ok v)) →
    ∃ e, ArgMeans w p n a e
  | .mk t v, h => by
    simp only [semStr, semEval] at h
    exact val_conv hnl hk t v h
theorem val_conv {n : Node} {nl : String} (hnl : NLOf w p n nl)
    (hk : ∀ c ∈ n.children, Result w p c → ∃ e, Means w p c e) (t : String) : ∀ x : Val,
    ((∃ s, semVal w (nodeSelf w p n.value) (kidsOf w p n.children) (quoteStr w.isPrint nl) t x = .ok s) ∨
     (∃ v, evalVal w (nodeSelf w p n.value) (kidsOf w p n.children) t x = .ok v)) →
    ∃ e, ArgMeans w p n (.mk t x) e
  | .str s, h => by
    by_cases h1 : t = "string"
    · subst h1; exact ⟨_, .string⟩
    · simp only [semVal, evalVal, if_neg h1] at h
      exact ctx_conv _ h
  | .bigInt i, h => by
    by_cases h1 : t = "int"
    · subst h1; exact ⟨_, .int⟩
    · simp only [semVal, evalVal, if_neg h1] at h
      exact ctx_conv _ h
  | .bigFloat q, h => by
    by_cases h1 : t = "float"
    · subst h1; exact ⟨_, .float⟩
    · simp only [semVal, evalVal, if_neg h1] at h
      exact ctx_conv _ h
  | .int i, h => by
    by_cases h1 : t = "index"
    · subst h1
      simp only [semVal, evalVal, if_true, indexStr, indexEval] at h
      by_cases hb : i < 0 ∨ i > (kidsOf w p n.children).length
      · simp only [if_pos hb] at h; simp at h
      · by_cases h0 : i = 0
        · subst h0; exact ⟨_, .self hnl⟩
        · obtain ⟨k, c, rfl, hc, hkid⟩ := kid_at hb h0
          simp only [if_neg hb, if_neg h0, hkid] at h
          obtain ⟨e, he⟩ := hk c (List.mem_of_getElem? hc) h
          exact ⟨e, .child hc he⟩
    · simp only [semVal, evalVal, if_neg h1] at h
      exact ctx_conv _ h
  | .fmr f, h => by
    by_cases h1 : t = "func"
    · subst h1
      simp only [semVal, evalVal, if_true] at h
      obtain ⟨e, he⟩ := fmr_conv hnl hk f h
      exact ⟨e, .func he⟩
    · simp only [semVal, evalVal, if_neg h1] at h
      exact ctx_conv _ h
  | .nilFmr, h => by
    by_cases h1 : t = "func"
    · subst h1; exact ⟨_, .nilFunc⟩
    · simp only [semVal, evalVal, if_neg h1] at h
      exact ctx_conv _ h
  | .other _, h => by
    simp only [semVal, evalVal] at h
    exact ctx_conv _ h
theorem ctx_conv {n : Node} {t : String} (x : Val)
    (h : (∃ s, (if t = "context" then ctxStr w (nodeSelf w p n.value) (kidsOf w p n.children) else .err)
        = Out.ok s) ∨
      (∃ v, (if t = "context" then ctxValue (nodeSelf w p n.value) (kidsOf w p n.children) else .err)
        = Out.ok v)) : ∃ e, ArgMeans w p n (.mk t x) e := by
  by_cases h1 : t = "context"
  · subst h1
    simp only [if_true, ctxStr, Out.bind_eq_ok] at h
    have : ∃ v, ctxValue (nodeSelf w p n.value) (kidsOf w p n.children) = .ok v := by
      rcases h with ⟨s, v, hv, _⟩ | h
      · exact ⟨v, hv⟩
      · exact h
    obtain ⟨v, hv⟩ := this
    exact ⟨_, .context (ctxValue_eq_ok.1 hv)⟩
  · simp [if_neg h1] at h
end

/-- every node below has its texts -/
def Readable (w : NodeWorld) (p : Parsed) (n : Node) : Prop :=
  ∀ m, Node.Sub m n → (∃ nl, NLOf w p m nl) ∧ ∃ o, p.originalText m = .ok o

theorem Readable.kid {n c : Node} (h : Readable w p n) (hc : c ∈ n.children) : Readable w p c :=
  fun m hm => h m (.child hc hm)

mutual
theorem result_means : ∀ n : Node, Readable w p n → Result w p n → ∃ e, Means w p n e
  | .mk v cs, hr, h => by
    obtain ⟨⟨nl, hnl⟩, o, ho⟩ := hr _ .refl
    cases hrb : v.rb with
    | none => exact ⟨_, .leaf (by simp [Node.value, hrb]) hnl ho⟩
    | some rb =>
      cases hf : rb.f with
      | none => exact ⟨_, .leaf (fun rb' h' => by simp [Node.value, hrb] at h'; rw [← h', hf]) hnl ho⟩
      | some f =>
        rw [Result, semantic_eq, eval_eq] at h
        have h1 : (nodeSelf w p v).nl = .ok nl := nodeNL_eq_ok.2 hnl
        simp only [Node.value, semanticWith, evalWith, h1, Out.bind_ok, hrb, hf] at h
        obtain ⟨e, he⟩ := fmr_conv hnl (results_mean cs (fun c hc => hr.kid hc)) f h
        exact ⟨e, .rule hrb hf hnl he⟩
theorem results_mean : ∀ cs : List Node, (∀ c ∈ cs, Readable w p c) →
    ∀ c ∈ cs, Result w p c → ∃ e, Means w p c e
  | [], _, _, h, _ => by simp at h
  | c :: cs, hr, x, hx, h => by
    rcases List.mem_cons.1 hx with h' | hx
    · rw [h'] at h ⊢
      exact result_means c (hr c (by simp)) h
    · exact results_mean cs (fun c hc => hr c (by simp [hc])) x hx h
end

end

/-! ## no panic -/

/-- a value or an error -/
def Settled {α : Type} (r : Out α) : Prop := (∃ a, r = .ok a) ∨ r = .err

theorem Settled.ok {α : Type} {a : α} : Settled (.ok a) := .inl ⟨a, rfl⟩
theorem Settled.err {α : Type} : Settled (.err : Out α) := .inr rfl

theorem Settled.bind {α β : Type} {x : Out α} {f : α → Out β} (hx : Settled x)
    (hf : ∀ a, x = .ok a → Settled (f a)) : Settled (x >>= f) := by
  rcases hx with ⟨a, rfl⟩ | rfl
  · exact hf a rfl
  · exact .err

section
variable {w : NodeWorld} {p : Parsed}

/-- every function returns -/
def CallsReturn (w : NodeWorld) : Prop := ∀ fn vs, Settled (w.call fn vs)

/-- every node below has its texts and a label -/
def Labelled (w : NodeWorld) (p : Parsed) (n : Node) : Prop :=
  Readable w p n ∧ ∀ m, Node.Sub m n → ∃ t, nodeTerm m.value = .ok t

theorem Labelled.kid {n c : Node} (h : Labelled w p n) (hc : c ∈ n.children) : Labelled w p c :=
  ⟨h.1.kid hc, fun m hm => h.2 m (.child hc hm)⟩

theorem pos_of_text {n : Node} {o : Bytes} (h : p.originalText n = .ok o) : ∃ q, p.pos n = .ok q := by
  simp only [Parsed.originalText, Out.bind_eq_ok] at h
  exact ⟨_, h.choose_spec.1⟩

theorem settled_ctxNodes : ∀ cs : List Node, (∀ c ∈ cs, Labelled w p c ∧ Settled (c.eval w p)) →
    Settled (ctxNodes (kidsOf w p cs))
  | [], _ => .ok
  | c :: cs, h => by
    simp only [kidsOf, ctxNodes]
    obtain ⟨hl, he⟩ := h c (by simp)
    obtain ⟨t, ht⟩ := hl.2 c .refl
    obtain ⟨o, ho⟩ := (hl.1 c .refl).2
    have ho' : (c.kid w p).orig = .ok o := by cases c; exact ho
    have ht' : (c.kid w p).term = .ok t := by cases c; exact ht
    refine Settled.bind ?_ (fun _ _ => ?_)
    · rw [Kid.ctxVal]
      have he' : (c.kid w p).eval = c.eval w p := rfl
      rw [he']
      rcases he with ⟨v, hv⟩ | hv
      · rw [hv]; exact .ok
      · rw [hv]; simp only [ho', Out.bind_ok]; exact .ok
    · rw [ht']
      simp only [Out.bind_ok]
      exact (settled_ctxNodes cs (fun c hc => h c (by simp [hc]))).bind (fun _ _ => .ok)

theorem settled_ctx {n : Node} (hl : Labelled w p n) (hk : ∀ c ∈ n.children, Settled (c.eval w p)) :
    Settled (ctxValue (nodeSelf w p n.value) (kidsOf w p n.children)) := by
  obtain ⟨t, ht⟩ := hl.2 n .refl
  obtain ⟨o, ho⟩ := (hl.1 n .refl).2
  obtain ⟨q, hq⟩ := pos_of_text ho
  simp only [ctxValue, nodeSelf, originalText_mk, pos_mk, ht, ho, hq]
  exact (settled_ctxNodes _ (fun c hc => ⟨hl.kid hc, hk c hc⟩)).bind (fun _ _ => .ok)

/-- both methods return -/
def BothSettled (w : NodeWorld) (p : Parsed) (n : Node) : Prop :=
  Settled (n.semantic w p) ∧ Settled (n.eval w p)

mutual
theorem settled_fmr (hcall : CallsReturn w) {n : Node} (hl : Labelled w p n)
    (hk : ∀ c ∈ n.children, BothSettled w p c) (nl : String) : ∀ f : FMR,
    Settled (fmrStr w (nodeSelf w p n.value) (kidsOf w p n.children) nl f) ∧
    Settled (fmrEval w (nodeSelf w p n.value) (kidsOf w p n.children) f)
  | .mk fn args => by
    by_cases hfn : fn = "nf.I"
    · subst hfn
      match args with
      | [a] => rw [fmrStr_proj, fmrEval_proj]; exact settled_arg hcall hl hk nl a
      | [] => simp only [fmr_arity _ _ _ _ [] (by simp)]; exact ⟨.err, .err⟩
      | a :: b :: l => simp only [fmr_arity _ _ _ _ (a :: b :: l) (by simp)]; exact ⟨.err, .err⟩
    · rw [fmrStr_call hfn, fmrEval_call hfn]
      have := settled_args hcall hl hk nl args
      exact ⟨this.1.bind (fun _ _ => .ok), this.2.bind (fun _ _ => hcall _ _)⟩
theorem settled_args (hcall : CallsReturn w) {n : Node} (hl : Labelled w p n)
    (hk : ∀ c ∈ n.children, BothSettled w p c) (nl : String) : ∀ as : List Arg,
    Settled (semStrs w (nodeSelf w p n.value) (kidsOf w p n.children) nl as) ∧
    Settled (semEvals w (nodeSelf w p n.value) (kidsOf w p n.children) as)
  | [] => by simp only [semStrs, semEvals]; exact ⟨.ok, .ok⟩
  | a :: as => by
    simp only [semStrs, semEvals]
    have h1 := settled_arg hcall hl hk nl a
    have h2 := settled_args hcall hl hk nl as
    exact ⟨h1.1.bind (fun _ _ => h2.1.bind (fun _ _ => .ok)),
      h1.2.bind (fun _ _ => h2.2.bind (fun _ _ => .ok))⟩
theorem settled_arg (hcall : CallsReturn w) {n : Node} (hl : Labelled w p n)
    (hk : ∀ c ∈ n.children, BothSettled w p c) (nl : String) : ∀ a : Arg,
    Settled (semStr w (nodeSelf w p n.value) (kidsOf w p n.children) nl a) ∧
    Settled (semEval w (nodeSelf w p n.value) (kidsOf w p n.children) a)
  | .mk t v => by
    simp only [semStr, semEval]
    exact settled_val hcall hl hk nl t v
theorem settled_val (hcall : CallsReturn w) {n : Node} (hl : Labelled w p n)
    (hk : ∀ c ∈ n.children, BothSettled w p c) (nl t : String) : ∀ x : Val,
    Settled (semVal w (nodeSelf w p n.value) (kidsOf w p n.children) nl t x) ∧
    Settled (evalVal w (nodeSelf w p n.value) (kidsOf w p n.children) t x)
  | .str s => by
    simp only [semVal, evalVal]
    split
    · exact ⟨.ok, .ok⟩
    · exact settled_ctxArg hl hk
  | .bigInt i => by
    simp only [semVal, evalVal]
    split
    · exact ⟨.ok, .ok⟩
    · exact settled_ctxArg hl hk
  | .bigFloat q => by
    simp only [semVal, evalVal]
    split
    · exact ⟨.ok, .ok⟩
    · exact settled_ctxArg hl hk
  | .int i => by
    simp only [semVal, evalVal]
    split
    · simp only [indexStr, indexEval]
      by_cases hb : i < 0 ∨ i > (kidsOf w p n.children).length
      · simp only [if_pos hb]; exact ⟨.err, .err⟩
      · by_cases h0 : i = 0
        · obtain ⟨nl', hnl⟩ := (hl.1 n .refl).1
          have h1 : (nodeSelf w p n.value).nl = .ok nl' := nodeNL_eq_ok.2 hnl
          simp only [if_neg hb, if_pos h0, h1, Out.bind_ok]
          exact ⟨.ok, .ok⟩
        · obtain ⟨k, c, rfl, hc, hkid⟩ := kid_at hb h0
          simp only [if_neg hb, if_neg h0, hkid]
          exact hk c (List.mem_of_getElem? hc)
    · exact settled_ctxArg hl hk
  | .fmr f => by
    simp only [semVal, evalVal]
    split
    · exact settled_fmr hcall hl hk nl f
    · exact settled_ctxArg hl hk
  | .nilFmr => by
    simp only [semVal, evalVal]
    split
    · exact ⟨.ok, .ok⟩
    · exact settled_ctxArg hl hk
  | .other _ => by
    simp only [semVal, evalVal]
    exact settled_ctxArg hl hk
theorem settled_ctxArg {n : Node} (hl : Labelled w p n) (hk : ∀ c ∈ n.children, BothSettled w p c)
    {t : String} :
    Settled (if t = "context" then ctxStr w (nodeSelf w p n.value) (kidsOf w p n.children) else .err) ∧
    Settled (if t = "context" then ctxValue (nodeSelf w p n.value) (kidsOf w p n.children) else .err) := by
  have := settled_ctx hl (fun c hc => (hk c hc).2)
  split
  · exact ⟨by rw [ctxStr]; exact this.bind (fun _ _ => .ok), this⟩
  · exact ⟨.err, .err⟩
end

mutual
theorem settled_node (hcall : CallsReturn w) : ∀ n : Node, Labelled w p n → BothSettled w p n
  | .mk v cs, hl => by
    obtain ⟨⟨nl, hnl⟩, o, ho⟩ := hl.1 _ .refl
    have h1 : (nodeSelf w p v).nl = .ok nl := nodeNL_eq_ok.2 hnl
    have h2 : (nodeSelf w p v).orig = .ok o := ho
    rw [BothSettled, semantic_eq, eval_eq]
    cases hrb : v.rb with
    | none =>
      simp only [Node.value, semanticWith, evalWith, h1, h2, Out.bind_ok, hrb]
      exact ⟨.ok, .ok⟩
    | some rb =>
      cases hf : rb.f with
      | none =>
        simp only [Node.value, semanticWith, evalWith, h1, h2, Out.bind_ok, hrb, hf]
        exact ⟨.ok, .ok⟩
      | some f =>
        simp only [Node.value, semanticWith, evalWith, h1, Out.bind_ok, hrb, hf]
        exact settled_fmr hcall hl (settled_nodes hcall cs (fun c hc => hl.kid hc)) _ f
theorem settled_nodes (hcall : CallsReturn w) : ∀ cs : List Node, (∀ c ∈ cs, Labelled w p c) →
    ∀ c ∈ cs, BothSettled w p c
  | [], _, _, h => by simp at h
  | c :: cs, hr, x, hx => by
    rcases List.mem_cons.1 hx with h' | hx
    · rw [h']
      exact settled_node hcall c (hr c (by simp))
    · exact settled_nodes hcall cs (fun c hc => hr c (by simp [hc])) x hx
end

end

end Fmr
