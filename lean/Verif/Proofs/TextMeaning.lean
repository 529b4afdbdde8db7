import Verif.Spec.TextMeaning
import Verif.Proofs.TextTrees
import Verif.Props.Eval

/-!
# Meanings of trees and meanings of what is written (for C78)
-/

set_option linter.unusedSectionVars false

namespace Fmr

section
variable {w : NodeWorld} {p : Parsed}

theorem NLOf.unique {n : Node} {s s' : String} (h : NLOf w p n s) (h' : NLOf w p n s') : s = s' := by
  have h1 := nodeNL_eq_ok.2 h
  rw [nodeNL_eq_ok.2 h', Out.ok.injEq] at h1
  exact h1.symm

section
variable {n : Node} {nl : String} (hnl : NLOf w p n nl) {rec : Value} (hctx : ∀ v, CtxOf w p n v ↔ v = rec)
  {parts : List (Option Expr)}
  (hk : ∀ (k : Nat) (e : Expr), (parts[k]?).join = some e ↔ ∃ c, n.children[k]? = some c ∧ Means w p c e)
include hnl hctx hk

omit hnl hk in
theorem record_says (t : String) (x : Val) (e : Expr) (h1 : ∀ e, ArgMeans w p n (.mk t x) e → t = "context") :
    recordSays rec t = some e ↔ ArgMeans w p n (.mk t x) e := by
  unfold recordSays
  by_cases h : t = "context"
  · subst h
    rw [if_pos rfl, Option.some.injEq]
    constructor
    · rintro rfl
      exact .context ((hctx _).2 rfl)
    · intro h
      generalize hs : "context" = s at h
      cases h with
      | context h => rw [(hctx _).1 h]
      | string => exact absurd hs (by decide)
      | int => exact absurd hs (by decide)
      | float => exact absurd hs (by decide)
      | self => exact absurd hs (by decide)
      | child => exact absurd hs (by decide)
      | func => exact absurd hs (by decide)
      | nilFunc => exact absurd hs (by decide)
  · rw [if_neg h]
    simp only [reduceCtorEq, false_iff]
    exact fun h' => h (h1 e h')

mutual
theorem func_says : ∀ (f : FMR) (e : Expr), funcSays nl rec parts f = some e ↔ FmrMeans w p n f e
  | .mk fn args, e => by
    unfold funcSays
    by_cases hfn : fn = "nf.I"
    · subst hfn
      rw [if_pos rfl]
      have key : ∀ {e : Expr} {fn : String} {as : List Arg}, FmrMeans w p n (.mk fn as) e → fn = "nf.I" → ∃ a, as = [a] ∧ ArgMeans w p n a e := by
        intro e fn as h hf
        cases h with
        | proj h => exact ⟨_, rfl, h⟩
        | call h => exact absurd hf h
      match args with
      | [a] =>
        simp only
        rw [arg_says a e]
        refine ⟨.proj, fun h => ?_⟩
        obtain ⟨a', e', h'⟩ := key h rfl
        cases e'
        exact h'
      | [] =>
        simp only [reduceCtorEq, false_iff]
        intro h
        obtain ⟨a', e', -⟩ := key h rfl
        cases e'
      | a :: b :: l =>
        simp only [reduceCtorEq, false_iff]
        intro h
        obtain ⟨a', e', -⟩ := key h rfl
        cases e'
    · rw [if_neg hfn, Option.map_eq_some_iff]
      constructor
      · rintro ⟨es, h1, rfl⟩
        exact .call hfn ((args_say args es).1 h1)
      · intro h
        cases h with
        | proj h => exact absurd rfl hfn
        | call _ h => exact ⟨_, (args_say args _).2 h, rfl⟩
theorem args_say : ∀ (as : List Arg) (es : List Expr), argsSay nl rec parts as = some es ↔ ArgsMean w p n as es
  | [], es => by
    unfold argsSay
    rw [Option.some.injEq]
    constructor
    · rintro rfl; exact .nil
    · intro h; cases h; rfl
  | a :: as, es => by
    unfold argsSay
    rw [Option.bind_eq_some_iff]
    constructor
    · rintro ⟨e, h1, h2⟩
      obtain ⟨es', h3, rfl⟩ := Option.map_eq_some_iff.1 h2
      exact .cons ((arg_says a e).1 h1) ((args_say as es').1 h3)
    · intro h
      cases h with
      | cons h1 h2 => exact ⟨_, (arg_says a _).2 h1, Option.map_eq_some_iff.2 ⟨_, (args_say as _).2 h2, rfl⟩⟩
theorem arg_says : ∀ (a : Arg) (e : Expr), argSays nl rec parts a = some e ↔ ArgMeans w p n a e
  | .mk t v, e => by
    unfold argSays
    exact val_says t v e
theorem val_says (t : String) : ∀ (x : Val) (e : Expr), valSays nl rec parts t x = some e ↔ ArgMeans w p n (.mk t x) e
  | .str s, e => by
    unfold valSays
    by_cases h : t = "string"
    · subst h
      rw [if_pos rfl, Option.some.injEq]
      refine ⟨fun h => h ▸ .string, fun h => ?_⟩
      generalize hs : "string" = s' at h
      cases h with
      | string => rfl
      | context => exact absurd hs (by decide)
    · rw [if_neg h]
      exact record_says hctx t _ e (fun e he => by cases he with | string => exact absurd rfl h | context => rfl)
  | .bigInt s, e => by
    unfold valSays
    by_cases h : t = "int"
    · subst h
      rw [if_pos rfl, Option.some.injEq]
      refine ⟨fun h => h ▸ .int, fun h => ?_⟩
      generalize hs : "int" = s' at h
      cases h with
      | int => rfl
      | context => exact absurd hs (by decide)
    · rw [if_neg h]
      exact record_says hctx t _ e (fun e he => by cases he with | int => exact absurd rfl h | context => rfl)
  | .bigFloat s, e => by
    unfold valSays
    by_cases h : t = "float"
    · subst h
      rw [if_pos rfl, Option.some.injEq]
      refine ⟨fun h => h ▸ .float, fun h => ?_⟩
      generalize hs : "float" = s' at h
      cases h with
      | float => rfl
      | context => exact absurd hs (by decide)
    · rw [if_neg h]
      exact record_says hctx t _ e (fun e he => by cases he with | float => exact absurd rfl h | context => rfl)
  | .int i, e => by
    unfold valSays
    by_cases h : t = "index"
    · subst h
      rw [if_pos rfl]
      unfold indexSays
      have inv : ∀ {t : String} {i : Int} {e : Expr}, ArgMeans w p n (.mk t (.int i)) e → t = "index" →
          (i = 0 ∧ e = .str nl) ∨ ∃ (k : Nat) (c : Node), i = k + 1 ∧ n.children[k]? = some c ∧ Means w p c e := by
        intro t i e h ht
        cases h with
        | self h => exact .inl ⟨rfl, by rw [hnl.unique h]⟩
        | child h1 h2 => exact .inr ⟨_, _, rfl, h1, h2⟩
        | context => exact absurd ht (by decide)
      by_cases h0 : i = 0
      · subst h0
        rw [if_pos rfl, Option.some.injEq]
        refine ⟨fun h => h ▸ .self hnl, fun h => ?_⟩
        rcases inv h rfl with ⟨-, h⟩ | ⟨k, c, h, -⟩
        · exact h.symm
        · omega
      · rw [if_neg h0]
        by_cases h1 : 0 < i
        · rw [if_pos h1, hk]
          constructor
          · rintro ⟨c, g1, g2⟩
            have : i = ((i - 1).toNat : Nat) + 1 := by omega
            rw [this]
            exact .child g1 g2
          · intro h
            rcases inv h rfl with ⟨h, -⟩ | ⟨k, c, h, g⟩
            · omega
            · have : (i - 1).toNat = k := by omega
              rw [this]
              exact ⟨c, g⟩
        · rw [if_neg h1]
          simp only [reduceCtorEq, false_iff]
          intro h
          rcases inv h rfl with ⟨h, -⟩ | ⟨k, c, h, g⟩ <;> omega
    · rw [if_neg h]
      exact record_says hctx t _ e (fun e he => by cases he with | self => exact absurd rfl h | child => exact absurd rfl h | context => rfl)
  | .fmr f, e => by
    unfold valSays
    by_cases h : t = "func"
    · subst h
      rw [if_pos rfl, func_says f e]
      refine ⟨.func, fun h => ?_⟩
      generalize hs : "func" = s' at h
      cases h with
      | func h => exact h
      | context => exact absurd hs (by decide)
    · rw [if_neg h]
      exact record_says hctx t _ e (fun e he => by cases he with | func => exact absurd rfl h | context => rfl)
  | .nilFmr, e => by
    unfold valSays
    by_cases h : t = "func"
    · subst h
      rw [if_pos rfl, Option.some.injEq]
      refine ⟨fun h => h ▸ .nilFunc, fun h => ?_⟩
      generalize hs : "func" = s' at h
      cases h with
      | nilFunc => rfl
      | context => exact absurd hs (by decide)
    · rw [if_neg h]
      exact record_says hctx t _ e (fun e he => by cases he with | nilFunc => exact absurd rfl h | context => rfl)
  | .other _, e => by
    unfold valSays
    exact record_says hctx t _ e (fun e he => by cases he with | context => rfl)
end

end

/-- what a node shows, and what is said about the part -/
structure Describes (w : NodeWorld) (p : Parsed) (n : Node) (ph : Phrase) : Prop where
  label : ∃ t, nodeTerm n.value = .ok t ∧ t.value = ph.label
  orig : p.originalText n = .ok ph.orig
  means : ∀ e, ph.meaning = some e ↔ Means w p n e

/-- the nodes of a tree that can be described -/
structure Describable (w : NodeWorld) (p : Parsed) (n : Node) : Prop where
  labelled : Labelled w p n
  inside : ∀ m, Node.Sub m n → m.value.start ≤ m.value.stop ∧ m.value.stop ≤ p.env.tokens.length
  noGamma : ∀ m, Node.Sub m n → m.value.term.value ≠ gammaRule

theorem Describable.kid {n c : Node} (h : Describable w p n) (hc : c ∈ n.children) : Describable w p c :=
  ⟨h.labelled.kid hc, fun m hm => h.inside m (.child hc hm), fun m hm => h.noGamma m (.child hc hm)⟩

theorem Describes.ctxKid (hc : CallsReturn w) {n : Node} {ph : Phrase} (hl : Labelled w p n) (h : Describes w p n ph)
    (e : String × Value) : CtxKid w p n e ↔ e = (ph.label, ph.value w) := by
  obtain ⟨t, ht, htl⟩ := h.label
  have hv : ∀ v, (n.eval w p = .ok v ∨ n.eval w p = .err ∧ ∃ o, p.originalText n = .ok o ∧ v = .str o) ↔ v = ph.value w := by
    intro v
    rw [h.orig]
    have hs := (settled_node hc n hl).2
    unfold Phrase.value
    cases hm : ph.meaning with
    | none =>
      have he : n.eval w p = .err := by
        rcases hs with ⟨v', hv'⟩ | he
        · obtain ⟨e, he⟩ := result_means n hl.1 (.inr ⟨v', hv'⟩)
          rw [(h.means e).2 he] at hm
          cases hm
        · exact he
      rw [he]
      simp
    | some e =>
      have he := (means_ok ((h.means e).1 hm)).2
      rw [he] at hs ⊢
      rcases hs with ⟨v', hv'⟩ | he
      · rw [hv']; simp [hv', eq_comm]
      · rw [he]; simp [he]
  constructor
  · rintro ⟨⟨t', ht', e1⟩, e2⟩
    rw [ht, Out.ok.injEq] at ht'
    subst ht'
    obtain ⟨e1', e2'⟩ := e
    rw [Prod.mk.injEq]
    exact ⟨by rw [← htl]; exact e1, (hv _).1 e2⟩
  · rintro rfl
    exact ⟨⟨t, ht, htl.symm⟩, (hv _).2 rfl⟩

theorem ctxKids (hc : CallsReturn w) : ∀ {ns : List Node} {phs : List Phrase}, (∀ n ∈ ns, Labelled w p n) →
    List.Forall₂ (Describes w p) ns phs → ∀ l, List.Forall₂ (CtxKid w p) ns l ↔ l = phs.map fun ph => (ph.label, ph.value w)
  | [], _, _, .nil, l => by
    constructor
    · intro h; cases h; rfl
    · rintro rfl; exact .nil
  | n :: ns, _, hl, .cons (b := ph) (l₂ := phs) h1 h2, l => by
    have ih := ctxKids hc (fun m hm => hl m (List.mem_cons_of_mem _ hm)) h2
    constructor
    · intro h
      cases h with
      | cons g1 g2 => rw [(h1.ctxKid hc (hl n List.mem_cons_self) _).1 g1, (ih _).1 g2]; rfl
    · rintro rfl
      exact .cons ((h1.ctxKid hc (hl n List.mem_cons_self) _).2 rfl) ((ih _).2 rfl)

theorem describes_kids : ∀ {ns : List Node} {phs : List Phrase}, List.Forall₂ (Describes w p) ns phs →
    ∀ (k : Nat) (e : Expr), ((phs.map (·.meaning))[k]?).join = some e ↔ ∃ c, ns[k]? = some c ∧ Means w p c e
  | [], _, .nil, k, e => by simp
  | n :: ns, _, .cons (b := ph) (l₂ := phs) h1 h2, 0, e => by
    simp only [List.map_cons, List.getElem?_cons_zero, Option.join_some, Option.some.injEq, exists_eq_left']
    exact h1.means e
  | n :: ns, _, .cons (b := ph) (l₂ := phs) h1 h2, k + 1, e => by
    simp only [List.map_cons, List.getElem?_cons_succ]
    exact describes_kids h2 k e

theorem argsSay_items (nl : String) (record : Value) (parts : List (Option Expr)) : ∀ (m k : Nat), k + m = parts.length →
    argsSay nl record parts ((List.range' k m).map (fun (i : Nat) => .mk "index" (.int (i + 1)))) = allOf (parts.drop k)
  | 0, k, h => by
    rw [List.drop_eq_nil_of_le (by omega)]
    rfl
  | m + 1, k, h => by
    have hk : k < parts.length := by omega
    rw [List.range'_succ, List.map_cons, List.drop_eq_getElem_cons hk]
    unfold argsSay allOf
    rw [argsSay_items nl record parts m (k + 1) (by omega)]
    congr 1
    unfold argSays valSays indexSays
    rw [if_pos rfl, if_neg (by omega), if_pos (by omega)]
    rw [show ((k : Int) + 1 - 1).toNat = k by omega, List.getElem?_eq_getElem hk, Option.join_some]

theorem list_says (nl : String) (record : Value) (parts : List (Option Expr)) (x : String) (m : Nat) (h : parts.length = m) (f : FMR)
    (hf : (listBody x m).f = some f) : funcSays nl record parts f = (allOf parts).map (.call "fmr.list") := by
  unfold listBody at hf
  rw [Option.some.injEq] at hf
  subst hf
  unfold funcSays
  rw [if_neg (by decide), List.range_eq_range', argsSay_items nl record parts m 0 (by omega)]
  rfl

theorem symsMean_length {G : TextGrammar} {N : String → String → Prop} {text : Bytes} {toks : List Token} :
    ∀ {ss : List Sym} {a b : Nat} {phs : List Phrase}, SymsMean G N w text toks ss a b phs → ss.length = phs.length
  | [], _, _, _, h => by cases h; rfl
  | _ :: _, _, _, _, h => by
    cases h with
    | cons _ h2 => rw [List.length_cons, List.length_cons, symsMean_length h2]

section
variable {text : Bytes} (hord : TokensOrdered text p.env.tokens) (hlen : text.length ≤ p.text.length)
include hord hlen

theorem span_of {n : Node} (h : Describable w p n) : ∃ pos o, SpanText p.text p.env.tokens n.value.start n.value.stop pos o ∧
    p.pos n = .ok pos ∧ p.originalText n = .ok o := by
  have hin := h.inside n .refl
  rcases C21_node p text n hord hlen hin with ⟨h1, x, y, h2, h3, h4, h5⟩ | ⟨h1, h2, x, h3, h4, h5⟩ | ⟨-, -, h2⟩
  · exact ⟨_, _, .some h1 h2 h3, h4, h5⟩
  · refine ⟨_, _, ?_, h4, h5⟩
    rw [← h1]
    refine .none ?_ h3
    rcases Nat.eq_zero_or_pos n.value.start with h0 | h0
    · exact absurd ⟨h1, .inl h0⟩ h2
    · exact h0
  · obtain ⟨o, ho⟩ := (h.labelled.1 n .refl).2
    rw [h2] at ho
    cases ho

omit hord hlen in
theorem nl_of {n : Node} (h : n.value.start ≤ n.value.stop ∧ n.value.stop ≤ p.env.tokens.length) :
    NLOf w p n (spanNL w p.env.tokens n.value.start n.value.stop) := by
  refine ⟨(p.env.tokens.drop n.value.start).take (n.value.stop - n.value.start), by simp; omega, fun k hk => ?_, rfl⟩
  rw [List.getElem?_take_of_lt hk, List.getElem?_drop]

omit hord hlen in
theorem leaf_means {n : Node} {nl : String} {o : Bytes} (hf : ∀ rb, n.value.rb = some rb → rb.f = none) (hnl : NLOf w p n nl)
    (ho : p.originalText n = .ok o) (e : Expr) : some (Expr.leaf nl o) = some e ↔ Means w p n e := by
  rw [Option.some.injEq]
  constructor
  · rintro rfl
    exact .leaf hf hnl ho
  · intro h
    cases h with
    | leaf _ h1 h2 =>
      rw [ho, Out.ok.injEq] at h2
      rw [hnl.unique h1, h2]
    | rule h1 h2 => rw [hf _ h1] at h2; cases h2

omit hord hlen in
theorem rule_means {n : Node} {nl : String} {rb : RuleBody} {f : FMR} (h1 : n.value.rb = some rb) (h2 : rb.f = some f)
    (hnl : NLOf w p n nl) (e : Expr) : FmrMeans w p n f e ↔ Means w p n e := by
  constructor
  · exact fun h => .rule h1 h2 hnl h
  · intro h
    cases h with
    | leaf h => rw [h _ h1] at h2; cases h2
    | rule g1 g2 _ g4 =>
      rw [h1, Option.some.injEq] at g1
      subst g1
      rw [h2, Option.some.injEq] at g2
      exact g2 ▸ g4

omit hord hlen in
theorem node_label {n : Node} (h : Describable w p n) : nodeTerm n.value = .ok n.value.term := by
  rw [nodeTerm, if_neg (h.noGamma n .refl)]

omit hord hlen in
theorem ctx_of (hc : CallsReturn w) {n : Node} (h : Describable w p n) {phs : List Phrase} (hk : List.Forall₂ (Describes w p) n.children phs)
    {pos : Pos} {o : Bytes} (hp : p.pos n = .ok pos) (ho : p.originalText n = .ok o) (ht : n.value.term.type ≠ .terminal) (v : Value) :
    CtxOf w p n v ↔ v = .ctx o pos (phs.map fun ph => (ph.label, ph.value w)) (some n.value.term.value) := by
  have hl := node_label h
  have hks := ctxKids hc (fun c hc => (h.kid hc).labelled) hk
  constructor
  · intro hv
    cases hv with
    | mk h1 h2 h3 h4 h5 =>
      rw [ho, Out.ok.injEq] at h1
      rw [hp, Out.ok.injEq] at h2
      rw [hl, Out.ok.injEq] at h3
      subst h1 h2 h3
      rw [(hks _).1 h4]
      rcases h5 with ⟨h5, -⟩ | ⟨-, h5⟩
      · exact absurd h5 ht
      · rw [h5]
  · rintro rfl
    exact .mk ho hp hl ((hks _).2 rfl) (.inr ⟨ht, rfl⟩)

variable (hc : CallsReturn w) {G : TextGrammar} {N : String → String → Prop}
include hc

mutual
theorem tree_means : ∀ {n : Node} {s : Sym} {a b : Nat}, Describable w p n → TextTree G N p.env.tokens s a b n →
    ∃ ph, SymMeans G N w p.text p.env.tokens s a b ph ∧ Describes w p n ph
  | .mk v cs, s, a, b, hd, h => by
    obtain ⟨pos, o, hsp, hpos, ho⟩ := span_of hord hlen hd
    have hnl := nl_of (w := w) (hd.inside _ .refl)
    have hlab := node_label hd
    cases h with
    | token h1 h2 h3 h4 h5 h6 h7 =>
      refine ⟨_, .token h1 h2 (pos := pos) (o := o) (by rw [h5, h6] at hsp; exact hsp), ⟨_, hlab, by rw [h3]⟩, ho, ?_⟩
      rw [h5, h6] at hnl
      exact leaf_means (fun rb h => by rw [h4] at h; cases h) hnl ho
    | literal h1 h2 h3 h4 h5 h6 =>
      obtain ⟨phs, g1, g2⟩ := forest_means (fun c hc => hd.kid hc) h6
      rw [h4, h5] at hsp hnl
      exact ⟨_, .literal h1 g1 hsp, ⟨_, hlab, rfl⟩, ho, leaf_means (fun rb h => by rw [h3] at h; cases h; rfl) hnl ho⟩
    | any h1 h2 h3 h4 h5 h6 h7 h8 h9 h10 =>
      rw [h8, h9] at hsp hnl
      exact ⟨_, .any h1 h3 h4 hsp, ⟨_, hlab, h6⟩, ho, leaf_means (fun rb h => by rw [h7] at h; cases h) hnl ho⟩
    | @rule t a b n syms rb h1 h2 h3 h4 h5 h6 h7 h8 h9 =>
      obtain ⟨phs, g1, g2⟩ := forest_means (fun c hc => hd.kid hc) h9
      rw [h7, h8] at hsp hnl
      cases hf : rb.f with
      | none =>
        rw [hf] at h2
        exact ⟨_, .plain h1 h2 g1 hsp, ⟨_, hlab, h4⟩, ho, leaf_means (fun rb' h => by rw [h6] at h; cases h; exact hf) hnl ho⟩
      | some f =>
        rw [hf] at h2
        refine ⟨_, .func h1 h2 g1 hsp, ⟨_, hlab, h4⟩, ho, fun e => ?_⟩
        rw [← rule_means h6 hf hnl, ← h4]
        exact func_says hnl (ctx_of hc hd g2 hpos ho (by rw [h5]; simp)) (describes_kids g2) f e
    | @list t a b m n h1 h2 h3 h4 h5 h6 h7 h8 =>
      obtain ⟨phs, g1, g2⟩ := forest_means (fun c hc => hd.kid hc) h8
      rw [h6, h7] at hsp hnl
      have hlen : (phs.map (·.meaning)).length = m := by
        rw [List.length_map, ← symsMean_length g1, List.length_replicate]
      refine ⟨_, .list h1 h2 g1 hsp, ⟨_, hlab, h3⟩, ho, fun e => ?_⟩
      rw [← rule_means h5 rfl hnl, ← list_says (spanNL w p.env.tokens a b) (.ctx o pos (phs.map fun ph => (ph.label, ph.value w)) (some v.term.value)) _ t.value m hlen _ rfl]
      exact func_says hnl (ctx_of hc hd g2 hpos ho (by rw [h4]; simp)) (describes_kids g2) _ e
theorem forest_means : ∀ {ns : List Node} {ss : List Sym} {a b : Nat}, (∀ n ∈ ns, Describable w p n) →
    TextForest G N p.env.tokens ss a b ns →
    ∃ phs, SymsMean G N w p.text p.env.tokens ss a b phs ∧ List.Forall₂ (Describes w p) ns phs
  | [], _, _, _, _, h => by
    cases h
    exact ⟨[], .nil, .nil⟩
  | n :: ns, _, _, _, hd, h => by
    cases h with
    | cons h1 h2 =>
      obtain ⟨ph, g1, g2⟩ := tree_means (hd n List.mem_cons_self) h1
      obtain ⟨phs, g3, g4⟩ := forest_means (fun m hm => hd m (List.mem_cons_of_mem _ hm)) h2
      exact ⟨ph :: phs, .cons g1 g3, .cons g2 g4⟩
end

/-- the meaning of a tree of a match -/
theorem root_means {n : Node} {S : String} {k : Nat} (hl : Labelled w p n)
    (hin : ∀ m, Node.Sub m n → m.value.start ≤ m.value.stop ∧ m.value.stop ≤ p.env.tokens.length)
    (hγ : ∀ c ∈ n.children, ∀ m, Node.Sub m c → m.value.term.value ≠ gammaRule) (h : TextRoot G N p.env.tokens S k n) :
    ∃ m, RuleMeans G N w p.text p.env.tokens S k m ∧ ∀ e, m = some e ↔ Means w p n e := by
  obtain ⟨h1, h2, h3, h4, h5, c, h6, h7⟩ := h
  have hcm : c ∈ n.children := by rw [h6]; exact List.mem_cons_self
  obtain ⟨ph, g1, g2⟩ := tree_means hord hlen hc ⟨hl.kid hcm, fun m hm => hin m (.child hcm hm), hγ c hcm⟩ h7
  refine ⟨_, ⟨ph, g1, rfl⟩, fun e => ?_⟩
  rw [g2.means, ← rule_means h5 rfl (nl_of (hin n .refl))]
  have h0 : n.children[0]? = some c := by rw [h6]; rfl
  constructor
  · exact fun h => .proj (.child (k := 0) h0 h)
  · intro h
    have key : ∀ {fn : String} {as : List Arg}, FmrMeans w p n (.mk fn as) e → fn = "nf.I" → as = [.mk "index" (.int 1)] →
        Means w p c e := by
      intro fn as h hf has
      cases h with
      | call hn => exact absurd hf hn
      | proj h =>
        cases has
        have key' : ∀ {t : String} {i : Int}, ArgMeans w p n (.mk t (.int i)) e → t = "index" → i = 1 → Means w p c e := by
          intro t i h ht hi
          cases h with
          | self => cases hi
          | @child _ c' k _ h h' =>
            have : k = 0 := by omega
            subst this
            rw [h0, Option.some.injEq] at h
            exact h ▸ h'
          | context => exact absurd ht (by decide)
        exact key' h rfl rfl
    exact key h rfl rfl

end

end

end Fmr
