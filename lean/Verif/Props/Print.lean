import Verif.Proofs.PrintEnv
import Verif.Props.Trees
import Verif.Props.Values
import Verif.Props.Loaded
import Verif.Props.Size

/-!
# C70 – C72: printed trees and charts
-/

namespace Fmr

section
variable {p : StrWorld}

/-! ## the nodes of a tree -/

mutual
theorem laid_clear {chart : List (List TState)}
    (hc : ∀ (c : Nat) (col : List TState), chart[c]? = some col → ∀ s ∈ col, s.Clear) :
    ∀ {c r : Nat} {n : Node}, Laid chart c r n → n.All TState.Clear
  | _, _, _, .any h1 h2 h3 h4 =>
    .mk ⟨by simp [h4], by simp [h4], by simp [h4]⟩ .nil
  | _, _, _, .nonterminal h1 h2 h3 h4 h5 h6 =>
    .mk (hc _ _ h1 _ (List.mem_of_getElem? h2)) (kids_clear hc h6)
  | _, _, _, .list h1 h2 h3 h4 h5 =>
    .mk ⟨(hc _ _ h1 _ (List.mem_of_getElem? h2)).kind, (hc _ _ h1 _ (List.mem_of_getElem? h2)).name, by simp [h4]⟩
      (kids_clear hc h5)
theorem kids_clear {chart : List (List TState)}
    (hc : ∀ (c : Nat) (col : List TState), chart[c]? = some col → ∀ s ∈ col, s.Clear) :
    ∀ {c r : Nat} {ts : List Term} {a b : Nat} {ns : List Node}, LaidKids chart c r ts a b ns →
      Node.Alls TState.Clear ns
  | _, _, _, _, _, _, .nil => .nil
  | _, _, _, _, _, _, .leaf h1 h2 => .cons (.mk ⟨by simp [h1], by simp [h1], by simp [h1]⟩ .nil) (kids_clear hc h2)
  | _, _, _, _, _, _, .cons _ h1 _ _ _ h2 => .cons (laid_clear hc h1) (kids_clear hc h2)
end

mutual
theorem Node.All.imp {P Q : TState → Prop} (h : ∀ s, P s → Q s) : ∀ {n : Node}, n.All P → n.All Q
  | .mk _ _, .mk hv hs => .mk (h _ hv) (Node.Alls.imp h hs)
theorem Node.Alls.imp {P Q : TState → Prop} (h : ∀ s, P s → Q s) : ∀ {l : List Node}, Node.Alls P l → Node.Alls Q l
  | [], .nil => .nil
  | _ :: _, .cons ha hs => .cons (Node.All.imp h ha) (Node.Alls.imp h hs)
end

/-- `n` is one of the trees that `GetTrees` returns for a match found by `parse` -/
structure Returned (env : Env) (n : Node) : Prop where
  wf : env.WF
  ord : env.OrdOK
  unmixed : Unmixed env
  tree : ∃ flag fuel f res c row s S j ts, parse env flag fuel = some res ∧ chartGet res.chart c row = some s ∧
    S ∈ env.starts ∧ MatchFor S j s ∧ getTrees res.chart f c row = some ts ∧ n ∈ ts

theorem Returned.clear {env : Env} {n : Node} (h : Returned env n) (hs : env.Showable) : n.All TState.Clear := by
  obtain ⟨flag, fuel, f, res, c, row, s, S, j, ts, h1, h2, h3, h4, h5, h6⟩ := h.tree
  have hl := (C13_exact_partial env flag fuel f res h.wf h.ord h.unmixed h1 c row s h2 S h3 j h4 ts h5 n).1 h6
  exact laid_clear (fun c col hc s hs' => ((parse_at h.ord h1 h2).2.2 c col hc s hs').clear h.wf hs) hl

/-! ## C70: printed trees -/

mutual
/-- the nodes of a tree with their depths, parents before their children -/
def Node.outline (d : Nat) : Node → List (Nat × TState)
  | .mk v cs => (d, v) :: outlineL (d + 1) cs
termination_by structural n => n
def outlineL (d : Nat) : List Node → List (Nat × TState)
  | [] => []
  | c :: cs => c.outline d ++ outlineL d cs
termination_by structural l => l
end

mutual
/-- C70: `Print` writes one line per node, parents before their children: two blanks for each level, then the state. -/
theorem C70_lines (d : Nat) : ∀ n : Node, n.print p d =
    (n.outline d).flatMap fun x => List.replicate (2 * x.1) ' ' ++ (x.2.string p ++ ['\n'])
  | .mk v cs => by
    have e : ∀ d : Nat, (List.replicate d "  ".toList).flatten = List.replicate (2 * d) ' ' := by
      intro d
      induction d with
      | zero => rfl
      | succ d ih =>
        rw [List.replicate_succ, List.flatten_cons, ih, Nat.mul_succ, Nat.add_comm, ← List.replicate_append_replicate]
        rfl
    rw [Node.print, Node.outline, List.flatMap_cons, e, lines_kids (d + 1) cs]
    simp
theorem lines_kids (d : Nat) : ∀ l : List Node, printL p d l =
    (outlineL d l).flatMap fun x => List.replicate (2 * x.1) ' ' ++ (x.2.string p ++ ['\n'])
  | [] => by rw [printL, outlineL]; rfl
  | n :: l => by rw [printL, outlineL, List.flatMap_append, C70_lines d n, lines_kids d l]
end

theorem below_nil : Below 1 [] := .inl rfl

/-- C70: two trees, of the same parse or of parses with different grammars and texts, are printed alike exactly if
they have the same shape and each two corresponding nodes look the same. -/
theorem C70_print (hp : p.OK) {env env' : Env} (hs : env.Showable) (hs' : env'.Showable) {a b : Node}
    (ha : Returned env a) (hb : Returned env' b) :
    a.print p 0 = b.print p 0 ↔ a.Same (TState.Alike (fString p)) b := by
  have ca := ha.clear hs
  have cb := hb.clear hs'
  constructor
  · intro h
    have h' : a.print p 0 ++ [] = b.print p 0 ++ [] := by rw [h]
    have h1 := (print_same a b (ca.imp fun s h => h.lined hp) (cb.imp fun s h => h.lined hp) below_nil below_nil h').1
    exact Node.Same.imp (P := TState.Printable p)
      (fun x y hx hy e => (string_prefix (x := []) (y := []) hx hy (by simpa using e)).1)
      (ca.imp fun s h => h.printable hp) (cb.imp fun s h => h.printable hp) h1
  · intro h
    exact same_print (Node.Same.imp (P := TState.Clear) (fun x y hx _ e => TState.Alike.string hx.kind e) ca cb h)

/-- C70 for `String`. -/
theorem C70_string (hp : p.OK) {env env' : Env} (hs : env.Showable) (hs' : env'.Showable) {a b : Node}
    (ha : Returned env a) (hb : Returned env' b) :
    a.string p = b.string p → a.Same (TState.Alike (fString p)) b := by
  intro h
  have h' : a.string p ++ [] = b.string p ++ [] := by rw [h]
  have hn : NoKids [] := by intro l e; cases e
  exact (string_same a b ((ha.clear hs).imp fun s h => h.printable hp) ((hb.clear hs').imp fun s h => h.printable hp)
    hn hn h').1

/-! ## C71: the printed chart -/

/-- In this grammar what looks the same is the same: the alternatives of a rule differ in more than bounds and flags, and
terms `(any)` and lists of the same rule have the same bounds. -/
structure Legible (p : StrWorld) (env : Env) : Prop where
  bodies : ∀ A rb rb', env.Defines A rb → env.Defines A rb' → List.Forall₂ Term.Alike rb.terms rb'.terms →
    fString p rb.f = fString p rb'.f → rb = rb'
  terms : ∀ t t', env.Occurs t → env.Occurs t' → t.type = .any ∨ t.type = .list → t.Alike t' → t.meta = t'.meta
  any : AnyNamed env

theorem any_named {env : Env} (ha : AnyNamed env) {i : Nat} {s : TState} (h : Item.Basic env i s)
    (ht : s.term.type = .any) : s.term.value = "any" := by
  obtain ⟨_, _, t, ho, hk, _, hv⟩ := h.any ht
  rcases hv with hv | hv
  · rw [hv]; exact ha t ho hk
  · exact hv

/-- states that look the same are the same -/
theorem Legible.same {env : Env} (hwf : env.WF) (hl : Legible p env) {i j : Nat} {s t : TState} (hs : Item env i s)
    (ht : Item env j t) (h : s.Alike (fString p) t) : s = t := by
  have bs := hs.basic hwf
  have bt := ht.basic hwf
  have ms := hs.metaAt hwf
  have mt := ht.metaAt hwf
  obtain ⟨⟨v, k, m⟩, rb, a, b, d⟩ := s
  obtain ⟨⟨v', k', m'⟩, rb', a', b', d'⟩ := t
  obtain ⟨⟨e1, e2⟩, e3, e4, e5, e6⟩ := h
  simp only [TState.bodyTerms] at e1 e2 e3 e4 e5 e6 ms mt
  subst e1 e3 e4
  rcases bs.kind with hk | hk | hk <;> simp only at hk <;> subst hk
  · have e2 : v = v' := by simpa using e2
    subst e2
    obtain ⟨r, r', rfl, rfl, hf, hF⟩ := e5 rfl
    have := e6 (.inl rfl)
    subst this
    rw [ms rfl, mt rfl]
    have hr : r = r' := by
      obtain ⟨_, g1, _, hd⟩ := bs.nt rfl
      obtain ⟨_, g2, _, hd'⟩ := bt.nt rfl
      cases g1; cases g2
      rcases hd with hd | ⟨S, hS, hg, _, hr⟩
      · rcases hd' with hd' | ⟨S, hS, hg, _, hr⟩
        · exact hl.bodies _ _ _ hd hd' hf hF
        · exact absurd hg (hwf.noGamma.1 _ _ hd)
      · rcases hd' with hd' | ⟨S', hS', _, _, hr'⟩
        · exact absurd hg (hwf.noGamma.1 _ _ hd')
        · simp only [gammaState, Option.some.injEq] at hr hr'
          subst hr; subst hr'
          simp only at hf
          cases hf with
          | cons h _ =>
            have : S = S' := by simpa [Term.Alike] using h.2
            rw [this]
    rw [hr]
  · have v1 := any_named hl.any bs rfl
    have v2 := any_named hl.any bt rfl
    obtain ⟨r1, d1, t1, o1, k1, m1, _⟩ := bs.any rfl
    obtain ⟨r2, d2, t2, o2, k2, m2, _⟩ := bt.any rfl
    have := hl.terms t1 t2 o1 o2 (.inl k1) ⟨by rw [k1, k2], .inl k1⟩
    have s1 := bs.stop
    have s2 := bt.stop
    simp only at v1 v2 r1 r2 m1 m2 d1 d2 s1 s2
    rw [v1, v2, r1, r2, ← m1, ← m2, this, d1, d2, ← s1, ← s2]
  · have e2 : v = v' := by simpa using e2
    subst e2
    obtain ⟨r1, t1, o1, k1, v1, m1⟩ := bs.list rfl
    obtain ⟨r2, t2, o2, k2, v2, m2⟩ := bt.list rfl
    have := hl.terms t1 t2 o1 o2 (.inr k1) ⟨by rw [k1, k2], .inr (by rw [v1, v2])⟩
    have := e6 (.inr rfl)
    simp only at r1 r2 m1 m2
    simp_all

/-- C71: of the states of two charts, those that are printed alike look the same. -/
theorem C71_states (hp : p.OK) {env env' : Env} (hwf : env.WF) (hwf' : env'.WF) (hs : env.Showable) (hs' : env'.Showable)
    {i j : Nat} {s t : TState} (hi : Item env i s) (hj : Item env' j t) :
    s.string p = t.string p ↔ s.Alike (fString p) t := by
  constructor
  · intro h
    exact (string_prefix (x := []) (y := []) ((hi.clear hwf hs).printable hp) ((hj.clear hwf' hs').printable hp)
      (by simpa using h)).1
  · exact TState.Alike.string (hi.clear hwf hs).kind

/-- The full statement of C71: no two states of a column are printed alike. -/
def C71_statement : Prop :=
  ∀ (p : StrWorld), p.OK → ∀ env : Env, env.WF → env.OrdOK → env.Showable → env.starts.Nodup → ∀ fuel chart,
    chartOf env fuel = some chart → ∀ col ∈ chart, (col.map (TState.string p)).Nodup

/-- C71 for legible grammars (missing: grammars with alternatives or terms that differ in bounds and flags only, or in a
missing function and the function `nf.I($0)`, which is printed for it). -/
theorem C71_partial (hp : p.OK) {env : Env} (hwf : env.WF) (ho : env.OrdOK) (hs : env.Showable) (hl : Legible p env)
    (hn : env.starts.Nodup) {fuel : Nat} {chart : List (List TState)} (h : chartOf env fuel = some chart) :
    ∀ col ∈ chart, (col.map (TState.string p)).Nodup := by
  intro col hc
  obtain ⟨k, hk⟩ := List.getElem?_of_mem hc
  have hi := (chartOf_inv ho h).1 k col hk
  have hd := (C07_chart env hwf ho hn fuel chart h k col hk).2
  rw [List.nodup_iff_pairwise_ne, List.pairwise_map]
  refine List.Pairwise.imp_of_mem ?_ hd
  intro a b ha hb hne e
  exact hne.1 (hl.same hwf (hi a ha) (hi b hb) ((C71_states hp hwf hwf hs hs (hi a ha) (hi b hb)).1 e))

theorem alikes_of_eq {ls ls' : List TState} (hl : ∀ s ∈ ls, s.Printable p) (hl' : ∀ s ∈ ls', s.Printable p)
    (h : ls.map (TState.string p) = ls'.map (TState.string p)) : List.Forall₂ (TState.Alike (fString p)) ls ls' := by
  induction ls generalizing ls' with
  | nil =>
    cases ls' with
    | nil => exact .nil
    | cons => cases h
  | cons a ls ih =>
    cases ls' with
    | nil => cases h
    | cons b ls' =>
      simp only [List.map_cons, List.cons.injEq] at h
      exact .cons (string_prefix (x := []) (y := []) (hl a (by simp)) (hl' b (by simp)) (by simpa using h.1)).1
        (ih (fun s h => hl s (by simp [h])) (fun s h => hl' s (by simp [h])) h.2)

/-- C71: the printed chart determines, column by column, what the states look like. The text of a token must not contain
a newline. -/
theorem C71_chart (hp : p.OK) {tok : Token → List Char} (htok : ∀ t, '\n' ∉ tok t) {env env' : Env} (hwf : env.WF)
    (hwf' : env'.WF) (ho : env.OrdOK) (ho' : env'.OrdOK) (hs : env.Showable) (hs' : env'.Showable) (hst : env.starts ≠ [])
    (hst' : env'.starts ≠ []) {flag flag' : Bool} {fuel fuel' : Nat} {res res' : ParseResult}
    (h : parse env flag fuel = some res) (h' : parse env' flag' fuel' = some res')
    (he : parseString p tok env.tokens res = parseString p tok env'.tokens res') :
    List.Forall₂ (List.Forall₂ (TState.Alike (fString p))) res.chart res'.chart := by
  have g := parse_chart hst h
  have g' := parse_chart hst' h'
  have hi := (chartOf_inv ho g.1)
  have hi' := (chartOf_inv ho' g'.1)
  have hh : ∀ i t, '\n' ∉ headLine tok i t := by
    intro i t
    unfold headLine
    split
    · decide
    · simp
    · simp only [List.mem_cons, List.mem_append]
      rintro (h | h | h | h | h | h)
      · exact absurd h (by decide)
      · exact nat_no_newline _ h
      · exact absurd h (by decide)
      · exact htok _ h
      · exact absurd h (by decide)
      · exact span_no_newline _ _ h
  have hc : ∀ c ∈ res.chart, ∀ s ∈ c, s.Clear := by
    intro c hc s hm
    obtain ⟨k, hk⟩ := List.getElem?_of_mem hc
    exact (hi.1 k c hk s hm).clear hwf hs
  have hc' : ∀ c ∈ res'.chart, ∀ s ∈ c, s.Clear := by
    intro c hc s hm
    obtain ⟨k, hk⟩ := List.getElem?_of_mem hc
    exact (hi'.1 k c hk s hm).clear hwf' hs'
  have := columnsString_prefix (i := 0) (by have := hi.2; omega) (by have := hi'.2; omega) hh
    (fun c h s hm => (hc c h s hm).lined hp) (fun c h s hm => (hc' c h s hm).lined hp) he
  clear he hi hi' g g' h h'
  generalize res.chart = l at *
  generalize res'.chart = l' at *
  induction l generalizing l' with
  | nil =>
    cases l' with
    | nil => exact .nil
    | cons => cases this
  | cons a l ih =>
    cases l' with
    | nil => cases this
    | cons b l' =>
      simp only [List.map_cons, List.cons.injEq] at this
      exact .cons (alikes_of_eq (fun s h => (hc a (by simp) s h).printable hp) (fun s h => (hc' b (by simp) s h).printable hp)
        this.1) (ih (fun c h => hc c (by simp [h])) l' (fun c h => hc' c (by simp [h])) this.2)

/-! ## the printed trees of a match -/

mutual
theorem laid_same {env : Env} (hwf : env.WF) (hl : Legible p env) {chart : List (List TState)}
    (hc : ∀ (c : Nat) (col : List TState), chart[c]? = some col → ∀ s ∈ col, Item env c s) :
    ∀ {c r c' r' : Nat} {a b : Node}, Laid chart c r a → Laid chart c' r' b →
      a.Same (TState.Alike (fString p)) b → a = b
  | _, _, _, _, .mk v cs, .mk v' cs', ha, hb, h => by
    obtain ⟨h1, h2⟩ : v.Alike (fString p) v' ∧ Node.Sames (TState.Alike (fString p)) cs cs' := by
      cases h with
      | mk h1 h2 => exact ⟨h1, h2⟩
    have hk := h1.term.1
    cases ha with
    | @any _ _ s _ a1 a2 a3 a4 =>
      cases hb with
      | @any _ _ t _ b1 b2 b3 b4 =>
        have e := hl.same hwf (hc _ _ a1 _ (List.mem_of_getElem? a2)) (hc _ _ b1 _ (List.mem_of_getElem? b2))
          ⟨h1.term, h1.start, h1.stop, by simp [a4], by simp [a4]⟩
        rw [e]
      | nonterminal b1 b2 b3 b4 => rw [a4, b4] at hk; cases hk
      | list b1 b2 b3 b4 => rw [a4, b4] at hk; cases hk
    | nonterminal a1 a2 a3 a4 a5 a6 =>
      cases hb with
      | any b1 b2 b3 b4 => rw [a4, b4] at hk; cases hk
      | nonterminal b1 b2 b3 b4 b5 b6 =>
        have e := hl.same hwf (hc _ _ a1 _ (List.mem_of_getElem? a2)) (hc _ _ b1 _ (List.mem_of_getElem? b2)) h1
        subst e
        rw [a5] at b5
        cases b5
        rw [kids_same hwf hl hc a6 b6 h2]
      | list b1 b2 b3 b4 => rw [a4] at hk; rw [b4] at hk; cases hk
    | list a1 a2 a3 a4 a6 =>
      cases hb with
      | any b1 b2 b3 b4 => rw [a4, b4] at hk; cases hk
      | nonterminal b1 b2 b3 b4 => rw [a4, b4] at hk; cases hk
      | list b1 b2 b3 b4 b6 =>
        have e := hl.same hwf (hc _ _ a1 _ (List.mem_of_getElem? a2)) (hc _ _ b1 _ (List.mem_of_getElem? b2))
          ⟨h1.term, h1.start, h1.stop, by simp [a4], fun e => h1.dot e⟩
        subst e
        rw [kids_same hwf hl hc a6 b6 h2]
theorem kids_same {env : Env} (hwf : env.WF) (hl : Legible p env) {chart : List (List TState)}
    (hc : ∀ (c : Nat) (col : List TState), chart[c]? = some col → ∀ s ∈ col, Item env c s) :
    ∀ {c r c' r' : Nat} {ts : List Term} {i j i' j' : Nat} {as bs : List Node}, LaidKids chart c r ts i j as →
      LaidKids chart c' r' ts i' j' bs → Node.Sames (TState.Alike (fString p)) as bs → as = bs
  | _, _, _, _, _, _, _, _, _, [], [], _, _, _ => rfl
  | _, _, _, _, _, _, _, _, _, [], _ :: _, _, _, h => by cases h
  | _, _, _, _, _, _, _, _, _, _ :: _, [], _, _, h => by cases h
  | _, _, _, _, _, _, _, _, _, a :: as, b :: bs, ha, hb, h => by
    obtain ⟨h1, h2⟩ : a.Same (TState.Alike (fString p)) b ∧ Node.Sames (TState.Alike (fString p)) as bs := by
      cases h with
      | cons h1 h2 => exact ⟨h1, h2⟩
    cases ha with
    | leaf a1 a2 =>
      cases hb with
      | leaf b1 b2 =>
        rw [kids_same hwf hl hc a2 b2 h2]
        cases h1 with
        | mk h1 _ =>
          have := h1.start
          simp only at this
          rw [this]
      | cons b1 => exact absurd a1 b1
    | cons a1 a2 a3 a4 a5 a6 =>
      cases hb with
      | leaf b1 b2 => exact absurd b1 a1
      | cons b1 b2 b3 b4 b5 b6 =>
        rw [kids_same hwf hl hc a6 b6 h2, laid_same hwf hl hc a2 b2 h1]
end

/-- C70 for the trees of a match, for legible grammars: no two are printed alike. -/
theorem C70_distinct (hp : p.OK) {env : Env} (hl : Legible p env) {flag : Bool} {fuel f : Nat} {res : ParseResult}
    (hwf : env.WF) (ho : env.OrdOK) (hun : Unmixed env) (hs : env.Showable) (h : parse env flag fuel = some res)
    {c row : Nat} {s : TState} (hat : chartGet res.chart c row = some s) {S : String} (hS : S ∈ env.starts) {j : Nat}
    (hm : MatchFor S j s) {ts : List Node} (ht : getTrees res.chart f c row = some ts) :
    (ts.map fun n => n.print p 0).Nodup := by
  have hd := C14_no_duplicate_trees env flag fuel f res hwf ho h c row s hat ts ht
  have hx := C13_exact_partial env flag fuel f res hwf ho hun h c row s hat S hS j hm ts ht
  rw [List.nodup_iff_pairwise_ne] at hd ⊢
  rw [List.pairwise_map]
  refine List.Pairwise.imp_of_mem ?_ hd
  intro a b ha hb hne e
  have ra : ∀ n ∈ ts, Returned env n := fun n hn => ⟨hwf, ho, hun, flag, fuel, f, res, c, row, s, S, j, ts, h, hat, hS, hm, ht, hn⟩
  exact hne (laid_same hwf hl (parse_at ho h hat).2.2 ((hx a).1 ha) ((hx b).1 hb)
    ((C70_print hp hs hs (ra a ha) (ra b hb)).1 e))

end

/-! ## C72: `TreePrint` -/

/-- The full statement of C72: with a layout that determines what is laid out, `TreePrint` determines what the tree looks
like. -/
def C72_statement : Prop :=
  ∀ (p : StrWorld), p.OK → ∀ (α : Type) (layout : List Char → List (List Char) → α),
    (∀ r l r' l', layout r l = layout r' l' → r = r' ∧ l = l') → ∀ env : Env, env.Showable → ∀ a b : Node,
    Returned env a → Returned env b → a.treePrint p layout = b.treePrint p layout → a.Same (TState.Alike (fString p)) b

theorem Node.Alls.mem {P : TState → Prop} {l : List Node} (h : Node.Alls P l) : ∀ n ∈ l, n.All P := by
  induction l with
  | nil => simp
  | cons a l ih =>
    cases h with
    | cons h1 h2 =>
      intro n hn
      rcases List.mem_cons.1 hn with rfl | hn
      · exact h1
      · exact ih h2 n hn

/-- C72 for the root and its children (missing: the nodes below, they are not printed). -/
theorem C72_partial {p : StrWorld} (hp : p.OK) {α : Type} {layout : List Char → List (List Char) → α}
    (hl : ∀ r l r' l', layout r l = layout r' l' → r = r' ∧ l = l') {env env' : Env} (hs : env.Showable)
    (hs' : env'.Showable) {a b : Node} (ha : Returned env a) (hb : Returned env' b) :
    a.treePrint p layout = b.treePrint p layout →
      a.value.Alike (fString p) b.value ∧
      List.Forall₂ (TState.Alike (fString p)) (a.children.map Node.value) (b.children.map Node.value) := by
  intro h
  obtain ⟨h1, h2⟩ := hl _ _ _ _ h
  have key : ∀ {env : Env} {a : Node}, env.Showable → Returned env a → a.value.Printable p ∧
      ∀ s ∈ a.children.map Node.value, s.Printable p := by
    intro env a hs ha
    have hc := ha.clear hs
    cases hc with
    | mk hv hk =>
      refine ⟨hv.printable hp, ?_⟩
      intro s hm
      obtain ⟨n, hn, rfl⟩ := List.mem_map.1 hm
      exact (hk.mem n hn).value.printable hp
  obtain ⟨k1, k2⟩ := key hs ha
  obtain ⟨k3, k4⟩ := key hs' hb
  refine ⟨(string_prefix (x := []) (y := []) k1 k3 (by simpa using h1)).1, alikes_of_eq k2 k4 ?_⟩
  rw [List.map_map, List.map_map]
  exact h2

/-! ## loaded grammars -/

theorem shown_ident {w : LexWorld} (hw : w.OK) {l : List Char} (h : Ident w l) : Shown (String.ofList l) := by
  have key : ∀ c, (w.isLetter c = true ∨ c = '_' ∨ w.isDigit c = true) → c ≠ '>' ∧ c ≠ '\n' := by
    intro c hc
    have h1 := hw.punct '>' (by decide)
    have h2 := hw.spaces '\n' (by decide)
    constructor
    · rintro rfl
      rw [h1.1, h1.2.1] at hc
      revert hc; decide
    · rintro rfl
      rcases hc with hc | hc | hc
      · rw [hw.letter_space _ hc] at h2; cases h2
      · revert hc; decide
      · rw [hw.digit_space _ hc] at h2; cases h2
  have all : ∀ c ∈ l, c ≠ '>' ∧ c ≠ '\n' := by
    cases h with
    | mk h1 h2 =>
      intro c hc
      rcases List.mem_cons.1 hc with rfl | hc
      · exact key _ (h1.imp id .inl)
      · exact key _ (h2 c hc)
  unfold Shown
  rw [String.toList_ofList]
  exact ⟨fun h => (all _ h).1 rfl, fun h => (all _ h).2 rfl⟩

theorem shown_fn {w : LexWorld} (hw : w.OK) {l : List Char} (h : FnName w l) : FnShown (String.ofList l) := by
  have key : ∀ c, (w.isLetter c = true ∨ c = '_' ∨ w.isDigit c = true ∨ c = '.') → c ≠ '"' ∧ c ≠ '}' ∧ c ≠ '\n' := by
    intro c hc
    have h1 := hw.punct '"' (by decide)
    have h2 := hw.punct '}' (by decide)
    have h3 := hw.spaces '\n' (by decide)
    refine ⟨?_, ?_, ?_⟩
    · rintro rfl
      rw [h1.1, h1.2.1] at hc
      revert hc; decide
    · rintro rfl
      rw [h2.1, h2.2.1] at hc
      revert hc; decide
    · rintro rfl
      rcases hc with hc | hc | hc | hc
      · rw [hw.letter_space _ hc] at h3; cases h3
      · revert hc; decide
      · rw [hw.digit_space _ hc] at h3; cases h3
      · revert hc; decide
  unfold FnShown
  rw [String.toList_ofList]
  cases h with
  | mk h1 h2 _ =>
    intro c hc
    rcases List.mem_cons.1 hc with rfl | hc
    · exact key _ (h1.imp id .inl)
    · exact key _ (h2 c hc)

mutual
theorem fns_wf {w : LexWorld} (hw : w.OK) : ∀ {f : FMR}, FmrWF w f → ∀ x ∈ f.fns, FnShown x
  | _, .mk h1 _ h2 => by
    intro x hx
    rw [FMR.fns] at hx
    rcases List.mem_cons.1 hx with rfl | hx
    · exact shown_fn hw h1
    · exact fns_args hw h2 x hx
theorem fns_args {w : LexWorld} (hw : w.OK) : ∀ {l : List Arg}, ArgsWF w l → ∀ x ∈ argsFns l, FnShown x
  | _, .nil => by intro x hx; rw [argsFns] at hx; cases hx
  | _, .cons h1 h2 => by
    intro x hx
    rw [argsFns] at hx
    rcases List.mem_append.1 hx with hx | hx
    · exact fns_arg hw h1 x hx
    · exact fns_args hw h2 x hx
theorem fns_arg {w : LexWorld} (hw : w.OK) : ∀ {a : Arg}, ArgWF w a → ∀ x ∈ a.fns, FnShown x
  | _, .context | _, .index | _, .string | _, .int | _, .float => by
    intro x hx
    rw [Arg.fns, Val.fns] at hx
    cases hx
  | _, .func h => by
    intro x hx
    rw [Arg.fns, Val.fns] at hx
    exact fns_wf hw h x hx
end

/-- Parse results of loaded grammars can be read back, if the names made from literals and regexps contain neither `>` nor
newlines. (The names of the user's rules and functions never do.) -/
theorem C70_loaded {w : LexWorld} (hw : w.OK) {env : Env} (hg : ∀ g ∈ env.grammars, LoadedWF w g)
    (hst : ∀ S ∈ env.starts, Shown S) (hmd5 : ∀ r, Shown (w.md5 r))
    (hlit : ∀ g ∈ env.grammars, ∀ A h ts, g.rules.lookup A = some ⟨A, [(h, ⟨ts, none⟩)]⟩ → Shown A) : env.Showable := by
  have hd : ∀ A rb, env.Defines A rb → ∃ g ∈ env.grammars, ∃ r, g.rules.lookup A = some r ∧ rb ∈ r.bodies ∧
      LoadedRule w g A r := by
    rintro A rb ⟨g, hgm, r, hr, hm⟩
    exact ⟨g, hgm, r, hr, hm, (hg g hgm).rules A r hr⟩
  have hbody : ∀ A rb, env.Defines A rb → Shown A ∧ (∀ t ∈ rb.terms, t.type ≠ .eof ∧
      (t.type = .nonterminal ∨ t.type = .list → Shown t.value)) ∧ ∀ f, rb.f = some f → ∀ x ∈ f.fns, FnShown x := by
    intro A rb h
    obtain ⟨g, hgm, r, hr, hm, hl⟩ := hd A rb h
    cases hl with
    | @user body hid hne hnd hall =>
      obtain ⟨l, rfl, hl⟩ := hid
      simp only [Rule.bodies, List.mem_map] at hm
      obtain ⟨e, he, rfl⟩ := hm
      obtain ⟨_, ht, hf⟩ := hall e he
      refine ⟨shown_ident hw hl, ?_, fun f h => fns_wf hw (hf f h)⟩
      intro t htm
      cases ht t htm with
      | same hk hwf =>
        cases hwf with
        | nonterminal h => exact ⟨by simp, fun _ => shown_ident hw h⟩
        | regex => exact ⟨by simp, fun _ => hmd5 _⟩
        | literal => simp
        | flagged => simp
        | any => simp
        | list h => exact ⟨by simp, fun _ => shown_ident hw h⟩
      | literal _ h => exact ⟨by simp, fun _ => hlit g hgm _ _ _ h⟩
    | @literal h0 ts m hm' hts =>
      simp only [Rule.bodies, List.map_cons, List.map_nil, List.mem_singleton] at hm
      subst hm
      refine ⟨hlit g hgm _ _ _ hr, ?_, by simp⟩
      intro t ht
      simp [(hts t ht).1]
  refine ⟨fun A rb h => (hbody A rb h).1, hst, ?_, ?_, fun A rb f h => (hbody A rb h).2.2 f⟩
  · rintro t ⟨A, rb, h, ht⟩
    exact ((hbody A rb h).2.1 t ht).1
  · rintro t ⟨A, rb, h, ht⟩
    exact ((hbody A rb h).2.1 t ht).2

/-- the grammar `<a> = "hi" (list<b>) {f.g($1)}; <b> = "you";` loads, and the names made from its literals can be shown -/
example : ∃ ld st, loadString (noFiles asciiLex) 40 1 "<a>=\"hi\" (list<b>) {f.g($1)};<b>=\"you\";\n".toList "g" [] =
      .ok (some ld, st) ∧ LoadedWF asciiLex ld.gram.main ∧ ld.gram.main.rules.length = 4 ∧
    ∀ A h ts, ld.gram.main.rules.lookup A = some ⟨A, [(h, ⟨ts, none⟩)]⟩ → Shown A := by
  have hc : (match loadString (noFiles asciiLex) 40 1 "<a>=\"hi\" (list<b>) {f.g($1)};<b>=\"you\";\n".toList "g" [] with
      | .ok (some ld, _) => ld.gram.main.rules.length = 4 && ld.gram.main.rules.all fun e =>
          !e.1.toList.contains '>' && !e.1.toList.contains '\n'
      | _ => false) = true := by decide +kernel
  split at hc
  · rename_i ld st e
    simp only [Bool.and_eq_true, decide_eq_true_eq, List.all_eq_true, Bool.not_eq_true', List.contains_eq_mem,
      decide_eq_false_iff_not] at hc
    refine ⟨ld, st, e, C30_string_partial asciiLex_ok e _ (by simp), hc.1, ?_⟩
    intro A h ts hl
    exact hc.2 _ (lookup_mem hl)
  · cases hc

/-! ## examples -/

/-- decidable check for `Showable`, for grammars without functions -/
def Env.checkShowable (env : Env) : Bool :=
  env.allBodies.all (fun q => !q.1.toList.contains '>' && !q.1.toList.contains '\n' && q.2.f.isNone &&
    q.2.terms.all (fun t => t.type != .eof && !t.value.toList.contains '>' && !t.value.toList.contains '\n')) &&
  env.starts.all (fun x => !x.toList.contains '>' && !x.toList.contains '\n')

theorem Env.checkShowable_ok {env : Env} (h : env.checkShowable = true) : env.Showable := by
  unfold Env.checkShowable at h
  simp only [Bool.and_eq_true, List.all_eq_true, Bool.not_eq_true', bne_iff_ne, ne_eq, List.contains_eq_mem,
    decide_eq_false_iff_not] at h
  obtain ⟨h1, h2⟩ := h
  have ho : ∀ t, env.Occurs t → (t.type ≠ .eof ∧ '>' ∉ t.value.toList) ∧ '\n' ∉ t.value.toList := by
    rintro t ⟨A, rb, hd, ht⟩
    exact (h1 _ (Env.Defines.mem_allBodies hd)).2 t ht
  refine ⟨fun A rb hd => (h1 _ (Env.Defines.mem_allBodies hd)).1.1, h2, fun t ht => (ho t ht).1.1,
    fun t ht _ => ⟨(ho t ht).1.2, (ho t ht).2⟩, fun A rb f hd hf => ?_⟩
  have := (h1 _ (Env.Defines.mem_allBodies hd)).1.2
  simp only at this
  rw [hf] at this
  cases this

/-- decidable check for `Legible` -/
def Env.checkLegible (p : StrWorld) (env : Env) : Bool :=
  env.allBodies.all (fun q => env.allBodies.all fun r => q.1 != r.1 || q.2.equal r.2 ||
    bodyText p 0 0 q.2.terms != bodyText p 0 0 r.2.terms || fString p q.2.f != fString p r.2.f) &&
  env.allTerms.all (fun t => env.allTerms.all fun u => (t.type != .any && t.type != .list) || t.meta == u.meta ||
    t.type != u.type || (t.type != .any && t.value != u.value)) && env.checkAnyNamed

theorem Env.checkLegible_ok {p : StrWorld} {env : Env} (hwf : env.WF) (h : env.checkLegible p = true) : Legible p env := by
  unfold Env.checkLegible at h
  simp only [Bool.and_eq_true, List.all_eq_true, Bool.or_eq_true, bne_iff_ne, beq_iff_eq, ne_eq] at h
  obtain ⟨⟨h1, h2⟩, h3⟩ := h
  refine ⟨?_, ?_, Env.checkAnyNamed_ok h3⟩
  · intro A rb rb' hd hd' hf hF
    rcases h1 _ (Env.Defines.mem_allBodies hd) _ (Env.Defines.mem_allBodies hd') with ((h | h) | h) | h
    · exact absurd rfl h
    · exact (RuleBody.equal_iff (hwf.bodies _ _ hd) (hwf.bodies _ _ hd')).1 h
    · exact absurd (alikes_text hf 0 0) h
    · exact absurd hF h
  · rintro t t' ho ho' hk ⟨e1, e2⟩
    rcases h2 _ (Env.Occurs.mem_allTerms ho) _ (Env.Occurs.mem_allTerms ho') with ((h | h) | h) | h
    · rcases hk with hk | hk
      · exact absurd hk h.1
      · exact absurd hk h.2
    · exact h
    · exact absurd e1 h
    · rcases e2 with e2 | e2
      · exact absurd e2 h.1
      · exact absurd e2 h.2

/-- ASCII -/
def asciiStr : StrWorld := { isPrint := fun c => ' ' ≤ c ∧ c < '\x7f', floatStr := fun _ => "0.5" }

theorem asciiStr_ok : asciiStr.OK := ⟨by decide, fun _ => by
  show ∀ c ∈ "0.5".toList, _
  decide⟩

example : wGood.Showable ∧ Legible asciiStr wGood ∧ wAmb.Showable ∧ Legible asciiStr wAmb :=
  ⟨Env.checkShowable_ok (by decide +kernel),
    Env.checkLegible_ok (Env.checkWF_wf (by decide +kernel)) (by decide +kernel),
    Env.checkShowable_ok (by decide +kernel),
    Env.checkLegible_ok (Env.checkWF_wf (by decide +kernel)) (by decide +kernel)⟩

theorem returned_of {env : Env} (hwf : env.WF) (ho : env.OrdOK) (hun : Unmixed env) {flag : Bool} {fuel f : Nat}
    {res : ParseResult} (h : parse env flag fuel = some res) {c row : Nat} {s : TState}
    (hat : chartGet res.chart c row = some s) (hf : s.isFinal = true) {ts : List Node}
    (ht : getTrees res.chart f c row = some ts) {n : Node} (hn : n ∈ ts) : Returned env n := by
  obtain ⟨_, hat', hch⟩ := parse_at ho h hat
  have hi : Item env c s := by
    obtain ⟨col, h1, h2⟩ := hat'
    exact hch c col h1 s (List.mem_of_getElem? h2)
  obtain ⟨S, hS, hm⟩ := (isFinal_iff_match hwf hi).1 hf
  exact ⟨hwf, ho, hun, flag, fuel, f, res, c, row, s, S, _, ts, h, hat, hS, hm, ht, hn⟩

/-- the check of the witness: the two trees of a match -/
def twoTrees (p : StrWorld) (env : Env) (a : Nat × Nat) : Bool :=
  match parse env true 60 with
  | none => false
  | some r =>
    match chartGet r.chart a.1 a.2, getTrees r.chart 90 a.1 a.2 with
    | some s, some [a, b] => s.isFinal && a.value.string p == b.value.string p &&
        (a.children.map fun c => c.value.string p) == (b.children.map fun c => c.value.string p) &&
        a.print p 0 != b.print p 0
    | _, _ => false

theorem wAmb_ok : wAmb.WF ∧ wAmb.OrdOK ∧ Unmixed wAmb ∧ wAmb.Showable :=
  ⟨Env.checkWF_wf (by decide +kernel), idOrd_ok, Env.checkUnmixed_ok (by decide +kernel),
    Env.checkShowable_ok (by decide +kernel)⟩

theorem twoTrees_amb : ∃ a b, Returned wAmb a ∧ Returned wAmb b ∧
    a.value.string asciiStr = b.value.string asciiStr ∧
    (a.children.map fun c => c.value.string asciiStr) = (b.children.map fun c => c.value.string asciiStr) ∧
    a.print asciiStr 0 ≠ b.print asciiStr 0 := by
  obtain ⟨hwf, ho, hun, _⟩ := wAmb_ok
  have h : twoTrees asciiStr wAmb (3, 6) = true := by decide +kernel
  unfold twoTrees at h
  split at h
  · cases h
  rename_i r hr
  split at h
  · rename_i s a b hs ht
    simp only [Bool.and_eq_true, beq_iff_eq, bne_iff_ne, ne_eq] at h
    obtain ⟨⟨⟨h1, h2⟩, h3⟩, h4⟩ := h
    exact ⟨a, b, returned_of hwf ho hun hr hs h1 ht (by simp), returned_of hwf ho hun hr hs h1 ht (by simp), h2, h3, h4⟩
  · cases h

theorem C72_false : ¬ C72_statement := by
  intro h
  obtain ⟨a, b, ha, hb, h1, h2, h3⟩ := twoTrees_amb
  obtain ⟨_, _, _, hs⟩ := wAmb_ok
  apply h3
  rw [C70_print asciiStr_ok hs hs ha hb]
  refine h asciiStr asciiStr_ok _ Prod.mk ?_ wAmb hs a b ha hb ?_
  · intro r l r' l' e
    cases e
    exact ⟨rfl, rfl⟩
  · unfold Node.treePrint
    rw [h1, h2]

/-- the printed trees of a match -/
def printed (p : StrWorld) (env : Env) (a : Nat × Nat) : List String :=
  match parse env true 60 with
  | none => []
  | some r => ((getTrees r.chart 90 a.1 a.2).getD []).map fun n => String.ofList (n.print p 0)

example : printed asciiStr wGood (3, 7) = ["<ɣ> -> <s> • [0-3] {nf.I($1)}\n" ++
    "  <s> -> <s> <p> <s> • [0-3] {nf.I($0)}\n" ++
    "    <s> -> (list<n>) • [0-1] {nf.I($0)}\n" ++
    "      (list<n>) -> <n> • *  [0-1] {fmr.list($1)}\n" ++
    "        <n> -> \"1\" • [0-1] {nf.I($0)}\n" ++
    "          \"1\" [0-1]\n" ++
    "    <p> -> \"+\" • [1-2] {nf.I($0)}\n" ++
    "      \"+\" [1-2]\n" ++
    "    <s> -> (list<n>) • [2-3] {nf.I($0)}\n" ++
    "      (list<n>) -> <n> • *  [2-3] {fmr.list($1)}\n" ++
    "        <n> -> \"2\" • [2-3] {nf.I($0)}\n" ++
    "          \"2\" [2-3]\n"] := by decide +kernel

/-- `TreePrint` of both readings of `a a a` -/
example : ∃ a b, Returned wAmb a ∧ Returned wAmb b ∧ a.print asciiStr 0 ≠ b.print asciiStr 0 :=
  let ⟨a, b, ha, hb, _, _, h⟩ := twoTrees_amb
  ⟨a, b, ha, hb, h⟩

/-- the lines of a column -/
def columnLines (p : StrWorld) (env : Env) (c : Nat) : List String :=
  match chartOf env 60 with
  | none => []
  | some l => (l.getD c []).map fun s => String.ofList (s.string p)

theorem columnLines_bounds : columnLines asciiStr wBounds 0 = ["<ɣ> -> • <s>  [0-0] {nf.I($1)}",
    "<s> -> • (any) <x>  [0-0] {nf.I($0)}", "<s> -> • (any) <y>  [0-0] {nf.I($0)}", "(any) -> • *  [0-0]",
    "(any) -> • *  [0-0]"] := by decide +kernel

theorem C71_false : ¬ C71_statement := by
  intro h
  have hc := columnLines_bounds
  unfold columnLines at hc
  split at hc
  · cases hc
  rename_i l hl
  have hm : l.getD 0 [] ∈ l := by
    cases l with
    | nil => cases hc
    | cons a l => simp
  have := h asciiStr asciiStr_ok wBounds (Env.checkWF_wf (by decide +kernel)) idOrd_ok
    (Env.checkShowable_ok (by decide +kernel)) (by decide) 60 l hl _ hm
  have h2 : ((l.getD 0 []).map fun s => String.ofList (s.string asciiStr)).Nodup := by
    have e : ((l.getD 0 []).map fun s => String.ofList (s.string asciiStr)) =
        ((l.getD 0 []).map (TState.string asciiStr)).map String.ofList := by rw [List.map_map]; rfl
    rw [e]
    rw [List.nodup_iff_pairwise_ne] at this ⊢
    rw [List.pairwise_map]
    refine this.imp fun hne e => hne ?_
    have := congrArg String.toList e
    simpa using this
  rw [hc] at h2
  revert h2
  decide

end Fmr
