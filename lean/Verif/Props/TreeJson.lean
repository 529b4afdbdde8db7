import Verif.Props.Bracketed

/-!
# C59: Tree
-/

namespace Fmr

/-- the node's alternative has a function -/
def Node.HasFunc (n : Node) : Prop := ∃ rb f, n.value.rb = some rb ∧ rb.f = some f

mutual
/-- The object for a node: label, text and position of the node, and one object per child in order. The internal
start symbol is skipped. The children are left out if the alternative has no function, or if they are all
literals. -/
inductive TreeValOf (p : Parsed) : Node → TreeVal → Prop
  | start {n c : Node} {v : TreeVal} : n.value.term.value = "ɣ" → n.children.head? = some c →
      TreeValOf p c v → TreeValOf p n v
  | leaf {n : Node} {o : Bytes} {q : Pos} : n.value.term.value ≠ "ɣ" → (¬ n.HasFunc ∨ FlatKids n.children) →
      p.originalText n = .ok o → p.pos n = .ok q → TreeValOf p n (.mk n.value.term.value o q none)
  | node {n : Node} {o : Bytes} {q : Pos} {vs : List TreeVal} : n.value.term.value ≠ "ɣ" → n.HasFunc →
      ¬ FlatKids n.children → p.originalText n = .ok o → p.pos n = .ok q → TreeValsOf p n.children vs →
      TreeValOf p n (.mk n.value.term.value o q (some vs))
inductive TreeValsOf (p : Parsed) : List Node → List TreeVal → Prop
  | nil : TreeValsOf p [] []
  | cons {n : Node} {ns : List Node} {v : TreeVal} {vs : List TreeVal} : TreeValOf p n v → TreeValsOf p ns vs →
      TreeValsOf p (n :: ns) (v :: vs)
end

theorem noFunc_iff {v : TState} {cs : List Node} :
    v.noFunc = true ↔ ¬ (Node.mk v cs).HasFunc := by
  unfold Node.HasFunc TState.noFunc
  simp only [Node.value]
  cases v.rb with
  | none => simp
  | some rb => cases h : rb.f <;> simp [h]

mutual
theorem tree_ok (p : Parsed) : ∀ (n : Node) (t : TreeVal), n.tree p = .ok t ↔ TreeValOf p n t
  | .mk v cs, t => by
    by_cases hg : v.term.value = "ɣ"
    · rw [Node.tree.eq_def]
      simp only []
      rw [if_pos (show v.term.value = gammaRule from hg)]
      match cs with
      | [] =>
        simp only [reduceCtorEq, false_iff]
        intro hb
        cases hb with
        | start h1 h2 h3 => simp [Node.children] at h2
        | leaf h1 => exact h1 hg
        | node h1 => exact h1 hg
      | c :: cs =>
        simp only [tree_ok p c]
        constructor
        · exact fun hb => .start hg rfl hb
        · intro hb
          cases hb with
          | start h1 h2 h3 =>
            simp [Node.children] at h2
            exact h2 ▸ h3
          | leaf h1 => exact absurd hg h1
          | node h1 => exact absurd hg h1
    · have hg' : ¬ v.term.value = gammaRule := hg
      rw [Node.tree.eq_def]
      simp only []
      rw [if_neg hg', nodeTerm_ne hg, Out.bind_ok]
      simp only [Out.bind_eq_ok]
      have e1 : ∀ o, p.originalText (.mk v []) = .ok o ↔ p.originalText (.mk v cs) = .ok o := fun o => Iff.rfl
      have e2 : ∀ o, p.pos (.mk v []) = .ok o ↔ p.pos (.mk v cs) = .ok o := fun o => Iff.rfl
      simp only [e1, e2]
      by_cases ha : (v.noFunc || allTerminal cs) = true
      · have ha' : ¬ (Node.mk v cs).HasFunc ∨ FlatKids cs := by
          rw [Bool.or_eq_true, noFunc_iff (cs := cs), allTerminal_iff] at ha
          exact ha
        constructor
        · rintro ⟨o, ho, q, hq, h⟩
          rw [if_pos ha, Out.pure_eq, Out.ok.injEq] at h
          subst h
          exact .leaf hg ha' ho hq
        · intro hb
          cases hb with
          | start h1 h2 h3 => exact absurd h1 hg
          | leaf h1 h2 h3 h4 => exact ⟨_, h3, _, h4, by rw [if_pos ha]; rfl⟩
          | node h1 h2 h3 => exact (ha'.elim (fun h => absurd h2 h) (fun h => absurd h h3))
      · have ha' : (Node.mk v cs).HasFunc ∧ ¬ FlatKids cs := by
          rw [Bool.or_eq_true, noFunc_iff (cs := cs), allTerminal_iff, not_or, not_not] at ha
          exact ha
        constructor
        · rintro ⟨o, ho, q, hq, h⟩
          rw [if_neg ha, Out.bind_eq_ok] at h
          obtain ⟨vs, hvs, h⟩ := h
          rw [Out.pure_eq, Out.ok.injEq] at h
          subst h
          exact .node hg ha'.1 ha'.2 ho hq ((treeL_ok p cs vs).1 hvs)
        · intro hb
          cases hb with
          | start h1 h2 h3 => exact absurd h1 hg
          | leaf h1 h2 => exact (h2.elim (fun h => absurd ha'.1 h) (fun h => absurd h ha'.2))
          | node h1 h2 h3 h4 h5 h6 => 
            refine ⟨_, h4, _, h5, ?_⟩
            rw [if_neg ha, Out.bind_eq_ok]
            exact ⟨_, (treeL_ok p cs _).2 h6, rfl⟩
theorem treeL_ok (p : Parsed) : ∀ (cs : List Node) (vs : List TreeVal), treeL p cs = .ok vs ↔ TreeValsOf p cs vs
  | [], vs => by
    simp only [treeL, Out.ok.injEq]
    constructor
    · rintro rfl; exact .nil
    · intro h; cases h; rfl
  | c :: cs, vs => by
    simp only [treeL, Out.bind_eq_ok, Out.pure_eq, Out.ok.injEq, tree_ok p c, treeL_ok p cs]
    constructor
    · rintro ⟨v, hv, vs', hvs, rfl⟩; exact .cons hv hvs
    · intro h
      cases h with
      | cons h1 h2 => exact ⟨_, h1, _, h2, rfl⟩
end

/-- C59: Tree returns exactly the object that mirrors the tree. -/
theorem C59_mirrors (p : Parsed) (n : Node) (t : TreeVal) : n.tree p = .ok t ↔ TreeValOf p n t := tree_ok p n t

def TreeVal.pos : TreeVal → Pos
  | .mk _ _ q _ => q

def TreeVal.label : TreeVal → String
  | .mk l _ _ _ => l

mutual
/-- Every object has the text at its position; the children of an object lie side by side in it: the first starts
where it starts, no child starts before the previous one ends, the last ends where it ends. -/
def TreeVal.Laid (text : Bytes) : TreeVal → Prop
  | .mk _ o q none => q.startByte ≤ q.endByte ∧ q.endByte ≤ text.length ∧ o = (text.take q.endByte).drop q.startByte
  | .mk _ o q (some vs) => (q.startByte ≤ q.endByte ∧ q.endByte ≤ text.length ∧
      o = (text.take q.endByte).drop q.startByte) ∧ vs.head?.map (·.pos.startByte) = some q.startByte ∧
      LaidL text q.startByte vs ∧ vs.getLast?.map (·.pos.endByte) = some q.endByte
def LaidL (text : Bytes) : Nat → List TreeVal → Prop
  | _, [] => True
  | lo, v :: vs => lo ≤ v.pos.startByte ∧ v.Laid text ∧ LaidL text v.pos.endByte vs
end

/-- `m` is one of the nodes of the tree of `n` that Tree makes an object for -/
inductive Node.Listed : Node → Node → Prop
  | start {m n c : Node} : n.value.term.value = "ɣ" → n.children.head? = some c → Node.Listed m c → Node.Listed m n
  | self {n : Node} : n.value.term.value ≠ "ɣ" → Node.Listed n n
  | node {m n c : Node} : n.value.term.value ≠ "ɣ" → n.HasFunc → ¬ FlatKids n.children → c ∈ n.children →
      Node.Listed m c → Node.Listed m n

theorem Node.Listed.sub {m n : Node} (h : m.Listed n) : Node.Sub m n := by
  induction h with
  | start _ h2 _ ih => exact .child (List.mem_of_head? h2) ih
  | self => exact .refl
  | node _ _ _ h3 _ ih => exact .child h3 ih

/-- all nodes that Tree makes an object for cover at least one token -/
def Node.Spans (p : Parsed) (n : Node) : Prop :=
  ∀ m, Node.Listed m n → m.value.start < m.value.stop ∧ m.value.stop ≤ p.env.tokens.length

theorem TreeOK.label {env : Env} {L : Lang} {t : Term} {a b : Nat} {n : Node} (h : TreeOK env L t a b n) :
    n.value.term.value = t.value := by
  cases h with
  | terminal _ _ _ h4 => rw [h4]
  | any _ _ _ _ _ _ _ _ _ h10 => exact h10
  | nonterminal _ _ h3 => exact h3
  | list _ _ h3 => exact h3

theorem ForestOK.nonempty_iff {env : Env} {L : Lang} {ts a b} {ns : List Node} (h : ForestOK env L ts a b ns)
    (hne : ns ≠ []) : ∃ n t ts' ns' m, ns = n :: ns' ∧ ts = t :: ts' ∧ TreeOK env L t a m n ∧ ForestOK env L ts' m b ns' := by
  cases h with
  | nil => exact absurd rfl hne
  | cons h1 h2 => exact ⟨_, _, _, _, _, rfl, rfl, h1, h2⟩

mutual
theorem laid_tree {p : Parsed} {text txt : Bytes} {L : Lang} (hwf : p.env.WF) (hun : Unmixed p.env) (hord : TokensOrdered text p.env.tokens)
    (hlen : text.length ≤ p.text.length) (hlen' : text.length ≤ txt.length)
    (hsame : ∀ a b : Token, b.endByte ≤ text.length → textBetween p.text a b = textBetween txt a b) : ∀ {n : Node} {v : TreeVal} {t : Term} {a b : Nat}, TreeOK p.env L t a b n →
    t.value ≠ "ɣ" → n.Spans p → TreeValOf p n v → v.Laid txt ∧ v.label = t.value ∧ p.pos n = .ok v.pos
  | .mk s cs, v, t, a, b, hok, hg, hs, hv => by
    have hlab : s.term.value = t.value := hok.label
    have hself : (Node.mk s cs).Listed (.mk s cs) := .self (by simp only [Node.value]; rw [hlab]; exact hg)
    have hsp := hok.span
    obtain ⟨x, y, hx, hy, hq, ho⟩ := C21_read p text (.mk s cs) hord hlen (hs _ hself).1 (hs _ hself).2
    have hxy := ordered_le hord (by have := (hs _ hself).1; omega) hx hy
    have hin := hord.inside y (List.mem_of_getElem? hy)
    rw [hsame x y hin.2] at ho
    cases hv with
    | start h1 => simp only [Node.value] at h1; rw [hlab] at h1; exact absurd h1 hg
    | leaf h1 h2 h3 h4 =>
      rw [hq, Out.ok.injEq] at h4
      rw [ho, Out.ok.injEq] at h3
      subst h4 h3
      refine ⟨?_, hlab, hq⟩
      rw [TreeVal.Laid]
      exact ⟨hxy, by simp only []; omega, rfl⟩
    | @node _ _ _ vs h1 h2 h3 h4 h5 h6 =>
      rw [hq, Out.ok.injEq] at h5
      rw [ho, Out.ok.injEq] at h4
      subst h5 h4
      refine ⟨?_, hlab, hq⟩
      have hf : ∃ ts, ForestOK p.env L ts a b cs ∧ ∀ t ∈ ts, t.value ≠ "ɣ" := by
        cases hok with
        | terminal _ _ _ _ h5 => obtain ⟨rb, _, h, _⟩ := h2; rw [h5] at h; cases h
        | any _ _ _ _ _ h6 => obtain ⟨rb, _, h, _⟩ := h2; rw [h6] at h; cases h
        | nonterminal _ k2 _ _ _ _ _ k8 =>
          rcases hun _ _ k2 with hu | hu
          · exact absurd (k8.flat hu) h3
          · exact ⟨_, k8, fun t ht => hwf.noGamma.2.1 t ⟨_, _, k2, ht⟩ (hu t ht)⟩
        | list _ _ _ _ _ _ _ k8 =>
          refine ⟨_, k8, fun t' ht' => ?_⟩
          rw [List.eq_of_mem_replicate ht']
          exact hg
      obtain ⟨ts, hf, hts⟩ := hf
      have hne : cs ≠ [] := by
        rintro rfl
        exact h3 (by intro c hc; simp [Node.children] at hc)
      have hl := laid_forest hwf hun hord hlen hlen' hsame hf hts (fun c hc m hm => hs m (.node h1 h2 h3 hc hm)) h6 hne
      simp only [Node.value] at hx hy hsp
      rw [hsp.1] at hx
      rw [hsp.2] at hy
      obtain ⟨l1, l2, l3⟩ := hl x y hx hy
      rw [TreeVal.Laid]
      refine ⟨⟨hxy, by simp only []; omega, rfl⟩, l1, l3 _ (Nat.le_refl _), l2⟩
theorem laid_forest {p : Parsed} {text txt : Bytes} {L : Lang} (hwf : p.env.WF) (hun : Unmixed p.env) (hord : TokensOrdered text p.env.tokens)
    (hlen : text.length ≤ p.text.length) (hlen' : text.length ≤ txt.length)
    (hsame : ∀ a b : Token, b.endByte ≤ text.length → textBetween p.text a b = textBetween txt a b) : ∀ {cs : List Node} {vs : List TreeVal} {ts : List Term} {a b : Nat},
    ForestOK p.env L ts a b cs → (∀ t ∈ ts, t.value ≠ "ɣ") → (∀ c ∈ cs, c.Spans p) → TreeValsOf p cs vs → cs ≠ [] →
    ∀ x y, p.env.tokens[a]? = some x → p.env.tokens[b - 1]? = some y →
    vs.head?.map (·.pos.startByte) = some x.startByte ∧ vs.getLast?.map (·.pos.endByte) = some y.endByte ∧
    ∀ lo, lo ≤ x.startByte → LaidL txt lo vs
  | [], _, _, _, _, _, _, _, _, hne => absurd rfl hne
  | c :: cs, vs, ts, a, b, hf, hts, hs, hv, _ => by
    intro x y hx hy
    cases hf with
    | @cons t ts' _ m _ _ _ hok hf' =>
      cases hv with
      | @cons _ _ v vs' hv1 hv2 =>
        have hself : c.Listed c := .self (by rw [hok.label]; exact hts t (by simp))
        obtain ⟨k1, k2, k3⟩ := laid_tree hwf hun hord hlen hlen' hsame hok (hts t (by simp)) (hs c (by simp)) hv1
        obtain ⟨x', y', hx', hy', hq, _⟩ := C21_read p text c hord hlen (hs c (by simp) c hself).1
          (hs c (by simp) c hself).2
        have hlt := (hs c (by simp) c hself).1
        rw [hok.span.1] at hx' hlt
        rw [hok.span.2] at hy' hlt
        rw [hx] at hx'
        cases hx'
        rw [k3, Out.ok.injEq] at hq
        by_cases hne : cs = []
        · subst hne
          cases hv2
          cases hf'
          rw [hy] at hy'
          cases hy'
          refine ⟨by simp [hq], by simp [hq], fun lo hlo => ?_⟩
          rw [LaidL]
          exact ⟨by rw [hq]; exact hlo, k1, by rw [LaidL]; trivial⟩
        · have hmb : m < p.env.tokens.length := by
            obtain ⟨n', _, _, _, _, e, e', h7, -⟩ := hf'.nonempty_iff hne
            have := hs n' (by simp [e]) n' (.self (by rw [h7.label]; exact hts _ (by simp [e'])))
            rw [h7.span.1, h7.span.2] at this
            omega
          obtain ⟨i1, i2, i3⟩ := laid_forest hwf hun hord hlen hlen' hsame hf' (fun t ht => hts t (by simp [ht]))
            (fun c hc => hs c (by simp [hc])) hv2 hne _ y (List.getElem?_eq_getElem hmb) hy
          have hvs : vs' ≠ [] := by
            rintro rfl; simp at i1
          refine ⟨by simp [hq], ?_, fun lo hlo => ?_⟩
          · rw [List.getLast?_cons_of_ne_nil hvs]; exact i2
          · rw [LaidL]
            refine ⟨by rw [hq]; exact hlo, k1, i3 _ ?_⟩
            rw [hq]
            obtain ⟨hm1, rfl⟩ := List.getElem?_eq_some_iff.1 hy'
            exact List.pairwise_iff_getElem.1 hord.sorted (m - 1) m hm1 hmb (by omega)
end

mutual
theorem abrupt_tree (p : Parsed) : ∀ n : Node, Abrupt (n.tree p)
  | .mk v cs => by
    rw [Node.tree.eq_def]
    simp only []
    split
    · match cs with
      | [] => exact .inr rfl
      | c :: _ => exact abrupt_tree p c
    · refine (abrupt_term v).bind fun t => (abrupt_text p _).bind fun o => (abrupt_pos p _).bind fun q => ?_
      split
      · exact .inl ⟨_, rfl⟩
      · exact (abrupt_treeL p cs).bind fun o => .inl ⟨_, rfl⟩
theorem abrupt_treeL (p : Parsed) : ∀ cs : List Node, Abrupt (treeL p cs)
  | [] => .inl ⟨_, by rw [treeL]⟩
  | c :: cs => by
    rw [treeL]
    exact (abrupt_tree p c).bind fun _ => (abrupt_treeL p cs).bind fun _ => .inl ⟨_, rfl⟩
end

mutual
theorem treeValOf_exists {p : Parsed} : ∀ k : Node,
    (∀ m, Node.Inner m k → m.value.term.value ≠ gammaRule) →
    ((∃ v, TreeValOf p k v) ↔ ∀ m, Node.Listed m k → ∃ o, p.originalText m = .ok o)
  | .mk v cs, hk => by
    have h2 := hk _ .refl
    have hself : (Node.mk v cs).Listed (.mk v cs) := .self h2
    by_cases hf : ¬ (Node.mk v cs).HasFunc ∨ FlatKids cs
    · constructor
      · rintro ⟨b, hb⟩ m hm
        cases hb with
        | start g1 => exact absurd g1 h2
        | node _ g1 g2 => exact (hf.elim (fun h => absurd g1 h) (fun h => absurd h g2))
        | leaf _ _ g =>
          cases hm with
          | start g1 => exact absurd g1 h2
          | self => exact ⟨_, g⟩
          | node _ g1 g2 => exact (hf.elim (fun h => absurd g1 h) (fun h => absurd h g2))
      · intro h
        obtain ⟨o, h3⟩ := h _ hself
        obtain ⟨q, h4⟩ := pos_of_text h3
        exact ⟨_, .leaf h2 hf h3 h4⟩
    · rw [not_or, not_not] at hf
      have ih := treeValsOf_exists (p := p) cs (fun c hc m hm => hk m (.child hf.2 hc hm))
      constructor
      · rintro ⟨b, hb⟩ m hm
        cases hb with
        | start g1 => exact absurd g1 h2
        | leaf _ g1 => exact (g1.elim (fun h => absurd hf.1 h) (fun h => absurd h hf.2))
        | node _ _ _ g _ g' =>
          cases hm with
          | start g1 => exact absurd g1 h2
          | self => exact ⟨_, g⟩
          | node _ _ _ hc hm => exact ih.1 ⟨_, g'⟩ _ hc m hm
      · intro h
        obtain ⟨o, h3⟩ := h _ hself
        obtain ⟨q, h4⟩ := pos_of_text h3
        obtain ⟨bs, hbs⟩ := ih.2 (fun c hc m hm => h m (.node h2 hf.1 hf.2 hc hm))
        exact ⟨_, .node h2 hf.1 hf.2 h3 h4 hbs⟩
theorem treeValsOf_exists {p : Parsed} : ∀ ks : List Node,
    (∀ k ∈ ks, ∀ m, Node.Inner m k → m.value.term.value ≠ gammaRule) →
    ((∃ bs, TreeValsOf p ks bs) ↔ ∀ k ∈ ks, ∀ m, Node.Listed m k → ∃ o, p.originalText m = .ok o)
  | [], _ => ⟨fun _ => by simp, fun _ => ⟨_, .nil⟩⟩
  | c :: cs, hk => by
    have i1 := treeValOf_exists (p := p) c (hk c (by simp))
    have i2 := treeValsOf_exists (p := p) cs (fun c hc => hk c (by simp [hc]))
    constructor
    · rintro ⟨_, _ | ⟨h1, h2⟩⟩ k hm
      rcases List.mem_cons.1 hm with rfl | hm
      · exact i1.1 ⟨_, h1⟩
      · exact i2.1 ⟨_, h2⟩ k hm
    · intro h
      obtain ⟨b, hb⟩ := i1.2 (h c (by simp))
      obtain ⟨bs, hbs⟩ := i2.2 (fun c hc => h c (by simp [hc]))
      exact ⟨_, .cons hb hbs⟩
end

/-- Full statement of C59: Tree succeeds for every tree returned by Parse, and the objects are laid out in the
(trimmed) text the tokens were found in. -/
def C59_statement : Prop :=
  ∀ (w : World) (g : Gram) (fuel : Nat) (context : String) (text : Bytes) (starts : List String)
    (tokens : List Token) (l : Option Grammar) (p : Parsed) (ns : List Node) (n : Node),
    process w g context text = .ok (tokens, l) → TokensOrdered (w.trim text) tokens →
    w.OrdOK → (envFor w g l tokens starts 0).WF →
    earleyParseCtx w g fuel context text starts = .ok p →
    apiParse w g fuel context text starts = .ok ns → n ∈ ns → ∃ t, n.tree p = .ok t ∧ t.Laid (w.trim text)

/-- C59 for every tree of a parse, for all grammars and all texts: Tree succeeds exactly if no node that it makes an
object for is an empty node at an end of the token list, and panics otherwise. -/
theorem C59_trees (p : Parsed) (flag : Bool) (f fuel : Nat) (ns : List Node) (text : Bytes)
    (hwf : p.env.WF) (ho : p.env.OrdOK) (hun : Unmixed p.env) (hany : AnyNamed p.env)
    (hpar : parse p.env flag f = some p.res) (h : TreesOf fuel p ns)
    (hord : TokensOrdered text p.env.tokens) (hlen : text.length ≤ p.text.length) :
    ∀ n ∈ ns, ((∃ t, n.tree p = .ok t) ↔ ∀ m, Node.Listed m n → ¬ p.AtEdge m) ∧
      (n.tree p = .panic ↔ ∃ m, Node.Listed m n ∧ p.AtEdge m) := by
  intro n hn
  obtain ⟨S, hS, j, hj, hroot⟩ := tree_inside hwf ho hun hany hpar h n hn
  have hin := hroot.inside hj
  obtain ⟨g1, _, _, _, g5, c, g6, g7⟩ := hroot
  have hS' : S ≠ gammaRule := fun e => hwf.noGamma.2.2 (e ▸ hS)
  have hng := fun m (hm : Node.Inner m c) => TreeOK.inner_ne_gamma hwf hun hm g7 hS'
  have hsub : ∀ m, Node.Sub m c → Node.Sub m n := fun m hm => .child (by rw [g6]; simp) hm
  have hhead : n.children.head? = some c := by rw [g6]; rfl
  have hq : ∀ m, Node.Listed m n ↔ Node.Listed m c := fun m => by
    constructor
    · intro hm
      cases hm with
      | start _ h2 h3 => rw [hhead] at h2; cases h2; exact h3
      | self h1 => exact absurd g1 h1
      | node h1 => exact absurd g1 h1
    · exact fun hm => .start g1 hhead hm
  have hbn : ∀ b, TreeValOf p n b ↔ TreeValOf p c b := fun b => by
    constructor
    · intro hb
      cases hb with
      | start _ h2 h3 => rw [hhead] at h2; cases h2; exact h3
      | leaf h1 => exact absurd g1 h1
      | node h1 => exact absurd g1 h1
    · exact fun hb => .start g1 hhead hb
  have hiff : (∃ s, n.tree p = .ok s) ↔ ∀ m, Node.Listed m n → ¬ p.AtEdge m := by
    simp only [tree_ok, hbn]
    rw [treeValOf_exists c hng]
    simp only [hq]
    refine forall_congr' fun m => forall_congr' fun hm => ?_
    rcases C21_node p text m hord hlen (hin m (hsub m hm.sub)) with ⟨k1, _, _, _, _, _, k2⟩ | ⟨_, k1, _, _, _, k2⟩ | ⟨k1, _, k2⟩
    · exact ⟨fun _ he => by have := he.1; omega, fun _ => ⟨_, k2⟩⟩
    · exact ⟨fun _ => k1, fun _ => ⟨_, k2⟩⟩
    · exact ⟨fun ⟨o, ho⟩ => (by rw [k2] at ho; cases ho), fun h => absurd k1 h⟩
  refine ⟨hiff, ?_⟩
  constructor
  · intro hp
    rw [← Classical.not_not (a := ∃ m, _)]
    intro hno
    obtain ⟨s, hs⟩ := hiff.2 (fun m hm he => hno ⟨m, hm, he⟩)
    rw [hs] at hp; cases hp
  · rintro ⟨m, hm, he⟩
    rcases abrupt_tree p n with hok | hp
    · exact absurd he (hiff.1 hok m hm)
    · exact hp

theorem root_laid {p : Parsed} {S : String} {j : Nat} {n : Node} {t : TreeVal} {text txt : Bytes} (hwf : p.env.WF) (hun : Unmixed p.env)
    (hS : S ∈ p.env.starts) (hroot : RootOK p.env p.env.relaxedLang S j n) (hsp : n.Spans p)
    (hord : TokensOrdered text p.env.tokens)
    (hlen : text.length ≤ p.text.length) (hlen' : text.length ≤ txt.length)
    (hsame : ∀ a b : Token, b.endByte ≤ text.length → textBetween p.text a b = textBetween txt a b)
    (ht : n.tree p = .ok t) : t.Laid txt ∧ t.label ∈ p.env.starts ∧ p.pos n = .ok t.pos := by
  obtain ⟨g1, _, g3, g4, g5, c, g6, g7⟩ := hroot
  have hS' : S ≠ gammaRule := fun e => hwf.noGamma.2.2 (e ▸ hS)
  have hhead : n.children.head? = some c := by rw [g6]; rfl
  have hv : TreeValOf p c t := by
    cases (tree_ok p n t).1 ht with
    | start _ h2 h3 => rw [hhead] at h2; cases h2; exact h3
    | leaf h1 => exact absurd g1 h1
    | node h1 => exact absurd g1 h1
  obtain ⟨k1, k2, k3⟩ := laid_tree hwf hun hord hlen hlen' hsame g7 hS' (fun m hm => hsp m (.start g1 hhead hm)) hv
  refine ⟨k1, by rw [k2]; exact hS, ?_⟩
  rw [← k3]
  unfold Parsed.pos boundary
  rw [g7.span.1, g7.span.2, g3, g4]

/-- C59, the layout, for every tree of a parse all of whose objects are for nodes over at least one token, for all
texts: the label of the object is a start rule, it covers the match, and everything below is laid out in the text
given by the caller. -/
theorem C59_laid (p : Parsed) (flag : Bool) (f fuel : Nat) (ns : List Node) (text : Bytes)
    (hwf : p.env.WF) (ho : p.env.OrdOK) (hun : Unmixed p.env) (hany : AnyNamed p.env)
    (hpar : parse p.env flag f = some p.res) (h : TreesOf fuel p ns)
    (hord : TokensOrdered text p.env.tokens) (hlen : text.length ≤ p.text.length) :
    ∀ n ∈ ns, (∀ m, Node.Listed m n → m.value.start < m.value.stop) →
    ∃ t, n.tree p = .ok t ∧ t.Laid p.text ∧ t.label ∈ p.env.starts ∧ p.pos n = .ok t.pos := by
  intro n hn hc
  obtain ⟨S, hS, j, hj, hroot⟩ := tree_inside hwf ho hun hany hpar h n hn
  obtain ⟨t, ht⟩ := (C59_trees p flag f fuel ns text hwf ho hun hany hpar h hord hlen n hn).1.2 (fun m hm he => by
    have := hc m hm; have := he.1; omega)
  exact ⟨t, ht, root_laid hwf hun hS hroot (fun m hm => ⟨hc m hm, (hroot.inside hj m hm.sub).2⟩) hord hlen hlen
    (fun _ _ _ => rfl) ht⟩

/-- C59 for every tree of a parse all of whose objects are for nodes over at least one token (for example, if the
grammar has no nullables), for texts without white space in front: Tree succeeds, the label of the object is a start
rule, it covers the match, and everything below is laid out in the text. -/
theorem C59_partial (p : Parsed) (flag : Bool) (f fuel : Nat) (ns : List Node) (text : Bytes)
    (hwf : p.env.WF) (ho : p.env.OrdOK) (hun : Unmixed p.env) (hany : AnyNamed p.env)
    (hpar : parse p.env flag f = some p.res) (h : TreesOf fuel p ns)
    (hord : TokensOrdered text p.env.tokens) (hpre : text <+: p.text) :
    ∀ n ∈ ns, (NoEmpty p.env ∨ ∀ m, Node.Listed m n → m.value.start < m.value.stop) →
    ∃ t, n.tree p = .ok t ∧ t.Laid text ∧ t.label ∈ p.env.starts ∧ p.pos n = .ok t.pos := by
  intro n hn hc
  obtain ⟨S, hS, j, hj, hroot⟩ := tree_inside hwf ho hun hany hpar h n hn
  have hc : ∀ m, Node.Listed m n → m.value.start < m.value.stop := by
    rcases hc with hc | hc
    · exact fun m hm => (hroot.spans hc hj m hm.sub).1
    · exact hc
  obtain ⟨t, ht⟩ := (C59_trees p flag f fuel ns text hwf ho hun hany hpar h hord hpre.length_le n hn).1.2
    (fun m hm he => by have := hc m hm; have := he.1; omega)
  exact ⟨t, ht, root_laid hwf hun hS hroot (fun m hm => ⟨hc m hm, (hroot.inside hj m hm.sub).2⟩) hord hpre.length_le
    (Nat.le_refl _) (fun _ _ hb => textBetween_prefix hpre hb) ht⟩

/-- C59 fails: for the tree of `<s> = (list<n>{0,2})` on the text `a`, which covers no token, Tree panics. -/
theorem C59_false : ¬ C59_statement := by
  intro hall
  let w := wWorld [tk "a"]
  have hc : (match process w gEmptyList "" [97] with
      | .ok (toks, l) => decide (toks = [tk "a"]) && (envFor w gEmptyList l toks ["s"] 0).checkWF
      | _ => false) = true := by decide +kernel
  have hd : (match earleyParseCtx w gEmptyList 20 "" [97] ["s"], apiParse w gEmptyList 20 "" [97] ["s"] with
      | .ok p, .ok ns => ns.map (fun n => match n.tree p with | .panic => true | _ => false)
      | _, _ => []) = [true] := by decide +kernel
  split at hc
  · next toks l hproc =>
    rw [Bool.and_eq_true, decide_eq_true_eq] at hc
    split at hd
    · next p ns hp hns =>
      cases ns with
      | nil => cases hd
      | cons n ns =>
        have hord : TokensOrdered (w.trim [97]) toks := by
          rw [hc.1]
          exact ⟨by decide +kernel, by decide +kernel⟩
        obtain ⟨t, ht, _⟩ := hall w gEmptyList 20 "" [97] ["s"] toks l p (n :: ns) n hproc hord
          (fun _ _ _ _ _ => List.Perm.refl _) (Env.checkWF_wf hc.2) hp hns (by simp)
        rw [List.map_cons, ht] at hd
        cases hd
    · cases hd
  · cases hc

/-- C59 without the claim that Tree succeeds, for texts without surrounding white space. -/
def C59_layout_statement : Prop :=
  ∀ (w : World) (g : Gram) (fuel : Nat) (context : String) (text : Bytes) (starts : List String)
    (tokens : List Token) (l : Option Grammar) (p : Parsed) (ns : List Node) (n : Node) (t : TreeVal),
    process w g context text = .ok (tokens, l) → TokensOrdered (w.trim text) tokens →
    w.OrdOK → (envFor w g l tokens starts 0).WF →
    earleyParseCtx w g fuel context text starts = .ok p → w.trim text = text →
    apiParse w g fuel context text starts = .ok ns → n ∈ ns → n.tree p = .ok t → t.Laid text

/-- `<s> = <x> <b> {f()} ; <x> = <a> (list<n>{0,1}) {f()} ; <a> = "a" ; <b> = "b" ; <n> = "n"` -/
def gGap : Gram := { main := { name := "g", rules := [
  ("s", { name := "s", body := [(0, { terms := [nt "x", nt "b"], f := some (.mk "f" []) })] }),
  ("x", { name := "x", body := [(0, { terms := [nt "a", ⟨"n", .list, .range 0 1⟩], f := some (.mk "f" []) })] }),
  rl "a" [[tt "a"]], rl "b" [[tt "b"]], rl "n" [[tt "n"]]] }, includes := [] }

/-- the tokens of the text `a b` -/
def abToks : List Token := [{ text := "a", type := .word, startByte := 0, endByte := 1 },
  { text := "b", type := .word, startByte := 2, endByte := 3 }]

/-- the second object in the first object ends behind it -/
def TreeVal.sticksOut : TreeVal → Bool
  | .mk _ _ _ (some (.mk _ _ q (some [_, r]) :: _)) => decide (q.endByte < r.pos.endByte)
  | _ => false

/-- The layout fails even where Tree succeeds: in the tree of the text `a b` for `gGap`, the object of the empty list
is at byte 2, behind the object of `<x>` which it is in. -/
theorem C59_layout_false : ¬ C59_layout_statement := by
  intro hall
  let w := wWorld abToks
  have hc : (match process w gGap "" [97, 32, 98] with
      | .ok (toks, l) => decide (toks = abToks) && (envFor w gGap l toks ["s"] 0).checkWF
      | _ => false) = true := by decide +kernel
  have hd : (match earleyParseCtx w gGap 40 "" [97, 32, 98] ["s"], apiParse w gGap 40 "" [97, 32, 98] ["s"] with
      | .ok p, .ok ns => ns.map (fun n => match n.tree p with | .ok t => t.sticksOut | _ => false)
      | _, _ => []) = [true] := by decide +kernel
  split at hc
  · next toks l hproc =>
    rw [Bool.and_eq_true, decide_eq_true_eq] at hc
    split at hd
    · next p ns hp hns =>
      cases ns with
      | nil => cases hd
      | cons n ns =>
        have hord : TokensOrdered (w.trim [97, 32, 98]) toks := by
          rw [hc.1]
          exact ⟨by decide +kernel, by decide +kernel⟩
        rw [List.map_cons, List.cons.injEq] at hd
        have hd := hd.1
        split at hd
        · next t ht =>
          have hl := hall w gGap 40 "" [97, 32, 98] ["s"] toks l p (n :: ns) n t hproc hord
            (fun _ _ _ _ _ => List.Perm.refl _) (Env.checkWF_wf hc.2) hp rfl hns (by simp) ht
          unfold TreeVal.sticksOut at hd
          split at hd
          · rw [TreeVal.Laid, LaidL, TreeVal.Laid] at hl
            have := hl.2.2.1.2.1.2.2.2
            simp at this hd
            omega
          · cases hd
        · cases hd
    · cases hd
  · cases hc

/-- `<s> = <a> <b> {f()} ; <a> = "x" ; <b> = "y"` -/
def gTree : Gram := { main := { name := "g", rules := [
  ("s", { name := "s", body := [(0, { terms := [nt "a", nt "b"], f := some (.mk "f" []) })] }),
  rl "a" [[tt "x"]], rl "b" [[tt "y"]]] }, includes := [] }

mutual
def TreeVal.list : TreeVal → List (String × Bytes × Nat × Nat)
  | .mk l o q none => [(l, o, q.startByte, q.endByte)]
  | .mk l o q (some vs) => (l, o, q.startByte, q.endByte) :: treeValsList vs
def treeValsList : List TreeVal → List (String × Bytes × Nat × Nat)
  | [] => []
  | v :: vs => v.list ++ treeValsList vs
end

/-- non-vacuity, on the text `x y`: the conditions of `C59_partial` hold and the tree has three objects -/
example :
    let toks : List Token := [{ text := "x", type := .word, startByte := 0, endByte := 1 },
      { text := "y", type := .word, startByte := 2, endByte := 3 }]
    TokensOrdered [120, 32, 121] toks ∧
    (match earleyParseCtx (wWorld toks) gTree 20 "" [120, 32, 121] ["s"],
        apiParse (wWorld toks) gTree 20 "" [120, 32, 121] ["s"] with
      | .ok p, .ok ns => p.env.checkWF && p.env.checkNoEmpty && p.env.checkUnmixed && p.env.checkAnyNamed &&
          decide (p.text = [120, 32, 121]) && decide (p.env.tokens = toks) &&
          decide (ns.map (fun n => match n.tree p with | .ok t => t.list | _ => []) =
            [[("s", [120, 32, 121], 0, 3), ("a", [120], 0, 1), ("b", [121], 2, 3)]])
      | _, _ => false) = true :=
  ⟨⟨by decide +kernel, by decide +kernel⟩, by decide +kernel⟩

instance (p : Parsed) (m : Node) : Decidable (p.AtEdge m) := by
  unfold Parsed.AtEdge
  infer_instance

mutual
def Node.subs : Node → List Node
  | .mk v cs => .mk v cs :: subsL cs
def subsL : List Node → List Node
  | [] => []
  | c :: cs => c.subs ++ subsL cs
end

/-- non-vacuity of `C21_exact`, `C53_trees`, `C59_trees` and `C42_labelled`: the tree of the text `a b ` (with a blank
behind) for `gGap` has an empty node, not at an edge; Tree and Bracketed succeed -/
example :
    TokensOrdered [97, 32, 98] abToks ∧ [97, 32, 98] <+: [97, 32, 98, 32] ∧
    (match earleyParseCtx (wWorld abToks) gGap 40 "" [97, 32, 98, 32] ["s"],
        apiParse (wWorld abToks) gGap 40 "" [97, 32, 98, 32] ["s"] with
      | .ok p, .ok ns => p.env.checkWF && p.env.checkUnmixed && p.env.checkAnyNamed &&
          decide (p.text = [97, 32, 98, 32]) && decide (p.env.tokens = abToks) &&
          ns.all (fun n => n.subs.all (fun m => !decide (p.AtEdge m)) &&
            n.subs.any (fun m => decide (m.value.start = m.value.stop))) &&
          decide (ns.map (fun n => n.bracketed wPlain p) = [.ok "[s [x [a \"a\"] [n \"\"]] [b \"b\"]]"]) &&
          decide (ns.map (fun n => match n.tree p with | .ok t => t.list | _ => []) =
            [[("s", [97, 32, 98], 0, 3), ("x", [97], 0, 1), ("a", [97], 0, 1), ("n", [], 2, 2), ("b", [98], 2, 3)]])
      | _, _ => false) = true :=
  ⟨⟨by decide +kernel, by decide +kernel⟩, ⟨[32], rfl⟩, by decide +kernel⟩

/-- and the tree of the text `a` for `<x>` has an empty node at the end: Tree and Bracketed panic -/
example :
    (match earleyParseCtx (wWorld [tk "a"]) gGap 40 "" [97] ["x"], apiParse (wWorld [tk "a"]) gGap 40 "" [97] ["x"] with
      | .ok p, .ok ns => p.env.checkWF && p.env.checkUnmixed && p.env.checkAnyNamed &&
          decide (ns.map (fun n => (n.subs.any (fun m => decide (p.AtEdge m)), n.bracketed wPlain p)) = [(true, .panic)]) &&
          ns.all (fun n => match n.tree p with | .panic => true | _ => false)
      | _, _ => false) = true := by decide +kernel

end Fmr
