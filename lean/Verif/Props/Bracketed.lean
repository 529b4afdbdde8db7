import Verif.Proofs.Bracket
import Verif.Props.Eval

/-!
# C53: Bracketed
-/

namespace Fmr

/-- Full statement of C53: the output for a tree is balanced, and determines the bracketing. `GoRune.OK` says
that the texts are the result of decoding UTF-8. -/
def C53_statement : Prop :=
  ∀ (w : NodeWorld), (∀ b, ∀ g ∈ w.decode b, g.OK) → ∀ (p : Parsed) (n : Node) (s : String),
    n.bracketed w p = .ok s → WellBracketed s.toList ∧
    ∀ (q : Parsed) (m : Node), m.bracketed w q = .ok s → ∀ b, BracketOf w p n b → BracketOf w q m b

/-- C53: Bracketed returns exactly the text of the bracketing that mirrors the tree: one pair of brackets with
the label per node, the quoted text for nodes all of whose children are literals, the internal start symbol
skipped. -/
theorem C53_mirrors (w : NodeWorld) (p : Parsed) (n : Node) (s : String) :
    n.bracketed w p = .ok s ↔ ∃ b, BracketOf w p n b ∧ s.toList = b.print w.isPrint :=
  bracketed_ok w p n s

mutual
theorem bracketOf_unique {w : NodeWorld} {p : Parsed} : ∀ {n : Node} {b c : BTree}, BracketOf w p n b →
    BracketOf w p n c → b = c
  | .mk v cs, b, c, hb, hc => by
    cases hb with
    | start h1 h2 h3 =>
      cases hc with
      | start _ g2 g3 =>
        match cs, h2, g2 with
        | k :: _, h2, g2 =>
          simp only [Node.children, List.head?_cons, Option.some.injEq] at h2 g2
          rw [← h2] at h3
          rw [← g2] at g3
          exact bracketOf_unique h3 g3
      | flat g1 _ _ => exact absurd h1 g1
      | node g1 _ _ => exact absurd h1 g1
    | flat h1 h2 h3 =>
      cases hc with
      | start g1 _ _ => exact absurd g1 h1
      | flat _ _ g3 =>
        rw [g3, Out.ok.injEq] at h3
        rw [h3]
      | node _ g2 _ => exact absurd h2 g2
    | node h1 h2 h3 =>
      cases hc with
      | start g1 _ _ => exact absurd g1 h1
      | flat _ g2 _ => exact absurd g2 h2
      | node _ _ g3 => rw [bracketsOf_unique h3 g3]
theorem bracketsOf_unique {w : NodeWorld} {p : Parsed} : ∀ {ns : List Node} {bs cs : List BTree},
    BracketsOf w p ns bs → BracketsOf w p ns cs → bs = cs
  | [], _, _, hb, hc => by cases hb; cases hc; rfl
  | n :: ns, _, _, hb, hc => by
    cases hb with
    | cons h1 h2 =>
      cases hc with
      | cons g1 g2 => rw [bracketOf_unique h1 g1, bracketsOf_unique h2 g2]
end

mutual
theorem bracketOf_decoded {w : NodeWorld} (hd : ∀ b, ∀ g ∈ w.decode b, g.OK) {p : Parsed} : ∀ {n : Node} {b : BTree},
    BracketOf w p n b → b.Decoded
  | _, _, .start _ _ h => bracketOf_decoded hd h
  | _, _, .flat _ _ _ => hd _
  | _, _, .node _ _ h => bracketsOf_decoded hd h
theorem bracketsOf_decoded {w : NodeWorld} (hd : ∀ b, ∀ g ∈ w.decode b, g.OK) {p : Parsed} :
    ∀ {ns : List Node} {bs : List BTree}, BracketsOf w p ns bs → kidsDecoded bs
  | _, _, .nil => trivial
  | _, _, .cons h1 h2 => ⟨bracketOf_decoded hd h1, bracketsOf_decoded hd h2⟩
end

/-- C53, balance: the brackets are balanced, whatever the matched texts are, if the labels contain no brackets
and no quotes. Missing: the label of a literal is its text (`C53_false`). -/
theorem C53_partial (w : NodeWorld) (p : Parsed) (n : Node) (s : String) (b : BTree)
    (hs : n.bracketed w p = .ok s) (hb : BracketOf w p n b) (hl : b.Labels NoBrackets) :
    WellBracketed s.toList := by
  obtain ⟨b', hb', e⟩ := (bracketed_ok w p n s).1 hs
  rw [e, bracketOf_unique hb' hb]
  exact print_balanced _ _ hl

/-- C53, faithfulness: equal outputs come from equal bracketings: same labels, same shape, same texts; if the
labels contain no blank. -/
theorem C53_faithful_partial (w : NodeWorld) (hd : ∀ b, ∀ g ∈ w.decode b, g.OK) (p q : Parsed) (n m : Node)
    (s : String) (b c : BTree) (hn : n.bracketed w p = .ok s) (hm : m.bracketed w q = .ok s)
    (hb : BracketOf w p n b) (hc : BracketOf w q m c) (lb : b.Labels NoBlank) (lc : c.Labels NoBlank) : b = c := by
  obtain ⟨b', hb', e⟩ := (bracketed_ok w p n s).1 hn
  obtain ⟨c', hc', e'⟩ := (bracketed_ok w q m s).1 hm
  rw [bracketOf_unique hb' hb] at e
  rw [bracketOf_unique hc' hc] at e'
  have h : b.print w.isPrint ++ [] = c.print w.isPrint ++ [] := by rw [← e, ← e']
  exact (btree_prefix w.isPrint b c [] [] lb lc (bracketOf_decoded hd hb) (bracketOf_decoded hd hc) h).1

/-! ### labels of a parsed tree -/

/-- what can be the label of a bracket in a tree of a parse: the names of rules and the values of terms -/
def Env.Label (env : Env) (A : String) : Prop := A ∈ env.starts ∨ ∃ t, env.Occurs t ∧ t.value = A

mutual
theorem bracketOf_labels {w : NodeWorld} {p : Parsed} {P : String → Prop} : ∀ {n : Node} {b : BTree},
    BracketOf w p n b → (∀ m, Node.Sub m n → m.value.term.value ≠ "ɣ" → P m.value.term.value) → b.Labels P
  | _, _, .start _ h2 h, hP =>
    bracketOf_labels h (fun m hm => hP m (.child (List.mem_of_head? h2) hm))
  | _, _, .flat h1 _ _, hP => hP _ .refl h1
  | _, _, .node h1 _ h, hP =>
    ⟨hP _ .refl h1, bracketsOf_labels h (fun c hc m hm => hP m (.child hc hm))⟩
theorem bracketsOf_labels {w : NodeWorld} {p : Parsed} {P : String → Prop} : ∀ {ns : List Node} {bs : List BTree},
    BracketsOf w p ns bs →
    (∀ c ∈ ns, ∀ m, Node.Sub m c → m.value.term.value ≠ "ɣ" → P m.value.term.value) → kidsLabels P bs
  | _, _, .nil, _ => trivial
  | _, _, .cons h1 h2, hP => ⟨bracketOf_labels h1 (hP _ (by simp)),
      bracketsOf_labels h2 (fun c hc => hP c (by simp [hc]))⟩
end

mutual
theorem TreeOK.labels {env : Env} {L : Lang} : ∀ {n : Node} {t : Term} {a b : Nat},
    TreeOK env L t a b n → env.Label t.value → ∀ m, Node.Sub m n → env.Label m.value.term.value
  | .mk v cs, t, a, b, h, hg => by
    have hv : v.term.value = t.value := by
      cases h with
      | terminal _ _ _ h4 => simp only [Node.value] at h4; rw [h4]
      | any _ _ _ _ _ _ _ _ _ h10 => exact h10
      | nonterminal _ _ h3 => exact h3
      | list _ _ h3 => exact h3
    intro m hm
    cases hm with
    | refl => simp only [Node.value]; rw [hv]; exact hg
    | @child _ k hk hs =>
      simp only [Node.children] at hk
      cases h with
      | terminal _ _ _ _ _ _ _ h8 => simp only [Node.children] at h8; rw [h8] at hk; simp at hk
      | any _ _ _ _ _ _ _ _ h9 => simp only [Node.children] at h9; rw [h9] at hk; simp at hk
      | nonterminal _ h2 _ _ _ _ _ h8 =>
        exact ForestOK.labels h8 (fun t' ht' => .inr ⟨t', ⟨_, _, h2, ht'⟩, rfl⟩) k hk m hs
      | list _ _ _ _ _ _ _ h8 =>
        refine ForestOK.labels h8 (fun t' ht' => ?_) k hk m hs
        rw [List.eq_of_mem_replicate ht']
        exact hg
theorem ForestOK.labels {env : Env} {L : Lang} : ∀ {ns : List Node} {ts : List Term} {a b : Nat},
    ForestOK env L ts a b ns → (∀ t ∈ ts, env.Label t.value) → ∀ n ∈ ns, ∀ m, Node.Sub m n →
    env.Label m.value.term.value
  | [], _, _, _, _, _ => by simp
  | n :: ns, _, _, _, h, hg => by
    cases h with
    | cons h1 h2 =>
      intro k hk m hm
      rcases List.mem_cons.1 hk with hk | hk
      · rw [hk] at hm
        exact TreeOK.labels h1 (hg _ (by simp)) m hm
      · exact ForestOK.labels h2 (fun t ht => hg t (by simp [ht])) k hk m hm
end

/-- a value or a panic -/
def Abrupt {α : Type} (r : Out α) : Prop := (∃ a, r = .ok a) ∨ r = .panic

theorem Abrupt.bind {α β : Type} {x : Out α} {f : α → Out β} (hx : Abrupt x) (hf : ∀ a, Abrupt (f a)) :
    Abrupt (x >>= f) := by
  rcases hx with ⟨a, rfl⟩ | rfl
  · exact hf a
  · exact .inr rfl

theorem Abrupt.ofIndex {α : Type} (o : Option α) : Abrupt (Out.ofIndex o) := by
  cases o with
  | none => exact .inr rfl
  | some a => exact .inl ⟨a, rfl⟩

theorem abrupt_pos (p : Parsed) (n : Node) : Abrupt (p.pos n) := by
  unfold Parsed.pos boundary
  have hc : ∀ k, Abrupt (columnToken p.env.tokens k) := fun k => by
    unfold columnToken
    split
    · exact .inr rfl
    · exact .ofIndex _
  exact (hc _).bind fun a => (hc _).bind fun b => .inl ⟨_, rfl⟩

theorem abrupt_text (p : Parsed) (n : Node) : Abrupt (p.originalText n) := by
  unfold Parsed.originalText
  refine (abrupt_pos p n).bind fun q => ?_
  unfold sliceBytes
  split
  · exact .inl ⟨_, rfl⟩
  · exact .inr rfl

theorem abrupt_term (v : TState) : Abrupt (nodeTerm v) := by
  unfold nodeTerm
  split
  · split
    · exact .inr rfl
    · exact .ofIndex _
  · exact .inl ⟨_, rfl⟩

mutual
theorem abrupt_bracketed (w : NodeWorld) (p : Parsed) : ∀ n : Node, Abrupt (n.bracketed w p)
  | .mk v cs => by
    rw [Node.bracketed.eq_def]
    simp only []
    split
    · match cs with
      | [] => exact .inr rfl
      | c :: _ => exact abrupt_bracketed w p c
    · refine (abrupt_term v).bind fun t => ?_
      split
      · exact (abrupt_text p _).bind fun o => .inl ⟨_, rfl⟩
      · exact (abrupt_bracketedL w p cs).bind fun o => .inl ⟨_, rfl⟩
theorem abrupt_bracketedL (w : NodeWorld) (p : Parsed) : ∀ cs : List Node, Abrupt (bracketedL w p cs)
  | [] => .inl ⟨_, by rw [bracketedL]⟩
  | c :: cs => by
    rw [bracketedL]
    exact (abrupt_bracketed w p c).bind fun _ => (abrupt_bracketedL w p cs).bind fun _ => .inl ⟨_, rfl⟩
end

/-- `m` is one of the nodes of the tree of `n` whose text is part of the bracketing: all its children are literals,
and that is not so for the nodes above it. -/
inductive Node.Quoted : Node → Node → Prop
  | start {m n c : Node} : n.value.term.value = "ɣ" → n.children.head? = some c → Node.Quoted m c → Node.Quoted m n
  | flat {n : Node} : n.value.term.value ≠ "ɣ" → FlatKids n.children → Node.Quoted n n
  | node {m n c : Node} : n.value.term.value ≠ "ɣ" → ¬ FlatKids n.children → c ∈ n.children → Node.Quoted m c →
      Node.Quoted m n

theorem Node.Quoted.sub {m n : Node} (h : m.Quoted n) : Node.Sub m n := by
  induction h with
  | start _ h2 _ ih => exact .child (List.mem_of_head? h2) ih
  | flat => exact .refl
  | node _ _ h3 _ ih => exact .child h3 ih

/-- `m` is `n` or below it, where no node on the way has literals only as children -/
inductive Node.Inner : Node → Node → Prop
  | refl {n : Node} : Node.Inner n n
  | child {m n c : Node} : ¬ FlatKids n.children → c ∈ n.children → Node.Inner m c → Node.Inner m n

theorem ForestOK.kid {env : Env} {L : Lang} {ts a b} {ns : List Node} (h : ForestOK env L ts a b ns) :
    ∀ c ∈ ns, ∃ t ∈ ts, ∃ a b, TreeOK env L t a b c := by
  induction ns generalizing ts a with
  | nil => simp
  | cons n ns ih =>
    cases h with
    | cons h1 h2 =>
      intro c hc
      rcases List.mem_cons.1 hc with rfl | hc
      · exact ⟨_, by simp, _, _, h1⟩
      · obtain ⟨t, ht, h⟩ := ih h2 c hc
        exact ⟨t, by simp [ht], h⟩

theorem ForestOK.flat {env : Env} {L : Lang} {ts a b} {ns : List Node} (h : ForestOK env L ts a b ns)
    (ht : ∀ t ∈ ts, t.type = .terminal) : FlatKids ns := by
  intro c hc
  obtain ⟨t, hm, _, _, hok⟩ := h.kid c hc
  have := ht t hm
  cases hok with
  | terminal h1 _ _ h4 => left; rw [h4]; exact h1
  | any h1 => rw [h1] at this; cases this
  | nonterminal h1 => rw [h1] at this; cases this
  | list h1 => rw [h1] at this; cases this

/-- below a node with a child that is no literal, no node is labelled with the internal start symbol -/
theorem TreeOK.kids_ne_gamma {env : Env} {L : Lang} (hwf : env.WF) (hun : Unmixed env) {n : Node} {t : Term} {a b : Nat}
    (h : TreeOK env L t a b n) (hg : t.value ≠ gammaRule) (hf : ¬ FlatKids n.children) :
    ∃ ts a b, ForestOK env L ts a b n.children ∧ ∀ t ∈ ts, t.value ≠ gammaRule := by
  cases h with
  | terminal _ _ _ _ _ _ _ h8 => exact absurd (by rw [h8]; intro c hc; simp at hc) hf
  | any _ _ _ _ _ _ _ _ h9 => exact absurd (by rw [h9]; intro c hc; simp at hc) hf
  | nonterminal _ h2 _ _ _ _ _ h8 =>
    rcases hun _ _ h2 with hu | hu
    · exact absurd (h8.flat hu) hf
    · exact ⟨_, _, _, h8, fun t ht => hwf.noGamma.2.1 t ⟨_, _, h2, ht⟩ (hu t ht)⟩
  | list _ _ _ _ _ _ _ h8 =>
    refine ⟨_, _, _, h8, fun t' ht' => ?_⟩
    rw [List.eq_of_mem_replicate ht']
    exact hg

theorem TreeOK.inner_ne_gamma {env : Env} {L : Lang} (hwf : env.WF) (hun : Unmixed env) {m n : Node}
    (hm : Node.Inner m n) : ∀ {t : Term} {a b : Nat}, TreeOK env L t a b n → t.value ≠ gammaRule →
    m.value.term.value ≠ gammaRule := by
  induction hm with
  | refl =>
    intro t a b h hg
    have hv : ∀ {n : Node}, TreeOK env L t a b n → n.value.term.value = t.value := by
      intro n h
      cases h with
      | terminal _ _ _ h4 => rw [h4]
      | any _ _ _ _ _ _ _ _ _ h10 => exact h10
      | nonterminal _ _ h3 => exact h3
      | list _ _ h3 => exact h3
    rw [hv h]; exact hg
  | child hf hc _ ih =>
    intro t a b h hg
    obtain ⟨ts, _, _, h8, hts⟩ := h.kids_ne_gamma hwf hun hg hf
    obtain ⟨t', ht', _, _, hok⟩ := h8.kid _ hc
    exact ih hok (hts t' ht')

mutual
theorem bracketOf_exists {w : NodeWorld} {p : Parsed} : ∀ k : Node,
    (∀ m, Node.Inner m k → m.value.term.value ≠ gammaRule) →
    ((∃ b, BracketOf w p k b) ↔ ∀ m, Node.Quoted m k → ∃ o, p.originalText m = .ok o)
  | .mk v cs, hk => by
    have h2 := hk _ .refl
    by_cases hf : FlatKids cs
    · constructor
      · rintro ⟨b, hb⟩ m hm
        cases hb with
        | start g1 => exact absurd g1 h2
        | node _ g1 => exact absurd hf g1
        | flat _ _ g =>
          cases hm with
          | start g1 => exact absurd g1 h2
          | flat => exact ⟨_, g⟩
          | node _ g1 => exact absurd hf g1
      · intro h
        obtain ⟨o, h3⟩ := h _ (.flat h2 hf)
        exact ⟨_, .flat h2 hf h3⟩
    · have ih := bracketsOf_exists (w := w) (p := p) cs (fun c hc m hm => hk m (.child hf hc hm))
      constructor
      · rintro ⟨b, hb⟩ m hm
        cases hb with
        | start g1 => exact absurd g1 h2
        | flat _ g1 => exact absurd g1 hf
        | node _ _ g =>
          cases hm with
          | start g1 => exact absurd g1 h2
          | flat _ g1 => exact absurd g1 hf
          | node _ _ hc hm => exact ih.1 ⟨_, g⟩ _ hc m hm
      · intro h
        obtain ⟨bs, hbs⟩ := ih.2 (fun c hc m hm => h m (.node h2 hf hc hm))
        exact ⟨_, .node h2 hf hbs⟩
theorem bracketsOf_exists {w : NodeWorld} {p : Parsed} : ∀ ks : List Node,
    (∀ k ∈ ks, ∀ m, Node.Inner m k → m.value.term.value ≠ gammaRule) →
    ((∃ bs, BracketsOf w p ks bs) ↔ ∀ k ∈ ks, ∀ m, Node.Quoted m k → ∃ o, p.originalText m = .ok o)
  | [], _ => ⟨fun _ => by simp, fun _ => ⟨_, .nil⟩⟩
  | c :: cs, hk => by
    have i1 := bracketOf_exists (w := w) (p := p) c (hk c (by simp))
    have i2 := bracketsOf_exists (w := w) (p := p) cs (fun c hc => hk c (by simp [hc]))
    constructor
    · rintro ⟨_, _ | ⟨h1, h2⟩⟩ k hm
      rcases List.mem_cons.1 hm with rfl | hm
      · exact i1.1 ⟨_, h1⟩
      · exact i2.1 ⟨_, h2⟩ k hm
    · intro h
      obtain ⟨b, hb⟩ := i1.2 (h c (by simp))
      obtain ⟨bs, hbs⟩ := i2.2 (fun c hc => h c (by simp [hc]))
      exact ⟨_, .cons hb hbs⟩
end

/-- C53 for all trees of a parse, for all grammars and all texts: Bracketed succeeds exactly if no node whose text
it prints is an empty node at an end of the token list, and panics otherwise; its output is balanced if no term of
the grammars contains a bracket or a quote. -/
theorem C53_trees (w : NodeWorld) (p : Parsed) (flag : Bool) (f fuel : Nat) (ns : List Node)
    (text : Bytes) (hwf : p.env.WF) (ho : p.env.OrdOK) (hun : Unmixed p.env) (hany : AnyNamed p.env)
    (hpar : parse p.env flag f = some p.res) (h : TreesOf fuel p ns)
    (hord : TokensOrdered text p.env.tokens) (hlen : text.length ≤ p.text.length) :
    ∀ n ∈ ns, ((∃ s, n.bracketed w p = .ok s) ↔ ∀ m, Node.Quoted m n → ¬ p.AtEdge m) ∧
      (n.bracketed w p = .panic ↔ ∃ m, Node.Quoted m n ∧ p.AtEdge m) ∧
      ∀ s, n.bracketed w p = .ok s → (∀ A, p.env.Label A → NoBrackets A) → WellBracketed s.toList := by
  intro n hn
  obtain ⟨S, hS, j, hj, hroot⟩ := tree_inside hwf ho hun hany hpar h n hn
  have hin := hroot.inside hj
  obtain ⟨g1, _, _, _, g5, c, g6, g7⟩ := hroot
  have hS' : S ≠ gammaRule := fun e => hwf.noGamma.2.2 (e ▸ hS)
  have hng := fun m (hm : Node.Inner m c) => TreeOK.inner_ne_gamma hwf hun hm g7 hS'
  have hsub : ∀ m, Node.Sub m c → Node.Sub m n := fun m hm => .child (by rw [g6]; simp) hm
  have hhead : n.children.head? = some c := by rw [g6]; rfl
  have hq : ∀ m, Node.Quoted m n ↔ Node.Quoted m c := fun m => by
    constructor
    · intro hm
      cases hm with
      | start _ h2 h3 => rw [hhead] at h2; cases h2; exact h3
      | flat h1 => exact absurd g1 h1
      | node h1 => exact absurd g1 h1
    · exact fun hm => .start g1 hhead hm
  have hbn : ∀ b, BracketOf w p n b ↔ BracketOf w p c b := fun b => by
    constructor
    · intro hb
      cases hb with
      | start _ h2 h3 => rw [hhead] at h2; cases h2; exact h3
      | flat h1 => exact absurd g1 h1
      | node h1 => exact absurd g1 h1
    · exact fun hb => .start g1 hhead hb
  have hiff : (∃ s, n.bracketed w p = .ok s) ↔ ∀ m, Node.Quoted m n → ¬ p.AtEdge m := by
    have h1 : (∃ s, n.bracketed w p = .ok s) ↔ ∃ b, BracketOf w p c b := by
      constructor
      · rintro ⟨s, hs⟩
        obtain ⟨b, hb, _⟩ := (bracketed_ok w p n s).1 hs
        exact ⟨b, (hbn b).1 hb⟩
      · rintro ⟨b, hb⟩
        exact ⟨String.ofList (b.print w.isPrint), (bracketed_ok w p n _).2 ⟨b, (hbn b).2 hb, by simp⟩⟩
    rw [h1, bracketOf_exists c hng]
    simp only [hq]
    refine forall_congr' fun m => forall_congr' fun hm => ?_
    rcases C21_node p text m hord hlen (hin m (hsub m hm.sub)) with ⟨k1, _, _, _, _, _, k2⟩ | ⟨_, k1, _, _, _, k2⟩ | ⟨k1, _, k2⟩
    · exact ⟨fun _ he => by have := he.1; omega, fun _ => ⟨_, k2⟩⟩
    · exact ⟨fun _ => k1, fun _ => ⟨_, k2⟩⟩
    · exact ⟨fun ⟨o, ho⟩ => (by rw [k2] at ho; cases ho), fun h => absurd k1 h⟩
  refine ⟨hiff, ?_, fun s hs hl => ?_⟩
  · constructor
    · intro hp
      rw [← Classical.not_not (a := ∃ m, _)]
      intro hno
      obtain ⟨s, hs⟩ := hiff.2 (fun m hm he => hno ⟨m, hm, he⟩)
      rw [hs] at hp; cases hp
    · rintro ⟨m, hm, he⟩
      rcases abrupt_bracketed w p n with hok | hp
      · exact absurd he (hiff.1 hok m hm)
      · exact hp
  · obtain ⟨b, hb, e⟩ := (bracketed_ok w p n s).1 hs
    rw [e]
    exact print_balanced _ _ (bracketOf_labels ((hbn b).1 hb) (fun m hm _ =>
      hl _ (TreeOK.labels g7 (.inl hS) m hm)))

/-- C53 for the trees of a grammar without nullables: Bracketed succeeds, and its output is balanced if no term of
the grammars contains a bracket or a quote. -/
theorem C53_trees_partial (w : NodeWorld) (p : Parsed) (flag : Bool) (f fuel : Nat) (ns : List Node)
    (text : Bytes) (hwf : p.env.WF) (ho : p.env.OrdOK) (hun : Unmixed p.env) (hany : AnyNamed p.env)
    (hne : NoEmpty p.env) (hpar : parse p.env flag f = some p.res) (h : TreesOf fuel p ns)
    (hord : TokensOrdered text p.env.tokens) (hlen : text.length ≤ p.text.length)
    (hl : ∀ A, p.env.Label A → NoBrackets A) :
    ∀ n ∈ ns, ∃ s, n.bracketed w p = .ok s ∧ WellBracketed s.toList := by
  intro n hn
  obtain ⟨h1, _, h3⟩ := C53_trees w p flag f fuel ns text hwf ho hun hany hpar h hord hlen n hn
  obtain ⟨S, hS, j, hj, hroot⟩ := tree_inside hwf ho hun hany hpar h n hn
  obtain ⟨s, hs⟩ := h1.2 (fun m hm => hroot.noEdge hne hj m hm.sub)
  exact ⟨s, hs, h3 s hs hl⟩

/-! ### witnesses -/

/-- the leaf for the literal `"]"` over the first token -/
def nClose : Node := .mk { term := tt "]", rb := none, start := 0, stop := 1, dot := 0 } []

/-- is a text balanced? -/
def balance : Nat → Nat → List Char → Bool
  | 0, d, [] => d = 0
  | 1, _, [] => false
  | 2, _, [] => false
  | 0, d, '[' :: l => balance 0 (d+1) l
  | 0, 0, ']' :: _ => false
  | 0, d+1, ']' :: l => balance 0 d l
  | 0, d, '"' :: l => balance 1 d l
  | 0, d, _ :: l => balance 0 d l
  | 1, d, '"' :: l => balance 0 d l
  | 1, d, '\\' :: l => balance 2 d l
  | 1, d, _ :: l => balance 1 d l
  | _, d, _ :: l => balance 1 d l
  | _, _, [] => false

theorem balance_quoted {q : List Char} (h : QuotedBody q) (d : Nat) (l : List Char) :
    balance 1 d (q ++ '"' :: l) = balance 0 d l := by
  induction h with
  | nil => simp [balance]
  | @plain c t h1 h2 _ ih => rw [List.cons_append, balance, ih] <;> simp_all
  | @esc c t _ ih => simp [balance, ih]

theorem balance_well {a : List Char} (h : WellBracketed a) : ∀ (d : Nat) (l : List Char),
    balance 0 d (a ++ l) = balance 0 d l := by
  induction h with
  | nil => simp
  | @plain c t h1 h2 h3 _ ih => intro d l; rw [List.cons_append, balance, ih] <;> simp_all
  | @quoted q t h1 _ ih =>
    intro d l
    have e : ('"' :: (q ++ '"' :: t)) ++ l = '"' :: (q ++ '"' :: (t ++ l)) := by simp
    rw [e, balance, balance_quoted h1, ih]
  | @bracket x t _ _ ih1 ih2 =>
    intro d l
    have e : ('[' :: (x ++ ']' :: t)) ++ l = '[' :: (x ++ ']' :: (t ++ l)) := by simp
    rw [e, balance, ih1, balance, ih2]

/-- C53 fails for a leaf: a literal is its own label and is not quoted. -/
theorem C53_false : ¬ C53_statement := by
  intro h
  have hs : nClose.bracketed wPlain pAB = .ok "[] \"a\"]" := by decide +kernel
  have := balance_well (h wPlain (by
    intro b g hg
    simp only [wPlain, List.mem_map] at hg
    obtain ⟨x, _, rfl⟩ := hg
    trivial) pAB nClose _ hs).1 0 []
  revert this
  decide +kernel

/-- brackets and quotes in the text do no harm -/
example : nCall.bracketed wPlain pAB = .ok "[s [any \"a\"] [b \"b\"]]" := by decide +kernel
example : (Node.mk { term := nt "s", rb := none, start := 0, stop := 1, dot := 0 } []).bracketed wPlain
    { pAB with text := [93], env := { pAB.env with tokens := [{ text := "]", startByte := 0, endByte := 1 }] } }
    = .ok "[s \"]\"]" := by decide +kernel

end Fmr
