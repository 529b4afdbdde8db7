import Verif.Props.Trees
import Verif.Props.Size
import Verif.Proofs.Layout
import Verif.Proofs.ShapeInj
import Mathlib.Data.List.Nodup
import Mathlib.Data.List.Perm.Subperm

/-!
# C13 for ambiguous inputs whose trees have equal spines; C91: how many trees there can be
-/

namespace Fmr

/-! ## C13 -/

theorem fullChart {env : Env} (hwf : env.WF) (ho : env.OrdOK) (hany : AnyNamed env)
    (hne : NoEmpty env) (hsp : SpinesRel env) {fuel chart} (h : chartOf env fuel = some chart) :
    FullChart env chart where
  all i s hi := by
    obtain ⟨col, h1, h2⟩ := chart_complete hwf ho h (hne.nullSafe.emptyClosed hwf ho h) hi
    obtain ⟨r, hr⟩ := List.getElem?_of_mem h2
    exact ⟨r, col, h1, hr⟩
  sorted _ _ _ _ _ _ h1 h2 h3 h4 h5 h6 := chart_sorted hwf ho hany hne hsp h h1 h2 h3 h4 h5 h6

/-- all trees are returned, from the agreement of the spines in the relaxed language -/
theorem trees_of_spines {env : Env} (hwf : env.WF) (ho : env.OrdOK) (hun : Unmixed env)
    (hany : AnyNamed env) (hne : NoEmpty env) (hsp : SpinesRel env) {flag : Bool} {fuel f : Nat}
    {res : ParseResult} (h : parse env flag fuel = some res)
    {c row : Nat} {s : TState} (hat : chartGet res.chart c row = some s)
    {S : String} (hS : S ∈ env.starts) {j : Nat} (hm : MatchFor S j s)
    {ts : List Node} (ht : getTrees res.chart f c row = some ts) {n : Node}
    (hn : RootOK env env.lang S j n) : n.shape ∈ ts.map Node.shape := by
  have hexact := C13_exact_partial env flag fuel f res hwf ho hun h c row s hat S hS j hm ts ht
  obtain ⟨hc, hat, hch⟩ := parse_at ho h hat
  have hi : Item env c s := by
    obtain ⟨col, h1, h2⟩ := hat; exact hch c col h1 s (List.mem_of_getElem? h2)
  obtain ⟨hcomp, hty, hj, hrb⟩ := matchFor_final hwf hi hS hm
  subst hj
  have hb := hi.basic hwf
  have hfull := fullChart hwf ho hany hne hsp hc
  obtain ⟨v, cs⟩ := n
  obtain ⟨n1, n2, n3, n4, n5, n0, n6, n7⟩ := hn
  simp only [Node.value, Node.children] at n1 n2 n3 n4 n5 n6
  subst n6
  obtain ⟨s0, r0, n', g1, g2, g3, g4, g5, g6, g7, g8, g9, g10⟩ :=
    TreeOK.layout hwf hany hne hfull n7 hb.bound (by simp) (by simp) (Item.init hS)
      (by simp [gammaState]) (t' := { value := S, type := .nonterminal, «meta» := .nil })
      (next_nt_of (by simp [gammaState]) (by simp [gammaState]) rfl) rfl rfl (by simp)
  obtain ⟨k, hk⟩ := g1.lev hwf
  have hlev : Lev env j s (k+1) := by
    obtain ⟨ns, hk1, hk2⟩ := hk
    have hg : s0.term.value ≠ gammaRule := by
      have : s0.term.value = S := by
        rcases completes_cases g5 with ⟨h', _⟩ | ⟨_, h'⟩
        · simp at h'
        · exact h'.symm
      rw [this]; intro e; rw [e] at hS; exact hwf.noGamma.2.2 hS
    obtain ⟨m, m1, m2, m3⟩ := hk1.tree hwf (g1.basic hwf) g3 hg
      (t := { value := S, type := .nonterminal, «meta» := .nil })
      (by rcases completes_cases g5 with ⟨h', _⟩ | ⟨h', _⟩
          · simp at h'
          · exact h')
      (by rcases completes_cases g5 with ⟨h', _⟩ | ⟨_, h'⟩
          · simp at h'
          · exact fun _ => h')
    refine ⟨[m], Or.inl ⟨hty, _, hrb, ?_⟩, by simp [spineL, m3, m2, hk2]⟩
    rw [hm.2.2.2.1, hm.2.2.1, ← g4]
    exact ForestOK.cons m1 ForestOK.nil
  have hlate := hfull.sorted j r0 row s0 s k g2 hat g3 hcomp hk hlev
  obtain ⟨col, hcol, hr⟩ := hat
  have hlaid : Laid res.chart j row (.mk s [n']) := by
    refine Laid.nonterminal hcol hr hcomp hty hrb ?_
    have := LaidKids.cons (t := { value := S, type := .nonterminal, «meta» := .nil }) (by simp) g6 g10 g9
      (Or.inr ⟨rfl, hlate⟩) (LaidKids.nil (chart := res.chart) (c := j) (r := row) (a := j))
    rw [g8] at this
    rw [hm.2.2.1, hb.stop]
    exact this
  refine List.mem_map.2 ⟨_, (hexact _).2 hlaid, ?_⟩
  simp only [Node.shape, shapes, hty, n2, n1, n3, n4, n5, hrb, hm.1, hm.2.2.1, hb.stop, g7]

/-- C13 for inputs whose derivation trees have spines of equal length: if any two derivation trees
for the same symbol over the same tokens have right spines of the same length, every derivation tree
is returned, however ambiguous the input is (missing: the others, where trees are lost). -/
theorem C13_spines_partial (env : Env) (flag : Bool) (fuel f : Nat) (res : ParseResult)
    (hwf : env.WF) (ho : env.OrdOK) (hun : Unmixed env) (hany : AnyNamed env) (hne : NoEmpty env)
    (hu : UniformBounds env) (h : parse env flag fuel = some res)
    (c row : Nat) (s : TState) (hat : chartGet res.chart c row = some s)
    (S : String) (hS : S ∈ env.starts) (j : Nat) (hm : MatchFor S j s)
    (ts : List Node) (ht : getTrees res.chart f c row = some ts)
    (hsp : SpinesAgree env env.lang) :
    ∀ n, RootOK env env.lang S j n → n.shape ∈ ts.map Node.shape :=
  fun _ hn => trees_of_spines hwf ho hun hany hne (hsp.rel hu) h hat hS hm ht hn

/-- C13 for graded grammars: if the productions alone determine the length of the right spine of
every symbol, every derivation tree of every text is returned (missing: other grammars). -/
theorem C13_graded_partial (env : Env) (flag : Bool) (fuel f : Nat) (res : ParseResult)
    (hwf : env.WF) (ho : env.OrdOK) (hun : Unmixed env) (hany : AnyNamed env) (hne : NoEmpty env)
    (d : String → Nat) (hd : Graded env d) (h : parse env flag fuel = some res)
    (c row : Nat) (s : TState) (hat : chartGet res.chart c row = some s)
    (S : String) (hS : S ∈ env.starts) (j : Nat) (hm : MatchFor S j s)
    (ts : List Node) (ht : getTrees res.chart f c row = some ts) :
    ∀ n, RootOK env env.lang S j n → n.shape ∈ ts.map Node.shape :=
  fun _ hn => trees_of_spines hwf ho hun hany hne (hd.rel hne) h hat hS hm ht hn

/-- the test of the productions by computation -/
def Env.checkGraded (env : Env) (d : String → Nat) : Bool :=
  env.allBodies.all (fun p => p.2.terms.getLast?.all (fun t => d p.1 == depthUnder d t))

theorem Env.checkGraded_ok {env : Env} {d : String → Nat} (h : env.checkGraded d = true) :
    Graded env d := by
  intro A rb hd t ht
  unfold Env.checkGraded at h
  rw [List.all_eq_true] at h
  have := h (A, rb) hd.mem_allBodies
  simpa [ht] using this

/-- the depths in `wBits` -/
def bitsDepth : String → Nat := fun A => if A = "s" then 2 else if A = "t" then 1 else 0

/-- `<s> = <s> <t> | <t>; <t> = <p> | <q>; <p> = "a"; <q> = "a"` on `n` times `a` -/
def wBits (ord : Nat → Nat → Nat → List RuleBody → List RuleBody) (n : Nat) : Env :=
  { grammars := [{ name := "g", rules := [
      rl "s" [[nt "s", nt "t"], [nt "t"]], rl "t" [[nt "p"], [nt "q"]], rl "p" [[tt "a"]],
      rl "q" [[tt "a"]]] }],
    tokens := List.replicate n (tk "a"), starts := ["s"], tmatch := plainMatch, ord := ord }

theorem wBits_ok (ord) (n : Nat) : (wBits ord n).WF ∧ Unmixed (wBits ord n) ∧ AnyNamed (wBits ord n) ∧
    NoEmpty (wBits ord n) ∧ UniformBounds (wBits ord n) ∧ Graded (wBits ord n) bitsDepth :=
  ⟨Env.checkWF_wf (by rfl), Env.checkUnmixed_ok (by rfl), Env.checkAnyNamed_ok (by rfl),
    Env.checkNoEmpty_ok (by rfl), Env.checkUniform_ok (by rfl), Env.checkGraded_ok (by rfl)⟩

/-- four trees for two tokens, all returned -/
example : (parse (wBits idOrd 2) true 60).map (fun r => (finalAddrs r.chart).map
    (fun a => (getTrees r.chart 60 a.1 a.2).map (·.map Node.labels))) =
    some [
      some [["ɣ", "s", "t", "p", "a"], ["ɣ", "s", "t", "q", "a"]],
      some [["ɣ", "s", "s", "t", "p", "a", "t", "p", "a"], ["ɣ", "s", "s", "t", "q", "a", "t", "p", "a"],
        ["ɣ", "s", "s", "t", "p", "a", "t", "q", "a"], ["ɣ", "s", "s", "t", "q", "a", "t", "q", "a"]]] := by
  decide +kernel

/-! ## C14: no two returned trees look the same -/

/-- C14, as far as a caller can see: no two of the returned trees have the same symbols, bodies, spans
and children. -/
theorem C14_shapes (env : Env) (flag : Bool) (fuel f : Nat) (res : ParseResult)
    (hwf : env.WF) (ho : env.OrdOK) (hun : Unmixed env) (hany : AnyNamed env)
    (hu : UniformBounds env) (h : parse env flag fuel = some res)
    (c row : Nat) (s : TState) (hat : chartGet res.chart c row = some s)
    (S : String) (hS : S ∈ env.starts) (j : Nat) (hm : MatchFor S j s)
    (ts : List Node) (ht : getTrees res.chart f c row = some ts) : (ts.map Node.shape).Nodup := by
  have hexact := C13_exact_partial env flag fuel f res hwf ho hun h c row s hat S hS j hm ts ht
  have hnd := C14_no_duplicate_trees env flag fuel f res hwf ho h c row s hat ts ht
  obtain ⟨hc, hat, hch⟩ := parse_at ho h hat
  refine hnd.map_on (fun n hn n' hn' he => ?_)
  refine Laid.shape_inj hwf hun hu hany ?_ ((hexact n).1 hn) ((hexact n').1 hn') he
  rintro c r s ⟨col, h1, h2⟩
  exact hch c col h1 s (List.mem_of_getElem? h2)

/-! ## C91 -/

/-- C91 as one would like it: for every grammar, the number of trees of a match is at most polynomial
in the length of the text. -/
def C91_statement : Prop :=
  ∀ (gs : List Grammar) (starts : List String) (tmatch : Term → Token → Bool)
    (ord : Nat → Nat → Nat → List RuleBody → List RuleBody), ∃ a k : Nat,
    ∀ (tokens : List Token) (env : Env),
      env = { grammars := gs, tokens := tokens, starts := starts, tmatch := tmatch, ord := ord } →
      env.WF → env.OrdOK → Unmixed env → AnyNamed env → NoEmpty env → UniformBounds env →
      ∀ flag fuel res, parse env flag fuel = some res →
      ∀ c row s, chartGet res.chart c row = some s → ∀ S ∈ starts, ∀ j, MatchFor S j s →
      ∀ f ts, getTrees res.chart f c row = some ts → ts.length ≤ a * (tokens.length + 1) ^ k

/-- the literal at token `k` -/
def bitLeaf (k : Nat) : Node :=
  .mk { term := tt "a", rb := none, start := k, stop := k+1, dot := 0 } []
/-- `<p>` or `<q>` -/
def bitName (b : Bool) : String := if b then "p" else "q"
def bitPQ (b : Bool) (k : Nat) : Node :=
  .mk { term := nt (bitName b), rb := some { terms := [tt "a"], f := none },
        start := k, stop := k+1, dot := 1 } [bitLeaf k]
/-- `<t>` at token `k` -/
def bitT (b : Bool) (k : Nat) : Node :=
  .mk { term := nt "t", rb := some { terms := [nt (bitName b)], f := none },
        start := k, stop := k+1, dot := 1 } [bitPQ b k]
/-- the tree of `<s>` for a choice of `<p>` or `<q>` at each token, the last token first -/
def bitS : List Bool → Node
  | [] => bitLeaf 0
  | [b] => .mk { term := nt "s", rb := some { terms := [nt "t"], f := none },
                 start := 0, stop := 1, dot := 1 } [bitT b 0]
  | b :: c :: bs => .mk { term := nt "s", rb := some { terms := [nt "s", nt "t"], f := none },
                          start := 0, stop := bs.length + 2, dot := 2 }
                        [bitS (c :: bs), bitT b (bs.length + 1)]
def bitRoot (l : List Bool) : Node :=
  .mk { term := nt "ɣ", rb := some (startBody "s"), start := 0, stop := l.length, dot := 1 } [bitS l]

/-- all choices for `n` tokens -/
def allBits : Nat → List (List Bool)
  | 0 => [[]]
  | n+1 => (allBits n).map (true :: ·) ++ (allBits n).map (false :: ·)

theorem allBits_length : ∀ n, (allBits n).length = 2 ^ n
  | 0 => rfl
  | n+1 => by simp [allBits, allBits_length n]; omega

theorem mem_allBits : ∀ {n l}, l ∈ allBits n ↔ l.length = n
  | 0, l => by simp [allBits]
  | n+1, [] => by simp [allBits]
  | n+1, b :: l => by cases b <;> simp [allBits, mem_allBits]

theorem allBits_nodup : ∀ n, (allBits n).Nodup
  | 0 => by simp [allBits]
  | n+1 => by
    have hi := allBits_nodup n
    rw [allBits, List.nodup_append]
    refine ⟨hi.map (by intro a b h; simpa using h), hi.map (by intro a b h; simpa using h), ?_⟩
    intro a ha b hb
    obtain ⟨x, _, rfl⟩ := List.mem_map.1 ha
    obtain ⟨y, _, rfl⟩ := List.mem_map.1 hb
    simp

theorem bitT_inj {b c k k'} (h : (bitT b k).shape = (bitT c k').shape) : b = c := by
  cases b <;> cases c <;> simp_all [bitT, Node.shape, shapes, bitName, nt]

theorem bitS_inj : ∀ {l l' : List Bool}, l.length = l'.length → (bitS l).shape = (bitS l').shape → l = l'
  | [], [], _, _ => rfl
  | [b], [c], _, h => by
    simp only [bitS, Node.shape, shapes] at h
    injection h with _ _ _ _ _ h
    injection h with h1 _
    have := bitT_inj h1
    subst this
    rfl
  | b :: b2 :: bs, c :: c2 :: cs, hl, h => by
    simp only [bitS, Node.shape, shapes] at h
    injection h with _ _ _ _ _ h
    injection h with h1 h
    injection h with h2 _
    rw [bitT_inj h2, bitS_inj (by simpa using hl) h1]

theorem wBits_defines {ord n} {A rb} : (wBits ord n).Defines A rb ↔
    (A = "s" ∧ (rb = { terms := [nt "s", nt "t"], f := none } ∨ rb = { terms := [nt "t"], f := none })) ∨
    (A = "t" ∧ (rb = { terms := [nt "p"], f := none } ∨ rb = { terms := [nt "q"], f := none })) ∨
    (A = "p" ∧ rb = { terms := [tt "a"], f := none }) ∨ (A = "q" ∧ rb = { terms := [tt "a"], f := none }) := by
  constructor
  · intro h
    have := h.mem_allBodies
    simp [Env.allBodies, wBits, Rule.bodies, rl] at this
    rcases this with ⟨rfl, rfl⟩ | ⟨rfl, rfl⟩ | ⟨rfl, rfl⟩ | ⟨rfl, rfl⟩ | ⟨rfl, rfl⟩ | ⟨rfl, rfl⟩ <;> simp
  · rintro (⟨rfl, rfl | rfl⟩ | ⟨rfl, rfl | rfl⟩ | ⟨rfl, rfl⟩ | ⟨rfl, rfl⟩) <;>
    exact ⟨_, List.mem_singleton_self _, _, rfl, by simp [Rule.bodies]⟩

theorem bitT_ok {ord n} (b k) (hk : k < n) :
    TreeOK (wBits ord n) (wBits ord n).lang (nt "t") k (k+1) (bitT b k) := by
  have hleaf : TreeOK (wBits ord n) (wBits ord n).lang (tt "a") k (k+1) (bitLeaf k) :=
    .terminal (tok := tk "a") rfl (by simp [wBits, hk])
      (show plainMatch (tt "a") (tk "a") = true by decide +kernel) rfl rfl rfl rfl rfl
  have hpq : TreeOK (wBits ord n) (wBits ord n).lang (nt (bitName b)) k (k+1) (bitPQ b k) :=
    .nonterminal rfl (wBits_defines.2 (by cases b <;> simp [bitName, nt])) rfl rfl rfl rfl rfl
      (.cons hleaf .nil)
  exact .nonterminal rfl (wBits_defines.2 (by cases b <;> simp [bitName, nt])) rfl rfl rfl rfl rfl
    (.cons hpq .nil)

theorem bitS_ok {ord n} : ∀ (l : List Bool), l ≠ [] → l.length ≤ n →
    TreeOK (wBits ord n) (wBits ord n).lang (nt "s") 0 l.length (bitS l)
  | [b], _, h => .nonterminal rfl (wBits_defines.2 (by simp [nt])) rfl rfl rfl rfl rfl
      (.cons (bitT_ok b 0 (by simp at h; omega)) .nil)
  | b :: c :: bs, _, h =>
    .nonterminal rfl (wBits_defines.2 (by simp [nt])) rfl rfl rfl rfl rfl
      (.cons (bitS_ok (c :: bs) (by simp) (by simp at h ⊢; omega))
        (.cons (bitT_ok b _ (by simp at h ⊢; omega)) .nil))

theorem bitRoot_ok {ord n} (l : List Bool) (h0 : 0 < n) (h : l.length = n) :
    RootOK (wBits ord n) (wBits ord n).lang "s" n (bitRoot l) :=
  ⟨rfl, rfl, rfl, h, rfl, _, rfl, h ▸ bitS_ok l (by rintro rfl; simp at h; omega) (by omega)⟩

/-- the trees of `<t>` -/
theorem bitT_all {ord n k m x} (h : TreeOK (wBits ord n) (wBits ord n).lang (nt "t") k m x) :
    m = k + 1 ∧ ∃ b, x.shape = (bitT b k).shape := by
  obtain ⟨v, cs⟩ := x
  have hpq : ∀ b y, TreeOK (wBits ord n) (wBits ord n).lang (nt (bitName b)) k m y →
      m = k + 1 ∧ y.shape = (bitPQ b k).shape := by
    intro b y hy
    obtain ⟨w, ds⟩ := y
    cases hy with
    | terminal h1 => simp [nt] at h1
    | any h1 => simp [nt] at h1
    | list h1 => simp [nt] at h1
    | nonterminal h1 h2 h3 h4 h5 h6 h7 h8 =>
      have hrb := wBits_defines.1 h2
      rename_i rb
      have hrb' : rb = ({ terms := [tt "a"], f := none } : RuleBody) := by
        cases b <;> simpa [bitName, nt] using hrb
      subst hrb'
      simp only [Node.value, Node.children] at *
      cases h8 with
      | cons g1 g2 =>
        cases g2
        rename_i z
        obtain ⟨u, es⟩ := z
        cases g1 with
        | terminal _ _ _ g4 g5 g6 g7 g8 =>
          simp only [Node.value, Node.children] at *
          refine ⟨trivial, ?_⟩
          simp [Node.shape, shapes, bitPQ, bitLeaf, *]
        | any h1 => simp [tt] at h1
        | list h1 => simp [tt] at h1
        | nonterminal h1 => simp [tt] at h1
  cases h with
  | terminal h1 => simp [nt] at h1
  | any h1 => simp [nt] at h1
  | list h1 => simp [nt] at h1
  | nonterminal h1 h2 h3 h4 h5 h6 h7 h8 =>
    have hrb := wBits_defines.1 h2
    rename_i rb
    have hrb' : ∃ b, rb = ({ terms := [nt (bitName b)], f := none } : RuleBody) := by
      simp [nt] at hrb
      rcases hrb with h | h
      · exact ⟨true, by simp [h, bitName, nt]⟩
      · exact ⟨false, by simp [h, bitName, nt]⟩
    obtain ⟨b, hrb'⟩ := hrb'
    subst hrb'
    simp only [Node.value, Node.children] at *
    cases h8 with
    | cons g1 g2 =>
      cases g2
      obtain ⟨rfl, e⟩ := hpq b _ g1
      refine ⟨rfl, b, ?_⟩
      simp [Node.shape, shapes, bitT, *]

/-- the trees of `<s>` -/
theorem bitS_all {ord n} : ∀ m x, TreeOK (wBits ord n) (wBits ord n).lang (nt "s") 0 m x →
    ∃ l : List Bool, l ≠ [] ∧ l.length = m ∧ x.shape = (bitS l).shape := by
  intro m
  induction m using Nat.strongRecOn with
  | ind m ih =>
    intro x h
    obtain ⟨v, cs⟩ := x
    cases h with
    | terminal h1 => simp [nt] at h1
    | any h1 => simp [nt] at h1
    | list h1 => simp [nt] at h1
    | nonterminal h1 h2 h3 h4 h5 h6 h7 h8 =>
      rename_i rb
      have hrb := wBits_defines.1 h2
      simp [nt] at hrb
      simp only [Node.value, Node.children] at *
      rcases hrb with hrb | hrb
      · subst hrb
        cases h8 with
        | cons g1 g2 =>
          cases g2 with
          | cons g2 g3 =>
            cases g3
            obtain ⟨rfl, b, e⟩ := bitT_all g2
            obtain ⟨l, hl, hlen, e'⟩ := ih _ (Nat.lt_succ_self _) _ g1
            cases l with
            | nil => simp at hl
            | cons c bs =>
              subst hlen
              refine ⟨b :: c :: bs, by simp, by simp, ?_⟩
              simp [Node.shape, shapes, bitS, *]
      · subst hrb
        cases h8 with
        | cons g1 g2 =>
          cases g2
          obtain ⟨rfl, b, e⟩ := bitT_all g1
          refine ⟨[b], by simp, by simp, ?_⟩
          simp [Node.shape, shapes, bitS, *]

theorem bitRoot_all {ord n x} (h : RootOK (wBits ord n) (wBits ord n).lang "s" n x) :
    ∃ l : List Bool, l.length = n ∧ x.shape = (bitRoot l).shape := by
  obtain ⟨v, cs⟩ := x
  obtain ⟨h1, h2, h3, h4, h5, c, h6, h7⟩ := h
  obtain ⟨l, _, hl, e⟩ := bitS_all n c h7
  simp only [Node.value, Node.children] at *
  subst h6
  exact ⟨l, hl, by simp [Node.shape, shapes, bitRoot, *]⟩

/-- C91, the number: for `n` tokens there are exactly `2 ^ n` trees. -/
theorem C91_exponential (ord) (n : Nat) (hn : 0 < n) (ho : (wBits ord n).OrdOK) (flag : Bool)
    (fuel f : Nat) (res : ParseResult) (h : parse (wBits ord n) flag fuel = some res)
    (c row : Nat) (s : TState) (hat : chartGet res.chart c row = some s) (hm : MatchFor "s" n s)
    (ts : List Node) (ht : getTrees res.chart f c row = some ts) : ts.length = 2 ^ n := by
  obtain ⟨hwf, hun, hany, hne, hu, hd⟩ := wBits_ok ord n
  have hS : "s" ∈ (wBits ord n).starts := by simp [wBits]
  have h1 := C14_shapes _ flag fuel f res hwf ho hun hany hu h c row s hat "s" hS n hm ts ht
  have h2 := C13_graded_partial _ flag fuel f res hwf ho hun hany hne bitsDepth hd h c row s hat "s" hS n
    hm ts ht
  have h3 := C10_counts_partial _ flag fuel f res hwf ho hun hu h c row s hat "s" hS n hm ts ht
  have hnd : ((allBits n).map (fun l => (bitRoot l).shape)).Nodup := by
    refine (allBits_nodup n).map_on (fun l hl l' hl' e => ?_)
    refine bitS_inj ((mem_allBits.1 hl).trans (mem_allBits.1 hl').symm) ?_
    simp [bitRoot, Node.shape, shapes] at e
    exact e.2
  have hle := (List.subperm_of_subset hnd (l₂ := ts.map Node.shape) (by
    intro σ hσ
    obtain ⟨l, hl, rfl⟩ := List.mem_map.1 hσ
    exact h2 _ (bitRoot_ok l hn (mem_allBits.1 hl)))).length_le
  have hge := (List.subperm_of_subset h1 (l₂ := (allBits n).map (fun l => (bitRoot l).shape)) (by
    intro σ hσ
    obtain ⟨x, hx, rfl⟩ := List.mem_map.1 hσ
    obtain ⟨l, hl, e⟩ := bitRoot_all (h3 x hx)
    exact List.mem_map.2 ⟨l, mem_allBits.2 hl, e.symm⟩)).length_le
  simp only [List.length_map, allBits_length] at hle hge
  omega

/-- and there is such a call -/
theorem C91_reached (ord) (n : Nat) (hn : 0 < n) (ho : (wBits ord n).OrdOK) :
    ∃ fuel res c row s f ts, parse (wBits ord n) false fuel = some res ∧
      chartGet res.chart c row = some s ∧ MatchFor "s" n s ∧ getTrees res.chart f c row = some ts := by
  obtain ⟨hwf, hun, hany, hne, hu, hd⟩ := wBits_ok ord n
  have hS : "s" ∈ (wBits ord n).starts := by simp [wBits]
  obtain ⟨fuel, res, h⟩ := C05_terminates (wBits ord n) false hwf ho
  have h := h fuel (Nat.le_refl _)
  have hlen : (wBits ord n).tokens.length = n := by simp [wBits]
  have hroot := bitRoot_ok (ord := ord) (List.replicate n true) hn (by simp)
  obtain ⟨s, hin, hf, hm⟩ := C02_partial _ fuel res hwf ho hne.nullSafe h "s" hS n (by omega)
    (hroot.derives (by omega))
  obtain ⟨c, row, hat⟩ := finals_have_address _ _ _ _ h s hf
  obtain ⟨f, ts, ht⟩ := C11_getTrees_returns _ _ _ _ hwf ho hun h c row s hat "s" hS n hm
  exact ⟨fuel, res, c, row, s, f, ts, h, hat, hm, ht f (Nat.le_refl _)⟩

theorem sq_lt_two_pow : ∀ m, 5 ≤ m → m * m + m + 1 < 2 ^ m := by
  intro m hm
  obtain ⟨d, rfl⟩ := Nat.exists_eq_add_of_le hm
  clear hm
  induction d with
  | zero => decide
  | succ d ih =>
    have hm : 5 ≤ 5 + d := by omega
    rw [show 5 + (d + 1) = 5 + d + 1 from rfl]
    generalize 5 + d = m at ih hm
    rw [Nat.pow_succ]
    have : 5 * m ≤ m * m := Nat.mul_le_mul_right m hm
    have : (m+1) * (m+1) = m * m + 2 * m + 1 := by rw [Nat.add_mul, Nat.mul_add]; omega
    omega

/-- powers of two outgrow every polynomial -/
theorem poly_lt_two_pow (a k : Nat) : ∃ n, 0 < n ∧ a * (n + 1) ^ k < 2 ^ n := by
  have hm := sq_lt_two_pow (a + k + 5) (by omega)
  generalize hme : a + k + 5 = m at hm
  refine ⟨2 ^ m - 1, by omega, ?_⟩
  rw [show 2 ^ m - 1 + 1 = 2 ^ m by omega, ← Nat.pow_mul]
  have h1 : a < 2 ^ m := Nat.lt_of_le_of_lt (by omega : a ≤ m) (Nat.lt_two_pow_self)
  have h2 : m * k ≤ m * m := Nat.mul_le_mul_left m (by omega)
  calc a * 2 ^ (m * k) < 2 ^ m * 2 ^ (m * k) :=
        Nat.mul_lt_mul_of_pos_right h1 (Nat.pow_pos (by decide))
    _ = 2 ^ (m + m * k) := (Nat.pow_add _ _ _).symm
    _ ≤ 2 ^ (2 ^ m - 1) := Nat.pow_le_pow_right (by decide) (by omega)

/-- C91 is false: no polynomial bounds the number of trees. -/
theorem C91_false : ¬ C91_statement := by
  intro hst
  obtain ⟨a, k, hk⟩ := hst (wBits idOrd 0).grammars ["s"] plainMatch idOrd
  obtain ⟨n, hn, hlt⟩ := poly_lt_two_pow a k
  have ho : (wBits idOrd n).OrdOK := fun c r k l => idOrd_ok c r k l
  obtain ⟨hwf, hun, hany, hne, hu, hd⟩ := wBits_ok idOrd n
  obtain ⟨fuel, res, c, row, s, f, ts, h, hat, hm, ht⟩ := C91_reached idOrd n hn ho
  have h1 := hk (List.replicate n (tk "a")) (wBits idOrd n) rfl hwf ho hun hany hne hu false fuel res h
    c row s hat "s" (by simp) n hm f ts ht
  have h2 := C91_exponential idOrd n hn ho false fuel f res h c row s hat hm ts ht
  simp only [List.length_replicate] at h1
  omega

/-- C91, what bounds the number: it is at most the number of derivation trees, counted by what they
look like; with one derivation tree, exactly one tree is returned (missing: a bound in the length of
the text, which does not exist). -/
theorem C91_partial (env : Env) (flag : Bool) (fuel f : Nat) (res : ParseResult)
    (hwf : env.WF) (ho : env.OrdOK) (hun : Unmixed env) (hany : AnyNamed env)
    (hu : UniformBounds env) (h : parse env flag fuel = some res)
    (c row : Nat) (s : TState) (hat : chartGet res.chart c row = some s)
    (S : String) (hS : S ∈ env.starts) (j : Nat) (hm : MatchFor S j s)
    (ts : List Node) (ht : getTrees res.chart f c row = some ts) :
    (∀ σs : List Shape, (∀ n, RootOK env env.lang S j n → n.shape ∈ σs) →
      1 ≤ ts.length ∧ ts.length ≤ σs.length) ∧
    ((∀ n n', RootOK env env.lang S j n → RootOK env env.lang S j n' → n.shape = n'.shape) →
      ts.length = 1) := by
  have h1 := C14_shapes _ flag fuel f res hwf ho hun hany hu h c row s hat S hS j hm ts ht
  have h3 := C10_counts_partial _ flag fuel f res hwf ho hun hu h c row s hat S hS j hm ts ht
  have hne := C12_match_has_tree env flag fuel f res hwf ho hun hany h c row s hat S hS j hm ts ht
  have hpos := List.length_pos_iff.2 hne
  have key : ∀ σs : List Shape, (∀ n, RootOK env env.lang S j n → n.shape ∈ σs) →
      1 ≤ ts.length ∧ ts.length ≤ σs.length := by
    intro σs hσ
    refine ⟨hpos, ?_⟩
    have := (List.subperm_of_subset h1 (l₂ := σs) (by
      intro σ hs
      obtain ⟨x, hx, rfl⟩ := List.mem_map.1 hs
      exact hσ x (h3 x hx))).length_le
    simpa using this
  refine ⟨key, fun huniq => ?_⟩
  obtain ⟨n, hn⟩ := List.exists_mem_of_ne_nil _ hne
  have := key [n.shape] (fun n' hn' => by rw [huniq n' n hn' (h3 n hn)]; simp)
  simp at this
  omega

end Fmr
