import Verif.Proofs.OneFile

/-!
# Inversion of derivations of words
-/

namespace Fmr

section
variable {V : Type} {ds : List Def} {splits : List (String × List String)} {ev : List (Option V) → FMR → Option V}

theorem wordSeq_nil {l : List String} {vs : List (Option V)} :
    WordSeq (Written ds false) (splitIn splits) ev [] l vs ↔ l = [] ∧ vs = [] := by
  constructor
  · intro h; cases h; exact ⟨rfl, rfl⟩
  · rintro ⟨rfl, rfl⟩; exact .nil

theorem wordSeq_lit {x : String} {ts : List Term} {l : List String} {vs : List (Option V)} (hx : splitIn splits x = [x]) :
    WordSeq (Written ds false) (splitIn splits) ev (lit x :: ts) l vs ↔
      ∃ l' vs', WordSeq (Written ds false) (splitIn splits) ev ts l' vs' ∧ l = x :: l' ∧ vs = none :: vs' := by
  constructor
  · intro h
    cases h with
    | lit h1 h2 => exact ⟨_, _, h2, by rw [show (lit x).value = x from rfl, hx]; rfl, rfl⟩
    | ref h1 => cases h1
  · rintro ⟨l', vs', h, rfl, rfl⟩
    have := WordSeq.lit (split := splitIn splits) (t := lit x) rfl h
    rwa [show (lit x).value = x from rfl, hx] at this

theorem wordSeq_nt {A : String} {ts : List Term} {l : List String} {vs : List (Option V)} :
    WordSeq (Written ds false) (splitIn splits) ev (nt A :: ts) l vs ↔
      ∃ l1 l2 v vs', WordLang (Written ds false) (splitIn splits) ev A l1 v ∧ WordSeq (Written ds false) (splitIn splits) ev ts l2 vs' ∧
        l = l1 ++ l2 ∧ vs = v :: vs' := by
  constructor
  · intro h
    cases h with
    | lit h1 => cases h1
    | ref h1 h2 h3 => exact ⟨_, _, _, _, h2, h3, rfl, rfl⟩
  · rintro ⟨l1, l2, v, vs', h1, h2, rfl, rfl⟩
    exact .ref (t := nt A) rfl h1 h2

/-- the alternatives of a rule -/
theorem wordLang_alts {A : String} {l : List String} {v : Option V} (bs : List RuleBody) (hfr : (ds.all fun d => !d.frame) = true)
    (hb : (ds.filter fun d => d.name == A).flatMap (·.bodies) = bs) :
    WordLang (Written ds false) (splitIn splits) ev A l v ↔
      ∃ b ∈ bs, ∃ vs, WordSeq (Written ds false) (splitIn splits) ev b.terms l vs ∧ v = b.f.bind (ev vs) := by
  have key : ∀ b, Written ds false A b ↔ b ∈ bs := by
    intro b
    rw [← hb]
    simp only [Written, List.mem_flatMap, List.mem_filter, beq_iff_eq]
    constructor
    · rintro ⟨d, h1, -, h2, h3⟩; exact ⟨d, ⟨h1, h2⟩, h3⟩
    · rintro ⟨d, ⟨h1, h2⟩, h3⟩
      exact ⟨d, h1, by simpa using List.all_eq_true.1 hfr d h1, h2, h3⟩
  constructor
  · rintro ⟨h1, h2⟩
    exact ⟨_, (key _).1 h1, _, h2, rfl⟩
  · rintro ⟨b, h1, vs, h2, rfl⟩
    exact .mk ((key _).2 h1) h2

end

/-- If the first `k` words are read, and no more, then all trees are for them. -/
theorem PrefixMatches.longest {V : Type} {W : String → RuleBody → Prop} {split : String → List String}
    {ev : List (Option V) → FMR → Option V} {cs : List String} {is : Expr → V → Prop} {nw : NodeWorld} {text : Bytes}
    {toks : List Token} {S : String} {ns : List Node}
    (h : PrefixMatches (WordSpan W split ev cs) (WordTree W split ev cs is nw text toks) [S] toks.length ns)
    (hcs : toks.map (·.text) = cs) {k : Nat} (hk0 : 0 < k) (hk : k ≤ cs.length) (h1 : ∃ v, WordLang W split ev S (cs.take k) v)
    (h2 : ∀ k' v, WordLang W split ev S (cs.take k') v → k' ≤ cs.length → k' ≤ k) :
    ns ≠ [] ∧ ∀ node ∈ ns, node.value.stop = k ∧ ∃ v, WordLang W split ev S (cs.take k) v ∧
        ∀ x, v = some x → ∃ e, is e x ∧ ∀ p : Parsed, p.text = text → p.env.tokens = toks →
          node.semantic nw p = .ok (e.print nw) ∧ node.eval nw p = e.value nw := by
  have hlen : cs.length = toks.length := by simpa using (congrArg List.length hcs).symm
  have hfull : SpanMatch (WordSpan W split ev cs) [S] toks.length 0 k := by
    refine ⟨by omega, by omega, S, List.mem_singleton.2 rfl, ?_⟩
    rw [WordSpan, List.drop_zero]
    exact h1
  refine ⟨h.found.2 ⟨_, hfull⟩, fun node hn => ?_⟩
  obtain ⟨S', hS', k', ⟨h3, h4⟩, h5, h6⟩ := h.trees node hn
  obtain rfl := List.mem_singleton.1 hS'
  rw [List.drop_zero, List.drop_zero] at h4
  have hk' : k' = k := by
    have := h6 _ hfull
    have := h5.2.1
    obtain ⟨v, h7, -⟩ := h4
    have := h2 k' v h7 (by omega)
    omega
  subst hk'
  exact ⟨h3, h4⟩

end Fmr
