import Verif.Proofs.TreeSet
import Verif.Proofs.Prov

/-!
# Trees laid out on a chart are determined by their shape
-/

namespace Fmr

/-- the annotation a nonterminal state carries is that of the term before the dot -/
def bodyMeta (rb : Option RuleBody) : Nat → Meta
  | 0 => .nil
  | d+1 =>
    match rb.bind (fun b => b.terms[d]?) with
    | some t => if t.type = .terminal then .nil else t.meta
    | none => .nil

theorem Item.ntMeta {env : Env} (hwf : env.WF) (hun : Unmixed env) {i s} (h : Item env i s)
    (hk : s.term.type = .nonterminal) : s.term.meta = bodyMeta s.rb s.dot := by
  induction h with
  | @init S hS => rfl
  | @predNT i st t g r rb hst hty hn htt hg hr hrb ih =>
    rw [placed_dot (by simp [predicted])]
    simp [predicted, bodyMeta]
  | @predAL i st t hst hty hn htt ih =>
    simp [predictedSpecial] at hk; rw [hk] at htt; simp at htt
  | @scanAny i st t hst hty hn hlt ih => simp [scannedAny] at hk
  | @scanT i st t tok hst hty hn htt htok hm ih =>
    have hk' : st.term.type = .nonterminal := by simpa [scannedTerm] using hk
    have hb := hst.basic hwf
    obtain ⟨rb, hrb, hget, _⟩ := hb.next_mem hk' hn
    rw [placed_dot (by simp [scannedTerm, hk'])]
    simp only [scannedTerm, placed_term, placed_rb]
    rw [ih hk', hrb]
    have hall : ∀ t ∈ rb.terms, t.type = .terminal := by
      obtain ⟨rb', hrb', _, hdef⟩ := hb.nt hk'
      have he : rb' = rb := by rw [hrb] at hrb'; exact (Option.some.inj hrb').symm
      subst he
      rcases hdef with hdef | ⟨S, _, _, _, hg⟩
      · rcases hun _ _ hdef with h | h
        · exact h
        · exact absurd htt (h t (List.mem_of_getElem? hget))
      · rw [hrb] at hg
        simp [gammaState] at hg
        subst hg
        have := List.mem_of_getElem? hget
        simp at this
        subst this
        simp at htt
    simp [bodyMeta, hget, htt]
    cases hd : st.dot with
    | zero => rfl
    | succ d =>
      simp only [bodyMeta, Option.bind_some]
      cases hg : rb.terms[d]? with
      | none => rfl
      | some t' => simp [hall t' (List.mem_of_getElem? hg)]
  | @comp k i st s t hst hs hc hk' hn hm ih1 ih2 =>
    have hk0 : st.term.type = .nonterminal := by simpa [advanced] using hk
    have hb := hst.basic hwf
    obtain ⟨rb, hrb, hget, _⟩ := hb.next_mem hk0 hn
    have htt : t.type ≠ .terminal := by
      rcases completes_cases hm with ⟨h, _⟩ | ⟨h, _⟩
      · rw [h]; simp
      · rw [h]; rcases (hs.basic hwf).kind with h | h | h <;> rw [h] <;> simp
    rw [placed_dot (by simp [advanced, hk0])]
    simp [advanced, bodyMeta, hrb, hget, htt]

/-- completed states with the same label, body and span are the same state -/
theorem state_ext {env : Env} (hwf : env.WF) (hun : Unmixed env) (hu : UniformBounds env)
    (hany : AnyNamed env) {i s s'} (h : Item env i s) (h' : Item env i s') (hc : s.isCompleted = true)
    (hc' : s'.isCompleted = true) (e1 : s.term.type = s'.term.type)
    (e2 : s.term.type ≠ .any → s.term.value = s'.term.value) (e3 : s.rb = s'.rb)
    (e4 : s.start = s'.start) (e5 : s.term.type = .list → s.dot = s'.dot) : s = s' := by
  have hb := h.basic hwf
  have hb' := h'.basic hwf
  have key : s.term = s'.term → s.dot = s'.dot → s = s' := by
    intro k1 k2
    obtain ⟨a1, a2, a3, a4, a5⟩ := s
    obtain ⟨b1, b2, b3, b4, b5⟩ := s'
    have k3 : a4 = b4 := hb.stop.trans hb'.stop.symm
    simp only at k1 k2 e3 e4
    subst k1 k2 e3 e4 k3
    rfl
  have keyt : s.term.value = s'.term.value → s.term.meta = s'.term.meta → s.term = s'.term := by
    intro k1 k2
    generalize s.term = x at *
    generalize s'.term = y at *
    cases x; cases y
    simp_all
  rcases hb.kind with hk | hk | hk
  · have hk' := e1 ▸ hk
    have hdot : s.dot = s'.dot := by
      obtain ⟨rb, hrb, hle, _⟩ := hb.nt hk
      obtain ⟨rb', hrb', hle', _⟩ := hb'.nt hk'
      have he : rb' = rb := by rw [← e3, hrb] at hrb'; exact (Option.some.inj hrb').symm
      subst he
      have g := (completed_nt (by simp [hk]) (by simp [hk])).1 hc
      have g' := (completed_nt (by simp [hk']) (by simp [hk'])).1 hc'
      simp [TState.bodyTerms, hrb] at g
      simp [TState.bodyTerms, hrb'] at g'
      omega
    exact key (keyt (e2 (by simp [hk])) (by rw [h.ntMeta hwf hun hk, h'.ntMeta hwf hun hk', e3, hdot]))
      hdot
  · have hk' := e1 ▸ hk
    obtain ⟨_, d, t, o, tt, m, _⟩ := hb.any hk
    obtain ⟨_, d', t', o', tt', m', _⟩ := hb'.any hk'
    refine key (keyt ?_ ?_) (by rw [d, d', e4])
    · rw [any_value hwf hany h hk, any_value hwf hany h' hk']
    · rw [← m, ← m', hu.1 t t' o o' tt tt']
  · have hk' := e1 ▸ hk
    obtain ⟨_, t, o, tt, v, m⟩ := hb.list hk
    obtain ⟨_, t', o', tt', v', m'⟩ := hb'.list hk'
    have ev := e2 (by simp [hk])
    exact key (keyt ev (by rw [← m, ← m', hu.2 t t' o o' tt tt' (by rw [v, v', ev])])) (e5 hk)

theorem shapes_cons_eq {n : Node} {ns ns' : List Node} (h : shapes (n :: ns) = shapes ns') :
    ∃ m ms, ns' = m :: ms ∧ n.shape = m.shape ∧ shapes ns = shapes ms := by
  cases ns' with
  | nil => simp [shapes] at h
  | cons m ms => simp [shapes] at h; exact ⟨m, ms, rfl, h.1, h.2⟩

mutual
theorem Laid.shape_inj {env : Env} (hwf : env.WF) (hun : Unmixed env) (hu : UniformBounds env)
    (hany : AnyNamed env) {chart : List (List TState)}
    (hch : ∀ c r s, At chart c r s → Item env c s) {c r c' r' n n'} (h : Laid chart c r n)
    (h' : Laid chart c' r' n') (he : n.shape = n'.shape) : n = n' := by
  obtain ⟨v, cs⟩ := n
  cases h with
  | @any _ _ s col h1 h2 h3 h4 =>
    have hi := hch c r s ⟨col, h1, h2⟩
    have hst := (hi.basic hwf).stop
    cases h' with
    | @any _ _ s' col' h1' h2' h3' h4' =>
      have hi' := hch c' r' s' ⟨col', h1', h2'⟩
      have hst' := (hi'.basic hwf).stop
      simp [Node.shape, shapes, h4, h4'] at he
      have hcc : c = c' := by rw [← hst, ← hst', he.2]
      subst hcc
      have := state_ext hwf hun hu hany hi hi' h3 h3' (by rw [h4, h4']) (by simp [h4])
        (by rw [((hi.basic hwf).any h4).1, ((hi'.basic hwf).any h4').1]) he.1 (by simp [h4])
      subst this
      rfl
    | nonterminal h1' h2' h3' h4' => simp [Node.shape, h4, h4'] at he
    | list h1' h2' h3' h4' => simp [Node.shape, h4, h4'] at he
  | @nonterminal _ _ _ rb _ col h1 h2 h3 h4 h5 h6 =>
    have hi := hch c r v ⟨col, h1, h2⟩
    have hst := (hi.basic hwf).stop
    cases h' with
    | any h1' h2' h3' h4' => simp [Node.shape, h4, h4'] at he
    | @nonterminal _ _ s' rb' ns' col' h1' h2' h3' h4' h5' h6' =>
      have hi' := hch c' r' s' ⟨col', h1', h2'⟩
      have hst' := (hi'.basic hwf).stop
      simp [Node.shape, h4, h4'] at he
      obtain ⟨e1, e2, e3, e4, e5⟩ := he
      have hcc : c = c' := by rw [← hst, ← hst', e4]
      subst hcc
      have := state_ext hwf hun hu hany hi hi' h3 h3' (by rw [h4, h4']) (fun _ => e1) e2 e3 (by simp [h4])
      subst this
      rw [h5] at h5'
      have := Option.some.inj h5'
      subst this
      rw [LaidKids.shape_inj hwf hun hu hany hch h6 h6' e5]
    | list h1' h2' h3' h4' => simp [Node.shape, h4, h4'] at he
  | @list _ _ s _ col h1 h2 h3 h4 h6 =>
    have hi := hch c r s ⟨col, h1, h2⟩
    have hst := (hi.basic hwf).stop
    cases h' with
    | any h1' h2' h3' h4' => simp [Node.shape, h4, h4'] at he
    | nonterminal h1' h2' h3' h4' => simp [Node.shape, h4, h4'] at he
    | @list _ _ s' ns' col' h1' h2' h3' h4' h6' =>
      have hi' := hch c' r' s' ⟨col', h1', h2'⟩
      have hst' := (hi'.basic hwf).stop
      simp [Node.shape, h4, h4'] at he
      obtain ⟨e1, e2, e3, e4, e5⟩ := he
      have hcc : c = c' := by rw [← hst, ← hst', e4]
      subst hcc
      have hd : s.dot = s'.dot := by
        have := congrArg (fun b => b.terms.length) e2
        simpa [listBody] using this
      have := state_ext hwf hun hu hany hi hi' h3 h3' (by rw [h4, h4']) (fun _ => e1)
        (by rw [((hi.basic hwf).list h4).1, ((hi'.basic hwf).list h4').1]) e3 (fun _ => hd)
      subst this
      rw [LaidKids.shape_inj hwf hun hu hany hch h6 h6' e5]
theorem LaidKids.shape_inj {env : Env} (hwf : env.WF) (hun : Unmixed env) (hu : UniformBounds env)
    (hany : AnyNamed env) {chart : List (List TState)}
    (hch : ∀ c r s, At chart c r s → Item env c s) {c r c' r' ts a b a' b' ns ns'}
    (h : LaidKids chart c r ts a b ns) (h' : LaidKids chart c' r' ts a' b' ns')
    (he : shapes ns = shapes ns') : ns = ns' := by
  cases h with
  | nil =>
    cases ns' with
    | nil => rfl
    | cons => simp [shapes] at he
  | leaf h1 h2 =>
    cases h' with
    | leaf h1' h2' =>
      simp [shapes, Node.shape] at he
      obtain ⟨e1, e2⟩ := he
      subst e1
      rw [LaidKids.shape_inj hwf hun hu hany hch h2 h2' e2]
    | cons h1' => exact absurd h1 h1'
  | cons h1 h2 h3 h4 h5 h6 =>
    cases h' with
    | leaf h1' => exact absurd h1' h1
    | cons h1' h2' h3' h4' h5' h6' =>
      simp [shapes] at he
      rw [Laid.shape_inj hwf hun hu hany hch h2 h2' he.1,
        LaidKids.shape_inj hwf hun hu hany hch h6 h6' he.2]
end

end Fmr
