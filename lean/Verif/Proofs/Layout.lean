import Verif.Proofs.Levels

/-!
# Every derivation tree is laid out if the spines agree
-/

namespace Fmr

/-! ## nothing is empty -/

theorem TreeOK.lt {env : Env} (hne : NoEmpty env) {t a b n} (h : TreeOK env env.lang t a b n)
    (hb : b ≤ env.tokens.length) (hocc : t.type = .any ∨ t.type = .list → env.Occurs t) : a < b := by
  obtain ⟨h1, h2⟩ := h.yields (L := env.lang) (fun A rb hd => ⟨rb, hd, rfl⟩) hb
  rcases Nat.lt_or_ge a b with hl | hg
  · exact hl
  · exfalso
    have hnil : env.slice a b = [] := by
      apply List.eq_nil_of_length_eq_zero; rw [slice_length env hb]; omega
    have := hne.yields (h2.relax (by intro t' ht'; simp at ht'; subst ht'; exact hocc)) hnil
    simp at this

theorem TreeOK.le {env : Env} {L : Lang} {t a b n} (h : TreeOK env L t a b n) : a ≤ b := h.leaves.1

theorem ForestOK.bound {env : Env} {L : Lang} : ∀ {ts : List Term} {a b ns},
    ForestOK env L ts a b ns → a ≤ b
  | _, _, _, _, .nil => Nat.le_refl _
  | _, _, _, _, .cons h1 h2 => Nat.le_trans h1.le h2.bound

/-- what the layout of trees needs to know of a chart -/
structure FullChart (env : Env) (chart : List (List TState)) : Prop where
  all : ∀ i s, Item env i s → ∃ r, At chart i r s
  sorted : ∀ c r r' s s' k, At chart c r s → At chart c r' s' → s.isCompleted = true →
    s'.isCompleted = true → Lev env c s k → Lev env c s' (k+1) → r < r'

/-- body terms of a defined nonterminal occur -/
theorem Defines.occ {env : Env} {A rb} (h : env.Defines A rb) : ∀ t ∈ rb.terms,
    t.type = .any ∨ t.type = .list → env.Occurs t := fun _ ht _ => ⟨A, rb, h, ht⟩

mutual
/-- a tree is laid out below a state that waits for its term -/
theorem TreeOK.layout {env : Env} (hwf : env.WF) (hany : AnyNamed env) (hne : NoEmpty env)
    {chart : List (List TState)} (hch : FullChart env chart) {t a b n}
    (h : TreeOK env env.lang t a b n) (hb : b ≤ env.tokens.length)
    (hocc : t.type = .any ∨ t.type = .list → env.Occurs t) (hnt : t.type ≠ .terminal)
    {st t'} (hst : Item env a st) (hk : st.term.type ≠ .any) (hn : st.getNextTerm = some t')
    (e1 : t'.type = t.type) (e2 : t'.value = t.value) (e3 : t.type ≠ .nonterminal → t' = t) :
    ∃ s r n', Item env b s ∧ At chart b r s ∧ s.isCompleted = true ∧ s.start = a ∧
      completes t' s = true ∧ Laid chart b r n' ∧ n'.shape = n.shape ∧ n'.value.start = a ∧
      n'.value.term.type = t.type ∧ n'.value.term.value = t.value := by
  obtain ⟨v, cs⟩ := n
  cases h with
  | terminal h1 => exact absurd h1 hnt
  | any h1 h2 h3 h4 h5 h6 h7 h8 h9 h10 =>
    have he : t' = t := e3 (by simp [h1])
    subst he
    have hitem := Item.predAL hst hk hn (Or.inl h1)
    have hpt : ((predictedSpecial t' a).placed a).term.type = .any := by
      simpa [predictedSpecial] using h1
    have hpd : ((predictedSpecial t' a).placed a).dot = 0 := by
      rw [placed_dot_any (by simp [predictedSpecial, h1])]; simp [predictedSpecial]
    have hps : ((predictedSpecial t' a).placed a).start = a := by simp [predictedSpecial]
    have h4 : okCount t'.meta (b - a) := h4
    obtain ⟨s, g1, g2, g3, g4, g5⟩ := Item.anyRun (b - a) hitem hpt (by rw [hps]; exact Nat.le_refl _)
      (by rw [hpd, hps]; omega)
      (by
        intro min max hm
        simp [predictedSpecial] at hm
        rw [hm] at h4
        rw [hpd]
        simpa using h4.2) (by omega)
    rw [show a + (b - a) = b by omega] at g1
    have hsb := g1.basic hwf
    have hsv := any_value hwf hany g1 g2
    have htv := hany t' (hocc (Or.inl h1)) h1
    have hc : s.isCompleted = true := by
      rw [completed_any_list (Or.inl g2), g3, g5, hpd]
      simpa [predictedSpecial] using h4
    obtain ⟨r, col, hcol, hr⟩ := hch.all b s g1
    simp only [Node.children, Node.value] at h5 h6 h7 h8 h9 h10
    subst h9
    refine ⟨s, r, _, g1, ⟨col, hcol, hr⟩, hc, by rw [g4, hps], by simp [completes, h1, g2],
      Laid.any hcol hr hc g2, ?_, by rw [← hps]; exact g4, by simp [Node.value, g2, h1],
      by simp [Node.value, hsv, htv]⟩
    simp only [Node.shape, shapes, g2, h5, h6, h7, h8, hsb.stop, g4, hps]
    simp
  | @nonterminal t a b n rb h1 h2 h3 h4 h5 h6 h7 h8 =>
    simp only [Node.children, Node.value] at h3 h4 h5 h6 h7 h8
    obtain ⟨g, hg, ru, hru, hrb⟩ := h2
    have hd : env.Defines t.value rb := ⟨g, hg, ru, hru, hrb⟩
    have hname := hwf.named g hg _ ru hru
    have hitem := Item.predNT hst hk hn (by rw [e1, h1]) hg
      (show lookupRule g t'.value = some ru by rw [e2]; exact hru) hrb
    have hpd : ((predicted ru.name rb a).placed a).dot = 0 := by
      rw [placed_dot (by simp [predicted])]; simp [predicted]
    obtain ⟨s, ns', g1, g2, g3, g4⟩ := ForestOK.layout hwf hany hne hch h8 hb (Defines.occ hd) hitem
      (Or.inl ⟨by simp [predicted], rb, by simp [predicted], by rw [hpd]; rfl⟩)
    have hsk : s.term.type = .nonterminal := by rw [g2.type]; simp [predicted]
    have hsrb : s.rb = some rb := by rw [g2.rb]; simp [predicted]
    have hsv : s.term.value = t.value := by rw [g2.value]; simp [predicted, hname]
    have hss : s.start = a := by rw [g2.start]; simp [predicted]
    have hc : s.isCompleted = true := by
      rw [completed_nt (by simp [hsk]) (by simp [hsk])]
      simp [TState.bodyTerms, hsrb, g2.dot]
    obtain ⟨r, col, hcol, hr⟩ := hch.all b s g1
    have hkids := g4 r ⟨col, hcol, hr⟩ hc
    have hstop := (g1.basic hwf).stop
    refine ⟨s, r, .mk s ns', g1, ⟨col, hcol, hr⟩, hc, hss, by simp [completes, e1, e2, h1, hsk, hsv],
      Laid.nonterminal hcol hr hc hsk hsrb (by rw [hss, hstop]; exact hkids), ?_,
      by simpa [Node.value] using hss, by simp [Node.value, hsk, h1], by simpa [Node.value] using hsv⟩
    simp only [Node.shape, hsk, h4, hsv, h3, hsrb, h5, hss, h6, hstop, h7, g3]
  | @list t a b n m h1 h2 h3 h4 h5 h6 h7 h8 =>
    simp only [Node.children, Node.value] at h3 h4 h5 h6 h7 h8
    have he : t' = t := e3 (by simp [h1])
    subst he
    have h2 : okCount t'.meta m := h2
    have hitem := Item.predAL hst hk hn (Or.inr h1)
    have hpt : ((predictedSpecial t' a).placed a).term.type = .list := by
      simpa [predictedSpecial] using h1
    have hpd : ((predictedSpecial t' a).placed a).dot = 0 := by
      rw [placed_dot (by simp [predictedSpecial, h1])]; simp [predictedSpecial]
    obtain ⟨s, ns', g1, g2, g3, g4⟩ := ForestOK.layout hwf hany hne hch h8 hb
      (by intro t ht htt; rw [List.eq_of_mem_replicate ht] at htt; simp at htt) hitem
      (Or.inr ⟨hpt, by simp [predictedSpecial], by
        intro min max hm
        simp [predictedSpecial] at hm
        rw [hpd]
        rw [hm] at h2
        simpa using h2.2⟩)
    have hsk : s.term.type = .list := by rw [g2.type, hpt]
    have hsv : s.term.value = t'.value := by rw [g2.value]; simp [predictedSpecial]
    have hss : s.start = a := by rw [g2.start]; simp [predictedSpecial]
    have hsd : s.dot = m := by rw [g2.dot, hpd]; simp
    have hc : s.isCompleted = true := by
      rw [completed_any_list (Or.inr hsk), g2.list hpt, hsd]
      simpa [predictedSpecial] using h2
    obtain ⟨r, col, hcol, hr⟩ := hch.all b s g1
    have hkids := g4 r ⟨col, hcol, hr⟩ hc
    have hstop := (g1.basic hwf).stop
    refine ⟨s, r, _, g1, ⟨col, hcol, hr⟩, hc, hss, by simp [completes, h1, hsk, hsv],
      Laid.list (ns := ns') hcol hr hc hsk (by rw [hss, hstop, hsv, hsd]; exact hkids), ?_,
      by simpa [Node.value] using hss, by simp [Node.value, hsk, h1], by simpa [Node.value] using hsv⟩
    simp only [Node.shape, hsk, h4, hsv, h3, h5, hss, h6, hstop, h7, g3, hsd]
/-- the trees for the terms a state expects are laid out below every completed state it becomes -/
theorem ForestOK.layout {env : Env} (hwf : env.WF) (hany : AnyNamed env) (hne : NoEmpty env)
    {chart : List (List TState)} (hch : FullChart env chart) {ts a b ns}
    (h : ForestOK env env.lang ts a b ns) (hb : b ≤ env.tokens.length)
    (hocc : ∀ t ∈ ts, t.type = .any ∨ t.type = .list → env.Occurs t)
    {st} (hst : Item env a st) (he : Expects st ts) :
    ∃ st' ns', Item env b st' ∧ Adv st st' ts.length ∧ shapes ns' = shapes ns ∧
      ∀ r, At chart b r st' → st'.isCompleted = true → LaidKids chart b r ts a b ns' := by
  cases h with
  | nil => exact ⟨st, [], hst, Adv.zero st, rfl, fun _ _ _ => LaidKids.nil⟩
  | @cons t ts a m b n ns h1 h2 =>
    obtain ⟨hk, t', hn, e1, e2, e3, e4⟩ := he.next
    have hmb := h2.bound
    by_cases htt : t.type = .terminal
    · have ht' : t' = t := e3 (by simp [htt])
      subst ht'
      cases h1 with
      | any h => rw [htt] at h; simp at h
      | nonterminal h => rw [htt] at h; simp at h
      | list h => rw [htt] at h; simp at h
      | @terminal _ _ tok _ a1 a2 a3 a4 a5 a6 a7 a8 =>
        have hnew := Item.scanT hst hk hn htt a2 a3
        obtain ⟨st', ns', g1, g2, g3, g4⟩ := ForestOK.layout hwf hany hne hch h2 hb
          (fun t ht => hocc t (by simp [ht])) hnew (he.tail (adv_scanned hk))
        refine ⟨st', .mk { term := t', rb := none, start := a, stop := a + 1, dot := 0 } [] :: ns',
          g1, ?_, ?_, fun r hr hc => LaidKids.leaf htt (g4 r hr hc)⟩
        · have := (adv_scanned (i := a+1) hk).trans g2
          rw [Nat.add_comm] at this; exact this
        · obtain ⟨v, cs⟩ := n
          simp only [Node.children, Node.value] at a4 a5 a6 a7 a8
          subst a8
          simp [shapes, Node.shape, g3, a4, a5, a6, a7]
    · obtain ⟨s, rc, n', g1, g2, g3, g4, g5, g6, g7, g8, g9, g10⟩ :=
        TreeOK.layout hwf hany hne hch h1 (by omega) (hocc t (by simp)) htt hst hk hn e1 e2 e3
      have hnew := Item.comp hst g1 g3 g4 hn g5
      have hadv := adv_advanced (i := m) hk e4
      by_cases hts : ts = []
      · subst hts
        cases h2
        refine ⟨_, [n'], hnew, hadv, by simp [shapes, g7], fun r hr hc => ?_⟩
        obtain ⟨j, hj⟩ := g1.lev hwf
        have hlate := hch.sorted _ rc r s _ j g2 hr g3 hc hj (hj.step hwf hst g1 g3 g4 hn g5 hk)
        have := LaidKids.cons (t := t) htt g6 g10 g9 (Or.inr ⟨rfl, hlate⟩) (LaidKids.nil (r := r))
        rw [g8] at this
        exact this
      · obtain ⟨st', ns', k1, k2, k3, k4⟩ := ForestOK.layout hwf hany hne hch h2 hb
          (fun t ht => hocc t (by simp [ht])) hnew (he.tail hadv)
        refine ⟨st', n' :: ns', k1, ?_, by simp [shapes, g7, k3], fun r hr hc => ?_⟩
        · have := hadv.trans k2
          rw [Nat.add_comm] at this; exact this
        · have hlate : m < b := by
            cases h2 with
            | nil => exact absurd rfl hts
            | cons h3 h4 =>
              have := h3.lt hne (by have := h4.bound; omega) (hocc _ (by simp))
              have := h4.bound
              omega
          have := LaidKids.cons (t := t) htt g6 g10 g9 (Or.inl hlate) (k4 r hr hc)
          rw [g8] at this
          exact this
end

/-! ## where the spines agree -/

/-- under uniform bounds agreement in the intended language is agreement in the relaxed one -/
theorem SpinesAgree.rel {env : Env} (hu : UniformBounds env) (h : SpinesAgree env env.lang) :
    SpinesRel env := by
  have key : ∀ t a b n, t.type ≠ .any → TreeOK env env.relaxedLang t a b n →
      ∃ t', t'.type = t.type ∧ t'.value = t.value ∧ (t'.type = .any ∨ t'.type = .list → env.Occurs t') ∧
        TreeOK env env.lang t' a b n := by
    intro t a b n ht hn
    by_cases hl : t.type = .list
    · cases hn with
      | terminal h1 => rw [hl] at h1; simp at h1
      | any h1 => rw [hl] at h1; simp at h1
      | nonterminal h1 => rw [hl] at h1; simp at h1
      | list h1 h2 h3 h4 h5 h6 h7 h8 =>
        obtain ⟨t', ho, ht', hv, hcnt⟩ := h2
        refine ⟨t', by rw [ht', hl], hv, fun _ => ho, TreeOK.list ht' hcnt (by rw [hv]; exact h3) h4
          (by rw [hv]; exact h5) h6 h7 ?_⟩
        rw [hv]
        exact h8.strict hu (by intro t ht htt; rw [List.eq_of_mem_replicate ht] at htt; simp at htt)
    · exact ⟨t, rfl, rfl, by simp [ht, hl], hn.strict hu (by simp [ht, hl])⟩
  intro t t' a b n n' h1 h2 h3 hn hn'
  obtain ⟨u, u1, u2, u3, u4⟩ := key t a b n h3 hn
  obtain ⟨w, w1, w2, w3, w4⟩ := key t' a b n' (by rw [← h1]; exact h3) hn'
  exact h u w a b n n' u3 w3 (by rw [u1, w1, h1]) (by rw [u2, w2, h2]) u4 w4

mutual
/-- in a graded grammar the spine below a term has the length of its depth -/
theorem TreeOK.graded {env : Env} {L : Lang} {d : String → Nat} (hd : Graded env d)
    (hne : NoEmpty env) (hl : ∀ x m, ¬ L.okList x m 0) {t a b n} (h : TreeOK env L t a b n) :
    (if n.value.term.type = .terminal then 0 else n.spine + 1) = depthUnder d t := by
  obtain ⟨v, cs⟩ := n
  cases h with
  | terminal h1 h2 h3 h4 => simp [Node.value] at h4 ⊢; simp [h4, h1, depthUnder]
  | any h1 h2 h3 h4 h5 h6 h7 h8 h9 =>
    simp [Node.value, Node.children] at h5 h9 ⊢
    subst h9
    simp [h5, depthUnder, h1, spine_mk, spineL]
  | nonterminal h1 h2 h3 h4 h5 h6 h7 h8 =>
    simp [Node.value, Node.children] at h4 h8 ⊢
    obtain ⟨l, hlast, hs⟩ := ForestOK.graded hd hne hl h8 (hne.1 _ _ h2)
    rw [spine_mk, hs, ← hd _ _ h2 l hlast]
    simp [h4, depthUnder, h1]
  | @list _ _ _ _ m h1 h2 h3 h4 h5 h6 h7 h8 =>
    simp [Node.value, Node.children] at h4 h8 ⊢
    have hm : m ≠ 0 := by rintro rfl; exact hl _ _ h2
    obtain ⟨l, hlast, hs⟩ := ForestOK.graded hd hne hl h8 (by simp [hm])
    have hle : l = { value := t.value, type := .nonterminal, «meta» := .nil } :=
      List.eq_of_mem_replicate (List.mem_of_getLast? hlast)
    rw [spine_mk, hs, hle]
    simp [h4, depthUnder, h1]
theorem ForestOK.graded {env : Env} {L : Lang} {d : String → Nat} (hd : Graded env d)
    (hne : NoEmpty env) (hl : ∀ x m, ¬ L.okList x m 0) {ts a b ns} (h : ForestOK env L ts a b ns)
    (hts : ts ≠ []) : ∃ l, ts.getLast? = some l ∧ spineL ns = depthUnder d l := by
  cases h with
  | nil => exact absurd rfl hts
  | @cons t ts a m b n ns h1 h2 =>
    have e := TreeOK.graded hd hne hl h1
    by_cases ht : ts = []
    · subst ht
      cases h2
      exact ⟨t, rfl, by rw [← e]; simp [spineL]⟩
    · obtain ⟨l, g1, g2⟩ := ForestOK.graded hd hne hl h2 ht
      cases h2 with
      | nil => exact absurd rfl ht
      | cons => exact ⟨l, by rw [List.getLast?_cons_cons]; exact g1, by rw [spineL]; exact g2⟩
end

/-- in a graded grammar the spines agree -/
theorem Graded.rel {env : Env} {d : String → Nat} (hd : Graded env d) (hne : NoEmpty env) :
    SpinesRel env := by
  have hl : ∀ x m, ¬ env.relaxedLang.okList x m 0 := by
    rintro x m ⟨t, ho, ht, _, hc⟩
    exact hne.2 t ho (Or.inr ht) hc
  intro t t' a b n n' h1 h2 h3 hn hn'
  have e := hn.graded hd hne hl
  have e' := hn'.graded hd hne hl
  have hroot : ∀ {t : Term} {n : Node}, TreeOK env env.relaxedLang t a b n → (n.value.term.type = .terminal ↔ t.type = .terminal) ∧
      (t.type = .terminal → n.spine = 0) := by
    intro t n h
    obtain ⟨v, cs⟩ := n
    cases h with
    | terminal h1 h2 h3 h4 h5 h6 h7 h8 =>
      simp [Node.value, Node.children] at h4 h8 ⊢
      subst h8
      simp [h4, h1, spine_mk, spineL]
    | any h1 h2 h3 h4 h5 => simp [Node.value] at h5 ⊢; simp [h5, h1]
    | nonterminal h1 h2 h3 h4 => simp [Node.value] at h4 ⊢; simp [h4, h1]
    | list h1 h2 h3 h4 => simp [Node.value] at h4 ⊢; simp [h4, h1]
  have hdep : depthUnder d t = depthUnder d t' := by unfold depthUnder; rw [h1, h2]
  by_cases ht : t.type = .terminal
  · rw [(hroot hn).2 ht, (hroot hn').2 (by rw [← h1]; exact ht)]
  · rw [if_neg (by rw [(hroot hn).1]; exact ht)] at e
    rw [if_neg (by rw [(hroot hn').1, ← h1]; exact ht)] at e'
    omega

end Fmr
