import Verif.Proofs.Whole

/-!
# A text denotes one list of definitions (for C80)
-/

namespace Fmr

theorem Reads.det {l : List Char} {α : Type} {x : P α} {ρ ρ1 ρ2 : List (String × String)} {a b : α} {r1 r2 : List Char}
    (h1 : Reads l x l ρ a r1 ρ1) (h2 : Reads l x l ρ b r2 ρ2) : a = b ∧ r1 = r2 ∧ ρ1 = ρ2 := by
  obtain ⟨s1, e1, k1⟩ := h1 { pos := 0, width := 0, regexps := ρ } ⟨rfl, rfl⟩
  obtain ⟨s2, e2, k2⟩ := h2 { pos := 0, width := 0, regexps := ρ } ⟨rfl, rfl⟩
  rw [e1] at e2
  cases e2
  exact ⟨rfl, k1.1.symm.trans k2.1, k1.2.symm.trans k2.2⟩

section
variable {w : LexWorld} (hw : w.OK)
include hw

theorem Gap.det {g g' r r' : List Char} (h : Gap w g) (h' : Gap w g') (hr : Stop w r) (hr' : Stop w r') (e : g ++ r = g' ++ r')
    (hg : runeError ∉ g ++ r) : r = r' := by
  have k1 := reads_comments (ρ := []) (n := (g ++ r).length + 1) hg hw h hr (by omega)
  have k2 := reads_comments (inp := g ++ r) (ρ := []) (n := (g ++ r).length + 1) hg hw h' hr' (by rw [e]; omega)
  rw [← e] at k2
  exact (k1.det k2).2.1

theorem BodySyn.det {l l' r r' : List Char} {b b' : RuleBody} {ρ ρ1 ρ2 : List (String × String)} {c c' : Char}
    (h : BodySyn w l b ρ ρ1) (h' : BodySyn w l' b' ρ ρ2) (hc : r.head? = some c) (hm : c ∈ ['|', ';'])
    (hc' : r'.head? = some c') (hm' : c' ∈ ['|', ';']) (e : l ++ r = l' ++ r') (hg : runeError ∉ l ++ r) :
    b = b' ∧ r = r' ∧ ρ1 = ρ2 := by
  have k1 := reads_ruleBody (n := (l ++ r).length + 1) hg hw h hc hm (by omega)
  have k2 := reads_ruleBody (inp := l ++ r) (n := (l ++ r).length + 1) hg hw h' hc' hm' (by rw [e]; omega)
  rw [← e] at k2
  exact k1.det k2

theorem BodiesSyn.det {l : List Char} {bs : List RuleBody} {ρ ρ1 : List (String × String)} (h : BodiesSyn w l bs ρ ρ1) :
    ∀ {l' r r' : List Char} {bs' : List RuleBody} {ρ2 : List (String × String)}, BodiesSyn w l' bs' ρ ρ2 →
      l ++ ';' :: r = l' ++ ';' :: r' → runeError ∉ l ++ ';' :: r → bs = bs' ∧ r = r' ∧ ρ1 = ρ2 := by
  induction h with
  | @one l b ρ ρ1 hb =>
    intro l' r r' bs' ρ2 h' e hg
    cases h' with
    | one hb' =>
      obtain ⟨rfl, e, rfl⟩ := hb.det hw hb' rfl (by decide) rfl (by decide) e hg
      cases e
      exact ⟨rfl, rfl, rfl⟩
    | @more l2 g2 r2 b2 bs2 _ ρ3 _ hb' hg' hbs' =>
      rw [List.append_assoc, List.cons_append] at e
      obtain ⟨-, e, -⟩ := hb.det hw hb' rfl (by decide) rfl (by decide) e hg
      cases e
  | @more l g r0 b bs ρ ρ1 ρ2 hb hgap hbs ih =>
    intro l' r r' bs' ρ3 h' e hg
    rw [List.append_assoc, List.cons_append, List.append_assoc] at e hg
    cases h' with
    | one hb' =>
      obtain ⟨-, e, -⟩ := hb.det hw hb' rfl (by decide) rfl (by decide) e hg
      cases e
    | @more l2 g2 r2 b2 bs2 _ ρ4 _ hb' hgap' hbs' =>
      rw [List.append_assoc, List.cons_append, List.append_assoc] at e
      obtain ⟨rfl, e, rfl⟩ := hb.det hw hb' rfl (by decide) rfl (by decide) e hg
      have e := List.cons.inj e |>.2
      have hg' : runeError ∉ g ++ (r0 ++ ';' :: r) := fun hm => hg (List.mem_append_right _ (List.mem_cons_of_mem _ hm))
      have e := hgap.det hw hgap' (hbs.stop hw) (hbs'.stop hw) e hg'
      obtain ⟨rfl, rfl, rfl⟩ := ih hbs' e fun hm => hg' (List.mem_append_right _ hm)
      exact ⟨rfl, rfl, rfl⟩

theorem DefSyn.det {l l' r r' : List Char} {d d' : Def} {ρ ρ1 ρ2 : List (String × String)}
    (h : DefSyn w l d ρ ρ1) (h' : DefSyn w l' d' ρ ρ2) (e : l ++ r = l' ++ r') (hg : runeError ∉ l ++ r) :
    d = d' ∧ r = r' ∧ ρ1 = ρ2 := by
  have key : ∀ {c : Char} {x x' g1 g1' g2 g2' l l' : List Char} {bs bs' : List RuleBody},
      c ∈ ['<', '>', '[', ']', '(', ')', '{', '}', '"', '`', '@', '$', ',', '.', '-', '=', ';', '|', '/', '#', '?', '*', '\\'] →
      Ident w x → Gap w g1 → Gap w g2 → BodiesSyn w l bs ρ ρ1 → Ident w x' → Gap w g1' → Gap w g2' →
      BodiesSyn w l' bs' ρ ρ2 →
      x ++ c :: (g1 ++ '=' :: (g2 ++ (l ++ ';' :: r))) = x' ++ c :: (g1' ++ '=' :: (g2' ++ (l' ++ ';' :: r'))) →
      runeError ∉ x ++ c :: (g1 ++ '=' :: (g2 ++ (l ++ ';' :: r))) → x = x' ∧ bs = bs' ∧ r = r' ∧ ρ1 = ρ2 := by
    intro c x x' g1 g1' g2 g2' l l' bs bs' hc hx h1 h2 hbs hx' h1' h2' hbs' e hg
    have hh : ∀ t : List Char, Head (idCont w false · = false) (c :: t) := fun t => by
      rw [Head.cons]
      exact (punct_not hw hc).1
    have k1 := reads_text_app (ρ := []) (n := (x ++ c :: (g1 ++ '=' :: (g2 ++ (l ++ ';' :: r)))).length + 1) hg hx
      (hh (g1 ++ '=' :: (g2 ++ (l ++ ';' :: r)))) (by omega)
    have k2 := reads_text_app (inp := x ++ c :: (g1 ++ '=' :: (g2 ++ (l ++ ';' :: r)))) (ρ := [])
      (n := (x ++ c :: (g1 ++ '=' :: (g2 ++ (l ++ ';' :: r)))).length + 1) hg hx' (hh (g1' ++ '=' :: (g2' ++ (l' ++ ';' :: r'))))
      (by rw [e]; omega)
    rw [← e] at k2
    obtain ⟨ex, e, -⟩ := k1.det k2
    have hg1 : runeError ∉ g1 ++ '=' :: (g2 ++ (l ++ ';' :: r)) := fun hm =>
      hg (List.mem_append_right _ (List.mem_cons_of_mem _ hm))
    have e := h1.det hw h1' (stop_of_punct hw rfl (by decide)) (stop_of_punct hw rfl (by decide)) (List.cons.inj e).2 hg1
    have hg2 : runeError ∉ g2 ++ (l ++ ';' :: r) := fun hm => hg1 (List.mem_append_right _ (List.mem_cons_of_mem _ hm))
    have e := h2.det hw h2' (hbs.stop hw) (hbs'.stop hw) (List.cons.inj e).2 hg2
    obtain ⟨rfl, rfl, rfl⟩ := hbs.det hw hbs' e fun hm => hg2 (List.mem_append_right _ hm)
    exact ⟨by simpa using congrArg String.toList ex, rfl, rfl, rfl⟩
  cases h with
  | rule hx h1 h2 hbs =>
    cases h' with
    | rule hx' h1' h2' hbs' =>
      simp only [List.append_assoc, List.cons_append, List.nil_append] at e hg
      obtain ⟨rfl, rfl, rfl, rfl⟩ := key (by decide) hx h1 h2 hbs hx' h1' h2' hbs' (List.cons.inj e).2
        fun hm => hg (List.mem_cons_of_mem _ hm)
      exact ⟨rfl, rfl, rfl⟩
    | frame =>
      have := (List.cons.inj e).1
      exact absurd this (by decide)
  | frame hx h1 h2 hbs =>
    cases h' with
    | frame hx' h1' h2' hbs' =>
      simp only [List.append_assoc, List.cons_append, List.nil_append] at e hg
      obtain ⟨rfl, rfl, rfl, rfl⟩ := key (by decide) hx h1 h2 hbs hx' h1' h2' hbs' (List.cons.inj e).2
        fun hm => hg (List.mem_cons_of_mem _ hm)
      exact ⟨rfl, rfl, rfl⟩
    | rule =>
      have := (List.cons.inj e).1
      exact absurd this (by decide)

omit hw in
theorem DefSyn.first {l r : List Char} {d : Def} {ρ ρ1 : List (String × String)} (h : DefSyn w l d ρ ρ1) :
    ∃ c t, l ++ r = c :: t ∧ (c = '<' ∨ c = '[') := by
  cases h with
  | rule => exact ⟨_, _, rfl, .inl rfl⟩
  | frame => exact ⟨_, _, rfl, .inr rfl⟩

theorem DefSyn.stop {l r : List Char} {d : Def} {ρ ρ1 : List (String × String)} (h : DefSyn w l d ρ ρ1) : Stop w (l ++ r) := by
  cases h with
  | rule => exact stop_of_punct hw rfl (by decide)
  | frame => exact stop_of_punct hw rfl (by decide)

theorem DefsSyn.det {l : List Char} {ds : List Def} {ρ ρ1 : List (String × String)} (h : DefsSyn w l ds ρ ρ1) :
    ∀ {l' : List Char} {ds' : List Def} {ρ2 : List (String × String)}, DefsSyn w l' ds' ρ ρ2 → l = l' → runeError ∉ l →
      ds = ds' ∧ ρ1 = ρ2 := by
  have hnil : Stop w [] := fun c hc => by cases hc
  induction h with
  | @nil g ρ hgap =>
    intro l' ds' ρ2 h' e hg
    cases h' with
    | nil => exact ⟨rfl, rfl⟩
    | @cons g' l1 r1 d ds1 _ ρ3 _ hgap' hd hds =>
      have := hgap.det hw hgap' hnil (hd.stop hw) (by rw [List.append_nil]; exact e) (by rwa [List.append_nil])
      obtain ⟨c, t, e1, -⟩ := hd.first (r := r1)
      rw [e1] at this
      cases this
  | @cons g l r d ds ρ ρ1 ρ2 hgap hd hds ih =>
    intro l' ds' ρ3 h' e hg
    cases h' with
    | nil hgap' =>
      have := hgap.det hw hgap' (hd.stop hw) hnil (by rw [List.append_nil]; exact e) hg
      obtain ⟨c, t, e1, -⟩ := hd.first (r := r)
      rw [e1] at this
      cases this
    | @cons g' l1 r1 d1 ds1 _ ρ4 _ hgap' hd' hds' =>
      have e := hgap.det hw hgap' (hd.stop hw) (hd'.stop hw) e hg
      have hg1 : runeError ∉ l ++ r := fun hm => hg (List.mem_append_right _ hm)
      obtain ⟨rfl, e, rfl⟩ := hd.det hw hd' e hg1
      obtain ⟨rfl, rfl⟩ := ih hds' e fun hm => hg1 (List.mem_append_right _ hm)
      exact ⟨rfl, rfl⟩

/-- directives and definitions exclude each other -/
theorem IncludeSyn.not_defs {t l : List Char} {f : String} {ds : List Def} {ρ ρ1 : List (String × String)}
    (h : IncludeSyn w t f) (h' : DefsSyn w (t ++ l) ds ρ ρ1) (hg : runeError ∉ t ++ l) : False := by
  obtain ⟨s, e, -⟩ := reads_directive (inp := t ++ l) (ρ := []) hg hw (r := l) h (n := (t ++ l).length + 1) (by omega)
    { pos := 0, width := 0 } ⟨rfl, rfl⟩
  have := (directive_defs hg hw h' rfl e).1
  cases this

theorem IncludeSyn.det {t t' l l' : List Char} {f f' : String} (h : IncludeSyn w t f) (h' : IncludeSyn w t' f')
    (e : t ++ l = t' ++ l') (hg : runeError ∉ t ++ l) : f = f' ∧ l = l' := by
  have k1 := reads_directive (ρ := []) hg hw (r := l) h (n := (t ++ l).length + 1) (by omega)
  have k2 := reads_directive (inp := t ++ l) (ρ := []) hg hw (r := l') h' (n := (t ++ l).length + 1) (by rw [e]; omega)
  rw [← e] at k2
  obtain ⟨e1, e2, -⟩ := k1.det k2
  exact ⟨Option.some.inj e1, e2⟩

theorem FileSyn.det {l : List Char} {ds : List Def} {ρ : List (String × String)} (h : FileSyn w l ds ρ) :
    ∀ {l' : List Char} {ds' : List Def} {ρ' : List (String × String)}, FileSyn w l' ds' ρ' → l = l' → runeError ∉ l →
      ds = ds' ∧ ρ = ρ' := by
  induction h with
  | defs hd =>
    intro l' ds' ρ' h' e hg
    cases h' with
    | defs hd' => exact hd.det hw hd' e hg
    | incl hi _ =>
      subst e
      exact (hi.not_defs hw hd hg).elim
  | incl hi _ ih =>
    intro l' ds' ρ' h' e hg
    cases h' with
    | defs hd' =>
      subst e
      exact (hi.not_defs hw hd' hg).elim
    | incl hi' h' =>
      obtain ⟨-, e⟩ := hi.det hw hi' e hg
      exact ih h' e fun hm => hg (List.mem_append_right _ hm)

/-- the directives in front of definitions -/
theorem FileSyn.header {l : List Char} {ds : List Def} {ρ : List (String × String)} (h : FileSyn w l ds ρ) (hg : runeError ∉ l) :
    ∃ fs : List String, ∀ f, Target w l f ↔ f ∈ fs := by
  induction h with
  | @defs r ds ρ hd =>
    refine ⟨[], fun f => ⟨?_, by simp⟩⟩
    rintro ⟨fs, hh, hm⟩
    cases hh with
    | nil => cases hm
    | cons hi _ => exact (hi.not_defs hw hd hg).elim
  | @incl t l f ds ρ hi hs ih =>
    obtain ⟨fs, hfs⟩ := ih fun hm => hg (List.mem_append_right _ hm)
    refine ⟨f :: fs, fun f' => ⟨?_, fun hm => ?_⟩⟩
    · rintro ⟨fs', hh, hm⟩
      generalize el : t ++ l = t0 at hh
      cases hh with
      | nil => cases hm
      | cons hi' hh =>
        obtain ⟨rfl, rfl⟩ := hi.det hw hi' el hg
        rcases List.mem_cons.1 hm with rfl | hm
        · exact List.mem_cons_self
        · exact List.mem_cons_of_mem _ ((hfs f').1 ⟨_, hh, hm⟩)
    · rcases List.mem_cons.1 hm with rfl | hm
      · exact ⟨[f'], .cons hi .nil, List.mem_singleton.2 rfl⟩
      · obtain ⟨fs', hh, hm⟩ := (hfs f').2 hm
        exact ⟨f :: fs', .cons hi hh, List.mem_cons_of_mem _ hm⟩

end

end Fmr
