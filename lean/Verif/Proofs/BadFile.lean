import Verif.Proofs.NumberZh
import Verif.Proofs.Unique

/-!
# Texts that are not in the syntax because of a literal that starts with a parenthesis
-/

namespace Fmr

/-- a literal that starts with a parenthesis that is not followed by a question mark -/
def badLit : List Char → Bool
  | '"' :: '(' :: c :: _ => !isSp c && c != '?'
  | _ => false

/-- readable terms, then such a literal -/
def badTerms : Nat → List Char → Bool
  | 0, _ => false
  | n + 1, l =>
    badLit l ||
    match rdTerm l with
    | none => false
    | some (_, r) =>
      match skipGap n r with
      | none => false
      | some r' => (r'.head? == some '<' || r'.head? == some '"' || r'.head? == some '(') && badTerms n r'

/-- readable alternatives, then one that is bad in this way -/
def badBodies (fl : List (String × Rat)) : Nat → List Char → Bool
  | 0, _ => false
  | n + 1, l =>
    badTerms n l ||
    match rdBody fl n l with
    | some (_, '|' :: r) =>
      match skipGap n r with
      | none => false
      | some r' => (r'.head? == some '<' || r'.head? == some '"' || r'.head? == some '(') && badBodies fl n r'
    | _ => false

/-- a rule whose alternatives are bad -/
def badDef (fl : List (String × Rat)) (n : Nat) (l : List Char) : Bool :=
  match l with
  | '<' :: l' =>
    match rdIdent l' with
    | some (_, '>' :: r) =>
      match skipGap n r with
      | some ('=' :: r) =>
        match skipGap n r with
        | some r' => (r'.head? == some '<' || r'.head? == some '"' || r'.head? == some '(') && badBodies fl n r'
        | none => false
      | _ => false
    | _ => false
  | _ => false

theorem stop_of_term {w : LexWorld} (hw : w.OK) {r : List Char}
    (h : (r.head? == some '<' || r.head? == some '"' || r.head? == some '(') = true) : Stop w r := by
  simp only [Bool.or_eq_true, beq_iff_eq] at h
  rcases h with (h | h) | h <;> exact stop_of_punct hw h (by decide)

section
variable {w : LexWorld} {fl : List (String × Rat)} (hw : PlainLex w fl)
include hw

theorem badLit_sound {l p r : List Char} {f v : String} (hp : PlainText w l) (h : badLit l = true) (hl : LitSyn w p f v)
    (e : l = p ++ r) : False := by
  unfold badLit at h
  split at h
  · next c q =>
    have hpar : w.isSpace '(' = false := (hw.ok.punct '(' (by decide)).2.2
    simp only [Bool.and_eq_true, Bool.not_eq_true', bne_iff_ne, ne_eq] at h
    have hc : w.isSpace c ≠ true := fun hs => by
      have := hp c (by simp) hs
      rw [h.1] at this
      cases this
    cases hl with
    | @plain s t v hs ht hh =>
      simp only [List.cons_append, List.append_assoc, List.cons.injEq, true_and] at e
      cases s with
      | nil =>
        cases t with
        | nil => simp at e
        | cons x t =>
          simp only [List.nil_append, List.cons_append, List.cons.injEq] at e
          exact (hh x rfl).2 e.1.symm
      | cons x s =>
        have := hs x List.mem_cons_self
        simp only [List.cons_append, List.cons.injEq] at e
        rw [← e.1, hpar] at this
        cases this
    | @flags s s1 s2 f t v hs hs1 hs2 hf ht =>
      simp only [List.cons_append, List.append_assoc, List.cons.injEq, true_and] at e
      cases s with
      | nil =>
        simp only [List.nil_append, List.cons.injEq, true_and] at e
        cases s1 with
        | nil =>
          simp only [List.nil_append, List.cons.injEq] at e
          exact h.2 e.1
        | cons x s1 =>
          simp only [List.cons_append, List.cons.injEq] at e
          exact hc (e.1 ▸ hs1 x List.mem_cons_self)
      | cons x s =>
        have := hs x List.mem_cons_self
        simp only [List.cons_append, List.cons.injEq] at e
        rw [← e.1, hpar] at this
        cases this
  · cases h

theorem badLit_term {l p r : List Char} {t : Term} {ρ ρ' : List (String × String)} (hp : PlainText w l) (h : badLit l = true)
    (ht : TermSyn w p t ρ ρ') (e : l = p ++ r) : False := by
  have hq : l.head? = some '"' := by
    unfold badLit at h
    split at h
    · rfl
    · cases h
  cases ht with
  | literal hl => exact badLit_sound hw hp h hl e
  | flagged hl => exact badLit_sound hw hp h hl e
  | _ => rw [e] at hq; simp at hq

theorem TermSyn.rest_eq {l r l' r' : List Char} {t t' : Term} {ρ ρ1 ρ2 : List (String × String)} (h : TermSyn w l t ρ ρ1)
    (h' : TermSyn w l' t' ρ ρ2) (e : l ++ r = l' ++ r') (hg : runeError ∉ l ++ r) : r = r' := by
  have k1 := reads_term (n := (l ++ r).length + 1) hg hw.ok h (r := r) (by omega)
  have k2 := reads_term (inp := l ++ r) (n := (l ++ r).length + 1) hg hw.ok h' (r := r') (by rw [e]; omega)
  rw [← e] at k2
  exact (k1.det k2).2.1

theorem badTerms_sound : ∀ {n : Nat} {l p r : List Char} {ts : List Term} {ρ ρ' : List (String × String)} {c : Char},
    PlainText w l → runeError ∉ l → badTerms n l = true → TermsSyn w p ts ρ ρ' → l = p ++ r → r.head? = some c →
    c ∈ ['|', ';', '{'] → False
  | 0, _, _, _, _, _, _, _, _, _, h, _, _, _, _ => by cases h
  | n + 1, l, p, r, ts, ρ, ρ', c, hp, hg, h, ht, e, hr, hc => by
    rw [badTerms, Bool.or_eq_true] at h
    rcases h with h | h
    · cases ht with
      | one ht _ => exact badLit_term hw hp h ht (by rw [e, List.append_assoc])
      | more ht _ _ => exact badLit_term hw hp h ht (by rw [e, List.append_assoc])
    · split at h
      · cases h
      · next t r1 h1 =>
        obtain ⟨q, e1, h1⟩ := rdTerm_sound hw hp h1
        split at h
        · cases h
        · next r2 h2 =>
          obtain ⟨g, e2, h2⟩ := skipGap_sound hw h2
          rw [Bool.and_eq_true] at h
          have hs := stop_of_term hw.ok h.1
          have hg1 : runeError ∉ g ++ r2 := fun hm => hg (by rw [e1, e2]; exact List.mem_append_right _ hm)
          have hsr : Stop w r := stop_of_punct hw.ok hr (by
            simp only [List.mem_cons, List.not_mem_nil, or_false] at hc ⊢
            rcases hc with rfl | rfl | rfl <;> simp)
          cases ht with
          | @one l1 g1 t1 _ _ ht hgap =>
            have e3 := TermSyn.rest_eq hw (h1 ρ) ht (r := r1) (r' := g1 ++ r) (by rw [← e1, e, List.append_assoc]) (e1 ▸ hg)
            have e4 := h2.det hw.ok hgap hs hsr (e2 ▸ e3) hg1
            have h5 := h.1
            rw [e4, hr] at h5
            simp only [Bool.or_eq_true, beq_iff_eq, Option.some.injEq] at h5
            simp only [List.mem_cons, List.not_mem_nil, or_false] at hc
            rcases h5 with (rfl | rfl) | rfl <;> simp at hc
          | @more l1 g1 r3 t1 ts1 _ ρ2 _ ht hgap hts =>
            have e3 := TermSyn.rest_eq hw (h1 ρ) ht (r := r1) (r' := g1 ++ (r3 ++ r))
              (by rw [← e1, e]; simp only [List.append_assoc]) (e1 ▸ hg)
            have e4 := h2.det hw.ok hgap hs (hts.stop hw.ok) (e2 ▸ e3) hg1
            have hp2 : PlainText w r2 := by
              rw [e1, e2, ← List.append_assoc] at hp
              exact hp.right
            exact badTerms_sound hp2 (fun hm => hg1 (List.mem_append_right _ hm)) h.2 hts e4 hr hc

theorem badTerms_body {n : Nat} {l p r : List Char} {b : RuleBody} {ρ ρ' : List (String × String)} {c : Char}
    (hp : PlainText w l) (hg : runeError ∉ l) (h : badTerms n l = true) (hb : BodySyn w p b ρ ρ') (e : l = p ++ r)
    (hr : r.head? = some c) (hc : c ∈ ['|', ';']) : False := by
  cases hb with
  | plain ht => exact badTerms_sound hw hp hg h ht e hr (by
      simp only [List.mem_cons, List.not_mem_nil, or_false] at hc ⊢
      rcases hc with rfl | rfl <;> simp)
  | @fn l1 x g ts f _ _ ht _ _ => exact badTerms_sound hw hp hg h ht (r := '{' :: (x ++ '}' :: (g ++ r))) (by rw [e]; simp) rfl (by decide)

theorem badBodies_sound : ∀ {n : Nat} {l p r : List Char} {bs : List RuleBody} {ρ ρ' : List (String × String)},
    PlainText w l → runeError ∉ l → badBodies fl n l = true → BodiesSyn w p bs ρ ρ' → l = p ++ ';' :: r → False
  | 0, _, _, _, _, _, _, _, _, h, _, _ => by cases h
  | n + 1, l, p, r, bs, ρ, ρ', hp, hg, h, hb, e => by
    rw [badBodies, Bool.or_eq_true] at h
    rcases h with h | h
    · cases hb with
      | one hb => exact badTerms_body hw hp hg h hb e rfl (by decide)
      | @more l1 g r1 b bs _ _ _ hb _ _ =>
        exact badTerms_body hw hp hg h hb (r := '|' :: (g ++ (r1 ++ ';' :: r))) (by rw [e]; simp) rfl (by decide)
    · split at h
      · next b0 r1 h1 =>
        obtain ⟨q, e1, h1⟩ := rdBody_sound hw hp h1
        split at h
        · cases h
        · next r2 h2 =>
          obtain ⟨g, e2, h2⟩ := skipGap_sound hw h2
          rw [Bool.and_eq_true] at h
          have hs := stop_of_term hw.ok h.1
          have hg1 : runeError ∉ g ++ r2 := fun hm => hg (by
            rw [e1, e2]
            exact List.mem_append_right _ (List.mem_cons_of_mem _ hm))
          cases hb with
          | one hb =>
            obtain ⟨-, e3, -⟩ := (h1 ρ).det hw.ok hb (r := '|' :: r1) (r' := ';' :: r) rfl (by decide) rfl (by decide)
              (by rw [← e1, e]) (e1 ▸ hg)
            cases e3
          | @more l1 g1 r3 b bs _ ρ2 _ hb hgap hbs =>
            obtain ⟨-, e3, rfl⟩ := (h1 ρ).det hw.ok hb (r := '|' :: r1) (r' := '|' :: (g1 ++ (r3 ++ ';' :: r))) rfl (by decide) rfl
              (by decide) (by rw [← e1, e]; simp) (e1 ▸ hg)
            have e3 := (List.cons.inj e3).2
            have e4 := h2.det hw.ok hgap hs (hbs.stop hw.ok) (e2 ▸ e3) hg1
            have hp2 : PlainText w r2 := by
              rw [e1, e2] at hp
              exact hp.right.tail.right
            exact badBodies_sound hp2 (fun hm => hg1 (List.mem_append_right _ hm)) h.2 hbs e4
      · cases h

theorem badDef_sound {n : Nat} {l p r : List Char} {d : Def} {ρ ρ' : List (String × String)} (hp : PlainText w l)
    (hg : runeError ∉ l) (h : badDef fl n l = true) (hd : DefSyn w p d ρ ρ') (e : l = p ++ r) : False := by
  unfold badDef at h
  split at h
  · next l' =>
    split at h
    · next x r1 hx =>
      obtain ⟨e1, hid⟩ := rdIdent_sound hw hx
      split at h
      · next r2 h2 =>
        obtain ⟨g1, e2, hgap1⟩ := skipGap_sound hw h2
        split at h
        · next r3 h3 =>
          obtain ⟨g2, e3, hgap2⟩ := skipGap_sound hw h3
          rw [Bool.and_eq_true] at h
          have hs := stop_of_term hw.ok h.1
          subst e1 e2 e3
          cases hd with
          | frame => exact absurd (List.cons.inj e).1 (by decide)
          | @rule x' g1' g2' l2 bs _ _ hx' hg1' hg2' hb =>
            simp only [List.cons_append, List.append_assoc, List.cons.injEq, true_and, List.nil_append] at e
            have hh : ∀ t : List Char, Head (idCont w false · = false) ('>' :: t) := fun t => by
              rw [Head.cons]
              exact (punct_not hw.ok (by decide)).1
            have k1 := hid.take (hh (g1 ++ '=' :: (g2 ++ r3)))
            have k2 := hx'.take (hh (g1' ++ '=' :: (g2' ++ (l2 ++ ';' :: r))))
            rw [e, k2.2.1] at k1
            have e1 := (List.cons.inj k1.2.1).2.symm
            have hga : runeError ∉ g1 ++ '=' :: (g2 ++ r3) := fun hm =>
              hg (List.mem_cons_of_mem _ (List.mem_append_right _ (List.mem_cons_of_mem _ hm)))
            have e2 := (List.cons.inj (hgap1.det hw.ok hg1' (stop_of_punct hw.ok rfl (by decide))
              (stop_of_punct hw.ok rfl (by decide)) e1 hga)).2
            have hgb : runeError ∉ g2 ++ r3 := fun hm => hga (List.mem_append_right _ (List.mem_cons_of_mem _ hm))
            have e3 := hgap2.det hw.ok hg2' hs (hb.stop hw.ok) e2 hgb
            exact badBodies_sound hw hp.tail.right.tail.right.tail.right (fun hm => hgb (List.mem_append_right _ hm)) h.2 hb e3
        · cases h
      · cases h
    · cases h
  · cases h

omit hw in
theorem badDef_head {n : Nat} {l : List Char} (h : badDef fl n l = true) : ∃ r, l = '<' :: r := by
  unfold badDef at h
  split at h
  · exact ⟨_, rfl⟩
  · cases h

/-- A text that starts with a rule has no directive. -/
theorem badDef_include {n : Nat} {l t r : List Char} {f : String} (hg : runeError ∉ l) (h : badDef fl n l = true)
    (hi : IncludeSyn w t f) (e : l = t ++ r) : False := by
  obtain ⟨q, hl⟩ := badDef_head h
  have hst : Stop w l := stop_of_punct hw.ok (c := '<') (by rw [hl]; rfl) (by decide)
  obtain ⟨hgap, -, -, -⟩ := hi
  rename_i g s1 s2 x f
  have := (Gap.spaces (w := w) (s := []) (by intro c hc; cases hc)).det hw.ok hgap (r := l)
    (r' := '#' :: (s1 ++ ("include".toList ++ (s2 ++ (x ++ r))))) hst (stop_of_punct hw.ok rfl (by decide))
      (by rw [List.nil_append, e]; simp) hg
  rw [hl] at this
  exact absurd (List.cons.inj this).1 (by decide)

/-- A text that starts with such a rule is not in the syntax. -/
theorem badDef_file {n : Nat} {l : List Char} {ds : List Def} {ρ : List (String × String)} (hp : PlainText w l)
    (hg : runeError ∉ l) (h : badDef fl n l = true) : ¬ FileSyn w l ds ρ := by
  obtain ⟨r, hl⟩ := badDef_head h
  have hst : Stop w l := stop_of_punct hw.ok (c := '<') (by rw [hl]; rfl) (by decide)
  have hst0 : Stop w [] := fun c hc => by cases hc
  intro hf
  generalize e : l = m at hf
  cases hf with
  | defs hd =>
    subst e
    generalize e : l = m at hd
    cases hd with
    | nil hgap =>
      have := (Gap.spaces (w := w) (s := []) (by intro c hc; cases hc)).det hw.ok hgap (r := l) (r' := []) hst hst0
        (by rw [List.nil_append, List.append_nil, e]) hg
      rw [hl] at this
      cases this
    | @cons g l1 r1 d ds _ ρ1 _ hgap hd hds =>
      have := (Gap.spaces (w := w) (s := []) (by intro c hc; cases hc)).det hw.ok hgap (r := l) (r' := l1 ++ r1) hst
        (hd.stop hw.ok) (by rw [List.nil_append, e]) hg
      exact badDef_sound hw hp hg h hd this
  | incl hi _ => exact badDef_include hw hg h hi e

end

end Fmr
