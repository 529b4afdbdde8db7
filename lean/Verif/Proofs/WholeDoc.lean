import Verif.Spec.Whole
import Verif.Proofs.LocalAlts
import Verif.Proofs.LocalWF

/-!
# The rules of the local grammar are the productions of the document
-/

namespace Fmr

/-- the sources that the local grammar contributes -/
def localSources (l : Option Grammar) : List Source := (l.map Grammar.source).toList

/-- the productions of the local grammar -/
theorem local_source {hash find regexps d l} {R : String → String → Prop} (hd : DocOK d)
    (hinj : NoDocCollision hash find regexps d) (hR : ∀ k s, (k, s) ∈ regexps ↔ R k s)
    (h : localGrammar hash find regexps d = .ok l) (A : String) (ts : List Term) :
    (∃ s ∈ localSources l, s A ts) ↔ docSource find R d A ts := by
  have hsrc : (∃ s ∈ localSources l, s A ts) ↔ ∃ rb, DocBody find regexps d A rb ∧ ts = rb.terms := by
    simp only [← localGrammar_rules hinj h]
    cases l with
    | none => simp [localSources, HasBody]
    | some l =>
      simp only [localSources, Option.map_some, Option.toList_some, List.mem_singleton, exists_eq_left, Option.getD_some]
      constructor
      · rintro ⟨r, hr, rb, hrb, rfl⟩
        exact ⟨rb, ⟨r, hr, hrb⟩, rfl⟩
      · rintro ⟨rb, ⟨r, hr, hrb⟩, rfl⟩
        exact ⟨r, hr, rb, hrb, rfl⟩
  obtain ⟨hc1, hc2⟩ := regexpSpans_cover find regexps d hd
  rw [hsrc]
  constructor
  · rintro ⟨rb, (⟨t, ht, hcl, hne, rfl⟩ | ⟨sp, hsp, m, hm, vs, hvs, terms, hterms, rfl⟩), rfl⟩
    · subst hcl
      show docSource find R d (className t.type) [tokenTerm t]
      cases htt : t.type with
      | word => exact .word ht htt
      | punct => exact .punct ht htt
      | symbol => exact .symbol ht htt
      | letters => exact .letters ht htt
      | _ => rw [htt] at hne; simp [className] at hne
    · have := spanTerms_eq _ _ _ hterms
      subst this
      rcases List.mem_append.1 (show sp ∈ d.spans ++ regexpSpans find regexps d from hsp) with hsp | hsp
      · exact .tag hsp hm hvs
      · obtain ⟨typ, s, ms, m', h1, h2, h3, h4, h5⟩ := hc1 sp hsp
        rw [h4] at hm
        cases hm
        simp only [List.mem_singleton, Prod.mk.injEq] at hvs
        obtain ⟨rfl, rfl⟩ := hvs
        exact .regexp ((hR _ _).1 h1) h2 h3 h5
  · intro hs
    cases hs with
    | word ht htt => exact ⟨tokenBody _, .inl ⟨_, ht, by rw [htt]; rfl, by simp, rfl⟩, rfl⟩
    | punct ht htt => exact ⟨tokenBody _, .inl ⟨_, ht, by rw [htt]; rfl, by simp, rfl⟩, rfl⟩
    | symbol ht htt => exact ⟨tokenBody _, .inl ⟨_, ht, by rw [htt]; rfl, by simp, rfl⟩, rfl⟩
    | letters ht htt => exact ⟨tokenBody _, .inl ⟨_, ht, by rw [htt]; rfl, by simp, rfl⟩, rfl⟩
    | @tag sp m A vs hsp hm hvs =>
      have hsp' : sp ∈ (regexpTag find regexps d).spans := List.mem_append_left _ hsp
      obtain ⟨terms, ht⟩ := localGrammar_terms h sp hsp' m hm
      exact ⟨_, .inr ⟨sp, hsp', m, hm, vs, hvs, terms, ht, rfl⟩, (spanTerms_eq _ _ _ ht).symm⟩
    | @regexp A s ms m sp hr hf hm hcov =>
      have hcov' := hcov
      obtain ⟨i, j, a, b, -, -, h3, h4, h5, h6⟩ := hcov'
      obtain ⟨sp', hsp, hann, hcov'⟩ := hc2 A s ms m ((hR _ _).2 hr) hf hm
        ⟨a, List.mem_of_getElem? h3, h5⟩ ⟨b, List.mem_of_getElem? h4, h6⟩
      have hsp' : sp' ∈ (regexpTag find regexps d).spans := List.mem_append_right _ hsp
      obtain ⟨terms, ht⟩ := localGrammar_terms h sp' hsp' _ hann
      refine ⟨_, .inr ⟨sp', hsp', _, hann, .scalar, List.mem_singleton.2 rfl, terms, ht, rfl⟩, ?_⟩
      rw [hcov.unique hd hcov']
      exact (spanTerms_eq _ _ _ ht).symm

end Fmr
