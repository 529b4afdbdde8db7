import Verif.Props.SayMore

/-!
# C116: rules that are not used can be removed
-/

namespace Fmr

section
variable {lw lw' : LoadWorld} (hlw : lw.lex.OK) (hlw' : lw'.lex.OK) (href : lw.ref = lw'.ref)
  {F F' : Files} {ds ds' : List Def} {ρ ρ' : List (String × String)} {I I' : String → Prop} {ld ld' : Loaded}
  (hload : LoadedFrom lw F ds ρ I ld) (hload' : LoadedFrom lw' F' ds' ρ' I' ld') {R : String → Prop}
  (hsame : SameUsed R ds F I ρ ds' F' I' ρ') (hmore : MoreText ds F I ρ ds' F' I' ρ')
  (w : World) (ho : w.OrdOK) (context : String) (text : Bytes) (starts : List String) (hs : starts ≠ []) (hR : ∀ S ∈ starts, R S)
  (d : Doc) (ht : TextRead w context text d) (hd' : DocFit w (wholeRegexps F' I' ρ') d)
  (src : Source) (hsrc : src = wholeSource ds F I lw.ref.annot (docSource w.find (wholeRegexps F I ρ) d))
  (src' : Source) (hsrc' : src' = wholeSource ds' F' I' lw'.ref.annot (docSource w.find (wholeRegexps F' I' ρ') d))
  (hap : (∃ p, I p) → LiteralsApart ds F I lw.ref) (hfit' : WholeFit ds' F' I' lw'.ref src' starts)
  (G : TextGrammar) (hG : G = wholeGrammar ds ρ F I lw.ref w d) (hu' : WholeUniform ds' F' I')
  (hsafe' : WholeSafe ds' F' I' lw'.ref.annot (docSource w.find (wholeRegexps F' I' ρ') d) starts)
include hlw hlw' href hload hload' hsame hmore ho hs hR ht hd' hsrc hsrc' hap hfit' hG hu' hsafe'

/-- C116 if the second set of files is the first with rules added that are not used: conditions are needed for the larger set
only, and that the words of a literal identify it in the smaller set, if it has several files. -/
theorem C116_remove_partial : ∃ names names', LiteralNames names ∧ LiteralNames names' ∧ ∃ n, ∀ fuel ≥ n,
    (∃ ns ns', apiParse w ld.gram fuel context text starts = .ok ns ∧ apiParse w ld'.gram fuel context text starts = .ok ns' ∧
      (ns = [] ↔ ns' = []) ∧ ∃ k, (∀ t ∈ ns, ∃ S ∈ starts, TextRoot G names d.words S k t) ∧
        ∀ t ∈ ns', ∃ S ∈ starts, TextRoot G names' d.words S k t) ∧
    (∃ ns ns', apiParseAny w ld.gram fuel context text starts = .ok ns ∧ apiParseAny w ld'.gram fuel context text starts = .ok ns' ∧
      (ns = [] ↔ ns' = []) ∧ ∃ i k, (∀ t ∈ ns, ∃ S ∈ starts, TextRoot G names (d.words.drop i) S k t) ∧
        ∀ t ∈ ns', ∃ S ∈ starts, TextRoot G names' (d.words.drop i) S k t) ∧
    (∃ gs gs' : List (Nat × List Node), apiExtractAll w ld.gram fuel context text starts = .ok (gs.map (·.2)).flatten ∧
      apiExtractAll w ld'.gram fuel context text starts = .ok (gs'.map (·.2)).flatten ∧ gs.map (·.1) = gs'.map (·.1) ∧
      ∀ a ∈ gs, ∀ a' ∈ gs', a.1 = a'.1 → ∀ S ∈ starts, ∀ k,
        (∃ t ∈ a.2, TextRoot G names (d.words.drop a.1) S k t) ↔ ∃ t ∈ a'.2, TextRoot G names' (d.words.drop a.1) S k t) ∧
    ((∀ S ∈ starts, ¬ SourcesDerive (terminalMatch w.lower w.registry) [src] S []) →
      ∃ gs gs' : List ((Nat × Nat) × List Node), apiExtractMaxAll w ld.gram fuel context text starts = .ok (gs.map (·.2)).flatten ∧
        apiExtractMaxAll w ld'.gram fuel context text starts = .ok (gs'.map (·.2)).flatten ∧ gs.map (·.1) = gs'.map (·.1) ∧
        (∀ a ∈ gs, a.2 ≠ [] ∧ ∀ t ∈ a.2, ∃ S ∈ starts, TextRoot G names (d.words.drop a.1.1) S a.1.2 t) ∧
        ∀ a ∈ gs', a.2 ≠ [] ∧ ∀ t ∈ a.2, ∃ S ∈ starts, TextRoot G names' (d.words.drop a.1.1) S a.1.2 t) := by
  refine C116_calls_partial hlw hlw' href hload hload' hsame w ho context text starts hs hR d ht (hd'.less hmore.regexps) hd' src hsrc
    src' hsrc' ?_ hfit' G hG (hu'.less hmore.alternatives) hu' ?_ hsafe'
  · rw [hsrc', ← href] at hfit'
    rw [hsrc]
    exact hfit'.less hmore.alternatives (wholeSource_more hmore) (fun _ h => h) hap
  · rw [← href] at hsafe'
    exact hsafe'.less hmore.alternatives (fun A _ => docSource_used (hmore.regexps A)) fun _ h => h

end

end Fmr
