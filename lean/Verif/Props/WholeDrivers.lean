import Verif.Props.Whole
import Verif.Props.EndToEnd

/-!
# C75: the other parse calls follow the texts of the grammar files

`ParseAny`, `ExtractAll` and `ExtractMaxAll`, from the texts of the grammar files and the tagged document to their
results.
-/

namespace Fmr

section
variable {lw : LoadWorld} {ds : List Def} {ρ : List (String × String)} {F : Files} {I : String → Prop} {ld : Loaded}
  {w : World} {context : String} {text : Bytes} {l : Option Grammar} {d : Doc} {starts : List String} {tokens : List Token}
  (h : HeldBy lw ds ρ F I ld) (hp : process w ld.gram context text = .ok (tokens, l))
  (ha : annotateText w context (w.trim text) = some d) (hd : DocFit w (wholeRegexps F I ρ) d)
include h hp ha hd

theorem HeldBy.env (hfit : WholeFit ds F I lw.ref (wholeSource ds F I lw.ref.annot (docSource w.find (wholeRegexps F I ρ) d)) starts) :
    (envFor w ld.gram l tokens starts 0).WF ∧ Unmixed (envFor w ld.gram l tokens starts 0) ∧
    AnyNamed (envFor w ld.gram l tokens starts 0) :=
  loaded_env h.wf hp (by
    intro d' h'
    rw [ha] at h'
    cases h'
    exact hd.spans) starts 0 (h.noGamma hp ha hd hfit)

theorem HeldBy.spans (hfit : WholeFit ds F I lw.ref (wholeSource ds F I lw.ref.annot (docSource w.find (wholeRegexps F I ρ) d)) starts) :
    ∀ S ∈ starts, ∀ i k, callDerives w ld.gram starts tokens l S i k ↔
      TextSpan w (wholeSource ds F I lw.ref.annot (docSource w.find (wholeRegexps F I ρ) d)) tokens S i k := by
  intro S hS i k
  unfold callDerives TextSpan
  rw [derives_iff_sources, envFor_sources]
  exact h.language (h.document hp ha hd) hfit (hfit.free S (.inr hS)) _

theorem HeldBy.noEmptyMatch (hfit : WholeFit ds F I lw.ref (wholeSource ds F I lw.ref.annot (docSource w.find (wholeRegexps F I ρ) d)) starts)
    (hu : WholeUniform ds F I) (hne : ∀ S ∈ starts, ¬ SourcesDerive (terminalMatch w.lower w.registry)
      [wholeSource ds F I lw.ref.annot (docSource w.find (wholeRegexps F I ρ) d)] S []) :
    NoEmptyMatch (envFor w ld.gram l tokens starts 0) := by
  intro S hS hder
  refine hne S hS ?_
  have := (h.spans hp ha hd hfit S hS 0 0).1 (hder.strict (h.uniform hp ha hd hu))
  exact this

end

/-- C75: `ParseAny` returns the longest matches at the first token where the texts of the grammar files and the tagged
document allow a match to begin
(grammar loaded from a string). Missing for a full statement: see C73. -/
theorem C75_any_string_partial {lw : LoadWorld} (hlw : lw.lex.OK) {F : Files} {gtext : List Char} {ds : List Def}
    {ρ : List (String × String)} (hg : runeError ∉ gtext) (hsyn : FileSyn lw.lex gtext ds ρ) (hc : NoCollision lw.lex.hash ds)
    (hF : FilesRead lw F (Includes lw "." gtext)) {fuel0 depth : Nat} {name : String} {reg : Registry} {ld : Loaded} {st : LoadSt}
    (hload : loadString lw fuel0 depth gtext name reg = .ok (some ld, st))
    (w : World) (context : String) (text : Bytes) (starts : List String) (d : Doc) (ht : TextRead w context text d)
    (hd : DocFit w (wholeRegexps F (Includes lw "." gtext) ρ) d)
    (src : Source) (hsrc : src = wholeSource ds F (Includes lw "." gtext) lw.ref.annot
      (docSource w.find (wholeRegexps F (Includes lw "." gtext) ρ) d))
    (hfit : WholeFit ds F (Includes lw "." gtext) lw.ref src starts) (hu : WholeUniform ds F (Includes lw "." gtext))
    (hsafe : WholeSafe ds F (Includes lw "." gtext) lw.ref.annot
      (docSource w.find (wholeRegexps F (Includes lw "." gtext) ρ) d) starts)
    (hs : starts ≠ []) (ho : w.OrdOK) :
    ∃ l, process w ld.gram context text = .ok (d.words, l) ∧ ∃ n ns, (∀ fuel ≥ n, apiParseAny w ld.gram fuel context text starts = .ok ns) ∧
      FirstMatches (TextSpan w src d.words) (callTree w ld.gram starts d.words l) starts d.words.length ns := by
  subst hsrc
  have h := held_string hlw hg hsyn hc hF hload
  obtain ⟨l, hp⟩ := h.processes ht hd
  have ha := annotates_iff.1 ht.annotated
  obtain ⟨hwf, hun, hany⟩ := h.env hp ha hd hfit
  obtain ⟨n, ns, h1, h2⟩ := C54_any_partial w ld.gram context text starts d.words l hp hs ho hwf (h.nullSafe hp ha hd hfit hsafe 0)
    (h.uniform hp ha hd hu) hun hany
  exact ⟨l, hp, n, ns, h1, h2.congr (h.spans hp ha hd hfit)⟩

/-- C75: `ParseAny` returns the longest matches at the first token where the texts of the grammar files and the tagged
document allow a match to begin
(grammar loaded from a file). Missing for a full statement: see C73. -/
theorem C75_any_file_partial {lw : LoadWorld} (hlw : lw.lex.OK) {F : Files} {file dir : String} {gtext : List Char}
    (hr : lw.read file = some gtext) (hdir : lw.dir file = some dir)
    (hF : FilesRead lw F (fun q => q = file ∨ Includes lw dir gtext q)) {I : String → Prop}
    (hI : ∀ q, I q ↔ Includes lw dir gtext q ∧ q ≠ file) {fuel0 depth : Nat} {reg : Registry} {ld : Loaded}
    {st : LoadSt} (hload : loadFile lw fuel0 depth file reg = .ok (some ld, st))
    (w : World) (context : String) (text : Bytes) (starts : List String) (d : Doc) (ht : TextRead w context text d)
    (hd : DocFit w (wholeRegexps F I (F.regexps file)) d)
    (src : Source) (hsrc : src = wholeSource (F.defs file) F I lw.ref.annot
      (docSource w.find (wholeRegexps F I (F.regexps file)) d))
    (hfit : WholeFit (F.defs file) F I lw.ref src starts) (hu : WholeUniform (F.defs file) F I)
    (hsafe : WholeSafe (F.defs file) F I lw.ref.annot (docSource w.find (wholeRegexps F I (F.regexps file)) d) starts)
    (hs : starts ≠ []) (ho : w.OrdOK) :
    ∃ l, process w ld.gram context text = .ok (d.words, l) ∧ ∃ n ns, (∀ fuel ≥ n, apiParseAny w ld.gram fuel context text starts = .ok ns) ∧
      FirstMatches (TextSpan w src d.words) (callTree w ld.gram starts d.words l) starts d.words.length ns := by
  subst hsrc
  obtain rfl : I = fun q => Includes lw dir gtext q ∧ q ≠ file := funext fun q => propext (hI q)
  have h := held_file hlw hr hdir hF hload
  obtain ⟨l, hp⟩ := h.processes ht hd
  have ha := annotates_iff.1 ht.annotated
  obtain ⟨hwf, hun, hany⟩ := h.env hp ha hd hfit
  obtain ⟨n, ns, h1, h2⟩ := C54_any_partial w ld.gram context text starts d.words l hp hs ho hwf (h.nullSafe hp ha hd hfit hsafe 0)
    (h.uniform hp ha hd hu) hun hany
  exact ⟨l, hp, n, ns, h1, h2.congr (h.spans hp ha hd hfit)⟩

/-- C75: `ExtractAll` returns trees for exactly the matches that the texts of the grammar files and the tagged document
allow, in the order of the tokens where they begin
(grammar loaded from a string). Missing for a full statement: see C73. -/
theorem C75_all_string_partial {lw : LoadWorld} (hlw : lw.lex.OK) {F : Files} {gtext : List Char} {ds : List Def}
    {ρ : List (String × String)} (hg : runeError ∉ gtext) (hsyn : FileSyn lw.lex gtext ds ρ) (hc : NoCollision lw.lex.hash ds)
    (hF : FilesRead lw F (Includes lw "." gtext)) {fuel0 depth : Nat} {name : String} {reg : Registry} {ld : Loaded} {st : LoadSt}
    (hload : loadString lw fuel0 depth gtext name reg = .ok (some ld, st))
    (w : World) (context : String) (text : Bytes) (starts : List String) (d : Doc) (ht : TextRead w context text d)
    (hd : DocFit w (wholeRegexps F (Includes lw "." gtext) ρ) d)
    (src : Source) (hsrc : src = wholeSource ds F (Includes lw "." gtext) lw.ref.annot
      (docSource w.find (wholeRegexps F (Includes lw "." gtext) ρ) d))
    (hfit : WholeFit ds F (Includes lw "." gtext) lw.ref src starts) (hu : WholeUniform ds F (Includes lw "." gtext))
    (hsafe : WholeSafe ds F (Includes lw "." gtext) lw.ref.annot
      (docSource w.find (wholeRegexps F (Includes lw "." gtext) ρ) d) starts)
    (hs : starts ≠ []) (ho : w.OrdOK) :
    ∃ l, process w ld.gram context text = .ok (d.words, l) ∧ ∃ n, ∃ groups : List (Nat × List Node),
      (∀ fuel ≥ n, apiExtractAll w ld.gram fuel context text starts = .ok (groups.map (·.2)).flatten) ∧
      AllMatches (TextSpan w src d.words) (callTree w ld.gram starts d.words l) starts d.words.length groups := by
  subst hsrc
  have h := held_string hlw hg hsyn hc hF hload
  obtain ⟨l, hp⟩ := h.processes ht hd
  have ha := annotates_iff.1 ht.annotated
  obtain ⟨hwf, hun, hany⟩ := h.env hp ha hd hfit
  obtain ⟨n, ns, h1, h2⟩ := C54_all_partial w ld.gram context text starts d.words l hp hs ho hwf (h.nullSafe hp ha hd hfit hsafe 0)
    (h.uniform hp ha hd hu) hun hany
  exact ⟨l, hp, n, ns, h1, h2.congr (h.spans hp ha hd hfit)⟩

/-- C75: `ExtractAll` returns trees for exactly the matches that the texts of the grammar files and the tagged document
allow, in the order of the tokens where they begin
(grammar loaded from a file). Missing for a full statement: see C73. -/
theorem C75_all_file_partial {lw : LoadWorld} (hlw : lw.lex.OK) {F : Files} {file dir : String} {gtext : List Char}
    (hr : lw.read file = some gtext) (hdir : lw.dir file = some dir)
    (hF : FilesRead lw F (fun q => q = file ∨ Includes lw dir gtext q)) {I : String → Prop}
    (hI : ∀ q, I q ↔ Includes lw dir gtext q ∧ q ≠ file) {fuel0 depth : Nat} {reg : Registry} {ld : Loaded}
    {st : LoadSt} (hload : loadFile lw fuel0 depth file reg = .ok (some ld, st))
    (w : World) (context : String) (text : Bytes) (starts : List String) (d : Doc) (ht : TextRead w context text d)
    (hd : DocFit w (wholeRegexps F I (F.regexps file)) d)
    (src : Source) (hsrc : src = wholeSource (F.defs file) F I lw.ref.annot
      (docSource w.find (wholeRegexps F I (F.regexps file)) d))
    (hfit : WholeFit (F.defs file) F I lw.ref src starts) (hu : WholeUniform (F.defs file) F I)
    (hsafe : WholeSafe (F.defs file) F I lw.ref.annot (docSource w.find (wholeRegexps F I (F.regexps file)) d) starts)
    (hs : starts ≠ []) (ho : w.OrdOK) :
    ∃ l, process w ld.gram context text = .ok (d.words, l) ∧ ∃ n, ∃ groups : List (Nat × List Node),
      (∀ fuel ≥ n, apiExtractAll w ld.gram fuel context text starts = .ok (groups.map (·.2)).flatten) ∧
      AllMatches (TextSpan w src d.words) (callTree w ld.gram starts d.words l) starts d.words.length groups := by
  subst hsrc
  obtain rfl : I = fun q => Includes lw dir gtext q ∧ q ≠ file := funext fun q => propext (hI q)
  have h := held_file hlw hr hdir hF hload
  obtain ⟨l, hp⟩ := h.processes ht hd
  have ha := annotates_iff.1 ht.annotated
  obtain ⟨hwf, hun, hany⟩ := h.env hp ha hd hfit
  obtain ⟨n, ns, h1, h2⟩ := C54_all_partial w ld.gram context text starts d.words l hp hs ho hwf (h.nullSafe hp ha hd hfit hsafe 0)
    (h.uniform hp ha hd hu) hun hany
  exact ⟨l, hp, n, ns, h1, h2.congr (h.spans hp ha hd hfit)⟩

/-- C75: if no start rule matches nothing, `ExtractMaxAll` returns trees for the longest matches from left to right
(grammar loaded from a string). Missing for a full statement: see C73. -/
theorem C75_maxAll_string_partial {lw : LoadWorld} (hlw : lw.lex.OK) {F : Files} {gtext : List Char} {ds : List Def}
    {ρ : List (String × String)} (hg : runeError ∉ gtext) (hsyn : FileSyn lw.lex gtext ds ρ) (hc : NoCollision lw.lex.hash ds)
    (hF : FilesRead lw F (Includes lw "." gtext)) {fuel0 depth : Nat} {name : String} {reg : Registry} {ld : Loaded} {st : LoadSt}
    (hload : loadString lw fuel0 depth gtext name reg = .ok (some ld, st))
    (w : World) (context : String) (text : Bytes) (starts : List String) (d : Doc) (ht : TextRead w context text d)
    (hd : DocFit w (wholeRegexps F (Includes lw "." gtext) ρ) d)
    (src : Source) (hsrc : src = wholeSource ds F (Includes lw "." gtext) lw.ref.annot
      (docSource w.find (wholeRegexps F (Includes lw "." gtext) ρ) d))
    (hfit : WholeFit ds F (Includes lw "." gtext) lw.ref src starts) (hu : WholeUniform ds F (Includes lw "." gtext))
    (hsafe : WholeSafe ds F (Includes lw "." gtext) lw.ref.annot
      (docSource w.find (wholeRegexps F (Includes lw "." gtext) ρ) d) starts)
    (hs : starts ≠ []) (ho : w.OrdOK)
    (hne : ∀ S ∈ starts, ¬ SourcesDerive (terminalMatch w.lower w.registry) [src] S []) :
    ∃ l, process w ld.gram context text = .ok (d.words, l) ∧ ∃ n, ∃ groups : List ((Nat × Nat) × List Node),
      (∀ fuel ≥ n, apiExtractMaxAll w ld.gram fuel context text starts = .ok (groups.map (·.2)).flatten) ∧
      GreedyMatches (TextSpan w src d.words) (callTree w ld.gram starts d.words l) starts d.words.length groups := by
  subst hsrc
  have h := held_string hlw hg hsyn hc hF hload
  obtain ⟨l, hp⟩ := h.processes ht hd
  have ha := annotates_iff.1 ht.annotated
  obtain ⟨hwf, hun, hany⟩ := h.env hp ha hd hfit
  obtain ⟨n, ns, h1, h2⟩ := C54_maxAll_partial w ld.gram context text starts d.words l hp hs ho hwf (h.nullSafe hp ha hd hfit hsafe 0)
    (h.uniform hp ha hd hu) hun hany (h.noEmptyMatch hp ha hd hfit hu hne)
  exact ⟨l, hp, n, ns, h1, h2.congr (h.spans hp ha hd hfit)⟩

/-- C75: if no start rule matches nothing, `ExtractMaxAll` returns trees for the longest matches from left to right
(grammar loaded from a file). Missing for a full statement: see C73. -/
theorem C75_maxAll_file_partial {lw : LoadWorld} (hlw : lw.lex.OK) {F : Files} {file dir : String} {gtext : List Char}
    (hr : lw.read file = some gtext) (hdir : lw.dir file = some dir)
    (hF : FilesRead lw F (fun q => q = file ∨ Includes lw dir gtext q)) {I : String → Prop}
    (hI : ∀ q, I q ↔ Includes lw dir gtext q ∧ q ≠ file) {fuel0 depth : Nat} {reg : Registry} {ld : Loaded}
    {st : LoadSt} (hload : loadFile lw fuel0 depth file reg = .ok (some ld, st))
    (w : World) (context : String) (text : Bytes) (starts : List String) (d : Doc) (ht : TextRead w context text d)
    (hd : DocFit w (wholeRegexps F I (F.regexps file)) d)
    (src : Source) (hsrc : src = wholeSource (F.defs file) F I lw.ref.annot
      (docSource w.find (wholeRegexps F I (F.regexps file)) d))
    (hfit : WholeFit (F.defs file) F I lw.ref src starts) (hu : WholeUniform (F.defs file) F I)
    (hsafe : WholeSafe (F.defs file) F I lw.ref.annot (docSource w.find (wholeRegexps F I (F.regexps file)) d) starts)
    (hs : starts ≠ []) (ho : w.OrdOK)
    (hne : ∀ S ∈ starts, ¬ SourcesDerive (terminalMatch w.lower w.registry) [src] S []) :
    ∃ l, process w ld.gram context text = .ok (d.words, l) ∧ ∃ n, ∃ groups : List ((Nat × Nat) × List Node),
      (∀ fuel ≥ n, apiExtractMaxAll w ld.gram fuel context text starts = .ok (groups.map (·.2)).flatten) ∧
      GreedyMatches (TextSpan w src d.words) (callTree w ld.gram starts d.words l) starts d.words.length groups := by
  subst hsrc
  obtain rfl : I = fun q => Includes lw dir gtext q ∧ q ≠ file := funext fun q => propext (hI q)
  have h := held_file hlw hr hdir hF hload
  obtain ⟨l, hp⟩ := h.processes ht hd
  have ha := annotates_iff.1 ht.annotated
  obtain ⟨hwf, hun, hany⟩ := h.env hp ha hd hfit
  obtain ⟨n, ns, h1, h2⟩ := C54_maxAll_partial w ld.gram context text starts d.words l hp hs ho hwf (h.nullSafe hp ha hd hfit hsafe 0)
    (h.uniform hp ha hd hu) hun hany (h.noEmptyMatch hp ha hd hfit hu hne)
  exact ⟨l, hp, n, ns, h1, h2.congr (h.spans hp ha hd hfit)⟩

end Fmr
