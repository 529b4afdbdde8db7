import Verif.Proofs.WholeSafe

/-!
# C73: parsing follows the texts of the grammar files

From the text of the grammar files and the tagged document to the result of `Parse`: loading, refinement, the
local grammar and the parser together implement the productions that are written down.
-/

namespace Fmr

/-! ### the theorems -/

/-- a grammar loaded from a string -/
theorem held_string {lw : LoadWorld} (hw : lw.lex.OK) {F : Files} {gtext : List Char} {ds : List Def}
    {ρ : List (String × String)} (hg : runeError ∉ gtext) (hsyn : FileSyn lw.lex gtext ds ρ) (hc : NoCollision lw.lex.hash ds)
    (hF : FilesRead lw F (Includes lw "." gtext)) {fuel depth : Nat} {name : String} {reg : Registry} {ld : Loaded} {st : LoadSt}
    (h : loadString lw fuel depth gtext name reg = .ok (some ld, st)) :
    HeldBy lw ds ρ F (Includes lw "." gtext) ld := by
  obtain ⟨ld', e, -, -, -, hn, hs⟩ := C33_string hw hg (fun p t hp hr => (hF.read p t hp hr).1) h
  cases e
  exact ⟨whole_string hw hg hsyn hc hF h, ⟨hc, hF.hash⟩, hn, hs, C30_string_partial hw h⟩

/-- a grammar loaded from a file -/
theorem held_file {lw : LoadWorld} (hw : lw.lex.OK) {F : Files} {file dir : String} {gtext : List Char}
    (hr : lw.read file = some gtext) (hd : lw.dir file = some dir)
    (hF : FilesRead lw F (fun q => q = file ∨ Includes lw dir gtext q)) {fuel depth : Nat} {reg : Registry} {ld : Loaded}
    {st : LoadSt} (h : loadFile lw fuel depth file reg = .ok (some ld, st)) :
    HeldBy lw (F.defs file) (F.regexps file) F (fun q => Includes lw dir gtext q ∧ q ≠ file) ld := by
  obtain ⟨ld', text', dir', hr', hd', e, -, -, -, hn, hs⟩ := C33_file hw (fun t ht => (hF.read file t (.inl rfl) ht).1)
    (fun t d ht hd1 p t' hp hr' => by
      rw [hr] at ht
      rw [hd] at hd1
      cases ht
      cases hd1
      exact (hF.read p t' (.inr hp) hr').1) h
  cases e
  rw [hr] at hr'
  rw [hd] at hd'
  cases hr'
  cases hd'
  exact ⟨whole_file hw hr hd hF h, ⟨hF.hash file (.inl rfl), fun q hq => hF.hash q (.inr hq.1)⟩, hn, hs, C30_file_partial hw h⟩

/-- C73, the language: the grammars of a load and the local grammar of a document derive from a start rule what the
texts of the grammar files and the tagged document say. -/
theorem C73_language {lw : LoadWorld} (hlw : lw.lex.OK) {F : Files} {gtext : List Char} {ds : List Def}
    {ρ : List (String × String)} (hg : runeError ∉ gtext) (hsyn : FileSyn lw.lex gtext ds ρ) (hc : NoCollision lw.lex.hash ds)
    (hF : FilesRead lw F (Includes lw "." gtext)) {fuel0 depth : Nat} {name : String} {reg : Registry} {ld : Loaded} {st : LoadSt}
    (hload : loadString lw fuel0 depth gtext name reg = .ok (some ld, st))
    (w : World) (context : String) (text : Bytes) (starts : List String) (d : Doc) (ht : TextRead w context text d)
    (hd : DocFit w (wholeRegexps F (Includes lw "." gtext) ρ) d)
    (hfit : WholeFit ds F (Includes lw "." gtext) lw.ref (wholeSource ds F (Includes lw "." gtext) lw.ref.annot
      (docSource w.find (wholeRegexps F (Includes lw "." gtext) ρ) d)) starts) (c : Nat) :
    ∃ l, process w ld.gram context text = .ok (d.words, l) ∧
    ∀ S ∈ starts, ∀ toks, Derives (envFor w ld.gram l d.words starts c) S toks ↔
      SourcesDerive (terminalMatch w.lower w.registry) [wholeSource ds F (Includes lw "." gtext) lw.ref.annot
        (docSource w.find (wholeRegexps F (Includes lw "." gtext) ρ) d)] S toks := by
  have h := held_string hlw hg hsyn hc hF hload
  obtain ⟨l, hp⟩ := h.processes ht hd
  refine ⟨l, hp, fun S hS toks => ?_⟩
  rw [derives_iff_sources, envFor_sources]
  exact h.language (h.document hp (annotates_iff.1 ht.annotated) hd) hfit (hfit.free S (.inr hS)) _

/-- C73 for a grammar loaded from a string: `Parse` returns, it returns trees iff the texts of the grammar files and
the tagged document allow a start rule to match tokens at the start of the document, and every tree spells as many
tokens as can be matched. Missing for a full statement: grammars where optional parts are placed so that the parser
loses them (`WholeSafe`) or where ranges differ (`WholeUniform`), see C01 and C02; the texts themselves may be
anything that loads. -/
theorem C73_string_partial {lw : LoadWorld} (hlw : lw.lex.OK) {F : Files} {gtext : List Char} {ds : List Def}
    {ρ : List (String × String)} (hg : runeError ∉ gtext) (hsyn : FileSyn lw.lex gtext ds ρ) (hc : NoCollision lw.lex.hash ds)
    (hF : FilesRead lw F (Includes lw "." gtext)) {fuel0 depth : Nat} {name : String} {reg : Registry} {ld : Loaded} {st : LoadSt}
    (hload : loadString lw fuel0 depth gtext name reg = .ok (some ld, st))
    (w : World) (context : String) (text : Bytes) (starts : List String) (d : Doc) (ht : TextRead w context text d)
    (hd : DocFit w (wholeRegexps F (Includes lw "." gtext) ρ) d)
    (src : Source) (hsrc : src = wholeSource ds F (Includes lw "." gtext) lw.ref.annot
      (docSource w.find (wholeRegexps F (Includes lw "." gtext) ρ) d))
    (hfit : WholeFit ds F (Includes lw "." gtext) lw.ref src starts) (hu : WholeUniform ds F (Includes lw "." gtext))
    (hsafe : WholeSafe ds F (Includes lw "." gtext) lw.ref.annot
      (docSource w.find (wholeRegexps F (Includes lw "." gtext) ρ) d) starts)
    (hs : starts ≠ []) (ho : w.OrdOK) :
    ∃ l, process w ld.gram context text = .ok (d.words, l) ∧ ∃ n, ∀ fuel ≥ n, ∃ ns, apiParse w ld.gram fuel context text starts = .ok ns ∧
      (ns ≠ [] ↔ ∃ k, TextMatch w src starts d.words k) ∧
      ∀ t ∈ ns, ∃ S ∈ starts, ∃ k, RootOK (envFor w ld.gram l d.words starts 0) (envFor w ld.gram l d.words starts 0).lang S k t ∧
        TextMatch w src starts d.words k ∧ ∀ k', TextMatch w src starts d.words k' → k' ≤ k := by
  subst hsrc
  have h := held_string hlw hg hsyn hc hF hload
  obtain ⟨l, hp⟩ := h.processes ht hd
  have ha := annotates_iff.1 ht.annotated
  exact ⟨l, hp, h.parse hp ha hd hs ho hfit hu (h.nullSafe hp ha hd hfit hsafe 0)⟩

/-- C73 for a grammar loaded from a file. -/
theorem C73_file_partial {lw : LoadWorld} (hlw : lw.lex.OK) {F : Files} {file dir : String} {gtext : List Char}
    (hr : lw.read file = some gtext) (hdir : lw.dir file = some dir)
    (hF : FilesRead lw F (fun q => q = file ∨ Includes lw dir gtext q)) {I : String → Prop}
    (hI : ∀ q, I q ↔ Includes lw dir gtext q ∧ q ≠ file) {fuel0 depth : Nat} {reg : Registry} {ld : Loaded}
    {st : LoadSt} (hload : loadFile lw fuel0 depth file reg = .ok (some ld, st))
    (w : World) (context : String) (text : Bytes) (starts : List String) (d : Doc) (ht : TextRead w context text d)
    (hd : DocFit w (wholeRegexps F I (F.regexps file)) d)
    (src : Source) (hsrc : src = wholeSource (F.defs file) F I lw.ref.annot
      (docSource w.find (wholeRegexps F I (F.regexps file)) d))
    (hfit : WholeFit (F.defs file) F I lw.ref src starts) (hu : WholeUniform (F.defs file) F I)
    (hsafe : WholeSafe (F.defs file) F I lw.ref.annot (docSource w.find (wholeRegexps F I (F.regexps file)) d) starts)
    (hs : starts ≠ []) (ho : w.OrdOK) :
    ∃ l, process w ld.gram context text = .ok (d.words, l) ∧ ∃ n, ∀ fuel ≥ n, ∃ ns, apiParse w ld.gram fuel context text starts = .ok ns ∧
      (ns ≠ [] ↔ ∃ k, TextMatch w src starts d.words k) ∧
      ∀ t ∈ ns, ∃ S ∈ starts, ∃ k, RootOK (envFor w ld.gram l d.words starts 0) (envFor w ld.gram l d.words starts 0).lang S k t ∧
        TextMatch w src starts d.words k ∧ ∀ k', TextMatch w src starts d.words k' → k' ≤ k := by
  subst hsrc
  obtain rfl : I = fun q => Includes lw dir gtext q ∧ q ≠ file := funext fun q => propext (hI q)
  have h := held_file hlw hr hdir hF hload
  obtain ⟨l, hp⟩ := h.processes ht hd
  have ha := annotates_iff.1 ht.annotated
  exact ⟨l, hp, h.parse hp ha hd hs ho hfit hu (h.nullSafe hp ha hd hfit hsafe 0)⟩

end Fmr
