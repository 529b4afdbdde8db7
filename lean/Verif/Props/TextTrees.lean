import Verif.Proofs.TextTrees
import Verif.Props.WholeDrivers

/-!
# C76: the trees are the trees of what is written

The trees that the parse calls return, with the rule bodies and semantic functions they show, against the derivation
trees of the texts of the grammar files and the tagged document.
-/

namespace Fmr

/-- A grammar that was loaded, and what is written in it: the definitions `ds` and regexps `ρ` of the text itself and
the files `I` that it includes, which say `F`. -/
inductive LoadedFrom (lw : LoadWorld) (F : Files) : List Def → List (String × String) → (String → Prop) → Loaded → Prop
  | string {gtext : List Char} {ds : List Def} {ρ : List (String × String)} {fuel depth : Nat} {name : String} {reg : Registry}
      {ld : Loaded} {st : LoadSt} : runeError ∉ gtext → FileSyn lw.lex gtext ds ρ → NoCollision lw.lex.hash ds →
      FilesRead lw F (Includes lw "." gtext) → loadString lw fuel depth gtext name reg = .ok (some ld, st) →
      LoadedFrom lw F ds ρ (Includes lw "." gtext) ld
  | file {file dir : String} {gtext : List Char} {fuel depth : Nat} {reg : Registry} {ld : Loaded} {st : LoadSt} :
      lw.read file = some gtext → lw.dir file = some dir → FilesRead lw F (fun q => q = file ∨ Includes lw dir gtext q) →
      loadFile lw fuel depth file reg = .ok (some ld, st) →
      LoadedFrom lw F (F.defs file) (F.regexps file) (fun q => Includes lw dir gtext q ∧ q ≠ file) ld

theorem LoadedFrom.held {lw : LoadWorld} (hlw : lw.lex.OK) {F : Files} {ds : List Def} {ρ : List (String × String)}
    {I : String → Prop} {ld : Loaded} (h : LoadedFrom lw F ds ρ I ld) : HeldBy lw ds ρ F I ld := by
  cases h with
  | string h1 h2 h3 h4 h5 => exact held_string hlw h1 h2 h3 h4 h5
  | file h1 h2 h3 h4 => exact held_file hlw h1 h2 h3 h4

section
variable {D : String → Nat → Nat → Prop} {T T' : Nat → String → Nat → Node → Prop} {starts : List String} {len : Nat}
  (h : ∀ S ∈ starts, ∀ i k n, i < len → i + k ≤ len → T i S k n → T' i S k n)
include h

theorem PrefixMatches.trees_congr {ns : List Node} (hf : PrefixMatches D T starts len ns) : PrefixMatches D T' starts len ns := by
  refine ⟨hf.found, fun n hn => ?_⟩
  obtain ⟨S, hS, k, h1, h2, h3⟩ := hf.trees n hn
  exact ⟨S, hS, k, h S hS 0 k n h2.1 h2.2.1 h1, h2, h3⟩

theorem FirstMatches.trees_congr {ns : List Node} (hf : FirstMatches D T starts len ns) : FirstMatches D T' starts len ns := by
  refine ⟨hf.found, fun n hn => ?_⟩
  obtain ⟨S, hS, i, k, h1, h2⟩ := hf.trees n hn
  exact ⟨S, hS, i, k, h S hS i k n h2.2.1.1 h2.2.1.2.1 h1, h2⟩

theorem AllMatches.trees_congr {groups : List (Nat × List Node)} (hf : AllMatches D T starts len groups) :
    AllMatches D T' starts len groups := by
  refine ⟨hf.ascending, hf.nonempty, fun a ha n hn => ?_, fun S hS i k hi hik hd => ?_⟩
  · obtain ⟨S, hS, k, h1, h2⟩ := hf.trees a ha n hn
    exact ⟨S, hS, k, h S hS _ k n h2.2.1 h2.2.2.1 h1, h2⟩
  · obtain ⟨a, ha, h1, n, hn, h2⟩ := hf.complete S hS i k hi hik hd
    exact ⟨a, ha, h1, n, hn, h S hS i k n hi hik h2⟩

theorem GreedyMatches.trees_congr {groups : List ((Nat × Nat) × List Node)} (hf : GreedyMatches D T starts len groups) :
    GreedyMatches D T' starts len groups := by
  refine ⟨hf.disjoint, hf.nonempty, hf.longest, fun a ha n hn => ?_, hf.rest⟩
  obtain ⟨S, hS, h1, h2⟩ := hf.trees a ha n hn
  have hm := (hf.longest a ha).1
  exact ⟨S, hS, h S hS _ _ n hm.1 hm.2.1 h1, h2⟩

end

section
variable {lw : LoadWorld} (hlw : lw.lex.OK) {F : Files} {ds : List Def} {ρ : List (String × String)} {I : String → Prop}
  {ld : Loaded} (hload : LoadedFrom lw F ds ρ I ld) (w : World) (context : String) (text : Bytes) (starts : List String)
  (d : Doc) (ht : TextRead w context text d) (hd : DocFit w (wholeRegexps F I ρ) d)
  (src : Source) (hsrc : src = wholeSource ds F I lw.ref.annot (docSource w.find (wholeRegexps F I ρ) d))
  (hfit : WholeFit ds F I lw.ref src starts) (G : TextGrammar) (hG : G = wholeGrammar ds ρ F I lw.ref w d)
include hlw hload ht hd hsrc hfit hG

/-- C76: the derivation trees of the grammars in the parser are the derivation trees of what is written, for every
grammar that loads, every document and every part of it. -/
theorem C76_trees : ∃ l names, process w ld.gram context text = .ok (d.words, l) ∧ LiteralNames names ∧
    ∀ S ∈ starts, ∀ toks k n,
      RootOK (envFor w ld.gram l toks starts 0) (envFor w ld.gram l toks starts 0).lang S k n ↔ TextRoot G names toks S k n := by
  subst hsrc hG
  have h := hload.held hlw
  obtain ⟨l, hp⟩ := h.processes ht hd
  obtain ⟨N, hN, hm⟩ := h.mirrors hp (annotates_iff.1 ht.annotated) hd hfit
  exact ⟨l, N, hp, hN, fun S hS toks k n => (hm toks 0).1.root (hm toks 0).2.1 (hfit.free S (.inr hS))⟩

/-- C76: every tree that a parse call returns is a derivation tree of what is written, with its semantic functions and
over the tokens of the document; only the bounds of `(any…)` and `(list<x>…)` terms may be those of another such
term (see C09). -/
theorem C76_sound (ho : w.OrdOK) : ∃ names, LiteralNames names ∧ ∀ fuel ns,
    (apiParse w ld.gram fuel context text starts = .ok ns →
      ∀ n ∈ ns, ∃ S ∈ starts, ∃ k, TextRoot G.relaxed names d.words S k n) ∧
    (apiParseAny w ld.gram fuel context text starts = .ok ns →
      ∃ i < d.words.length, ∀ n ∈ ns, ∃ S ∈ starts, ∃ k, TextRoot G.relaxed names (d.words.drop i) S k n) ∧
    (apiExtractAll w ld.gram fuel context text starts = .ok ns →
      ∀ n ∈ ns, ∃ i < d.words.length, ∃ S ∈ starts, ∃ k, TextRoot G.relaxed names (d.words.drop i) S k n) ∧
    (apiExtractMaxAll w ld.gram fuel context text starts = .ok ns →
      ∀ n ∈ ns, ∃ i < d.words.length, ∃ S ∈ starts, ∃ k, TextRoot G.relaxed names (d.words.drop i) S k n) := by
  subst hsrc hG
  have h := hload.held hlw
  obtain ⟨l, hp⟩ := h.processes ht hd
  have ha := annotates_iff.1 ht.annotated
  obtain ⟨N, hN, hm⟩ := h.mirrors hp ha hd hfit
  obtain ⟨hwf, hun, hany⟩ := h.env hp ha hd hfit
  have key : ∀ (p : Parsed) (flag : Bool) (i c f f' : Nat) (ns : List Node), p.env = envFor w ld.gram l (d.words.drop i) starts c →
      parse p.env flag f = some p.res → TreesOf f' p ns → ∀ n ∈ ns, ∃ S ∈ starts, ∃ k,
        TextRoot (wholeGrammar ds ρ F I lw.ref w d).relaxed N (d.words.drop i) S k n := by
    rintro ⟨ptext, env, res, off⟩ flag i c f f' ns he hpar htr n hn
    simp only at he
    subst he
    obtain ⟨h1, -⟩ := C54_trees _ flag f f' ns (wf_envFor hwf _ _) (ord_envFor ho _ _ _ _ _) hun hany hpar htr
    obtain ⟨S, hS, s, -, -, hr⟩ := h1 n hn
    obtain ⟨g1, -, g2⟩ := hm (d.words.drop i) c
    exact ⟨S, hS, s.stop, (g1.relaxed.root g2 (hfit.free S (.inr hS))).1 hr⟩
  refine ⟨N, hN, fun fuel ns => ⟨fun hc => ?_, fun hc => ?_, fun hc n hn => ?_, fun hc n hn => ?_⟩⟩
  · obtain ⟨p, hp', htr⟩ := (C54_parse w ld.gram fuel context text starts).2 ns hc
    unfold earleyParseCtx at hp'
    rw [hp] at hp'
    obtain ⟨-, -, -, -, henv, hpar⟩ := earleyParse_ok hp'
    have := key p true 0 0 fuel fuel ns henv (henv ▸ hpar) htr
    rwa [List.drop_zero] at this
  · obtain ⟨p, hp', htr⟩ := (C54_parseAny w ld.gram fuel context text starts).2 ns hc
    obtain ⟨p', e, h1, h2, h3, -, -⟩ := C17_leftmost w ld.gram fuel context text starts d.words l hp _ hp'
    cases e
    exact ⟨p.off, h1, key p true p.off p.off fuel fuel ns h2 h3 htr⟩
  · obtain ⟨ps, nss, hp', hrel, rfl⟩ := (C54_extractAll w ld.gram fuel context text starts).2 ns hc
    obtain ⟨bs, hbs, hn⟩ := List.mem_flatten.1 hn
    obtain ⟨p, hpm, htr⟩ := hrel.mem_right hbs
    obtain ⟨h1, -, h2, h3, -⟩ := (C19_all_offsets w ld.gram fuel context text starts d.words l hp ps hp').2.1 p hpm
    exact ⟨p.off, h1, key p false p.off p.off fuel fuel bs h2 h3 htr n hn⟩
  · obtain ⟨ps, nss, hp', hrel, rfl⟩ := (C54_extractMaxAll w ld.gram fuel context text starts).2 ns hc
    obtain ⟨bs, hbs, hn⟩ := List.mem_flatten.1 hn
    obtain ⟨p, hpm, htr⟩ := hrel.mem_right hbs
    obtain ⟨h1, -, ⟨c, h2⟩, h3, -⟩ := (C18_greedy w ld.gram fuel context text starts d.words l hp ps hp').1 p hpm
    exact ⟨p.off, h1, key p true p.off c fuel fuel bs h2 h3 htr n hn⟩

omit hG in
/-- the parse calls, from the texts to the trees of the parser -/
theorem calls_of (hu : WholeUniform ds F I)
    (hsafe : WholeSafe ds F I lw.ref.annot (docSource w.find (wholeRegexps F I ρ) d) starts)
    (hs : starts ≠ []) (ho : w.OrdOK) : ∃ l, process w ld.gram context text = .ok (d.words, l) ∧ ∃ n, ∀ fuel ≥ n,
    (∃ ns, apiParse w ld.gram fuel context text starts = .ok ns ∧ (ns ≠ [] ↔ ∃ k, TextMatch w src starts d.words k) ∧
      ∀ t ∈ ns, ∃ S ∈ starts, ∃ k, callTree w ld.gram starts d.words l 0 S k t ∧ TextMatch w src starts d.words k ∧
        ∀ k', TextMatch w src starts d.words k' → k' ≤ k) ∧
    (∃ ns, apiParseAny w ld.gram fuel context text starts = .ok ns ∧
      FirstMatches (TextSpan w src d.words) (callTree w ld.gram starts d.words l) starts d.words.length ns) ∧
    (∃ groups : List (Nat × List Node), apiExtractAll w ld.gram fuel context text starts = .ok (groups.map (·.2)).flatten ∧
      AllMatches (TextSpan w src d.words) (callTree w ld.gram starts d.words l) starts d.words.length groups) ∧
    ((∀ S ∈ starts, ¬ SourcesDerive (terminalMatch w.lower w.registry) [src] S []) →
      ∃ groups : List ((Nat × Nat) × List Node),
        apiExtractMaxAll w ld.gram fuel context text starts = .ok (groups.map (·.2)).flatten ∧
        GreedyMatches (TextSpan w src d.words) (callTree w ld.gram starts d.words l) starts d.words.length groups ∧
        ParseGroups w ld.gram fuel context text starts d.words groups) := by
  have h := hload.held hlw
  obtain ⟨l, hp⟩ := h.processes ht hd
  subst hsrc
  have ha := annotates_iff.1 ht.annotated
  obtain ⟨hwf, hun, hany⟩ := h.env hp ha hd hfit
  have hns := h.nullSafe hp ha hd hfit hsafe 0
  have hub : UniformBounds (envFor w ld.gram l d.words starts 0) := h.uniform hp ha hd hu
  have hsp := h.spans hp ha hd hfit
  obtain ⟨n0, h0⟩ := h.parse hp ha hd hs ho hfit hu hns
  obtain ⟨n1, ns1, h1, h1'⟩ := C54_any_partial w ld.gram context text starts d.words l hp hs ho hwf hns hub hun hany
  obtain ⟨n2, ns2, h2, h2'⟩ := C54_all_partial w ld.gram context text starts d.words l hp hs ho hwf hns hub hun hany
  have h3 : ∃ n3, (∀ S ∈ starts, ¬ SourcesDerive (terminalMatch w.lower w.registry)
        [wholeSource ds F I lw.ref.annot (docSource w.find (wholeRegexps F I ρ) d)] S []) →
      ∃ groups : List ((Nat × Nat) × List Node),
        (∀ fuel ≥ n3, apiExtractMaxAll w ld.gram fuel context text starts = .ok (groups.map (·.2)).flatten) ∧
        GreedyMatches (callDerives w ld.gram starts d.words l) (callTree w ld.gram starts d.words l) starts d.words.length groups ∧
        ∀ fuel ≥ n3, ParseGroups w ld.gram fuel context text starts d.words groups := by
    by_cases hne : ∀ S ∈ starts, ¬ SourcesDerive (terminalMatch w.lower w.registry)
        [wholeSource ds F I lw.ref.annot (docSource w.find (wholeRegexps F I ρ) d)] S []
    · obtain ⟨n3, ns3, h3, h3', h3p⟩ := maxAll_groups w ld.gram context text starts d.words l hp hs ho hwf hns hub hun hany
        (h.noEmptyMatch hp ha hd hfit hu hne)
      exact ⟨n3, fun _ => ⟨ns3, h3, h3', h3p⟩⟩
    · exact ⟨0, fun h => absurd h hne⟩
  obtain ⟨n3, h3⟩ := h3
  refine ⟨l, hp, max n0 (max n1 (max n2 n3)), fun f hf => ⟨h0 f (by omega), ⟨ns1, h1 f (by omega), h1'.congr hsp⟩,
    ⟨ns2, h2 f (by omega), h2'.congr hsp⟩, fun hne => ?_⟩⟩
  obtain ⟨ns3, g1, g2, g3⟩ := h3 hne
  exact ⟨ns3, g1 f (by omega), g2.congr hsp, g3 f (by omega)⟩

/-- C76: the parse calls, from the texts to the trees. Missing for a full statement: grammars where optional parts are
placed so that the parser loses them (`WholeSafe`) or where ranges differ (`WholeUniform`), and, for `ExtractMaxAll`,
start rules that match nothing. -/
theorem C76_calls_partial (hu : WholeUniform ds F I)
    (hsafe : WholeSafe ds F I lw.ref.annot (docSource w.find (wholeRegexps F I ρ) d) starts)
    (hs : starts ≠ []) (ho : w.OrdOK) : ∃ names, LiteralNames names ∧ ∃ n, ∀ fuel ≥ n,
    (∃ ns, apiParse w ld.gram fuel context text starts = .ok ns ∧ (ns ≠ [] ↔ ∃ k, TextMatch w src starts d.words k) ∧
      ∀ t ∈ ns, ∃ S ∈ starts, ∃ k, TextRoot G names d.words S k t ∧ TextMatch w src starts d.words k ∧
        ∀ k', TextMatch w src starts d.words k' → k' ≤ k) ∧
    (∃ ns, apiParseAny w ld.gram fuel context text starts = .ok ns ∧
      FirstMatches (TextSpan w src d.words) (fun i => TextRoot G names (d.words.drop i)) starts d.words.length ns) ∧
    (∃ groups : List (Nat × List Node), apiExtractAll w ld.gram fuel context text starts = .ok (groups.map (·.2)).flatten ∧
      AllMatches (TextSpan w src d.words) (fun i => TextRoot G names (d.words.drop i)) starts d.words.length groups) ∧
    ((∀ S ∈ starts, ¬ SourcesDerive (terminalMatch w.lower w.registry) [src] S []) →
      ∃ groups : List ((Nat × Nat) × List Node),
        apiExtractMaxAll w ld.gram fuel context text starts = .ok (groups.map (·.2)).flatten ∧
        GreedyMatches (TextSpan w src d.words) (fun i => TextRoot G names (d.words.drop i)) starts d.words.length groups) := by
  obtain ⟨l, N, hp, hN, htree⟩ := C76_trees hlw hload w context text starts d ht hd src hsrc hfit G hG
  have htree : ∀ S ∈ starts, ∀ i k n, callTree w ld.gram starts d.words l i S k n → TextRoot G N (d.words.drop i) S k n :=
    fun S hS i k n hr => (htree S hS _ k n).1 hr
  obtain ⟨l', hp', n, hcall⟩ := calls_of hlw hload w context text starts d ht hd src hsrc hfit hu hsafe hs ho
  obtain rfl : l' = l := by
    rw [hp'] at hp
    exact (Prod.mk.inj (Out.ok.inj hp)).2
  refine ⟨N, hN, n, fun f hf => ?_⟩
  obtain ⟨⟨ns, g1, g2, g3⟩, ⟨ns1, h1, h1'⟩, ⟨ns2, h2, h2'⟩, h3⟩ := hcall f hf
  refine ⟨⟨ns, g1, g2, fun t ht' => ?_⟩, ⟨ns1, h1, h1'.trees_congr fun S hS i k n _ _ => htree S hS i k n⟩, ⟨ns2, h2, h2'.trees_congr fun S hS i k n _ _ => htree S hS i k n⟩, fun hne => ?_⟩
  · obtain ⟨S, hS, k, g4, g5⟩ := g3 t ht'
    exact ⟨S, hS, k, htree S hS 0 k t g4, g5⟩
  · obtain ⟨ns3, g1, g2, -⟩ := h3 hne
    exact ⟨ns3, g1, g2.trees_congr fun S hS i k n _ _ => htree S hS i k n⟩

end

end Fmr
