import Verif.Proofs.TextMeaning
import Verif.Proofs.TextFrames
import Verif.Props.TextTrees

/-!
# C78: meanings follow the texts of the grammar files

What `Semantic` and `Eval` give for the trees of the parse calls, against the meanings that the texts of the grammar
files and the tagged document give to the parts of the document.
-/

namespace Fmr

/-- No part without tokens is at the beginning or at the end of the tokens. -/
def NoEdge (toks : List Token) (n : Node) : Prop :=
  ∀ m, Node.Sub m n → m.value.start = m.value.stop → 0 < m.value.start ∧ m.value.start < toks.length

/-- Node `n` is a tree of a start rule that has a meaning `m`, or none, and both methods of the node say so: in every
parse of these tokens of the text, `Semantic` prints the meaning and `Eval` gives its value; both give an error if there
is none. -/
def NodeMeans (G : TextGrammar) (names : String → String → Prop) (w : NodeWorld) (text : Bytes) (toks : List Token)
    (starts : List String) (n : Node) : Prop :=
  ∃ S ∈ starts, ∃ k m, TextRoot G names toks S k n ∧ RuleMeans G names w text toks S k m ∧
    ∀ p : Parsed, p.text = text → p.env.tokens = toks →
      (∀ e, m = some e → n.semantic w p = .ok (e.print w) ∧ n.eval w p = e.value w) ∧
      (m = none → n.semantic w p = .err ∧ n.eval w p = .err)

mutual
/-- the methods of a node depend on the text and the tokens of the parse only -/
theorem kid_congr {w : NodeWorld} {p p' : Parsed} (h1 : p.text = p'.text) (h2 : p.env.tokens = p'.env.tokens) :
    ∀ n : Node, n.kid w p = n.kid w p'
  | .mk v cs => by
    have ht : p.originalText (.mk v []) = p'.originalText (.mk v []) := by
      unfold Parsed.originalText Parsed.pos
      rw [h1, h2]
    have hs : nodeSelf w p v = nodeSelf w p' v := by
      unfold nodeSelf nodeNL
      rw [ht, h2]
      unfold Parsed.pos
      rw [h2]
    unfold Node.kid
    rw [ht, hs, kids_congr h1 h2 cs]
theorem kids_congr {w : NodeWorld} {p p' : Parsed} (h1 : p.text = p'.text) (h2 : p.env.tokens = p'.env.tokens) :
    ∀ cs : List Node, kidsOf w p cs = kidsOf w p' cs
  | [] => rfl
  | c :: cs => by
    unfold kidsOf
    rw [kid_congr h1 h2 c, kids_congr h1 h2 cs]
end

/-- the nodes of a tree of a parse -/
theorem labelled_of {w : NodeWorld} {p : Parsed} {text : Bytes} {n : Node} (hord : TokensOrdered text p.env.tokens)
    (hlen : text.length ≤ p.text.length)
    (hin : ∀ m, Node.Sub m n → m.value.start ≤ m.value.stop ∧ m.value.stop ≤ p.env.tokens.length)
    (hedge : NoEdge p.env.tokens n) (hterm : ∀ m, Node.Sub m n → ∃ t, nodeTerm m.value = .ok t) : Labelled w p n := by
  refine ⟨fun m hm => ⟨⟨_, nl_of (hin m hm)⟩, ?_⟩, hterm⟩
  rcases C21_node p text m hord hlen (hin m hm) with ⟨_, _, _, _, _, _, h⟩ | ⟨_, _, _, _, _, h⟩ | ⟨⟨h1, h2⟩, _⟩
  · exact ⟨_, h⟩
  · exact ⟨_, h⟩
  · obtain ⟨h3, h4⟩ := hedge m hm h1
    omega

/-- a tree of what is written whose nodes are inside the tokens -/
theorem TextRoot.nodeMeans {G : TextGrammar} {N : String → String → Prop} {w : NodeWorld} {text : Bytes} {toks : List Token}
    {starts : List String} {S : String} {k : Nat} {n : Node} (h : TextRoot G N toks S k n) (hS : S ∈ starts)
    (hord : TokensOrdered text toks) (hc : CallsReturn w)
    (hin : ∀ m, Node.Sub m n → m.value.start ≤ m.value.stop ∧ m.value.stop ≤ toks.length)
    (hγ : ∀ c ∈ n.children, ∀ m, Node.Sub m c → m.value.term.value ≠ gammaRule) (hedge : NoEdge toks n) :
    NodeMeans G N w text toks starts n := by
  have hterm : ∀ m, Node.Sub m n → ∃ t, nodeTerm m.value = .ok t := by
    intro m hm
    cases hm with
    | refl =>
      obtain ⟨g1, -, -, -, g5, -⟩ := h
      rw [nodeTerm, if_pos (show n.value.term.value = gammaRule from g1), g5]
      exact ⟨_, rfl⟩
    | child hk hs => exact ⟨_, by rw [nodeTerm, if_neg (hγ _ hk m hs)]⟩
  have key : ∀ p : Parsed, p.text = text → p.env.tokens = toks → ∃ m, RuleMeans G N w text toks S k m ∧
      ((∀ e, m = some e → n.semantic w p = .ok (e.print w) ∧ n.eval w p = e.value w) ∧
      (m = none → n.semantic w p = .err ∧ n.eval w p = .err)) := by
    rintro p rfl rfl
    have hl : Labelled w p n := labelled_of hord (Nat.le_refl _) hin hedge hterm
    obtain ⟨m, h1, h2⟩ := root_means hord (Nat.le_refl _) hc hl hin hγ h
    refine ⟨m, h1, fun e he => means_ok ((h2 e).1 he), fun hm => ?_⟩
    have hno : ∀ e, ¬ Means w p n e := fun e he => by
      rw [(h2 e).2 he] at hm
      cases hm
    obtain ⟨s1, s2⟩ := settled_node hc n hl
    constructor
    · rcases s1 with ⟨s, hs⟩ | hs
      · obtain ⟨e, he⟩ := result_means n hl.1 (.inl ⟨s, hs⟩)
        exact absurd he (hno e)
      · exact hs
    · rcases s2 with ⟨s, hs⟩ | hs
      · obtain ⟨e, he⟩ := result_means n hl.1 (.inr ⟨s, hs⟩)
        exact absurd he (hno e)
      · exact hs
  obtain ⟨m, h1, h2⟩ := key ⟨text, { grammars := [], starts := [], tmatch := fun _ _ => false, ord := fun _ _ _ l => l, tokens := toks }, ⟨[], []⟩, 0⟩ rfl rfl
  refine ⟨S, hS, k, m, h, h1, fun p e1 e2 => ?_⟩
  have hk : n.kid w p = n.kid w ⟨text, { grammars := [], starts := [], tmatch := fun _ _ => false, ord := fun _ _ _ l => l, tokens := toks }, ⟨[], []⟩, 0⟩ := kid_congr e1 e2 n
  unfold Node.semantic Node.eval
  rw [hk]
  exact h2

/-- the nodes that one of the four parse calls returns -/
def Answer (w : World) (g : Gram) (fuel : Nat) (context : String) (text : Bytes) (starts : List String) (ns : List Node) : Prop :=
  apiParse w g fuel context text starts = .ok ns ∨ apiParseAny w g fuel context text starts = .ok ns ∨
  apiExtractAll w g fuel context text starts = .ok ns ∨ apiExtractMaxAll w g fuel context text starts = .ok ns

/-- the parses that these calls make -/
inductive Behind (w : World) (g : Gram) (fuel : Nat) (context : String) (text : Bytes) (starts : List String) : Parsed → Prop
  | parse {p : Parsed} : earleyParseCtx w g fuel context text starts = .ok p → Behind w g fuel context text starts p
  | any {p : Parsed} : earleyParseAny w g fuel context text starts = .ok (some p) → Behind w g fuel context text starts p
  | all {p : Parsed} {ps : List Parsed} : earleyParseAll w g fuel context text starts = .ok ps → p ∈ ps →
      Behind w g fuel context text starts p
  | maxAll {p : Parsed} {ps : List Parsed} : earleyParseMaxAll w g fuel context text starts = .ok ps → p ∈ ps →
      Behind w g fuel context text starts p

theorem Answer.behind {w : World} {g : Gram} {fuel : Nat} {context : String} {text : Bytes} {starts : List String} {ns : List Node}
    (h : Answer w g fuel context text starts ns) : ∀ n ∈ ns, ∃ p bs, Behind w g fuel context text starts p ∧ TreesOf fuel p bs ∧ n ∈ bs := by
  intro n hn
  rcases h with h | h | h | h
  · obtain ⟨p, h1, h2⟩ := (C54_parse w g fuel context text starts).2 ns h
    exact ⟨p, ns, .parse h1, h2, hn⟩
  · obtain ⟨p, h1, h2⟩ := (C54_parseAny w g fuel context text starts).2 ns h
    exact ⟨p, ns, .any h1, h2, hn⟩
  · obtain ⟨ps, nss, h1, hrel, rfl⟩ := (C54_extractAll w g fuel context text starts).2 ns h
    obtain ⟨bs, hbs, hn⟩ := List.mem_flatten.1 hn
    obtain ⟨p, hpm, htr⟩ := hrel.mem_right hbs
    exact ⟨p, bs, .all h1 hpm, htr, hn⟩
  · obtain ⟨ps, nss, h1, hrel, rfl⟩ := (C54_extractMaxAll w g fuel context text starts).2 ns h
    obtain ⟨bs, hbs, hn⟩ := List.mem_flatten.1 hn
    obtain ⟨p, hpm, htr⟩ := hrel.mem_right hbs
    exact ⟨p, bs, .maxAll h1 hpm, htr, hn⟩

theorem Behind.facts {w : World} {g : Gram} {fuel : Nat} {context : String} {text : Bytes} {starts : List String} {p : Parsed}
    (h : Behind w g fuel context text starts p) {tokens : List Token} {l : Option Grammar}
    (hp : process w g context text = .ok (tokens, l)) : p.text = text ∧ p.off < tokens.length ∧
      ∃ flag c, p.env = envFor w g l (tokens.drop p.off) starts c ∧ Fmr.parse p.env flag fuel = some p.res := by
  cases h with
  | parse h =>
    unfold earleyParseCtx at h
    rw [hp] at h
    obtain ⟨-, h1, h2, h3, h4, h5⟩ := earleyParse_ok h
    rw [h3]
    exact ⟨h2, List.length_pos_iff.2 h1, true, 0, h4, h4 ▸ h5⟩
  | any h =>
    unfold earleyParseAny at h
    rw [hp] at h
    simp only [Out.bind_ok] at h
    rcases parseAnyLoop_spec (tokens := tokens) tokens 0 none _ (by simp) h with ⟨-, h1⟩ | ⟨q, h1, -, h3, h4, h5, h6, -⟩
    · cases h1
    · cases h1
      exact ⟨h4, h3, true, _, h5, h6⟩
  | all h hm =>
    obtain ⟨h1, h2, h3, h4, -⟩ := (C19_all_offsets w g fuel context text starts tokens l hp _ h).2.1 p hm
    exact ⟨h2, h1, false, _, h3, h4⟩
  | maxAll h hm =>
    obtain ⟨h1, h2, ⟨c, h3⟩, h4, -⟩ := (C18_greedy w g fuel context text starts tokens l hp _ h).1 p hm
    exact ⟨h2, h1, true, c, h3, h4⟩

section
variable {lw : LoadWorld} (hlw : lw.lex.OK) {F : Files} {ds : List Def} {ρ : List (String × String)} {I : String → Prop}
  {ld : Loaded} (hload : LoadedFrom lw F ds ρ I ld) (w : World) (context : String) (text : Bytes) (starts : List String)
  (d : Doc) (ht : TextRead w context text d) (hd : DocFit w (wholeRegexps F I ρ) d) (hord : TokensOrdered text d.words)
  (src : Source) (hsrc : src = wholeSource ds F I lw.ref.annot (docSource w.find (wholeRegexps F I ρ) d))
  (hfit : WholeFit ds F I lw.ref src starts) (hγ : ∀ A ts, src A ts → ∀ t ∈ ts, t.type = .terminal → t.value ≠ "ɣ")
  (G : TextGrammar) (hG : G = wholeGrammar ds ρ F I lw.ref w d) (ho : w.OrdOK) (nw : NodeWorld) (hc : CallsReturn nw)
include hlw hload ht hd hord hsrc hfit hγ hG ho hc

/-- what the trees of the parser mean -/
theorem call_means : ∃ l names, process w ld.gram context text = .ok (d.words, l) ∧ LiteralNames names ∧
    ∀ (i c : Nat) (S : String) (k : Nat) (n : Node), S ∈ starts → k ≤ (d.words.drop i).length →
      RootOK (envFor w ld.gram l (d.words.drop i) starts c) (envFor w ld.gram l (d.words.drop i) starts c).relaxedLang S k n →
      (NoEdge (d.words.drop i) n → NodeMeans G.relaxed names nw text (d.words.drop i) starts n ∧
        (WholeUniform ds F I → NodeMeans G names nw text (d.words.drop i) starts n)) ∧
      (WholeSolid ds F I lw.ref.annot (docSource w.find (wholeRegexps F I ρ) d) → NoEdge (d.words.drop i) n) := by
  subst hsrc hG
  have h := hload.held hlw
  obtain ⟨l, hp⟩ := h.processes ht hd
  have ha := annotates_iff.1 ht.annotated
  obtain ⟨N, hN, hm⟩ := h.mirrors hp ha hd hfit
  obtain ⟨hwf, hun, hany⟩ := h.env hp ha hd hfit
  refine ⟨l, N, hp, hN, fun i c S k n hS hk hroot => ?_⟩
  obtain ⟨p, hpe⟩ : ∃ p : Parsed, p.env = envFor w ld.gram l (d.words.drop i) starts c := ⟨⟨[], _, ⟨[], []⟩, 0⟩, rfl⟩
  have htok : p.env.tokens = d.words.drop i := by rw [hpe]; rfl
  have hord' : TokensOrdered text (d.words.drop i) := hord.drop i
  have hwf' : (envFor w ld.gram l (d.words.drop i) starts c).WF := wf_envFor hwf _ _
  have hlit : (envFor w ld.gram l (d.words.drop i) starts c).NoGammaText := by
    intro t ⟨A, rb, hA, ht⟩ htt
    rcases h.defines (starts := starts) (c := c) hp ha hd hA with ⟨-, -, t', ⟨h1, B, b, hb, hm⟩, e⟩ | ⟨b, hb, hrel⟩ | ⟨h1, -⟩
    · exact hγ _ _ hb.source t (List.mem_flatMap.2 ⟨t', hm, e ▸ ht⟩) htt
    · obtain ⟨t0, ht0, h1⟩ := forall₂_mem_right hrel ht
      rcases h1 with ⟨h1, rfl⟩ | ⟨h1, -⟩
      · exact absurd htt h1
      · rw [htt] at h1; simp at h1
    · exact hγ _ _ (.document h1) t ht htt
  have hSr := hfit.free S (.inr hS)
  have hSg : S ≠ gammaRule := fun e => hSr (.inl e)
  have hrp : RootOK p.env p.env.relaxedLang S k n := by rw [hpe]; exact hroot
  have hin := hrp.inside (by rw [htok]; exact hk)
  rw [htok] at hin
  have hnog : ∀ c ∈ n.children, ∀ m, Node.Sub m c → m.value.term.value ≠ gammaRule := by
    obtain ⟨-, -, -, -, -, c, g6, g7⟩ := hroot
    intro c' hc' m hm
    rw [g6, List.mem_singleton] at hc'
    subst hc'
    exact TreeOK.no_gamma hwf' hlit g7 hSg m hm
  refine ⟨fun hedge => ?_, fun hs => ?_⟩
  · obtain ⟨m1, m2, m3⟩ := hm (d.words.drop i) c
    refine ⟨((m1.relaxed.root m3 hSr).1 hroot).nodeMeans hS hord' hc hin hnog hedge, fun hu => ?_⟩
    have hub : UniformBounds (envFor w ld.gram l (d.words.drop i) starts c) :=
      show UniformBounds (envFor w ld.gram l d.words starts c) from h.uniform hp ha hd hu
    exact ((m1.root m2 hSr).1 (hroot.strict hub)).nodeMeans hS hord' hc hin hnog hedge
  · have hne : NoEmpty p.env := by
      rw [hpe]
      exact show NoEmpty (envFor w ld.gram l d.words starts c) from h.noEmpty hp ha hd hs
    intro m hm e
    have := hrp.noEdge hne (by rw [htok]; exact hk) m hm
    rcases Nat.eq_zero_or_pos m.value.start with h0 | h0
    · exact absurd ⟨e, .inl h0⟩ this
    · refine ⟨h0, ?_⟩
      by_contra hlt
      exact this ⟨e, .inr (by rw [htok]; omega)⟩

theorem meanings_of : ∃ names, LiteralNames names ∧ ∀ fuel ns, Answer w ld.gram fuel context text starts ns → ∀ n ∈ ns,
    ∃ p bs, Behind w ld.gram fuel context text starts p ∧ TreesOf fuel p bs ∧ n ∈ bs ∧ p.text = text ∧
      p.off < d.words.length ∧ p.env.tokens = d.words.drop p.off ∧
      (NoEdge p.env.tokens n → NodeMeans G.relaxed names nw text p.env.tokens starts n ∧
        (WholeUniform ds F I → NodeMeans G names nw text p.env.tokens starts n)) ∧
      (WholeSolid ds F I lw.ref.annot (docSource w.find (wholeRegexps F I ρ) d) → NoEdge p.env.tokens n) := by
  obtain ⟨l, N, hp, hN, hm⟩ := call_means hlw hload w context text starts d ht hd hord src hsrc hfit hγ G hG ho nw hc
  subst hsrc hG
  have h := hload.held hlw
  have ha := annotates_iff.1 ht.annotated
  obtain ⟨hwf, hun, hany⟩ := h.env hp ha hd hfit
  refine ⟨N, hN, fun fuel ns hns n hn => ?_⟩
  obtain ⟨p, bs, hb, htr, hnb⟩ := hns.behind n hn
  obtain ⟨h1, h2, flag, c, he, hpar⟩ := hb.facts hp
  have htok : p.env.tokens = d.words.drop p.off := by rw [he]; rfl
  obtain ⟨S, hS, j, hj, hroot⟩ := tree_inside (by rw [he]; exact wf_envFor hwf _ _)
    (by rw [he]; exact ord_envFor ho _ _ _ _ _) (by rw [he]; exact hun) (by rw [he]; exact hany) hpar htr n hnb
  have hS' : S ∈ starts := by rw [he] at hS; exact hS
  rw [he] at hroot
  rw [htok] at hj
  refine ⟨p, bs, hb, htr, hnb, h1, h2, htok, ?_⟩
  rw [htok]
  exact hm p.off c S j n hS' hj hroot

/-- C78: for every tree that a parse call returns, over the tokens of the document from some token on, `Semantic` prints
the meaning that the texts of the grammar files give to the matched part, and `Eval` gives its value; both fail if there
is no meaning. Excluded are trees that have a part without tokens at the beginning or at the end of the tokens; the
bounds of `(any…)` and `(list<x>…)` terms may be those of another such term (see C09). -/
theorem C78_meanings : ∃ names, LiteralNames names ∧ ∀ fuel ns, Answer w ld.gram fuel context text starts ns → ∀ n ∈ ns,
    ∃ p bs, Behind w ld.gram fuel context text starts p ∧ TreesOf fuel p bs ∧ n ∈ bs ∧ p.text = text ∧
      p.off < d.words.length ∧ p.env.tokens = d.words.drop p.off ∧
      (NoEdge p.env.tokens n → NodeMeans G.relaxed names nw text p.env.tokens starts n) := by
  obtain ⟨N, hN, h⟩ := meanings_of hlw hload w context text starts d ht hd hord src hsrc hfit hγ G hG ho nw hc
  refine ⟨N, hN, fun fuel ns hns n hn => ?_⟩
  obtain ⟨p, bs, h1, h2, h3, h4, h5, h6, h7, -⟩ := h fuel ns hns n hn
  exact ⟨p, bs, h1, h2, h3, h4, h5, h6, fun e => (h7 e).1⟩

/-- C78 with the bounds that are written. Missing for a full statement: grammars where ranges differ (`WholeUniform`) or
where parts are optional (`WholeSolid`). -/
theorem C78_partial (hu : WholeUniform ds F I)
    (hs : WholeSolid ds F I lw.ref.annot (docSource w.find (wholeRegexps F I ρ) d)) :
    ∃ names, LiteralNames names ∧ ∀ fuel ns, Answer w ld.gram fuel context text starts ns → ∀ n ∈ ns,
    ∃ p bs, Behind w ld.gram fuel context text starts p ∧ TreesOf fuel p bs ∧ n ∈ bs ∧ p.text = text ∧
      p.off < d.words.length ∧ p.env.tokens = d.words.drop p.off ∧ NodeMeans G names nw text p.env.tokens starts n := by
  obtain ⟨N, hN, h⟩ := meanings_of hlw hload w context text starts d ht hd hord src hsrc hfit hγ G hG ho nw hc
  refine ⟨N, hN, fun fuel ns hns n hn => ?_⟩
  obtain ⟨p, bs, h1, h2, h3, h4, h5, h6, h7, h8⟩ := h fuel ns hns n hn
  exact ⟨p, bs, h1, h2, h3, h4, h5, h6, (h7 (h8 hs)).2 hu⟩

end

end Fmr
