import Verif.Spec.Unused
import Verif.Props.Moved
import Verif.Props.EndToEnd

/-!
# C116: rules that are not used do not matter
-/

namespace Fmr

/-! ### derivations and trees use only the rules that can be reached -/

/-- the term refers to a rule in `R`, if to any -/
def Term.usedIn (R : String → Prop) (t : Term) : Prop := t.type = .nonterminal ∨ t.type = .list → R t.value

theorem Yields.used {R : String → Prop} {L L' : Lang} (ht : L.tmatch = L'.tmatch) (ha : L.okAny = L'.okAny)
    (hl : L.okList = L'.okList) (hp : ∀ A, R A → ∀ ts, L.prods A ts → L'.prods A ts)
    (hc : ∀ A, R A → ∀ ts, L.prods A ts → ∀ t ∈ ts, t.usedIn R) {ts : List Term} {w : List Token} (h : Yields L ts w) :
    (∀ t ∈ ts, t.usedIn R) → Yields L' ts w := by
  induction h with
  | nil => exact fun _ => .nil
  | terminal h1 h2 _ ih =>
    exact fun hu => .terminal h1 (ht ▸ h2) (ih fun t h => hu t (List.mem_cons_of_mem _ h))
  | nonterminal h1 h2 _ _ ih1 ih2 =>
    intro hu
    have hR := hu _ List.mem_cons_self (.inl h1)
    exact .nonterminal h1 (hp _ hR _ h2) (ih1 (hc _ hR _ h2)) (ih2 fun t h => hu t (List.mem_cons_of_mem _ h))
  | any h1 h2 _ ih => exact fun hu => .any h1 (ha ▸ h2) (ih fun t h => hu t (List.mem_cons_of_mem _ h))
  | list h1 h2 _ _ ih1 ih2 =>
    intro hu
    have hR := hu _ List.mem_cons_self (.inr h1)
    exact .list h1 (hl ▸ h2) (ih1 fun t h _ => by rw [List.eq_of_mem_replicate h]; exact hR)
      (ih2 fun t h => hu t (List.mem_cons_of_mem _ h))

/-- the symbol refers to a rule in `R`, if to any -/
def Sym.usedIn (R : String → Prop) : Sym → Prop
  | .other t => t.usedIn R
  | _ => True

section
variable {R : String → Prop} {G G' : TextGrammar} {N : String → String → Prop} {toks : List Token} (hr : G.read = G'.read)
  (ht : G.tmatch = G'.tmatch) (ha : G.okAny = G'.okAny) (hl : G.okList = G'.okList)
  (hp : ∀ A, R A → ∀ syms f, G.alts A syms f → G'.alts A syms f)
  (hc : ∀ A, R A → ∀ syms f, G.alts A syms f → ∀ s ∈ syms, s.usedIn R)
include hr ht ha hl hp hc

theorem TextTree.used {s : Sym} {a b : Nat} {n : Node} (h : TextTree G N toks s a b n) : s.usedIn R → TextTree G' N toks s a b n := by
  refine TextTree.rec (motive_1 := fun s a b n _ => s.usedIn R → TextTree G' N toks s a b n)
    (motive_2 := fun ss a b ns _ => (∀ s ∈ ss, s.usedIn R) → TextForest G' N toks ss a b ns) ?_ ?_ ?_ ?_ ?_ ?_ ?_ h
  · intro _ _ _ _ h1 h2 h3 h4 h5 h6 h7 _
    exact .token h1 (ht ▸ h2) h3 h4 h5 h6 h7
  · intro _ _ _ _ h1 h2 h3 h4 h5 _ ih _
    refine .literal h1 h2 (hr ▸ h3) h4 h5 ?_
    rw [← hr]
    refine ih fun s hs => ?_
    obtain ⟨_, -, rfl⟩ := List.mem_map.1 hs
    trivial
  · intro _ _ _ _ h1 h2 h3 h4 h5 h6 h7 h8 h9 h10 _
    exact .any h1 h2 h3 (ha ▸ h4) h5 h6 h7 h8 h9 h10
  · intro _ _ _ _ _ _ h1 h2 h3 h4 h5 h6 h7 h8 _ ih hu
    have hR := hu (.inl h1)
    exact .rule h1 (hp _ hR _ _ h2) h3 h4 h5 h6 h7 h8 (ih (hc _ hR _ _ h2))
  · intro _ _ _ _ _ h1 h2 h3 h4 h5 h6 h7 _ ih hu
    have hR := hu (.inr h1)
    refine .list h1 (hl ▸ h2) h3 h4 h5 h6 h7 (ih fun s hs => ?_)
    rw [List.eq_of_mem_replicate hs]
    exact fun _ => hR
  · exact fun _ => .nil
  · intro _ _ _ _ _ _ _ _ _ ih1 ih2 hu
    exact .cons (ih1 (hu _ List.mem_cons_self)) (ih2 fun s hs => hu s (List.mem_cons_of_mem _ hs))

theorem TextRoot.used {S : String} (hS : R S) {k : Nat} {n : Node} (h : TextRoot G N toks S k n) : TextRoot G' N toks S k n := by
  obtain ⟨h1, h2, h3, h4, h5, c, h6, h7⟩ := h
  exact ⟨h1, h2, h3, h4, h5, c, h6, h7.used hr ht ha hl hp hc fun _ => hS⟩

end

/-! ### files -/

section
variable {R : String → Prop} {ds ds' : List Def} {F F' : Files} {I I' : String → Prop} {ρ ρ' : List (String × String)}

theorem SameUsed.symm (h : SameUsed R ds F I ρ ds' F' I' ρ') : SameUsed R ds' F' I' ρ' ds F I ρ :=
  ⟨fun A hA b => (h.alternatives A hA b).symm, fun A hA s => (h.regexps A hA s).symm,
    fun A hA b hb => h.closed A hA b ((h.alternatives A hA b).2 hb)⟩

theorem docSource_used {find : String → Bytes → Option (List (Nat × Nat))} {Q Q' : String → String → Prop} {d : Doc} {A : String}
    (h : ∀ s, Q A s → Q' A s) {ts : List Term} (hd : docSource find Q d A ts) : docSource find Q' d A ts := by
  cases hd with
  | word h1 h2 => exact .word h1 h2
  | punct h1 h2 => exact .punct h1 h2
  | symbol h1 h2 => exact .symbol h1 h2
  | letters h1 h2 => exact .letters h1 h2
  | tag h1 h2 h3 => exact .tag h1 h2 h3
  | regexp h1 h2 h3 h4 => exact .regexp (h _ h1) h2 h3 h4

theorem docSource_tokens {find : String → Bytes → Option (List (Nat × Nat))} {Q : String → String → Prop} {d : Doc} {A : String}
    {ts : List Term} (hd : docSource find Q d A ts) : ∀ t ∈ ts, t.type = .terminal := by
  have key : ∀ l : List Token, ∀ t ∈ l.map tokenTerm, t.type = .terminal := by
    intro l t ht
    obtain ⟨_, -, rfl⟩ := List.mem_map.1 ht
    rfl
  cases hd with
  | word h1 h2 => exact key [_]
  | punct h1 h2 => exact key [_]
  | symbol h1 h2 => exact key [_]
  | letters h1 h2 => exact key [_]
  | tag h1 h2 h3 => exact key _
  | regexp h1 h2 h3 h4 => exact key _

theorem docAlt_used {find : String → Bytes → Option (List (Nat × Nat))} {Q Q' : String → String → Prop} {d : Doc} {A : String}
    (h : ∀ s, Q A s → Q' A s) {b : RuleBody} (hd : DocAlt find Q d A b) : DocAlt find Q' d A b := by
  cases hd with
  | word h1 h2 => exact .word h1 h2
  | punct h1 h2 => exact .punct h1 h2
  | symbol h1 h2 => exact .symbol h1 h2
  | letters h1 h2 => exact .letters h1 h2
  | tag h1 h2 h3 => exact .tag h1 h2 h3
  | values h1 h2 h3 => exact .values h1 h2 h3
  | regexp h1 h2 h3 h4 => exact .regexp (h _ h1) h2 h3 h4

theorem readTerm_used {annot : String → Option (List Token)} {t u : Term} (ht : t.usedIn R) (hu : u ∈ readTerm annot t) : u.usedIn R := by
  unfold readTerm at hu
  split at hu
  · obtain ⟨_, -, rfl⟩ := List.mem_map.1 hu
    rintro (h | h) <;> cases h
  · rw [List.mem_singleton.1 hu]
    exact ht

/-- the productions of the rules in use are the same -/
theorem derive_used (h : SameUsed R ds F I ρ ds' F' I' ρ') {annot : String → Option (List Token)} {w : World} {d : Doc} {S : String}
    (hS : R S) {ws : List Token}
    (hd : SourcesDerive (terminalMatch w.lower w.registry) [wholeSource ds F I annot (docSource w.find (wholeRegexps F I ρ) d)] S ws) :
    SourcesDerive (terminalMatch w.lower w.registry) [wholeSource ds' F' I' annot (docSource w.find (wholeRegexps F' I' ρ') d)] S ws := by
  refine Yields.used (R := R) (L := sourcesLang _ [wholeSource ds F I annot (docSource w.find (wholeRegexps F I ρ) d)])
    (L' := sourcesLang _ [wholeSource ds' F' I' annot (docSource w.find (wholeRegexps F' I' ρ') d)]) rfl rfl rfl ?_ ?_ hd fun t ht _ => by rw [List.mem_singleton.1 ht]; exact hS
  · rintro A hA ts ⟨s, hs, h1⟩
    rw [List.mem_singleton.1 hs, wholeSource_iff] at h1
    refine ⟨_, List.mem_singleton.2 rfl, wholeSource_iff.2 ?_⟩
    rcases h1 with ⟨b, hb, e⟩ | h1
    · exact .inl ⟨b, (h.alternatives A hA b).1 hb, e⟩
    · exact .inr (docSource_used (fun s => (h.regexps A hA s).1) h1)
  · rintro A hA ts ⟨s, hs, h1⟩ t ht
    rw [List.mem_singleton.1 hs, wholeSource_iff] at h1
    rcases h1 with ⟨b, hb, rfl⟩ | h1
    · obtain ⟨u, hu, ht⟩ := List.mem_flatMap.1 ht
      exact readTerm_used (h.closed A hA b hb u hu) ht
    · rintro (e | e) <;> rw [docSource_tokens h1 t ht] at e <;> cases e

/-- the trees of the rules in use are the same -/
theorem root_used (h : SameUsed R ds F I ρ ds' F' I' ρ') {rw' : RefineWorld} {w : World} {d : Doc} {N : String → String → Prop}
    {toks : List Token} {S : String} (hS : R S) {k : Nat} {n : Node} (hn : TextRoot (wholeGrammar ds ρ F I rw' w d) N toks S k n) :
    TextRoot (wholeGrammar ds' ρ' F' I' rw' w d) N toks S k n := by
  refine TextRoot.used (R := R) (G := wholeGrammar ds ρ F I rw' w d) (G' := wholeGrammar ds' ρ' F' I' rw' w d) rfl rfl rfl rfl ?_ ?_ hS hn
  · intro A hA syms f h1
    refine wholeAlts_iff.2 ?_
    rcases wholeAlts_iff.1 h1 with ⟨b, hb, e⟩ | ⟨b, hb, e⟩
    · exact .inl ⟨b, (h.alternatives A hA b).1 hb, e⟩
    · exact .inr ⟨b, docAlt_used (fun s => (h.regexps A hA s).1) hb, e⟩
  · intro A hA syms f h1 s hs
    rcases wholeAlts_iff.1 h1 with ⟨b, hb, rfl, -⟩ | ⟨b, hb, rfl, -⟩
    · obtain ⟨t, ht, rfl⟩ := List.mem_map.1 hs
      unfold writtenSym
      split
      · trivial
      · exact h.closed A hA b hb t ht
    · obtain ⟨t, ht, rfl⟩ := List.mem_map.1 hs
      trivial

end

/-! ### the calls -/

section
variable {lw lw' : LoadWorld} (hlw : lw.lex.OK) (hlw' : lw'.lex.OK) (href : lw.ref = lw'.ref)
  {F F' : Files} {ds ds' : List Def} {ρ ρ' : List (String × String)} {I I' : String → Prop} {ld ld' : Loaded}
  (hload : LoadedFrom lw F ds ρ I ld) (hload' : LoadedFrom lw' F' ds' ρ' I' ld') {R : String → Prop}
  (hsame : SameUsed R ds F I ρ ds' F' I' ρ')
  (w : World) (ho : w.OrdOK) (context : String) (text : Bytes) (starts : List String) (hs : starts ≠ []) (hR : ∀ S ∈ starts, R S)
  (d : Doc) (ht : TextRead w context text d)
  (hd : DocFit w (wholeRegexps F I ρ) d) (hd' : DocFit w (wholeRegexps F' I' ρ') d)
  (src : Source) (hsrc : src = wholeSource ds F I lw.ref.annot (docSource w.find (wholeRegexps F I ρ) d))
  (src' : Source) (hsrc' : src' = wholeSource ds' F' I' lw'.ref.annot (docSource w.find (wholeRegexps F' I' ρ') d))
  (hfit : WholeFit ds F I lw.ref src starts) (hfit' : WholeFit ds' F' I' lw'.ref src' starts)
  (G : TextGrammar) (hG : G = wholeGrammar ds ρ F I lw.ref w d)
  (hu : WholeUniform ds F I) (hu' : WholeUniform ds' F' I')
  (hsafe : WholeSafe ds F I lw.ref.annot (docSource w.find (wholeRegexps F I ρ) d) starts)
  (hsafe' : WholeSafe ds' F' I' lw'.ref.annot (docSource w.find (wholeRegexps F' I' ρ') d) starts)
include hlw hlw' href hload hload' hsame ho hs hR ht hd hd' hsrc hsrc' hfit hfit' hG hu hu' hsafe hsafe'

/-- C116: two sets of files that agree on the rules that the start rules can reach give the same matches in all four calls:
at the same places, of the same length and for the same start rules, with trees that are all derivation trees of the first.
Missing for a full statement: the conditions of C96 hold for each of the two sets as a whole, with the rules that are not
used; without them C116 is false, see `C116_false`. -/
theorem C116_calls_partial : ∃ names names', LiteralNames names ∧ LiteralNames names' ∧ ∃ n, ∀ fuel ≥ n,
    (∃ ns ns', apiParse w ld.gram fuel context text starts = .ok ns ∧ apiParse w ld'.gram fuel context text starts = .ok ns' ∧
      (ns = [] ↔ ns' = []) ∧ ∃ k, (∀ t ∈ ns, ∃ S ∈ starts, TextRoot G names d.words S k t) ∧
        ∀ t ∈ ns', ∃ S ∈ starts, TextRoot G names' d.words S k t) ∧
    (∃ ns ns', apiParseAny w ld.gram fuel context text starts = .ok ns ∧ apiParseAny w ld'.gram fuel context text starts = .ok ns' ∧
      (ns = [] ↔ ns' = []) ∧ ∃ i k, (∀ t ∈ ns, ∃ S ∈ starts, TextRoot G names (d.words.drop i) S k t) ∧
        ∀ t ∈ ns', ∃ S ∈ starts, TextRoot G names' (d.words.drop i) S k t) ∧
    (∃ gs gs' : List (Nat × List Node), apiExtractAll w ld.gram fuel context text starts = .ok (gs.map (·.2)).flatten ∧
      apiExtractAll w ld'.gram fuel context text starts = .ok (gs'.map (·.2)).flatten ∧ gs.map (·.1) = gs'.map (·.1) ∧
      ∀ a ∈ gs, ∀ a' ∈ gs', a.1 = a'.1 → ∀ S ∈ starts, ∀ k,
        (∃ t ∈ a.2, TextRoot G names (d.words.drop a.1) S k t) ↔ ∃ t ∈ a'.2, TextRoot G names' (d.words.drop a.1) S k t) ∧
    ((∀ S ∈ starts, ¬ SourcesDerive (terminalMatch w.lower w.registry) [src] S []) →
      ∃ gs gs' : List ((Nat × Nat) × List Node), apiExtractMaxAll w ld.gram fuel context text starts = .ok (gs.map (·.2)).flatten ∧
        apiExtractMaxAll w ld'.gram fuel context text starts = .ok (gs'.map (·.2)).flatten ∧ gs.map (·.1) = gs'.map (·.1) ∧
        (∀ a ∈ gs, a.2 ≠ [] ∧ ∀ t ∈ a.2, ∃ S ∈ starts, TextRoot G names (d.words.drop a.1.1) S a.1.2 t) ∧
        ∀ a ∈ gs', a.2 ≠ [] ∧ ∀ t ∈ a.2, ∃ S ∈ starts, TextRoot G names' (d.words.drop a.1.1) S a.1.2 t) := by
  obtain ⟨N, hN, n1, h1⟩ := C76_calls_partial hlw hload w context text starts d ht hd src hsrc hfit G hG hu hsafe hs ho
  obtain ⟨N', hN', n2, h2⟩ := C76_calls_partial hlw' hload' w context text starts d ht hd' src' hsrc' hfit' _ rfl hu' hsafe' hs ho
  refine ⟨N, N', hN, hN', max n1 n2, fun fuel hf => ?_⟩
  refine callsFind_same (h1 fuel (by omega)) ?_
  have hder : ∀ S ∈ starts, ∀ ws, SourcesDerive (terminalMatch w.lower w.registry) [src'] S ws ↔
      SourcesDerive (terminalMatch w.lower w.registry) [src] S ws := by
    intro S hS ws
    rw [hsrc, hsrc', ← href]
    exact ⟨derive_used hsame.symm (hR S hS), derive_used hsame (hR S hS)⟩
  have hsp : ∀ S ∈ starts, ∀ i k, TextSpan w src' d.words S i k ↔ TextSpan w src d.words S i k := fun S hS i k => hder S hS _
  have hm : ∀ k, TextMatch w src' starts d.words k ↔ TextMatch w src starts d.words k := fun k =>
    and_congr_right fun _ => exists_congr fun S => and_congr_right fun hS => hder S hS _
  have htree : ∀ S ∈ starts, ∀ i k n, TextRoot (wholeGrammar ds' ρ' F' I' lw'.ref w d) N' (d.words.drop i) S k n →
      TextRoot G N' (d.words.drop i) S k n := by
    intro S hS i k n hn
    rw [hG, href]
    exact root_used hsame.symm (hR S hS) hn
  obtain ⟨⟨p, p1, p2, p3⟩, ⟨q, q1, q2⟩, ⟨gs, r1, r2⟩, m⟩ := h2 fuel (by omega)
  simp only [hm] at p2 p3
  refine ⟨⟨p, p1, p2, fun t ht => ?_⟩, ⟨q, q1, (q2.congr hsp).trees_congr fun S hS i k n _ _ => htree S hS i k n⟩,
    ⟨gs, r1, (r2.congr hsp).trees_congr fun S hS i k n _ _ => htree S hS i k n⟩, fun hne => ?_⟩
  · obtain ⟨S, hS, k, g1, g2⟩ := p3 t ht
    exact ⟨S, hS, k, htree S hS 0 k t g1, g2⟩
  · obtain ⟨gs, m1, m2⟩ := m fun S hS h => hne S hS ((hder S hS _).1 h)
    exact ⟨gs, m1, (m2.congr hsp).trees_congr fun S hS i k n _ _ => htree S hS i k n⟩

end

end Fmr
