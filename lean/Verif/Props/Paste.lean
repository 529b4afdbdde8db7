import Verif.Spec.Paste
import Verif.Props.Layout
import Verif.Props.Moved
import Verif.Proofs.NumberZh
import Verif.Proofs.Unique

/-!
# C118: includes can be pasted in
-/

namespace Fmr

theorem mem_mapSet_or {k v : String} {e : String × String} : ∀ {m : List (String × String)}, e ∈ mapSet m k v → e = (k, v) ∨ e ∈ m
  | [], h => by simpa [mapSet] using h
  | (a, x) :: m, h => by
    by_cases h1 : a = k
    · simp only [mapSet, beq_iff_eq, h1, if_true, List.mem_cons] at h
      exact h.imp_right fun h => List.mem_cons_of_mem _ h
    · simp only [mapSet, beq_iff_eq, h1, if_false, List.mem_cons] at h
      rcases h with rfl | h
      · exact .inr List.mem_cons_self
      · exact (mem_mapSet_or h).imp_right (List.mem_cons_of_mem _)

theorem mem_setAll {e : String × String} {l : List (String × String)} : ∀ {m : List (String × String)}, e ∈ setAll m l → e ∈ m ∨ e ∈ l := by
  induction l with
  | nil => exact fun h => .inl h
  | cons a l ih =>
    intro m h
    rcases ih (m := mapSet m a.1 a.2) h with h | h
    · rcases mem_mapSet_or h with rfl | h
      · exact .inr List.mem_cons_self
      · exact .inl h
    · exact .inr (List.mem_cons_of_mem _ h)

theorem keys_setAll {k : String} {l : List (String × String)} : ∀ {m : List (String × String)},
    k ∈ m.map Prod.fst ∨ k ∈ l.map Prod.fst → k ∈ (setAll m l).map Prod.fst := by
  induction l with
  | nil => rintro m (h | h); exacts [h, by simp at h]
  | cons a l ih =>
    intro m h
    refine ih (m := mapSet m a.1 a.2) ?_
    rcases h with h | h
    · exact .inl (mem_keys_set h)
    · rw [List.map_cons, List.mem_cons] at h
      rcases h with rfl | h
      · exact .inl (mem_keys_new _ _ _)
      · exact .inr h

/-- a table without conflicts has all entries that are written -/
theorem setAll_table {l : List (String × String)} (h : ∀ k s s', (k, s) ∈ l → (k, s') ∈ l → s = s') (k s : String) :
    (k, s) ∈ setAll [] l ↔ (k, s) ∈ l := by
  refine ⟨fun h1 => (mem_setAll h1).resolve_left (by simp), fun h1 => ?_⟩
  obtain ⟨⟨k', s'⟩, h2, rfl⟩ := List.mem_map.1 (keys_setAll (m := []) (.inr (List.mem_map.2 ⟨_, h1, rfl⟩)))
  have h3 := (mem_setAll h2).resolve_left (by simp)
  rwa [h _ _ _ h1 h3]

section
variable {w : LexWorld} {F : Files} {ds : List Def} {ρ : List (String × String)} {I : String → Prop} {ps : List String} {text : List Char}

theorem paste_defs {body : String → List Char} {ps : List String} : ∀ {ρ0 : List (String × String)},
    (∀ p ∈ ps, DefsSyn w (body p) (F.defs p) [] (F.regexps p)) →
    DefsSyn w (ps.flatMap body) (ps.flatMap F.defs) ρ0 (setAll ρ0 (ps.flatMap F.regexps)) := by
  induction ps with
  | nil => exact fun _ => .nil Gap.nil
  | cons p ps ih =>
    intro ρ0 h
    rw [List.flatMap_cons, List.flatMap_cons, List.flatMap_cons, setAll_append]
    exact ((h p List.mem_cons_self).over ρ0).append (ih fun q hq => h q (List.mem_cons_of_mem _ hq))

/-- the definitions in the pasted text -/
theorem Pastes.defs (h : Pastes w F ds ρ I ps text) :
    DefsSyn w text (ps.flatMap F.defs ++ ds) [] (setAll [] (ps.flatMap F.regexps ++ ρ)) := by
  obtain ⟨body, r, h1, h2, rfl⟩ := h.text
  rw [setAll_append]
  exact (paste_defs h1).append (h2.over _)

/-- the pasted text includes nothing -/
theorem Pastes.alone {lw : LoadWorld} (hw : lw.lex.OK) (h : Pastes lw.lex F ds ρ I ps text) (hg : runeError ∉ text) (dir p : String) :
    ¬ Includes lw dir text p := by
  have ht : ∀ f, ¬ Target lw.lex text f := by
    rintro f ⟨fs, hh, hf⟩
    have hd := h.defs
    generalize text = t at hh hd hg
    cases hh with
    | nil => cases hf
    | cons h1 _ => exact h1.not_defs hw hd hg
  intro hi
  induction hi with
  | direct h1 => exact ht _ h1
  | step _ _ _ _ ih => exact ih

/-- the pasted text says the same -/
theorem Pastes.same {I' : String → Prop} (h : Pastes w F ds ρ I ps text) (hno : ∀ p, ¬ I' p)
    (hn : ∀ k s s', wholeRegexps F I ρ k s → wholeRegexps F I ρ k s' → s = s') :
    SameText ds F I ρ (ps.flatMap F.defs ++ ds) F I' (setAll [] (ps.flatMap F.regexps ++ ρ)) := by
  have hm : ∀ k s, (k, s) ∈ ps.flatMap F.regexps ++ ρ ↔ wholeRegexps F I ρ k s := by
    intro k s
    simp only [wholeRegexps, List.mem_append, List.mem_flatMap, h.files]
    exact or_comm
  constructor
  · intro A b
    constructor
    · rintro (⟨d, h1, h2⟩ | ⟨p, hp, d, h1, h2⟩)
      · exact .inl ⟨d, List.mem_append_right _ h1, h2⟩
      · exact .inl ⟨d, List.mem_append_left _ (List.mem_flatMap.2 ⟨p, (h.files p).1 hp, h1⟩), h2⟩
    · rintro (⟨d, h1, h2⟩ | ⟨p, hp, -⟩)
      · rcases List.mem_append.1 h1 with h1 | h1
        · obtain ⟨p, hp, h1⟩ := List.mem_flatMap.1 h1
          exact .inr ⟨p, (h.files p).2 hp, d, h1, h2⟩
        · exact .inl ⟨d, h1, h2⟩
      · exact absurd hp (hno p)
  · intro k s
    have e := setAll_table (l := ps.flatMap F.regexps ++ ρ) (fun k s s' h1 h2 => hn k s s' ((hm _ _).1 h1) ((hm _ _).1 h2)) k s
    constructor
    · exact fun h1 => .inl (e.2 ((hm _ _).2 h1))
    · rintro (h1 | ⟨p, hp, -⟩)
      · exact (hm _ _).1 (e.1 h1)
      · exact absurd hp (hno p)

end

section
variable {lw : LoadWorld} (hlw : lw.lex.OK) {F : Files} {ds : List Def} {ρ : List (String × String)} {I : String → Prop} {ld ld' : Loaded}
  (hload : LoadedFrom lw F ds ρ I ld) {ps : List String} {gtext : List Char} (hp : Pastes lw.lex F ds ρ I ps gtext)
  (hg : runeError ∉ gtext) (hc : NoCollision lw.lex.hash (ps.flatMap F.defs ++ ds)) {fuel0 depth : Nat} {name : String} {reg : Registry}
  {st : LoadSt} (hload' : loadString lw fuel0 depth gtext name reg = .ok (some ld', st))
  (w : World) (ho : w.OrdOK) (context : String) (text : Bytes) (starts : List String) (hs : starts ≠ [])
  (d : Doc) (ht : TextRead w context text d) (hd : DocFit w (wholeRegexps F I ρ) d)
  (src : Source) (hsrc : src = wholeSource ds F I lw.ref.annot (docSource w.find (wholeRegexps F I ρ) d))
  (hfit : WholeFit ds F I lw.ref src starts)
  (G : TextGrammar) (hG : G = wholeGrammar ds ρ F I lw.ref w d) (hu : WholeUniform ds F I)
  (hsafe : WholeSafe ds F I lw.ref.annot (docSource w.find (wholeRegexps F I ρ) d) starts)
include hlw hload hp hg hc hload' ho hs ht hd hsrc hfit hG hu hsafe

/-- C118: a grammar with includes, and the text with the definitions of all included files pasted in, give the same matches in all
four calls: at the same places, of the same length and for the same start rules, with trees that are all derivation trees of the same
texts. Missing for a full statement: the conditions of C76 on the grammar with includes; without the one on literals C118 is false,
see `C118_false`. -/
theorem C118_calls_partial : ∃ names names', LiteralNames names ∧ LiteralNames names' ∧ ∃ n, ∀ fuel ≥ n,
    (∃ ns ns', apiParse w ld.gram fuel context text starts = .ok ns ∧ apiParse w ld'.gram fuel context text starts = .ok ns' ∧
      (ns = [] ↔ ns' = []) ∧ ∃ k, (∀ t ∈ ns, ∃ S ∈ starts, TextRoot G names d.words S k t) ∧
        ∀ t ∈ ns', ∃ S ∈ starts, TextRoot G names' d.words S k t) ∧
    (∃ ns ns', apiParseAny w ld.gram fuel context text starts = .ok ns ∧ apiParseAny w ld'.gram fuel context text starts = .ok ns' ∧
      (ns = [] ↔ ns' = []) ∧ ∃ i k, (∀ t ∈ ns, ∃ S ∈ starts, TextRoot G names (d.words.drop i) S k t) ∧
        ∀ t ∈ ns', ∃ S ∈ starts, TextRoot G names' (d.words.drop i) S k t) ∧
    (∃ gs gs' : List (Nat × List Node), apiExtractAll w ld.gram fuel context text starts = .ok (gs.map (·.2)).flatten ∧
      apiExtractAll w ld'.gram fuel context text starts = .ok (gs'.map (·.2)).flatten ∧ gs.map (·.1) = gs'.map (·.1) ∧
      ∀ a ∈ gs, ∀ a' ∈ gs', a.1 = a'.1 → ∀ S ∈ starts, ∀ k,
        (∃ t ∈ a.2, TextRoot G names (d.words.drop a.1) S k t) ↔ ∃ t ∈ a'.2, TextRoot G names' (d.words.drop a.1) S k t) ∧
    ((∀ S ∈ starts, ¬ SourcesDerive (terminalMatch w.lower w.registry) [src] S []) →
      ∃ gs gs' : List ((Nat × Nat) × List Node), apiExtractMaxAll w ld.gram fuel context text starts = .ok (gs.map (·.2)).flatten ∧
        apiExtractMaxAll w ld'.gram fuel context text starts = .ok (gs'.map (·.2)).flatten ∧ gs.map (·.1) = gs'.map (·.1) ∧
        (∀ a ∈ gs, a.2 ≠ [] ∧ ∀ t ∈ a.2, ∃ S ∈ starts, TextRoot G names (d.words.drop a.1.1) S a.1.2 t) ∧
        ∀ a ∈ gs', a.2 ≠ [] ∧ ∀ t ∈ a.2, ∃ S ∈ starts, TextRoot G names' (d.words.drop a.1.1) S a.1.2 t) := by
  have hno := hp.alone hlw hg "."
  exact C96_calls_partial hlw hlw rfl hload
    (.string hg (.defs hp.defs) hc ⟨fun q _ h => absurd h (hno q), fun q h => absurd h (hno q)⟩ hload') (hp.same hno hd.named)
    w ho context text starts hs d ht hd src hsrc hfit (fun ⟨p, h⟩ => absurd h (hno p)) G hG hu hsafe

end

end Fmr
