import Verif.Props.Load
import Verif.Props.Extract
import Verif.Proofs.LocalWF

/-!
# Loaded grammars are well-formed: C30
-/

namespace Fmr

theorem TermWF.flags {lw : LexWorld} {t : Term} (h : TermWF lw t) (ht : t.type = .terminal) : FlagsWF lw t.meta := by
  cases h with
  | literal => exact .inl rfl
  | flagged hf => exact .inr ⟨_, hf, rfl⟩
  | _ => cases ht

theorem FromText.wf {w : LoadWorld} {g : Grammar} (h : FromText w g) : LoadedWF w.lex g := by
  obtain ⟨fuel, reg, reg', g0, hwf, hr⟩ := h
  obtain ⟨e1, -, e3, e4, lits, ν, h1, h2, -, h4, h5, h6⟩ := C25_structure hwf.unrefined hr
  have hlit : ∀ t, g0.Literal t → FlagsWF w.lex t.meta := by
    rintro t ⟨e, he, rb, hrb, ht, htt⟩
    obtain ⟨e', he', rfl⟩ := List.mem_map.mp hrb
    exact (((hwf.rules e he).bodies e' he').terms t ht).flags htt
  refine ⟨e1, fun A r' hA => ?_, by rw [e3]; exact hwf.frameKeys, by rw [e3]; exact hwf.frames,
    by rw [e4]; exact hwf.regexpKeys, by rw [e4]; exact hwf.regexps⟩
  cases h0 : g0.rules.lookup A with
  | some r =>
    obtain ⟨r1, hr1, hn, hb⟩ := h4 A r h0
    rw [hA] at hr1
    cases hr1
    have hm := mem_of_lookup h0
    have hrw := hwf.rules _ hm
    obtain ⟨rn, rb⟩ := r'
    have hn' : rn = A := hn.trans hrw.name
    have hb' : rb = r.body.map (replaceLits ν) := hb
    subst hn' hb'
    refine .user hrw.ident (by simpa using hrw.ne) ?_ ?_
    · have : (r.body.map (replaceLits ν)).map Prod.fst = r.body.map Prod.fst := by
        rw [List.map_map]; rfl
      rw [this]
      exact hrw.keys
    · intro e he
      obtain ⟨e0, he0, rfl⟩ := List.mem_map.mp he
      have hbw := hrw.bodies e0 he0
      refine ⟨by simpa [replaceLits] using hbw.ne, fun t ht => ?_, hbw.f⟩
      obtain ⟨t0, ht0, rfl⟩ := List.mem_map.mp ht
      unfold replaceLit
      split
      · rename_i htt
        have hl : g0.Literal t0 := ⟨_, hm, e0.2, List.mem_map_of_mem he0, ht0, htt⟩
        obtain ⟨hh, t', -, -, hlook⟩ := h5 _ (h1 t0 hl)
        exact .literal (hlit t0 hl) hlook
      · exact .same ‹_› (hbw.terms t0 ht0)
  | none =>
    have hex : ∃ v ∈ lits, A = ν v := by
      refine Classical.byContradiction fun hno => ?_
      rw [h6 A h0 fun v hv e => hno ⟨v, hv, e⟩] at hA
      cases hA
    obtain ⟨v, hv, rfl⟩ := hex
    obtain ⟨hh, t, hl, -, hlook⟩ := h5 v hv
    rw [hA] at hlook
    cases hlook
    refine .literal (m := t.meta) (hlit t hl) fun t' ht' => ?_
    have htt : t.type = .terminal := by obtain ⟨_, _, _, _, _, h⟩ := hl; exact h
    rw [readTerm, if_pos htt] at ht'
    obtain ⟨a, -, rfl⟩ := List.mem_map.mp ht'
    exact ⟨rfl, rfl⟩

/-- where the grammars of a load come from, for all texts -/
theorem origin_directives {w : LoadWorld} {inc : String → LoadSt → Out (Option Loaded × LoadSt)} (hw : w.lex.OK)
    (hinc : ∀ p st ld st', inc p st = .ok (some ld, st') → RegWF w.lex ld.gram.main.regexps ∧
      ∀ g ∈ ld.gram.main :: ld.gram.includes, FromText w g)
    {inp : List Char} {dir : String} {f0 : Nat} (n : Nat) :
    ∀ {gs : List Grammar} {st : LoadSt} {ps : PSt} {gs' : List Grammar} {st' : LoadSt} {ps' : PSt},
      directives w inc inp dir f0 n gs st ps = .ok ((gs', st'), ps') → RegWF w.lex ps.regexps → (∀ g ∈ gs, FromText w g) →
      RegWF w.lex ps'.regexps ∧ ∀ g ∈ gs', FromText w g := by
  induction n with
  | zero => intro _ _ _ _ _ _ h; cases h
  | succ n ih =>
    intro gs st ps gs' st' ps' h hρ hgs
    rw [directives_succ] at h
    obtain ⟨⟨o, ps1⟩, h1, h⟩ := Out.bind_eq_ok.mp h
    obtain ⟨hρ1, -⟩ := post_directive _ _ _ hρ h1
    cases o with
    | none => cases h; exact ⟨hρ1.wf, hgs⟩
    | some ifile =>
      obtain ⟨⟨r, st1⟩, h2, h⟩ := Out.bind_eq_ok.mp h
      cases r with
      | none => exact ih h hρ1.wf hgs
      | some ld =>
        obtain ⟨hr, ho⟩ := hinc _ _ _ _ h2
        refine ih h (RegStep.merge hr hρ1.wf).1.wf fun g hg => ?_
        rw [List.append_assoc, List.singleton_append] at hg
        rcases List.mem_append.mp hg with hg | hg
        · exact hgs g hg
        · exact ho g hg

theorem origin_fromString {w : LoadWorld} {inc : String → LoadSt → Out (Option Loaded × LoadSt)} (hw : w.lex.OK)
    (hinc : ∀ p st ld st', inc p st = .ok (some ld, st') → RegWF w.lex ld.gram.main.regexps ∧
      ∀ g ∈ ld.gram.main :: ld.gram.includes, FromText w g) {fuel : Nat}
    {d : List Char} {name dir : String} {st st' : LoadSt} {ld : Loaded}
    (h : fromString w inc fuel d name dir st = .ok (some ld, st')) :
    RegWF w.lex ld.gram.main.regexps ∧ ∀ g ∈ ld.gram.main :: ld.gram.includes, FromText w g := by
  unfold fromString at h
  split at h
  · cases h
  obtain ⟨⟨ld', st1⟩, h1, h2⟩ := Out.bind_eq_ok.mp h
  cases h2
  unfold grammarText at h1
  obtain ⟨⟨⟨gs, st2⟩, ps⟩, h3, h1⟩ := Out.bind_eq_ok.mp h1
  obtain ⟨⟨g, ps'⟩, h4, h1⟩ := Out.bind_eq_ok.mp h1
  obtain ⟨gi, h5, h1⟩ := Out.bind_eq_ok.mp h1
  obtain ⟨⟨reg, g'⟩, h6, h1⟩ := Out.bind_eq_ok.mp h1
  cases h1
  obtain ⟨hρ, hgs⟩ := origin_directives hw hinc _ h3 ⟨KeysNodup.nil, by simp⟩ (by simp)
  obtain ⟨hρ2, hname, hwf⟩ := post_grammarRules hw _ _ _ hρ h4
  obtain ⟨-, e2, -, e3, -⟩ := C25_structure hwf.unrefined h6
  refine ⟨?_, fun g1 hg1 => ?_⟩
  · show RegWF _ g'.regexps
    rw [e3]
    exact ⟨hwf.regexpKeys, hwf.regexps⟩
  · rcases List.mem_cons.mp hg1 with rfl | hg1
    · exact ⟨_, _, _, _, hwf, h6⟩
    · exact hgs g1 hg1

theorem origin_fromFile {w : LoadWorld} (hw : w.lex.OK) {fuel : Nat} (depth : Nat) :
    ∀ p st ld st', fromFile w fuel depth p st = .ok (some ld, st') → RegWF w.lex ld.gram.main.regexps ∧
      ∀ g ∈ ld.gram.main :: ld.gram.includes, FromText w g := by
  induction depth with
  | zero => intro p st ld st' h; cases h
  | succ depth ih =>
    intro p st ld st' h
    unfold fromFile at h
    split at h
    · cases h
    · split at h
      · cases h
      · split at h
        · cases h
        · exact origin_fromString hw ih h

/-- C30 for all grammars of a load from a string: user rules have alternatives with at least one term, names
are identifiers, ranges have min ≤ max, functions have a name and arguments, and tags fit values. The exception
are the rules made for literals; their names are not always identifiers and their one alternative may be empty
(`C30_false`). -/
theorem C30_string_partial {w : LoadWorld} (hw : w.lex.OK) {fuel depth : Nat} {text : List Char} {name : String}
    {reg : Registry} {ld : Loaded} {st : LoadSt} (h : loadString w fuel depth text name reg = .ok (some ld, st)) :
    ∀ g ∈ ld.gram.main :: ld.gram.includes, LoadedWF w.lex g :=
  fun g hg => ((origin_fromString hw (origin_fromFile hw depth) h).2 g hg).wf

theorem C30_file_partial {w : LoadWorld} (hw : w.lex.OK) {fuel depth : Nat} {file : String}
    {reg : Registry} {ld : Loaded} {st : LoadSt} (h : loadFile w fuel depth file reg = .ok (some ld, st)) :
    ∀ g ∈ ld.gram.main :: ld.gram.includes, LoadedWF w.lex g := by
  unfold loadFile at h
  split at h
  · cases h
  split at h
  · cases h
  exact fun g hg => ((origin_fromString hw (origin_fromFile hw depth) h).2 g hg).wf

/-- The full statement for alternatives: none is empty. -/
def C30_statement : Prop :=
  ∀ (w : LoadWorld), w.lex.OK → ∀ fuel depth text name reg ld st,
    loadString w fuel depth text name reg = .ok (some ld, st) →
    ∀ g ∈ ld.gram.main :: ld.gram.includes, ∀ A r, g.rules.lookup A = some r → ∀ rb ∈ r.bodies, rb.terms ≠ []

/-- False: the empty literal becomes a rule with an empty alternative, if the annotator finds no token in the
empty text. -/
theorem C30_false : ¬ C30_statement := by
  intro h
  have hc : (match loadString (noFiles asciiLex) 40 1 "<a>=\"\";\n".toList "g" [] with
      | .ok (some ld, _) => (ld.gram.main.rules.lookup "g_t").any fun r => r.body.any fun e => e.2.terms.isEmpty
      | _ => false) = true := by decide +kernel
  cases e : loadString (noFiles asciiLex) 40 1 "<a>=\"\";\n".toList "g" [] with
  | ok x =>
    obtain ⟨o, st⟩ := x
    rw [e] at hc
    cases o with
    | none => cases hc
    | some ld =>
      obtain ⟨r, hr, hc⟩ := Option.any_eq_true _ _ |>.mp hc
      obtain ⟨b, hb, hc⟩ := List.any_eq_true.mp hc
      exact h (noFiles asciiLex) asciiLex_ok 40 1 _ "g" [] ld st e _ List.mem_cons_self _ _ hr
        b.2 (List.mem_map_of_mem hb) (List.isEmpty_iff.mp hc)
  | _ => rw [e] at hc; cases hc

/-! ## What the parsing theorems assume of an environment -/

theorem FmrWF.wf {lw : LexWorld} {f : FMR} (h : FmrWF lw f) : f.WF := by
  refine FmrWF.rec (motive_1 := fun f _ => f.WF) (motive_2 := fun as _ => argsWF as) (motive_3 := fun a _ => a.WF)
    ?_ ?_ ?_ ?_ ?_ ?_ ?_ ?_ ?_ h
  · intro x args _ _ _ ih; exact ih
  · trivial
  · intro a as _ _ h1 h2; exact ⟨h1, h2⟩
  · exact .inr ⟨rfl, rfl⟩
  · exact rfl
  · exact .inl rfl
  · exact rfl
  · exact rfl
  · intro f _ ih; exact ⟨rfl, ih⟩

theorem TermWF.wf {lw : LexWorld} {t : Term} (h : TermWF lw t) : t.WF := by
  cases h with
  | any h => cases h <;> trivial
  | list _ h => cases h <;> trivial
  | _ => trivial

theorem FlagsWF.wf {lw : LexWorld} {m : Meta} (h : FlagsWF lw m) : m.WF := by
  rcases h with rfl | ⟨f, -, rfl⟩ <;> trivial

/-- A loaded grammar with the local grammar of a document satisfies all assumptions of the parsing theorems,
except that nobody uses the internal start symbol. -/
theorem loaded_env {lw : LexWorld} {w : World} {g : Gram} (hg : ∀ g' ∈ g.main :: g.includes, LoadedWF lw g')
    {context : String} {text : Bytes} {tokens : List Token} {l : Option Grammar}
    (hp : process w g context text = .ok (tokens, l))
    (hs : ∀ d, annotateText w context (w.trim text) = some d → SpansOK d.spans) (starts : List String) (call : Nat)
    (hγ : (∀ A rb, (envFor w g l tokens starts call).Defines A rb → A ≠ gammaRule) ∧
      (∀ t, (envFor w g l tokens starts call).Occurs t → t.type ≠ .terminal → t.value ≠ gammaRule) ∧ gammaRule ∉ starts) :
    (envFor w g l tokens starts call).WF ∧ Unmixed (envFor w g l tokens starts call) ∧
      AnyNamed (envFor w g l tokens starts call) := by
  have hl : ∀ l', l = some l' → ∃ d, annotateText w context (w.trim text) = some d ∧
      localGrammar w.hash w.find g.main.regexps d = .ok (some l') := by
    rintro l' rfl
    unfold process at hp
    simp only at hp
    split at hp
    · cases hp
    split at hp
    · cases hp
    rename_i d hd
    split at hp
    · cases hp
    obtain ⟨l1, h1, h2⟩ := Out.bind_eq_ok.mp hp
    cases h2
    exact ⟨d, hd, h1⟩
  -- the two kinds of grammars
  have hcases : ∀ g' ∈ (envFor w g l tokens starts call).grammars, ∀ A r, g'.rules.lookup A = some r →
      r.name = A ∧ ∀ rb ∈ r.bodies, rb.WF ∧ Unmixed1 rb.terms ∧ ∀ t ∈ rb.terms, t.type = .any → t.value = "any" := by
    intro g' hg' A r hA
    unfold envFor at hg'
    simp only at hg'
    rcases List.mem_append.mp hg' with hg' | hg'
    · cases (hg g' (by simpa using hg')).rules A r hA with
      | user _ _ _ hb =>
        refine ⟨rfl, fun rb hrb => ?_⟩
        obtain ⟨e, he, rfl⟩ := List.mem_map.mp hrb
        obtain ⟨-, h2, h3⟩ := hb e he
        have ht : ∀ t ∈ e.2.terms, t.type ≠ .terminal ∧ t.WF ∧ (t.type = .any → t.value = "any") := by
          intro t ht
          cases h2 t ht with
          | same h4 h5 =>
            refine ⟨h4, h5.wf, fun h6 => ?_⟩
            cases h5 with
            | any => rfl
            | _ => cases h6
          | literal h4 _ => exact ⟨by simp, h4.wf, fun h6 => by cases h6⟩
        exact ⟨⟨fun t h => (ht t h).2.1, fun f hf => (h3 f hf).wf⟩, .inr fun t h => (ht t h).1,
          fun t h => (ht t h).2.2⟩
      | literal hm ht =>
        refine ⟨rfl, fun rb hrb => ?_⟩
        obtain ⟨e, he, rfl⟩ := List.mem_map.mp hrb
        rw [List.mem_singleton] at he
        subst he
        refine ⟨⟨fun t h => ?_, fun f hf => by cases hf⟩, .inl fun t h => (ht t h).1, fun t h h6 => ?_⟩
        · show t.meta.WF
          rw [(ht t h).2]
          exact hm.wf
        · rw [(ht t h).1] at h6
          cases h6
    · cases l with
      | none => cases hg'
      | some l' =>
        rw [List.mem_singleton] at hg'
        subst hg'
        obtain ⟨d, hd, hloc⟩ := hl g' rfl
        obtain ⟨h1, h2⟩ := local_rules hloc A r hA
        refine ⟨h1, fun rb hrb => ?_⟩
        obtain ⟨e, he, rfl⟩ := List.mem_map.mp hrb
        obtain ⟨h3, h4⟩ := h2 e he
        refine ⟨⟨fun t h => ?_, h4 (hs d hd)⟩, .inl fun t h => (h3 t h).1, fun t h h6 => ?_⟩
        · show t.meta.WF
          rw [(h3 t h).2]
          trivial
        · rw [(h3 t h).1] at h6
          cases h6
  refine ⟨⟨?_, ?_, hγ⟩, ?_, ?_⟩
  · exact fun g' hg' A r hr => (hcases g' hg' A r hr).1
  · rintro A rb ⟨g', hg', r, hr, hrb⟩
    exact ((hcases g' hg' A r hr).2 rb hrb).1
  · rintro A rb ⟨g', hg', r, hr, hrb⟩
    exact ((hcases g' hg' A r hr).2 rb hrb).2.1
  · rintro t ⟨A, rb, ⟨g', hg', r, hr, hrb⟩, ht⟩
    exact ((hcases g' hg' A r hr).2 rb hrb).2.2 t ht

/-- C54 for a grammar loaded from a text: the assumptions about the grammar are only that parts
which can be empty are placed safely, uniform bounds, and does not mention the internal start symbol. -/
theorem C54_loaded_partial {lw : LoadWorld} (hlw : lw.lex.OK) {fuel0 depth : Nat} {gtext : List Char} {name : String}
    {reg : Registry} {ld : Loaded} {st : LoadSt} (hload : loadString lw fuel0 depth gtext name reg = .ok (some ld, st))
    (w : World) (context : String) (text : Bytes) (starts : List String) (tokens : List Token) (l : Option Grammar)
    (hp : process w ld.gram context text = .ok (tokens, l)) (hs : starts ≠ []) (ho : w.OrdOK)
    (hsp : ∀ d, annotateText w context (w.trim text) = some d → SpansOK d.spans)
    (hγ : (∀ A rb, (envFor w ld.gram l tokens starts 0).Defines A rb → A ≠ gammaRule) ∧
      (∀ t, (envFor w ld.gram l tokens starts 0).Occurs t → t.type ≠ .terminal → t.value ≠ gammaRule) ∧ gammaRule ∉ starts)
    (hns : NullSafe (envFor w ld.gram l tokens starts 0)) (hu : UniformBounds (envFor w ld.gram l tokens starts 0)) :
    ∃ n, ∀ fuel ≥ n, ∃ ns, apiParse w ld.gram fuel context text starts = .ok ns ∧
      (ns ≠ [] ↔ ∃ k, MatchAt (envFor w ld.gram l tokens starts 0) 0 k) ∧
      ∀ t ∈ ns, ∃ S ∈ starts, ∃ k, RootOK (envFor w ld.gram l tokens starts 0)
          (envFor w ld.gram l tokens starts 0).lang S k t ∧
        MatchAt (envFor w ld.gram l tokens starts 0) 0 k ∧
        ∀ k', MatchAt (envFor w ld.gram l tokens starts 0) 0 k' → k' ≤ k := by
  obtain ⟨hwf, hun, hany⟩ := loaded_env (C30_string_partial hlw hload) hp hsp starts 0 hγ
  exact C54_end_to_end_partial w ld.gram context text starts tokens l hp hs ho hwf hns hu hun hany

/-! ### examples -/

/-- C30: the cyclic example loads, so the theorem speaks of three grammars -/
example : ∃ ld st, loadString cyclicFiles 60 5 "#include \"b\"\n#include \"c\"\n<a>=<b>;\n".toList "g" [] = .ok (some ld, st) ∧
    ld.gram.includes.length = 2 ∧ ∀ g ∈ ld.gram.main :: ld.gram.includes, LoadedWF asciiLex g := by
  have hc : (match loadString cyclicFiles 60 5 "#include \"b\"\n#include \"c\"\n<a>=<b>;\n".toList "g" [] with
    | .ok (some ld, _) => ld.gram.includes.length == 2
    | _ => false) = true := by decide +kernel
  cases e : loadString cyclicFiles 60 5 "#include \"b\"\n#include \"c\"\n<a>=<b>;\n".toList "g" [] with
  | ok x =>
    obtain ⟨o, st⟩ := x
    rw [e] at hc
    cases o with
    | none => cases hc
    | some ld => exact ⟨ld, st, rfl, by simpa using hc, C30_string_partial asciiLex_ok e⟩
  | _ => rw [e] at hc; cases hc

end Fmr
