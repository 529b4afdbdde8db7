import Verif.Props.TextTrees
import Verif.Props.WholeWitness

/-!
# C76: examples, and why ranges have to be uniform
-/

namespace Fmr

/-! ### example -/

/-- C76: all assumptions hold together, and `Parse` returns a tree of what is written; for the literal it has a node
of its own -/
example : ∃ ld n, LoadedFrom twoFiles twoFilesDefs twoDefs [] (Includes twoFiles "." twoText) ld ∧
    ∃ names t, LiteralNames names ∧ (∀ fuel ≥ n, ∃ ns, apiParse twoWorld ld.gram fuel "" [121, 120] ["a"] = .ok ns ∧ ns ≠ []) ∧
    ∃ fuel ns, apiParse twoWorld ld.gram fuel "" [121, 120] ["a"] = .ok ns ∧ t ∈ ns ∧
      TextRoot (wholeGrammar twoDefs [] twoFilesDefs (Includes twoFiles "." twoText) twoFiles.ref twoWorld twoDoc) names
        twoTokens "a" 2 t := by
  obtain ⟨ld, st, hload, hF, hc, ht, hd, hfit, hu, hsafe, hder, -⟩ := two_setting
  have hl : LoadedFrom twoFiles twoFilesDefs twoDefs [] (Includes twoFiles "." twoText) ld :=
    .string (by decide) two_file hc hF hload
  obtain ⟨names, hN, n, hn⟩ := C76_calls_partial exampleLex_ok hl twoWorld "" [121, 120] ["a"] twoDoc ht hd _ rfl hfit _ rfl hu
    hsafe (by decide) (fun _ _ _ _ _ => List.Perm.refl _)
  have h2 : TextMatch twoWorld twoSource ["a"] twoDoc.words 2 := ⟨by decide, "a", List.mem_singleton.2 rfl, hder⟩
  obtain ⟨⟨ns, h1, h3, h4⟩, -⟩ := hn n (Nat.le_refl _)
  obtain ⟨t, htn⟩ := List.exists_mem_of_ne_nil _ (h3.2 ⟨2, h2⟩)
  obtain ⟨S, hS, k, h5, h6, h7⟩ := h4 t htn
  obtain rfl := List.mem_singleton.1 hS
  obtain rfl : k = 2 := Nat.le_antisymm h6.1 (h7 2 h2)
  refine ⟨ld, n, hl, names, t, hN, fun f hf => ?_, n, ns, h1, htn, h5⟩
  obtain ⟨⟨ns', h1', h3', -⟩, -⟩ := hn f hf
  exact ⟨ns', h1', h3'.2 ⟨2, h2⟩⟩

/-! ### the full statement is false -/

/-- C76 with the bounds that are written at each term. -/
def C76_statement : Prop :=
  ∀ (lw : LoadWorld), lw.lex.OK → ∀ (F : Files) (ds : List Def) (ρ : List (String × String)) (I : String → Prop) (ld : Loaded),
    LoadedFrom lw F ds ρ I ld → ∀ (w : World) (context : String) (text : Bytes) (starts : List String) (d : Doc),
    TextRead w context text d → DocFit w (wholeRegexps F I ρ) d →
    WholeFit ds F I lw.ref (wholeSource ds F I lw.ref.annot (docSource w.find (wholeRegexps F I ρ) d)) starts → w.OrdOK →
    ∃ names, LiteralNames names ∧ ∀ fuel ns, apiParse w ld.gram fuel context text starts = .ok ns →
      ∀ n ∈ ns, ∃ S ∈ starts, ∃ k, TextRoot (wholeGrammar ds ρ F I lw.ref w d) names d.words S k n

/-- two alternatives that leave out different numbers of words -/
def mixText : List Char := "<s>=(any{1,1})\"x\"|(any{1,2})\"yy\";".toList

def mixX : RuleBody := ⟨[⟨"any", .any, .range 1 1⟩, ⟨"x", .terminal, .nil⟩], none⟩

def mixY : RuleBody := ⟨[⟨"any", .any, .range 1 2⟩, ⟨"yy", .terminal, .nil⟩], none⟩

def mixDefs : List Def := [⟨false, "s", [mixX, mixY]⟩]

def mixLoad : LoadWorld := { noFiles exampleLex with ref := twoFiles.ref }

/-- the tokens of the text `abx` -/
def mixTokens : List Token :=
  [{ text := "a", startByte := 0, endByte := 1, i := 0 }, { text := "b", startByte := 1, endByte := 2, i := 1 },
   { text := "x", startByte := 2, endByte := 3, i := 2 }]

def mixDoc : Doc := { text := [97, 98, 120], tokens := mixTokens, spans := [] }

def mixWorld : World := { twoWorld with annotate := fun _ => some mixDoc }

theorem mix_range {c : Char} {n : Nat} (h : Num [c] n) (hn : 1 ≤ n) : RangeSyn exampleLex ['{', '1', ',', c, '}'] (.range 1 n) :=
  .some (s0 := []) (s1 := []) (s2 := []) (s3 := []) (s4 := []) (s5 := []) (d1 := ['1']) (d2 := [c])
        (a := 1) (b := n) (by intro c hc; cases hc) (by intro c hc; cases hc) (by intro c hc; cases hc)
        (by intro c hc; cases hc) (by intro c hc; cases hc) (by intro c hc; cases hc) (num_digit (n := 1) (by decide) (by decide) (by decide)) h (by omega)

theorem mix_any {c : Char} {n : Nat} {l : List Char} {v : String} (h : Num [c] n) (hn : 1 ≤ n) (hl : LitSyn exampleLex l "" v) :
    TermsSyn exampleLex (['(', 'a', 'n', 'y', '{', '1', ',', c, '}', ')'] ++ ([] ++ (l ++ [])))
      [⟨"any", .any, .range 1 n⟩, ⟨v, .terminal, .nil⟩] [] [] :=
  .more (l := ['(', 'a', 'n', 'y', '{', '1', ',', c, '}', ')']) (g := [])
    (.any (s1 := []) (r := ['{', '1', ',', c, '}']) (by intro c hc; cases hc) (mix_range h hn)) two_nogap
    (.one (g := []) (.literal hl) two_nogap)

theorem mix_file : FileSyn exampleLex mixText mixDefs [] := by
  refine .defs (.cons (g := []) (l := mixText) (r := []) two_nogap ?_ (.nil two_nogap))
  refine DefSyn.rule (x := ['s']) (g1 := []) (g2 := []) (l := "(any{1,1})\"x\"|(any{1,2})\"yy\"".toList)
    (ident_alpha (by rfl) (by rfl)) two_nogap two_nogap ?_
  refine .more (l := "(any{1,1})\"x\"".toList) (g := []) (r := "(any{1,2})\"yy\"".toList)
    (.plain (mix_any (c := '1') (n := 1) (num_digit (by decide) (by decide) (by decide)) (by decide) (twoLit (by decide)
      (by decide) (by decide) (by decide)))) two_nogap
    (.one (.plain (mix_any (c := '2') (n := 2) (l := "\"yy\"".toList) (v := "yy") (num_digit (by decide) (by decide) (by decide))
      (by decide) ?_)))
  refine .plain (s := []) (t := ['y', 'y']) (v := ['y', 'y']) (by intro c hc; cases hc)
    (.plain (by decide) (by decide) (.plain (by decide) (by decide) .nil)) ?_
  intro c hc
  cases hc
  decide

theorem mix_load : ∃ ld st ns, loadString mixLoad 60 5 mixText "g" [] = .ok (some ld, st) ∧
    (∀ p, ¬ Includes mixLoad "." mixText p) ∧
    apiParse mixWorld ld.gram 60 "" [97, 98, 120] ["s"] = .ok ns ∧ ns.map (·.value.stop) = [3] := by
  have hc : (match loadString mixLoad 60 5 mixText "g" [] with
    | .ok (some ld, _) => ld.gram.includes.isEmpty &&
      (match apiParse mixWorld ld.gram 60 "" [97, 98, 120] ["s"] with
        | .ok ns => decide (ns.map (·.value.stop) = [3])
        | _ => false)
    | _ => false) = true := by decide +kernel
  cases e : loadString mixLoad 60 5 mixText "g" [] with
  | ok x =>
    obtain ⟨o, st⟩ := x
    rw [e] at hc
    cases o with
    | none => cases hc
    | some ld =>
      simp only [Bool.and_eq_true, List.isEmpty_iff] at hc
      cases e2 : apiParse mixWorld ld.gram 60 "" [97, 98, 120] ["s"] with
      | ok ns =>
        rw [e2] at hc
        refine ⟨ld, st, ns, rfl, fun p hp => ?_, e2, of_decide_eq_true hc.2⟩
        obtain ⟨ld', e', -, -, -, hn, -⟩ := C33_string (w := mixLoad) exampleLex_ok (by decide) (fun p t _ hr => by cases hr) e
        cases e'
        have := (hn p).2 hp
        rw [hc.1] at this
        cases this
      | _ => rw [e2] at hc; cases hc.2
  | _ => rw [e] at hc; cases hc

theorem mix_setting : ∃ ld ns, LoadedFrom mixLoad noDefs mixDefs [] (Includes mixLoad "." mixText) ld ∧
    TextRead mixWorld "" [97, 98, 120] mixDoc ∧
    DocFit mixWorld (wholeRegexps noDefs (Includes mixLoad "." mixText) []) mixDoc ∧
    WholeFit mixDefs noDefs (Includes mixLoad "." mixText) mixLoad.ref (wholeSource mixDefs noDefs
      (Includes mixLoad "." mixText) mixLoad.ref.annot
      (docSource mixWorld.find (wholeRegexps noDefs (Includes mixLoad "." mixText) []) mixDoc)) ["s"] ∧
    (∀ p, ¬ Includes mixLoad "." mixText p) ∧
    (∀ A b, DocAlt mixWorld.find (wholeRegexps noDefs (Includes mixLoad "." mixText) []) mixDoc A b → A ≠ "s") ∧
    (∀ A ts, wholeSource mixDefs noDefs (Includes mixLoad "." mixText) mixLoad.ref.annot
      (docSource mixWorld.find (wholeRegexps noDefs (Includes mixLoad "." mixText) []) mixDoc) A ts →
      ∀ t ∈ ts, t.type = .terminal → t.value ≠ "ɣ") ∧
    apiParse mixWorld ld.gram 60 "" [97, 98, 120] ["s"] = .ok ns ∧ ns.map (·.value.stop) = [3] := by
  obtain ⟨ld, st, ns, hload, hinc, hparse, hstop⟩ := mix_load
  have hF : FilesRead mixLoad noDefs (Includes mixLoad "." mixText) :=
    ⟨fun q t h => absurd h (hinc q), fun q h => absurd h (hinc q)⟩
  have hc : NoCollision mixLoad.lex.hash mixDefs := by
    refine ⟨(fun d _ b _ h => by cases h), ?_⟩
    intro d hd b hb d' hd' b' hb' e
    rw [mixDefs, List.mem_singleton] at hd hd'
    subst hd hd'
    simp only [List.mem_cons, List.not_mem_nil, or_false] at hb hb'
    rcases hb with rfl | rfl <;> rcases hb' with rfl | rfl <;>
      first
      | rfl
      | exact absurd e (by decide +kernel)
  have ht : TextRead mixWorld "" [97, 98, 120] mixDoc := ⟨by decide, .plain rfl, _, List.mem_cons_self, by decide⟩
  have hR : ∀ k s, ¬ wholeRegexps noDefs (Includes mixLoad "." mixText) [] k s := by
    rintro k s (h | ⟨p, -, h⟩) <;> simp [noDefs] at h
  have htok : ∀ t ∈ mixDoc.tokens, t.type = .word := by decide
  have halt : ∀ A b, DocAlt mixWorld.find (wholeRegexps noDefs (Includes mixLoad "." mixText) []) mixDoc A b →
      ∃ t ∈ mixDoc.tokens, b = ⟨[tokenTerm t], none⟩ ∧ A = "word" := by
    intro A b h
    cases h with
    | word h => exact ⟨_, h, rfl, rfl⟩
    | punct h h2 => rw [htok _ h] at h2; cases h2
    | symbol h h2 => rw [htok _ h] at h2; cases h2
    | letters h h2 => rw [htok _ h] at h2; cases h2
    | tag h => cases h
    | values h => cases h
    | regexp h => exact absurd h (hR _ _)
  have hdoc : ∀ A ts, docSource mixWorld.find (wholeRegexps noDefs (Includes mixLoad "." mixText) []) mixDoc A ts →
      A = "word" ∧ ∃ t ∈ mixDoc.tokens, ts = [tokenTerm t] := by
    intro A ts h
    cases h with
    | word h1 h2 => exact ⟨rfl, _, h1, rfl⟩
    | tag h1 => cases h1
    | regexp h1 => exact absurd h1 (hR _ _)
    | punct h1 h2 => rw [htok _ h1] at h2; cases h2
    | symbol h1 h2 => rw [htok _ h1] at h2; cases h2
    | letters h1 h2 => rw [htok _ h1] at h2; cases h2
  have hd : DocFit mixWorld (wholeRegexps noDefs (Includes mixLoad "." mixText) []) mixDoc := by
    refine ⟨⟨?_, by decide, by decide⟩, (by intro sp h; cases h), (by intro sp h; cases h), ?_, ?_,
      fun k s s' h => absurd h (hR k s)⟩
    · intro k t h
      match k, h with
      | 0, h | 1, h | 2, h => cases h; rfl
    · intro A b h e
      obtain ⟨t, ht, rfl, -⟩ := halt _ _ h
      cases e
    · intro A b b' h h' e2
      obtain ⟨t, ht, rfl, -⟩ := halt _ _ h
      obtain ⟨t', ht', rfl, -⟩ := halt _ _ h'
      have key : ∀ t ∈ mixDoc.tokens, ∀ t' ∈ mixDoc.tokens,
          mixWorld.hash ⟨[tokenTerm t], none⟩ = mixWorld.hash ⟨[tokenTerm t'], none⟩ → tokenTerm t = tokenTerm t' := by
        decide +kernel
      rw [key t ht t' ht' e2]
  have hsrc : ∀ A ts, wholeSource mixDefs noDefs (Includes mixLoad "." mixText) mixLoad.ref.annot
      (docSource mixWorld.find (wholeRegexps noDefs (Includes mixLoad "." mixText) []) mixDoc) A ts →
      (A = "s" ∨ A = "word") ∧ ∀ t ∈ ts, t.type = .terminal ∧ t.value ≠ "ɣ" ∨ t.value = "any" := by
    intro A ts h
    cases h with
    | main h =>
      obtain ⟨b, ⟨d, h1, -, rfl, h2⟩, rfl⟩ := h
      rw [mixDefs, List.mem_singleton] at h1
      subst h1
      simp only [List.mem_cons, List.not_mem_nil, or_false] at h2
      refine ⟨.inl rfl, ?_⟩
      rcases h2 with rfl | rfl <;> decide +kernel
    | included hi h => exact absurd hi (hinc _)
    | document h =>
      obtain ⟨rfl, t, ht, rfl⟩ := hdoc A ts h
      refine ⟨.inr rfl, fun t' ht' => ?_⟩
      rw [List.mem_singleton.1 ht']
      have key : ∀ t ∈ mixDoc.tokens, (tokenTerm t).type = .terminal ∧ (tokenTerm t).value ≠ "ɣ" := by decide
      exact .inl (key t ht)
  refine ⟨ld, ns, .string (by decide) mix_file hc hF hload, ht, hd, ⟨?_, fun ⟨p, h⟩ => absurd h (hinc p), ?_⟩, hinc, ?_, ?_, hparse, hstop⟩
  · have key : ∀ t, wholeLiteral mixDefs noDefs (Includes mixLoad "." mixText) t → t.meta = .nil := by
      rintro t ⟨htt, A, b, ⟨d, h1, -, rfl, h2⟩ | ⟨p, h, -⟩, ht⟩
      · rw [mixDefs, List.mem_singleton] at h1
        subst h1
        simp only [List.mem_cons, List.not_mem_nil, or_false] at h2
        rcases h2 with rfl | rfl <;> simp only [mixX, mixY, List.mem_cons, List.not_mem_nil, or_false] at ht <;>
          rcases ht with rfl | rfl <;> first | rfl | cases htt
      · exact absurd h (hinc p)
    intro t t' h h' _
    rw [key t h, key t' h']
  · intro A hA
    have : A = "s" ∨ A = "word" ∨ A = "any" := by
      rcases hA with (⟨ts, h⟩ | ⟨B, ts, h, t, ht, htt, rfl⟩) | h
      · rcases (hsrc A ts h).1 with h | h <;> simp [h]
      · rcases (hsrc B ts h).2 t ht with h | h
        · rw [h.1] at htt
          simp at htt
        · exact .inr (.inr h)
      · exact .inl (List.mem_singleton.1 h)
    unfold Reserved
    rcases this with rfl | rfl | rfl <;> decide
  · intro A b h
    obtain ⟨-, -, -, rfl⟩ := halt A b h
    decide
  · intro A ts h t ht htt
    rcases (hsrc A ts h).2 t ht with h | h
    · exact h.2
    · rw [h]
      decide

/-- by the written bounds `<s>` does not match `a b x` -/
theorem mix_none {names : String → String → Prop} {n : Node} (hinc : ∀ p, ¬ Includes mixLoad "." mixText p)
    (hno : ∀ A b, DocAlt mixWorld.find (wholeRegexps noDefs (Includes mixLoad "." mixText) []) mixDoc A b → A ≠ "s") :
    ¬ TextRoot (wholeGrammar mixDefs [] noDefs (Includes mixLoad "." mixText) mixLoad.ref mixWorld mixDoc) names mixDoc.words "s" 3 n := by
  rintro ⟨-, -, -, -, -, c, -, h2⟩
  cases h2 with
  | any h => cases h
  | list h => cases h
  | rule _ halt _ _ _ _ _ _ hfor =>
    have hlit : ∀ {x : String} {a b : Nat} {m : Node}, (x = "x" ∨ x = "yy") →
        TextTree (wholeGrammar mixDefs [] noDefs (Includes mixLoad "." mixText) mixLoad.ref mixWorld mixDoc) names mixDoc.words
          (.literal ⟨x, .terminal, .nil⟩) a b m → b = a + 1 ∧ ∃ tok, mixTokens[a]? = some tok ∧ tok.text = x := by
      intro x a b m hx hl
      obtain ⟨mv, mc⟩ := m
      cases hl with
      | literal _ _ _ _ _ hf =>
        have hr : (wholeGrammar mixDefs [] noDefs (Includes mixLoad "." mixText) mixLoad.ref mixWorld mixDoc).read
            ⟨x, .terminal, .nil⟩ = [⟨x, .terminal, .nil⟩] := by
          rcases hx with rfl | rfl <;> decide +kernel
        rw [hr] at hf
        cases hf with
        | cons h1 h2 =>
          cases h2
          cases h1 with
          | @token _ _ tok _ h3 h4 =>
            refine ⟨rfl, tok, h3, ?_⟩
            have h5 : tok ∈ mixTokens := List.mem_of_getElem? h3
            have key : ∀ x ∈ ["x", "yy"], ∀ tok ∈ mixTokens,
              terminalMatch mixWorld.lower mixWorld.registry ⟨x, .terminal, .nil⟩ tok = true → tok.text = x := by decide +kernel
            exact key x (by rcases hx with rfl | rfl <;> simp) tok h5 h4
    have hb : ∀ {b : RuleBody} {cs : List Node}, (b = mixX ∨ b = mixY) →
        TextForest (wholeGrammar mixDefs [] noDefs (Includes mixLoad "." mixText) mixLoad.ref mixWorld mixDoc) names mixDoc.words
          (b.terms.map writtenSym) 0 3 cs → False := by
      intro b cs hb hf
      rcases hb with rfl | rfl
      all_goals
        cases hf with
        | cons h1 h2 =>
          cases h2 with
          | cons h3 h4 =>
            cases h4
            obtain ⟨h5, tok, h6, h7⟩ := hlit (by simp) h3
            cases h1 with
            | any _ _ _ hok =>
              obtain ⟨g1, g2⟩ := hok
              first
                | omega
                | (have : tok = { text := "x", startByte := 2, endByte := 3, i := 2 } := by
                    subst_vars
                    simp_all [mixTokens]
                   rw [this] at h7
                   exact absurd h7 (by decide))
            | rule h => cases h
            | list h => cases h
    have hsyms : ∀ A syms f, wholeAlts mixDefs noDefs (Includes mixLoad "." mixText)
        (DocAlt mixWorld.find (wholeRegexps noDefs (Includes mixLoad "." mixText) []) mixDoc) A syms f → A = "s" →
        ∃ b, (b = mixX ∨ b = mixY) ∧ syms = b.terms.map writtenSym := by
      intro A syms f h e
      cases h with
      | written hw =>
        rcases hw with ⟨d, g1, -, g2, g3⟩ | ⟨p, g, -⟩
        · rw [mixDefs, List.mem_singleton] at g1
          subst g1
          simp only [List.mem_cons, List.not_mem_nil, or_false] at g3
          exact ⟨_, g3, rfl⟩
        · exact absurd g (hinc p)
      | document hw => exact absurd e (hno _ _ hw)
    obtain ⟨b, hb1, rfl⟩ := hsyms _ _ _ halt rfl
    exact hb hb1 hfor

/-- False: `<s>` matches `a b x` by its first alternative, with two words for `(any{1,1})`, because its bounds are
mixed up with those of the second one. -/
theorem C76_false : ¬ C76_statement := by
  intro hall
  obtain ⟨ld, ns, hload, ht, hd, hfit, hinc, hno, -, hparse, hstop⟩ := mix_setting
  obtain ⟨names, -, h⟩ := hall mixLoad exampleLex_ok noDefs mixDefs [] _ ld hload mixWorld "" [97, 98, 120] ["s"] mixDoc ht hd hfit
    (fun _ _ _ _ _ => List.Perm.refl _)
  obtain ⟨n, rfl⟩ : ∃ n, ns = [n] := by
    match ns, hstop with
    | [n], _ => exact ⟨n, rfl⟩
    | [], h => cases h
    | _ :: _ :: _, h => simp at h
  obtain ⟨S, hS, k, h1⟩ := h 60 _ hparse n (List.mem_singleton.2 rfl)
  obtain rfl := List.mem_singleton.1 hS
  obtain rfl : k = 3 := by
    simp only [List.map_cons, List.map_nil, List.cons.injEq, and_true] at hstop
    rw [← h1.2.2.2.1, hstop]
  exact mix_none hinc hno h1

end Fmr
