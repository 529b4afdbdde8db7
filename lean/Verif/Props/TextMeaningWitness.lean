import Verif.Props.TextMeaning
import Verif.Props.TextFramesWitness

/-!
# C78: an example, and why ranges have to be uniform
-/

namespace Fmr

/-! ### example -/

/-- a rule with a function: the second part, and the text -/
def sayText : List Char := "<s>=\"a\"(any{1,1}){f($2,$0)};".toList

def sayF : FMR := .mk "f" [.mk "index" (.int 2), .mk "index" (.int 0)]

def sayBody : RuleBody := ⟨[⟨"a", .terminal, .nil⟩, ⟨"any", .any, .range 1 1⟩], some sayF⟩

def sayDefs : List Def := [⟨false, "s", [sayBody]⟩]

theorem say_file : FileSyn exampleLex sayText sayDefs [] := by
  refine .defs (.cons (g := []) (l := sayText) (r := []) two_nogap ?_ (.nil two_nogap))
  refine DefSyn.rule (x := ['s']) (g1 := []) (g2 := []) (l := "\"a\"(any{1,1}){f($2,$0)}".toList) (ident_alpha (by rfl) (by rfl))
      two_nogap two_nogap (.one (.fn (l := "\"a\"(any{1,1})".toList) (e := "f($2,$0)".toList) (g := []) ?_ ?_ two_nogap))
  · exact .more (l := ['"', 'a', '"']) (g := []) (r := "(any{1,1})".toList) (.literal
        (twoLit (by decide) (by decide) (by decide) (by decide))) two_nogap (.one (l := "(any{1,1})".toList) (g := []) (.any (s1 := []) (r := "{1,1}".toList)
        (by intro c hc; cases hc) (mix_range (c := '1') (n := 1) (num_digit (by decide) (by decide) (by decide)) (by decide)))
        two_nogap)
  · refine .mk (s1 := []) (x := ['f']) (s2 := []) (a := "$2,$0)".toList) (s3 := []) (by intro c hc; cases hc) ?_
      (by intro c hc; cases hc) ?_ (by intro c hc; cases hc)
    · exact .mk (c := 'f') (t := []) (by decide) (by decide) (by decide)
    · exact .more (s := []) (t := "$2".toList) (s' := []) (r := "$0)".toList) (by intro c hc; cases hc)
        (.index (d := ['2']) (n := 2) (num_digit (by decide) (by decide) (by decide))) (by intro c hc; cases hc)
        (.last (s := []) (t := "$0".toList) (s' := []) (by intro c hc; cases hc)
          (.index (d := ['0']) (n := 0) (num_digit (by decide) (by decide) (by decide))) (by intro c hc; cases hc))

theorem say_load : ∃ ld st ns, loadString mixLoad 60 5 sayText "g" [] = .ok (some ld, st) ∧
    (∀ p, ¬ Includes mixLoad "." sayText p) ∧ apiParse slotWorld ld.gram 60 "" [97, 98] ["s"] = .ok ns ∧ ns ≠ [] := by
  have hc : (match loadString mixLoad 60 5 sayText "g" [] with
    | .ok (some ld, _) => ld.gram.includes.isEmpty &&
      (match apiParse slotWorld ld.gram 60 "" [97, 98] ["s"] with
        | .ok ns => !ns.isEmpty
        | _ => false)
    | _ => false) = true := by decide +kernel
  cases e : loadString mixLoad 60 5 sayText "g" [] with
  | ok x =>
    obtain ⟨o, st⟩ := x
    rw [e] at hc
    cases o with
    | none => cases hc
    | some ld =>
      simp only [Bool.and_eq_true, List.isEmpty_iff] at hc
      cases e2 : apiParse slotWorld ld.gram 60 "" [97, 98] ["s"] with
      | ok ns =>
        rw [e2] at hc
        refine ⟨ld, st, ns, rfl, fun p hp => ?_, e2, by simpa using hc.2⟩
        obtain ⟨ld', e', -, -, -, hn, -⟩ := C33_string (w := mixLoad) exampleLex_ok (by decide) (fun p t _ hr => by cases hr) e
        cases e'
        have := (hn p).2 hp
        rw [hc.1] at this
        cases this
      | _ => rw [e2] at hc; cases hc.2
  | _ => rw [e] at hc; cases hc

theorem say_written {f : Bool} {A : String} {b : RuleBody} (h : Written sayDefs f A b) : f = false ∧ A = "s" ∧ b = sayBody := by
  obtain ⟨d, h1, rfl, rfl, h2⟩ := h
  rw [sayDefs, List.mem_singleton] at h1
  subst h1
  exact ⟨rfl, rfl, List.mem_singleton.1 h2⟩

/-- what the file and the document say -/
def saySource : Source := wholeSource sayDefs noDefs (Includes mixLoad "." sayText) mixLoad.ref.annot
  (docSource slotWorld.find (wholeRegexps noDefs (Includes mixLoad "." sayText) []) slotDoc)

/-- all assumptions of C78 hold together -/
theorem say_setting : ∃ ld ns, LoadedFrom mixLoad noDefs sayDefs [] (Includes mixLoad "." sayText) ld ∧
    (∀ p, ¬ Includes mixLoad "." sayText p) ∧ TextRead slotWorld "" [97, 98] slotDoc ∧
    DocFit slotWorld (wholeRegexps noDefs (Includes mixLoad "." sayText) []) slotDoc ∧
    TokensOrdered [97, 98] slotDoc.words ∧
    WholeFit sayDefs noDefs (Includes mixLoad "." sayText) mixLoad.ref saySource ["s"] ∧
    (∀ A ts, saySource A ts → ∀ t ∈ ts, t.type = .terminal → t.value ≠ "ɣ") ∧
    WholeUniform sayDefs noDefs (Includes mixLoad "." sayText) ∧
    WholeSolid sayDefs noDefs (Includes mixLoad "." sayText) mixLoad.ref.annot
      (docSource slotWorld.find (wholeRegexps noDefs (Includes mixLoad "." sayText) []) slotDoc) ∧
    (∀ A b, DocAlt slotWorld.find (wholeRegexps noDefs (Includes mixLoad "." sayText) []) slotDoc A b → A ≠ "s") ∧
    apiParse slotWorld ld.gram 60 "" [97, 98] ["s"] = .ok ns ∧ ns ≠ [] := by
  obtain ⟨ld, st, ns, hload, hinc, hparse, hne⟩ := say_load
  have hF : FilesRead mixLoad noDefs (Includes mixLoad "." sayText) :=
    ⟨fun q t h => absurd h (hinc q), fun q h => absurd h (hinc q)⟩
  have hc : NoCollision mixLoad.lex.hash sayDefs := by
    refine ⟨?_, ?_⟩
    · intro d hd b hb h
      rw [(say_written ⟨d, hd, rfl, rfl, hb⟩).2.2] at h
      exact absurd h (by decide +kernel)
    · intro d hd b hb d' hd' b' hb' e
      rw [(say_written ⟨d, hd, rfl, rfl, hb⟩).2.2, (say_written ⟨d', hd', rfl, rfl, hb'⟩).2.2]
  have ht : TextRead slotWorld "" [97, 98] slotDoc := ⟨by decide, .plain rfl, _, List.mem_cons_self, by decide⟩
  have hR : ∀ k s, ¬ wholeRegexps noDefs (Includes mixLoad "." sayText) [] k s := by
    rintro k s (h | ⟨p, -, h⟩) <;> simp [noDefs] at h
  have htok : ∀ t ∈ slotDoc.tokens, t.type = .word := by decide
  have hdoc : ∀ A ts, docSource slotWorld.find (wholeRegexps noDefs (Includes mixLoad "." sayText) []) slotDoc A ts →
      A = "word" ∧ ∃ t ∈ slotDoc.tokens, ts = [tokenTerm t] := by
    intro A ts h
    cases h with
    | word h1 h2 => exact ⟨rfl, _, h1, rfl⟩
    | tag h1 => cases h1
    | regexp h1 => exact absurd h1 (hR _ _)
    | punct h1 h2 => rw [htok _ h1] at h2; cases h2
    | symbol h1 h2 => rw [htok _ h1] at h2; cases h2
    | letters h1 h2 => rw [htok _ h1] at h2; cases h2
  have halt : ∀ A b, DocAlt slotWorld.find (wholeRegexps noDefs (Includes mixLoad "." sayText) []) slotDoc A b →
      ∃ t ∈ slotDoc.tokens, b = ⟨[tokenTerm t], none⟩ ∧ A = "word" := by
    intro A b h
    cases h with
    | word h => exact ⟨_, h, rfl, rfl⟩
    | punct h h2 => rw [htok _ h] at h2; cases h2
    | symbol h h2 => rw [htok _ h] at h2; cases h2
    | letters h h2 => rw [htok _ h] at h2; cases h2
    | tag h => cases h
    | values h => cases h
    | regexp h => exact absurd h (hR _ _)
  have hd : DocFit slotWorld (wholeRegexps noDefs (Includes mixLoad "." sayText) []) slotDoc := by
    refine ⟨⟨?_, by decide, by decide⟩, (by intro sp h; cases h), (by intro sp h; cases h), ?_, ?_,
      fun k s s' h => absurd h (hR k s)⟩
    · intro k t h
      match k, h with
      | 0, h | 1, h => cases h; rfl
    · intro A b h e
      obtain ⟨t, ht, rfl, -⟩ := halt _ _ h
      cases e
    · intro A b b' h h' e2
      obtain ⟨t, ht, rfl, -⟩ := halt _ _ h
      obtain ⟨t', ht', rfl, -⟩ := halt _ _ h'
      have key : ∀ t ∈ slotDoc.tokens, ∀ t' ∈ slotDoc.tokens,
          slotWorld.hash ⟨[tokenTerm t], none⟩ = slotWorld.hash ⟨[tokenTerm t'], none⟩ → tokenTerm t = tokenTerm t' := by
        decide +kernel
      rw [key t ht t' ht' e2]
  have hwr : ∀ A b, wholeWritten sayDefs noDefs (Includes mixLoad "." sayText) A b → A = "s" ∧ b = sayBody := by
    rintro A b (h | ⟨p, h, -⟩)
    · exact (say_written h).2
    · exact absurd h (hinc p)
  have hsrc : ∀ A ts, saySource A ts → (A = "s" ∨ A = "word") ∧
      ∀ t ∈ ts, t.type = .terminal ∧ t.value ≠ "ɣ" ∨ t.type = .any := by
    intro A ts h
    cases h with
    | main h =>
      obtain ⟨b, hb, rfl⟩ := h
      obtain ⟨rfl, rfl⟩ := hwr A b (.inl hb)
      exact ⟨.inl rfl, by decide +kernel⟩
    | included hi h => exact absurd hi (hinc _)
    | document h =>
      obtain ⟨rfl, t, ht, rfl⟩ := hdoc A ts h
      refine ⟨.inr rfl, fun t' ht' => ?_⟩
      rw [List.mem_singleton.1 ht']
      have key : ∀ t ∈ slotDoc.tokens, (tokenTerm t).type = .terminal ∧ (tokenTerm t).value ≠ "ɣ" := by decide
      exact .inl (key t ht)
  have hterm : ∀ t ∈ sayBody.terms, t = ⟨"a", .terminal, .nil⟩ ∨ t = ⟨"any", .any, .range 1 1⟩ := by
    intro t ht
    simpa [sayBody] using ht
  have hlit : ∀ t, wholeLiteral sayDefs noDefs (Includes mixLoad "." sayText) t → t = ⟨"a", .terminal, .nil⟩ := by
    rintro t ⟨htt, A, b, hb, ht⟩
    obtain ⟨-, rfl⟩ := hwr A b hb
    rcases hterm t ht with rfl | rfl
    · rfl
    · cases htt
  refine ⟨ld, ns, .string (by decide) say_file hc hF hload, hinc, ht, hd, ⟨by decide, by decide⟩,
    ⟨?_, fun ⟨p, h⟩ => absurd h (hinc p), ?_⟩, ?_, ?_, ⟨?_, ?_, ?_⟩, ?_, hparse, hne⟩
  · intro t t' h h' _
    rw [hlit t h, hlit t' h']
  · intro A hA
    have : A = "s" ∨ A = "word" := by
      rcases hA with (⟨ts, h⟩ | ⟨B, ts, h, t, ht, htt, rfl⟩) | h
      · exact (hsrc A ts h).1
      · rcases (hsrc B ts h).2 t ht with h | h
        · rw [h.1] at htt
          simp at htt
        · rw [h] at htt
          simp at htt
      · exact .inl (List.mem_singleton.1 h)
    unfold Reserved
    rcases this with rfl | rfl <;> decide
  · intro A ts h t ht htt
    rcases (hsrc A ts h).2 t ht with h | h
    · exact h.2
    · rw [htt] at h
      cases h
  · intro A b A' b' h h' t ht t' ht'
    obtain ⟨-, rfl⟩ := hwr A b h
    obtain ⟨-, rfl⟩ := hwr A' b' h'
    rcases hterm t ht with rfl | rfl <;> rcases hterm t' ht' with rfl | rfl <;> simp
  · intro t ht
    rw [hlit t ht]
    decide +kernel
  · intro A b hb t ht htt
    obtain ⟨-, rfl⟩ := hwr A b hb
    rcases hterm t ht with rfl | rfl
    · simp at htt
    · rintro ⟨h, -⟩
      exact absurd h (by decide)
  · intro A h
    obtain ⟨-, t, -, e⟩ := hdoc A [] h
    cases e
  · intro A b h
    obtain ⟨-, -, -, rfl⟩ := halt A b h
    decide

/-- the grammar of the example, as written -/
def sayGrammar : TextGrammar :=
  wholeGrammar sayDefs [] noDefs (Includes mixLoad "." sayText) mixLoad.ref slotWorld slotDoc

theorem say_first {o : Nat} {tok : Token} (hlt : o < 2) (h1 : (slotTokens.drop o)[0]? = some tok)
    (h2 : sayGrammar.tmatch ⟨"a", .terminal, .nil⟩ tok = true) : o = 0 := by
  have hb : sayGrammar.tmatch ⟨"a", .terminal, .nil⟩ { text := "b", startByte := 1, endByte := 2, i := 1 } = false := by
    decide +kernel
  match o, hlt with
  | 0, _ => rfl
  | 1, _ =>
    have h3 : (slotTokens.drop 1)[0]? = some { text := "b", startByte := 1, endByte := 2, i := 1 } := rfl
    rw [h3, Option.some.injEq] at h1
    rw [← h1, hb] at h2
    cases h2

/-- There is one meaning. -/
theorem say_means {names : String → String → Prop} {o k : Nat} {m : Option Expr} (hinc : ∀ p, ¬ Includes mixLoad "." sayText p)
    (hno : ∀ A b, DocAlt slotWorld.find (wholeRegexps noDefs (Includes mixLoad "." sayText) []) slotDoc A b → A ≠ "s")
    (hlt : o < 2) (h : RuleMeans sayGrammar names wPlain [97, 98] (slotTokens.drop o) "s" k m) :
    m = some (.call "f" [.leaf "b" [98], .str "a b"]) := by
  obtain ⟨ph, h, rfl⟩ := h
  have halts : ∀ A syms f, sayGrammar.alts A syms f → A = "s" → syms = sayBody.terms.map writtenSym ∧ f = some sayF := by
    intro A syms f h e
    change wholeAlts sayDefs noDefs (Includes mixLoad "." sayText)
        (DocAlt slotWorld.find (wholeRegexps noDefs (Includes mixLoad "." sayText) []) slotDoc) A syms f at h
    cases h with
    | written hw =>
      rcases hw with hw | ⟨p, g, -⟩
      · obtain ⟨-, -, rfl⟩ := say_written hw
        exact ⟨rfl, rfl⟩
      · exact absurd g (hinc p)
    | document hw => exact absurd e (hno _ _ hw)
  cases h with
  | any h => cases h
  | list h => cases h
  | plain _ h => cases (halts _ _ _ h rfl).2
  | func _ ha hs ho =>
    obtain ⟨rfl, e⟩ := halts _ _ _ ha rfl
    cases e
    cases hs with
    | cons h1 h2 =>
      cases h2 with
      | cons h3 h4 =>
        cases h4
        cases h1 with
        | literal _ h5 h6 =>
          have hr : sayGrammar.read ⟨"a", .terminal, .nil⟩ = [⟨"a", .terminal, .nil⟩] := by decide +kernel
          rw [hr] at h5
          cases h5 with
          | cons h7 h8 =>
            cases h8
            obtain rfl : o = 0 := by
              cases h7 with
              | token g1 g2 => exact say_first hlt g1 g2
            cases h7
            cases h3 with
            | any _ hb hok hsp =>
              obtain ⟨g1, g2⟩ := hok
              have hk : k = 2 := by omega
              subst hk
              cases hsp with
              | some _ e1 e2 =>
                cases e1
                cases e2
                rfl
            | plain h => cases h
            | func h => cases h
            | list h => cases h

/-- C78: all assumptions hold together; `Parse` of `ab` returns trees, `Semantic` prints `f("b", "a b")` for each, and
`Eval` makes this call -/
example : ∃ ld ns, LoadedFrom mixLoad noDefs sayDefs [] (Includes mixLoad "." sayText) ld ∧
    apiParse slotWorld ld.gram 60 "" [97, 98] ["s"] = .ok ns ∧ ns ≠ [] ∧ ∀ n ∈ ns, ∃ p, Behind slotWorld ld.gram 60 "" [97, 98] ["s"] p ∧
      n.semantic wPlain p = .ok "f(\"b\", \"a b\")" ∧ n.eval wPlain p = .ok (.list [.str [98], .str [97, 32, 98]]) := by
  obtain ⟨ld, ns, hl, hinc, ht, hd, hord, hfit, hγ, hu, hs, hno, hparse, hne⟩ := say_setting
  refine ⟨ld, ns, hl, hparse, hne, fun n hn => ?_⟩
  obtain ⟨names, -, h⟩ := C78_partial exampleLex_ok hl slotWorld "" [97, 98] ["s"] slotDoc ht hd hord saySource rfl hfit hγ _ rfl
    (fun _ _ _ _ _ => List.Perm.refl _) wPlain (fun fn vs => by
      by_cases h : fn = "f"
      · exact .inl ⟨_, if_pos h⟩
      · exact .inr (if_neg h)) hu hs
  obtain ⟨p, -, hb, -, -, h1, h2, h3, S, hS, k, m, -, h4, h5⟩ := h 60 ns (.inl hparse) n hn
  obtain rfl := List.mem_singleton.1 hS
  rw [h3] at h4
  obtain ⟨h6, h7⟩ := (h5 p h1 rfl).1 _ (say_means hinc hno h2 h4)
  refine ⟨p, hb, h6.trans ?_, h7.trans ?_⟩
  · congr 1
  · simp only [Expr.value, values, wPlain, Out.bind_ok, Out.pure_eq, if_true]
    have e1 : utf8 "a b" = [97, 32, 98] := by decide +kernel
    rw [e1]

/-! ### the full statement is false -/

/-- C78 for `Parse` with the bounds that are written at each term, and for all grammars. -/
def C78_statement : Prop :=
  ∀ (lw : LoadWorld), lw.lex.OK → ∀ (F : Files) (ds : List Def) (ρ : List (String × String)) (I : String → Prop) (ld : Loaded),
    LoadedFrom lw F ds ρ I ld → ∀ (w : World) (context : String) (text : Bytes) (starts : List String) (d : Doc),
    TextRead w context text d → DocFit w (wholeRegexps F I ρ) d → TokensOrdered text d.words →
    ∀ src, src = wholeSource ds F I lw.ref.annot (docSource w.find (wholeRegexps F I ρ) d) → WholeFit ds F I lw.ref src starts →
    (∀ A ts, src A ts → ∀ t ∈ ts, t.type = .terminal → t.value ≠ "ɣ") → w.OrdOK → ∀ nw, CallsReturn nw →
    ∃ names, LiteralNames names ∧ ∀ fuel ns, apiParse w ld.gram fuel context text starts = .ok ns →
      ∀ n ∈ ns, NodeMeans (wholeGrammar ds ρ F I lw.ref w d) names nw text d.words starts n

/-- False for the grammar of `C76_false`: the tree over `a b x` is not one of what is written. -/
theorem C78_false : ¬ C78_statement := by
  intro hall
  obtain ⟨ld, ns, hload, ht, hd, hfit, hinc, hno, hγ, hparse, hstop⟩ := mix_setting
  obtain ⟨names, -, h⟩ := hall mixLoad exampleLex_ok noDefs mixDefs [] _ ld hload mixWorld "" [97, 98, 120] ["s"] mixDoc ht hd
    ⟨by decide, by decide⟩ _ rfl hfit hγ (fun _ _ _ _ _ => List.Perm.refl _) wPlain (fun fn vs => by
      by_cases h : fn = "f"
      · exact .inl ⟨_, if_pos h⟩
      · exact .inr (if_neg h))
  obtain ⟨n, rfl⟩ : ∃ n, ns = [n] := by
    match ns, hstop with
    | [n], _ => exact ⟨n, rfl⟩
    | [], h => cases h
    | _ :: _ :: _, h => simp at h
  obtain ⟨S, hS, k, m, h1, -⟩ := h 60 _ hparse n (List.mem_singleton.2 rfl)
  obtain rfl := List.mem_singleton.1 hS
  obtain rfl : k = 3 := by
    simp only [List.map_cons, List.map_nil, List.cons.injEq, and_true] at hstop
    rw [← h1.2.2.2.1, hstop]
  exact mix_none hinc hno h1

end Fmr
