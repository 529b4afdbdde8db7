import Verif.Props.WholeDrivers
import Verif.Props.FrameWitness
import Verif.Props.Lexer

/-!
# C73: a grammar in two files, and a document
-/

namespace Fmr

/-- a loader whose only file, `./b`, defines one rule; literals are single tokens -/
def twoFiles : LoadWorld :=
  { exLoad with
    lex := exampleLex
    read := fun p => if p = "./b" then some "<b>=\"y\";\n".toList else none }

/-- the other file -/
def twoText : List Char := "#include \"b\"\n<a>=<b> \"x\"(any{0,1});\n".toList

/-- its alternative; the last part is optional -/
def twoTerms : List Term := [⟨"b", .nonterminal, .nil⟩, ⟨"x", .terminal, .nil⟩, ⟨"any", .any, .range 0 1⟩]

def twoDefs : List Def := [⟨false, "a", [⟨twoTerms, none⟩]⟩]

def twoFilesDefs : Files := { defs := fun _ => [⟨false, "b", [⟨[⟨"y", .terminal, .nil⟩], none⟩]⟩], regexps := fun _ => [] }

/-- the tokens of the text `yx` -/
def twoTokens : List Token :=
  [{ text := "y", startByte := 0, endByte := 1, i := 0 }, { text := "x", startByte := 1, endByte := 2, i := 1 }]

/-- the document -/
def twoDoc : Doc := { text := [121, 120], tokens := twoTokens, spans := [] }

/-- a world that annotates with it, and a hash that tells the two tokens apart -/
def twoWorld : World :=
  { wWorld [] with
    annotate := fun _ => some twoDoc
    hash := fun b => some (b.terms.map fun t => (t.value.toList.map Char.toNat).sum).sum }

theorem twoLit {x : Char} (h1 : x ≠ '"') (h2 : x ≠ '\\') (h3 : exampleLex.isSpace x = false) (h4 : x ≠ '(') :
    LitSyn exampleLex ['"', x, '"'] "" (String.ofList [x]) :=
  .plain (s := []) (t := [x]) (v := [x]) (by intro c hc; cases hc) (.plain h1 h2 .nil) (by
    intro c hc
    cases hc
    exact ⟨h3, h4⟩)

theorem two_nogap : Gap exampleLex [] := .spaces (by intro c hc; cases hc)

theorem two_gap {c : Char} (h : exampleLex.isSpace c = true) : Gap exampleLex [c] :=
  .spaces (by
    intro d hd
    rw [List.mem_singleton.1 hd]
    exact h)

theorem two_fileB : FileSyn exampleLex "<b>=\"y\";\n".toList [⟨false, "b", [⟨[⟨"y", .terminal, .nil⟩], none⟩]⟩] [] := by
  refine .defs (.cons (g := []) (l := "<b>=\"y\";".toList) (r := ['\n']) two_nogap ?_ (.nil (two_gap (by decide))))
  refine DefSyn.rule (x := ['b']) (g1 := []) (g2 := []) (l := ['"', 'y', '"']) (ident_alpha (by rfl) (by rfl))
    two_nogap two_nogap (.one (.plain (.one (l := ['"', 'y', '"']) (g := []) (.literal ?_) two_nogap)))
  exact twoLit (by decide) (by decide) (by decide) (by decide)

theorem two_file : FileSyn exampleLex twoText twoDefs [] := by
  refine .incl (t := "#include \"b\"".toList) (l := "\n<a>=<b> \"x\"(any{0,1});\n".toList) (f := "b") ?_ (.defs ?_)
  · refine .mk (g := []) (s1 := []) (s2 := [' ']) (l := ['"', 'b', '"']) (f := "") two_nogap (by intro c hc; cases hc)
      (by intro c hc; rw [List.mem_singleton.1 hc]; decide) (twoLit (by decide) (by decide) (by decide) (by decide))
  · refine .cons (g := ['\n']) (l := "<a>=<b> \"x\"(any{0,1});".toList) (r := ['\n']) (two_gap (by decide)) ?_
      (.nil (two_gap (by decide)))
    refine DefSyn.rule (x := ['a']) (g1 := []) (g2 := []) (l := "<b> \"x\"(any{0,1})".toList) (ident_alpha (by rfl) (by rfl))
      two_nogap two_nogap (.one (.plain (.more (l := "<b>".toList) (g := [' ']) (r := "\"x\"(any{0,1})".toList)
        (.nonterminal (x := ['b']) (ident_alpha (by rfl) (by rfl))) (two_gap (by decide))
        (.more (l := ['"', 'x', '"']) (g := []) (r := "(any{0,1})".toList) (.literal ?_) two_nogap
          (.one (l := "(any{0,1})".toList) (g := []) (.any (s1 := []) (r := "{0,1}".toList) ?_ ?_) two_nogap)))))
    · exact twoLit (by decide) (by decide) (by decide) (by decide)
    · intro c hc
      cases hc
    · exact .some (s0 := []) (s1 := []) (s2 := []) (s3 := []) (s4 := []) (s5 := []) (d1 := ['0']) (d2 := ['1'])
        (a := 0) (b := 1) (by intro c hc; cases hc) (by intro c hc; cases hc) (by intro c hc; cases hc)
        (by intro c hc; cases hc) (by intro c hc; cases hc) (by intro c hc; cases hc)
        (num_digit (n := 0) (by decide) (by decide) (by decide)) (num_digit (n := 1) (by decide) (by decide) (by decide)) (by decide)

/-- the load, with its files -/
theorem two_load : ∃ ld st, loadString twoFiles 60 5 twoText "g" [] = .ok (some ld, st) ∧
    (∀ p, Includes twoFiles "." twoText p ↔ p = "./b") ∧ ld.gram.main.regexps = [] := by
  have hc : (match loadString twoFiles 60 5 twoText "g" [] with
    | .ok (some ld, _) => decide (ld.gram.includes.map (·.name) = ["./b"]) && ld.gram.main.regexps.isEmpty
    | _ => false) = true := by decide +kernel
  cases e : loadString twoFiles 60 5 twoText "g" [] with
  | ok x =>
    obtain ⟨o, st⟩ := x
    rw [e] at hc
    cases o with
    | none => cases hc
    | some ld =>
      simp only [Bool.and_eq_true, decide_eq_true_eq, List.isEmpty_iff] at hc
      refine ⟨ld, st, rfl, fun p => ?_, hc.2⟩
      obtain ⟨ld', e', -, -, -, hn, -⟩ := C33_string (w := twoFiles) exampleLex_ok (by decide) (fun p t _ hr => by
        simp only [twoFiles] at hr
        split at hr
        · cases hr
          decide
        · cases hr) e
      cases e'
      rw [← hn, hc.1, List.mem_singleton]
  | _ => rw [e] at hc; cases hc

theorem yields_terminal {L : Lang} {ts : List Term} {w : List Token} (h : Yields L ts w) {t : Term} (ht : t ∈ ts)
    (htt : t.type = .terminal) : w ≠ [] := by
  induction h with
  | nil => cases ht
  | terminal h1 h2 h3 ih => simp
  | nonterminal h1 h2 h3 h4 ih1 ih2 | list h1 h2 h3 h4 ih1 ih2 =>
    rcases List.mem_cons.1 ht with rfl | ht
    · rw [htt] at h1
      cases h1
    · intro e
      exact ih2 ht (List.append_eq_nil_iff.1 e).2
  | any h1 h2 h3 ih =>
    rcases List.mem_cons.1 ht with rfl | ht
    · rw [htt] at h1
      cases h1
    · intro e
      exact ih ht (List.append_eq_nil_iff.1 e).2

/-- what the files and the document say -/
def twoSource : Source := wholeSource twoDefs twoFilesDefs (Includes twoFiles "." twoText) twoFiles.ref.annot
  (docSource twoWorld.find (wholeRegexps twoFilesDefs (Includes twoFiles "." twoText) []) twoDoc)

/-- all assumptions of C73 hold together, with an optional part; the texts match both tokens -/
theorem two_setting : ∃ ld st, loadString twoFiles 60 5 twoText "g" [] = .ok (some ld, st) ∧
    FilesRead twoFiles twoFilesDefs (Includes twoFiles "." twoText) ∧ NoCollision twoFiles.lex.hash twoDefs ∧
    TextRead twoWorld "" [121, 120] twoDoc ∧
    DocFit twoWorld (wholeRegexps twoFilesDefs (Includes twoFiles "." twoText) []) twoDoc ∧
    WholeFit twoDefs twoFilesDefs (Includes twoFiles "." twoText) twoFiles.ref twoSource ["a"] ∧
    WholeUniform twoDefs twoFilesDefs (Includes twoFiles "." twoText) ∧
    WholeSafe twoDefs twoFilesDefs (Includes twoFiles "." twoText) twoFiles.ref.annot
      (docSource twoWorld.find (wholeRegexps twoFilesDefs (Includes twoFiles "." twoText) []) twoDoc) ["a"] ∧
    SourcesDerive (terminalMatch twoWorld.lower twoWorld.registry) [twoSource] "a" twoTokens ∧
    ¬ SourcesDerive (terminalMatch twoWorld.lower twoWorld.registry) [twoSource] "a" [] := by
  obtain ⟨ld, st, hload, hinc, hre⟩ := two_load
  have hI : Includes twoFiles "." twoText = fun p => p = "./b" := funext fun p => propext (hinc p)
  have hF : FilesRead twoFiles twoFilesDefs (Includes twoFiles "." twoText) := by
    rw [hI]
    refine ⟨fun q t hq hr => ?_, fun q hq => ⟨(fun d _ b _ h => by cases h), ?_⟩⟩
    · subst hq
      obtain rfl : "<b>=\"y\";\n".toList = t := Option.some.inj hr
      exact ⟨by decide, two_fileB⟩
    · simp [twoFilesDefs]
  have hc : NoCollision twoFiles.lex.hash twoDefs := ⟨(fun d _ b _ h => by cases h), by simp [twoDefs]⟩
  have ht : TextRead twoWorld "" [121, 120] twoDoc := ⟨by decide, .plain rfl, _, List.mem_cons_self, by decide⟩
  have hR : ∀ k s, ¬ wholeRegexps twoFilesDefs (Includes twoFiles "." twoText) [] k s := by
    rintro k s (h | ⟨p, -, h⟩) <;> simp [twoFilesDefs] at h
  have hdoc : ∀ A ts, docSource twoWorld.find (wholeRegexps twoFilesDefs (Includes twoFiles "." twoText) []) twoDoc A ts →
      A = "word" ∧ ∃ t ∈ twoTokens, ts = [tokenTerm t] := by
    intro A ts h
    have htok : ∀ t ∈ twoTokens, t.type = .word := by decide
    cases h with
    | word h1 h2 => exact ⟨rfl, _, h1, rfl⟩
    | tag h1 => cases h1
    | regexp h1 => exact absurd h1 (hR _ _)
    | punct h1 h2 => rw [htok _ h1] at h2; cases h2
    | symbol h1 h2 => rw [htok _ h1] at h2; cases h2
    | letters h1 h2 => rw [htok _ h1] at h2; cases h2
  have hd : DocFit twoWorld (wholeRegexps twoFilesDefs (Includes twoFiles "." twoText) []) twoDoc := by
    have this : ∀ A b, DocAlt twoWorld.find (wholeRegexps twoFilesDefs (Includes twoFiles "." twoText) []) twoDoc A b →
        ∃ t ∈ twoTokens, b = ⟨[tokenTerm t], none⟩ := by
      intro A b h
      cases h with
      | word h => exact ⟨_, h, rfl⟩
      | punct h => exact ⟨_, h, rfl⟩
      | symbol h => exact ⟨_, h, rfl⟩
      | letters h => exact ⟨_, h, rfl⟩
      | tag h => cases h
      | values h => cases h
      | regexp h => exact absurd h (hR _ _)
    refine ⟨⟨?_, by decide, by decide⟩, (by intro sp h; cases h), (by intro sp h; cases h), ?_, ?_,
      fun k s s' h => absurd h (hR k s)⟩
    · intro k t h
      match k, h with
      | 0, h => cases h; rfl
      | 1, h => cases h; rfl
    · intro A b h e
      obtain ⟨t, ht, rfl⟩ := this _ _ h
      cases e
    · intro A b b' h h' e2
      obtain ⟨t, ht, rfl⟩ := this _ _ h
      obtain ⟨t', ht', rfl⟩ := this _ _ h'
      clear this h h'
      simp only [twoTokens, List.mem_cons, List.not_mem_nil, or_false] at ht ht'
      rcases ht with rfl | rfl <;> rcases ht' with rfl | rfl <;> first | rfl | exact absurd e2 (by decide)
  have hwr : ∀ A b, wholeWritten twoDefs twoFilesDefs (Includes twoFiles "." twoText) A b →
      (A = "a" ∧ b.terms = twoTerms) ∨
      (A = "b" ∧ b.terms = [⟨"y", .terminal, .nil⟩]) := by
    rintro A b (⟨d, h1, -, rfl, h2⟩ | ⟨p, -, d, h1, -, rfl, h2⟩)
    · simp only [twoDefs, List.mem_singleton] at h1
      subst h1
      rw [List.mem_singleton] at h2
      subst h2
      exact .inl ⟨rfl, rfl⟩
    · simp only [twoFilesDefs, List.mem_singleton] at h1
      subst h1
      rw [List.mem_singleton] at h2
      subst h2
      exact .inr ⟨rfl, rfl⟩
  have hlit : ∀ t, wholeLiteral twoDefs twoFilesDefs (Includes twoFiles "." twoText) t →
      t = ⟨"x", .terminal, .nil⟩ ∨ t = ⟨"y", .terminal, .nil⟩ := by
    rintro t ⟨h1, A, b, hb, ht⟩
    rcases hwr A b hb with ⟨-, e⟩ | ⟨-, e⟩
    · rw [e] at ht
      simp only [twoTerms, List.mem_cons, List.not_mem_nil, or_false] at ht
      rcases ht with rfl | rfl | rfl
      · cases h1
      · exact .inl rfl
      · cases h1
    · rw [e, List.mem_singleton] at ht
      exact .inr ht
  have hsrc : ∀ A ts, wholeSource twoDefs twoFilesDefs (Includes twoFiles "." twoText) twoFiles.ref.annot
      (docSource twoWorld.find (wholeRegexps twoFilesDefs (Includes twoFiles "." twoText) []) twoDoc) A ts →
      (A = "a" ∨ A = "b" ∨ A = "word") ∧ ∀ t ∈ ts, t.type = .terminal ∨ t.type = .any ∨ t.value = "b" := by
    intro A ts h
    have hterm : ∀ ts : List Term, (∀ t ∈ ts, t.type = .terminal ∨ t.type = .any ∨ t.value = "b") →
        ∀ t ∈ ts.flatMap (readTerm twoFiles.ref.annot), t.type = .terminal ∨ t.type = .any ∨ t.value = "b" := by
      intro ts h t ht
      obtain ⟨t0, h0, ht⟩ := List.mem_flatMap.1 ht
      unfold readTerm at ht
      split at ht
      · obtain ⟨a, -, rfl⟩ := List.mem_map.1 ht
        exact .inl rfl
      · rw [List.mem_singleton] at ht
        subst ht
        exact h _ h0
    have hw : ∀ b, wholeWritten twoDefs twoFilesDefs (Includes twoFiles "." twoText) A b →
        (A = "a" ∨ A = "b" ∨ A = "word") ∧ ∀ t ∈ b.terms.flatMap (readTerm twoFiles.ref.annot), t.type = .terminal ∨ t.type = .any ∨ t.value = "b" := by
      intro b hb
      rcases hwr A b hb with ⟨rfl, e⟩ | ⟨rfl, e⟩
      · exact ⟨.inl rfl, hterm _ (by rw [e]; decide +kernel)⟩
      · exact ⟨.inr (.inl rfl), hterm _ (by rw [e]; decide +kernel)⟩
    cases h with
    | main h => obtain ⟨b, hb, rfl⟩ := h; exact hw b (.inl hb)
    | included hi h => obtain ⟨b, hb, rfl⟩ := h; exact hw b (.inr ⟨_, hi, hb⟩)
    | document h =>
      obtain ⟨rfl, t, -, rfl⟩ := hdoc A ts h
      refine ⟨.inr (.inr rfl), fun t' ht' => ?_⟩
      rw [List.mem_singleton.1 ht']
      exact .inl rfl
  have hfit : WholeFit twoDefs twoFilesDefs (Includes twoFiles "." twoText) twoFiles.ref (wholeSource twoDefs twoFilesDefs
      (Includes twoFiles "." twoText) twoFiles.ref.annot
      (docSource twoWorld.find (wholeRegexps twoFilesDefs (Includes twoFiles "." twoText) []) twoDoc)) ["a"] := by
    refine ⟨?_, ?_, ?_⟩
    · intro t t' ht ht' _
      rcases hlit t ht with rfl | rfl <;> rcases hlit t' ht' with rfl | rfl <;> rfl
    · intro _ t t' ht ht'
      rcases hlit t ht with rfl | rfl <;> rcases hlit t' ht' with rfl | rfl <;> decide +kernel
    · intro A hA
      have : A = "a" ∨ A = "b" ∨ A = "word" := by
        rcases hA with (⟨ts, h⟩ | ⟨B, ts, h, t, ht, htt, rfl⟩) | h
        · exact (hsrc A ts h).1
        · rcases (hsrc B ts h).2 t ht with h | h | h
          · rw [h] at htt
            simp at htt
          · rw [h] at htt
            simp at htt
          · exact .inr (.inl h)
        · exact .inl (List.mem_singleton.1 h)
      unfold Reserved
      rcases this with rfl | rfl | rfl <;> decide
  have hu : WholeUniform twoDefs twoFilesDefs (Includes twoFiles "." twoText) := by
    have key : ∀ A b, wholeWritten twoDefs twoFilesDefs (Includes twoFiles "." twoText) A b → ∀ t ∈ b.terms,
        t.type = .any ∨ t.type = .list → t.meta = .range 0 1 := by
      intro A b hb t ht htt
      rcases hwr A b hb with ⟨-, e⟩ | ⟨-, e⟩ <;> rw [e] at ht <;>
        simp only [twoTerms, List.mem_cons, List.not_mem_nil, or_false] at ht
      · rcases ht with rfl | rfl | rfl <;> simp at htt ⊢
      · subst ht
        simp at htt
    intro A b A' b' hb hb' t ht t' ht' htt
    rw [key A b hb t ht (htt.imp (·.1) (·.1)), key A' b' hb' t' ht' (htt.imp (·.2) (·.2.1))]
  have hsafe : WholeSafe twoDefs twoFilesDefs (Includes twoFiles "." twoText) twoFiles.ref.annot
      (docSource twoWorld.find (wholeRegexps twoFilesDefs (Includes twoFiles "." twoText) []) twoDoc) ["a"] := by
    have hlit' : ∀ v m, v = "x" ∨ v = "y" → readTerm twoFiles.ref.annot ⟨v, .terminal, m⟩ ≠ [] := by
      rintro v m (rfl | rfl) <;> exact List.cons_ne_nil _ _
    have hb : ∀ t, t.value = "b" → t.type = .nonterminal → ¬ TextNull twoDefs twoFilesDefs (Includes twoFiles "." twoText)
        twoFiles.ref.annot (docSource twoWorld.find (wholeRegexps twoFilesDefs (Includes twoFiles "." twoText) []) twoDoc) t := by
      intro t hv htt hn
      cases hn with
      | literal h => rw [h] at htt; cases htt
      | rule h1 h2 h3 =>
        rcases hwr _ _ h2 with ⟨e, -⟩ | ⟨-, e⟩
        · rw [hv] at e
          exact absurd e (by decide)
        · have := h3 ⟨"y", .terminal, .nil⟩ (by rw [e]; exact List.mem_singleton.2 rfl)
          cases this with
          | literal _ h => exact hlit' _ _ (.inr rfl) h
          | rule h => cases h
          | document h => cases h
          | any h => cases h
          | list h => cases h
      | document h1 h2 =>
        obtain ⟨e, -⟩ := hdoc _ _ h2
        rw [hv] at e
        exact absurd e (by decide)
      | any h => rw [h] at htt; cases htt
      | list h => rw [h] at htt; cases htt
    constructor
    · intro A b t hw ht hn
      have hany : t.type = .any := by
        rcases hwr A b hw with ⟨-, e⟩ | ⟨-, e⟩ <;> rw [e] at ht <;>
          simp only [twoTerms, List.mem_cons, List.not_mem_nil, or_false] at ht
        · rcases ht with rfl | rfl | rfl
          · exact absurd hn (hb _ rfl rfl)
          · cases hn with
            | literal _ h => exact absurd h (hlit' _ _ (.inl rfl))
            | rule h => cases h
            | document h => cases h
            | any h => cases h
            | list h => cases h
          · rfl
        · subst ht
          cases hn with
          | literal _ h => exact absurd h (hlit' _ _ (.inr rfl))
          | rule h => cases h
          | document h => cases h
          | any h => cases h
          | list h => cases h
      refine .inl ⟨0, fun A' b' p t' hw' hp' hs => .inl ?_⟩
      have htt : t'.type = .any := by
        rcases hs with ⟨-, h⟩ | ⟨h, -⟩
        · exact h
        · rw [← h, hany]
      rcases hwr A' b' hw' with ⟨-, e⟩ | ⟨-, e⟩ <;> rw [e] at hp' ⊢
      · match p, hp' with
        | 0, h => cases h; cases htt
        | 1, h => cases h; cases htt
        | 2, h => exact ⟨1, _, rfl, rfl, .inr (.inl ⟨rfl, hlit' _ _ (.inl rfl), rfl⟩)⟩
      · match p, hp' with
        | 0, h => cases h; cases htt
    · intro A b t hw ht htt
      rcases hwr A b hw with ⟨-, e⟩ | ⟨-, e⟩ <;> rw [e] at ht <;>
        simp only [twoTerms, List.mem_cons, List.not_mem_nil, or_false] at ht
      · rcases ht with rfl | rfl | rfl <;> cases htt
      · subst ht
        cases htt
  refine ⟨ld, st, hload, hF, hc, ht, hd, hfit, hu, hsafe, ?_, ?_⟩
  · have hy : Yields (sourcesLang (terminalMatch twoWorld.lower twoWorld.registry) [wholeSource twoDefs twoFilesDefs
        (Includes twoFiles "." twoText) twoFiles.ref.annot
        (docSource twoWorld.find (wholeRegexps twoFilesDefs (Includes twoFiles "." twoText) []) twoDoc)])
        [⟨"y", .terminal, .nil⟩] [{ text := "y", startByte := 0, endByte := 1, i := 0 }] :=
      .terminal rfl (by decide) .nil
    refine Yields.nonterminal (body := twoTerms) (w := []) (u := twoTokens) rfl
      ⟨_, List.mem_singleton.2 rfl, .main ⟨_, ⟨_, List.mem_singleton.2 rfl, rfl, rfl, List.mem_singleton.2 rfl⟩, rfl⟩⟩ ?_ .nil
    refine Yields.nonterminal (body := [⟨"y", .terminal, .nil⟩])
      (u := [{ text := "y", startByte := 0, endByte := 1, i := 0 }]) rfl
      ⟨_, List.mem_singleton.2 rfl, .included ((hinc _).2 rfl) ⟨_, ⟨_, List.mem_singleton.2 rfl, rfl, rfl, List.mem_singleton.2 rfl⟩, rfl⟩⟩
      hy ?_
    exact .terminal rfl (by decide) (.any (u := []) rfl ⟨Int.le_refl 0, by decide⟩ .nil)
  · intro h
    obtain ⟨ts, hts, hy⟩ : ∃ ts, twoSource "a" ts ∧
        Yields (sourcesLang (terminalMatch twoWorld.lower twoWorld.registry) [twoSource]) ts [] := by
      generalize e : ([] : List Token) = u at h
      cases h with
      | terminal h => cases h
      | any h => cases h
      | list h => cases h
      | @nonterminal t ts body u w h1 h2 h3 h4 =>
        obtain ⟨rfl, rfl⟩ := List.append_eq_nil_iff.1 e.symm
        obtain ⟨s, hs, h2⟩ := h2
        rw [List.mem_singleton.1 hs] at h2
        exact ⟨_, h2, h3⟩
    have key : ∀ b, wholeWritten twoDefs twoFilesDefs (Includes twoFiles "." twoText) "a" b →
        ts = b.terms.flatMap (readTerm twoFiles.ref.annot) → False := by
      intro b hb e
      rcases hwr _ _ hb with ⟨-, e'⟩ | ⟨e', -⟩
      · rw [e'] at e
        subst e
        exact yields_terminal hy (t := ⟨"x", .terminal, .nil⟩) (by decide +kernel) rfl rfl
      · exact absurd e' (by decide)
    cases hts with
    | main h => obtain ⟨b, hb, e⟩ := h; exact key b (.inl hb) e
    | included hi h => obtain ⟨b, hb, e⟩ := h; exact key b (.inr ⟨_, hi, hb⟩) e
    | document h => exact absurd (hdoc _ _ h).1 (by decide)

/-- C73: `Parse` returns a tree -/
example : ∃ ld st n, loadString twoFiles 60 5 twoText "g" [] = .ok (some ld, st) ∧
    ∀ fuel ≥ n, ∃ ns, apiParse twoWorld ld.gram fuel "" [121, 120] ["a"] = .ok ns ∧ ns ≠ [] := by
  obtain ⟨ld, st, hload, hF, hc, ht, hd, hfit, hu, hsafe, hder, -⟩ := two_setting
  obtain ⟨l, -, n, hn⟩ := C73_string_partial exampleLex_ok (by decide) two_file hc hF hload twoWorld "" [121, 120] ["a"]
    twoDoc ht hd _ rfl hfit hu hsafe (by decide) (fun _ _ _ _ _ => List.Perm.refl _)
  refine ⟨ld, st, n, hload, fun fuel hf => ?_⟩
  obtain ⟨ns, h1, h2, -⟩ := hn fuel hf
  exact ⟨ns, h1, h2.2 ⟨2, by decide, "a", List.mem_singleton.2 rfl, hder⟩⟩

/-- C75: `ParseAny` and `ExtractAll` return trees, `ExtractMaxAll` the segment of both tokens -/
example : ∃ ld st n ns, ∃ gs : List (Nat × List Node), ∃ ms : List ((Nat × Nat) × List Node),
    loadString twoFiles 60 5 twoText "g" [] = .ok (some ld, st) ∧
    (∀ fuel ≥ n, apiParseAny twoWorld ld.gram fuel "" [121, 120] ["a"] = .ok ns ∧
      apiExtractAll twoWorld ld.gram fuel "" [121, 120] ["a"] = .ok (gs.map (·.2)).flatten ∧
      apiExtractMaxAll twoWorld ld.gram fuel "" [121, 120] ["a"] = .ok (ms.map (·.2)).flatten) ∧
    ns ≠ [] ∧ (∃ a ∈ gs, a.1 = 0) ∧ ms.map (·.1) = [(0, 2)] := by
  obtain ⟨ld, st, hload, hF, hc, ht, hd, hfit, hu, hsafe, hder, hne⟩ := two_setting
  have ho : twoWorld.OrdOK := fun _ _ _ _ _ => List.Perm.refl _
  obtain ⟨_, -, n1, ns, h1, h1'⟩ := C75_any_string_partial exampleLex_ok (by decide) two_file hc hF hload twoWorld ""
    [121, 120] ["a"] twoDoc ht hd _ rfl hfit hu hsafe (by decide) ho
  obtain ⟨_, -, n2, gs, h2, h2'⟩ := C75_all_string_partial exampleLex_ok (by decide) two_file hc hF hload twoWorld ""
    [121, 120] ["a"] twoDoc ht hd _ rfl hfit hu hsafe (by decide) ho
  obtain ⟨_, -, n3, ms, h3, h3'⟩ := C75_maxAll_string_partial exampleLex_ok (by decide) two_file hc hF hload twoWorld ""
    [121, 120] ["a"] twoDoc ht hd _ rfl hfit hu hsafe (by decide) ho (by
      intro S hS
      rw [List.mem_singleton.1 hS]
      exact hne)
  have hm : SpanMatch (TextSpan twoWorld twoSource twoDoc.words) ["a"] twoDoc.words.length 0 2 :=
    ⟨by decide, by decide, "a", List.mem_singleton.2 rfl, hder⟩
  refine ⟨ld, st, max n1 (max n2 n3), ns, gs, ms, hload, fun f hf => ⟨h1 f (by omega), h2 f (by omega), h3 f (by omega)⟩,
    h1'.found.2 ⟨0, 2, hm⟩, ?_, ?_⟩
  · obtain ⟨a, ha, e, -⟩ := h2'.complete "a" (List.mem_singleton.2 rfl) 0 2 (by decide) (by decide) hder
    exact ⟨a, ha, e⟩
  · have hlen : twoDoc.words.length = 2 := rfl
    have h0 : ∃ a ∈ ms, a.1 = (0, 2) := by
      by_contra hno
      refine h3'.rest 0 2 ?_ hm
      rintro a ha ⟨e1, e2⟩
      have e1 : a.1.1 = 0 := by omega
      obtain ⟨h4, h5⟩ := h3'.longest a ha
      have h6 := h5 2 (by rw [e1]; exact hm)
      have h7 := h4.2.1
      exact hno ⟨a, ha, Prod.ext e1 (by simp only; omega)⟩
    obtain ⟨a, ha, e⟩ := h0
    have hone : ∀ b ∈ ms, b.1.1 < 2 ∧ 0 < b.1.2 := fun b hb => by
      have := (h3'.longest b hb).1.1
      exact ⟨by omega, (h3'.nonempty b hb).1⟩
    have hdis := h3'.disjoint
    match ms, ha, hone, hdis with
    | [b], ha, hone, hdis =>
      rw [List.mem_singleton] at ha
      rw [← ha, List.map_singleton, e]
    | b :: c :: r, ha, hone, hdis =>
      exfalso
      simp only [List.map_cons, List.pairwise_cons, List.mem_cons, forall_eq_or_imp] at hdis
      have hc := hone c (by simp)
      have hb := hone b (by simp)
      have hbc := hdis.1.1
      rcases List.mem_cons.1 ha with rfl | ha
      · rw [e] at hbc
        omega
      · have : b.1.1 + b.1.2 ≤ a.1.1 := by
          rcases List.mem_cons.1 ha with rfl | ha
          · exact hbc
          · exact hdis.1.2 _ (List.mem_map_of_mem ha)
        rw [e] at this
        omega

/-! ### the full statement is false -/

/-- C73 without the last two assumptions: whatever is loaded, `Parse` returns trees iff the texts allow a match. -/
def C73_statement : Prop :=
  ∀ (lw : LoadWorld), lw.lex.OK → ∀ (F : Files) (gtext : List Char) (ds : List Def) (ρ : List (String × String)),
    runeError ∉ gtext → FileSyn lw.lex gtext ds ρ → NoCollision lw.lex.hash ds → FilesRead lw F (Includes lw "." gtext) →
    ∀ fuel0 depth name reg ld st, loadString lw fuel0 depth gtext name reg = .ok (some ld, st) →
    ∀ (w : World) (context : String) (text : Bytes) (starts : List String) (d : Doc), TextRead w context text d →
    DocFit w (wholeRegexps F (Includes lw "." gtext) ρ) d →
    ∀ src : Source, src = wholeSource ds F (Includes lw "." gtext) lw.ref.annot
      (docSource w.find (wholeRegexps F (Includes lw "." gtext) ρ) d) →
    WholeFit ds F (Includes lw "." gtext) lw.ref src starts → starts ≠ [] → w.OrdOK →
    ∀ fuel ns, apiParse w ld.gram fuel context text starts = .ok ns → (ns ≠ [] ↔ ∃ k, TextMatch w src starts d.words k)

/-- a loader without files, for which the empty literal has no token -/
def voidLoad : LoadWorld :=
  { noFiles exampleLex with
    ref := { annot := fun s => if s = "" then some [] else some [tk s], ascii := id, hash := fun _ => some 0 } }

def voidText : List Char := "<s>=<a><b>\"z\";<a>=\"\";<b>=\"\";".toList

def voidLit : RuleBody := ⟨[⟨"", .terminal, .nil⟩], none⟩

def voidDefs : List Def :=
  [⟨false, "s", [⟨[⟨"a", .nonterminal, .nil⟩, ⟨"b", .nonterminal, .nil⟩, ⟨"z", .terminal, .nil⟩], none⟩]⟩,
   ⟨false, "a", [voidLit]⟩, ⟨false, "b", [voidLit]⟩]

def noDefs : Files := { defs := fun _ => [], regexps := fun _ => [] }

def voidDoc : Doc := { text := [122], tokens := [{ text := "z", startByte := 0, endByte := 1, i := 0 }], spans := [] }

def voidWorld : World := { wWorld [] with annotate := fun _ => some voidDoc }

theorem void_lit : LitSyn exampleLex ['"', '"'] "" "" :=
  .plain (s := []) (t := []) (v := []) (by intro c hc; cases hc) .nil (by intro c hc; cases hc)

theorem void_rule {x : Char} (h : Ident exampleLex [x]) :
    DefSyn exampleLex ['<', x, '>', '=', '"', '"', ';'] ⟨false, String.ofList [x], [voidLit]⟩ [] [] :=
  .rule (x := [x]) (g1 := []) (g2 := []) (l := ['"', '"']) h two_nogap two_nogap
    (.one (.plain (.one (l := ['"', '"']) (g := []) (.literal void_lit) two_nogap)))

theorem void_file : FileSyn exampleLex voidText voidDefs [] := by
  have ha : Ident exampleLex ['a'] := ident_alpha (by rfl) (by rfl)
  have hb : Ident exampleLex ['b'] := ident_alpha (by rfl) (by rfl)
  refine .defs (.cons (g := []) (l := "<s>=<a><b>\"z\";".toList) (r := "<a>=\"\";<b>=\"\";".toList) two_nogap ?_
    (.cons (g := []) (l := "<a>=\"\";".toList) (r := "<b>=\"\";".toList) two_nogap (void_rule ha)
      (.cons (g := []) (l := "<b>=\"\";".toList) (r := []) two_nogap (void_rule hb) (.nil two_nogap))))
  refine DefSyn.rule (x := ['s']) (g1 := []) (g2 := []) (l := "<a><b>\"z\"".toList) (ident_alpha (by rfl) (by rfl))
    two_nogap two_nogap (.one (.plain (.more (l := "<a>".toList) (g := []) (r := "<b>\"z\"".toList)
      (.nonterminal (x := ['a']) ha) two_nogap (.more (l := "<b>".toList) (g := []) (r := "\"z\"".toList)
        (.nonterminal (x := ['b']) hb) two_nogap (.one (l := ['"', 'z', '"']) (g := []) (.literal ?_) two_nogap)))))
  exact twoLit (by decide) (by decide) (by decide) (by decide)

theorem void_load : ∃ ld st, loadString voidLoad 60 5 voidText "g" [] = .ok (some ld, st) ∧
    (∀ p, ¬ Includes voidLoad "." voidText p) ∧ ld.gram.main.regexps = [] ∧
    ∀ call ∈ [apiParse, apiParseAny, apiExtractAll, apiExtractMaxAll], call voidWorld ld.gram 60 "" [122] ["s"] = .ok [] := by
  have hc : (match loadString voidLoad 60 5 voidText "g" [] with
    | .ok (some ld, _) => ld.gram.includes.isEmpty && ld.gram.main.regexps.isEmpty &&
      [apiParse, apiParseAny, apiExtractAll, apiExtractMaxAll].all (fun call =>
        match call voidWorld ld.gram 60 "" [122] ["s"] with
        | .ok ns => ns.isEmpty
        | _ => false)
    | _ => false) = true := by decide +kernel
  cases e : loadString voidLoad 60 5 voidText "g" [] with
  | ok x =>
    obtain ⟨o, st⟩ := x
    rw [e] at hc
    cases o with
    | none => cases hc
    | some ld =>
      simp only [Bool.and_eq_true, List.isEmpty_iff] at hc
      refine ⟨ld, st, rfl, fun p hp => ?_, hc.1.2, ?_⟩
      · obtain ⟨ld', e', -, -, -, hn, -⟩ := C33_string (w := voidLoad) exampleLex_ok (by decide) (fun p t _ hr => by cases hr) e
        cases e'
        have := (hn p).2 hp
        rw [hc.1.1] at this
        cases this
      · intro call hcall
        have h2 := List.all_eq_true.1 hc.2 call hcall
        cases e2 : call voidWorld ld.gram 60 "" [122] ["s"] with
        | ok ns =>
          rw [e2] at h2
          rw [List.isEmpty_iff.1 h2]
        | _ => rw [e2] at h2; cases h2
  | _ => rw [e] at hc; cases hc

/-- what the grammar and the document say -/
def voidSource : Source := wholeSource voidDefs noDefs (Includes voidLoad "." voidText) voidLoad.ref.annot
  (docSource voidWorld.find (wholeRegexps noDefs (Includes voidLoad "." voidText) []) voidDoc)

/-- all other assumptions of C73 hold together, the texts allow a match, and no call returns a tree -/
theorem void_setting : ∃ ld st, loadString voidLoad 60 5 voidText "g" [] = .ok (some ld, st) ∧
    FilesRead voidLoad noDefs (Includes voidLoad "." voidText) ∧ NoCollision voidLoad.lex.hash voidDefs ∧
    TextRead voidWorld "" [122] voidDoc ∧
    DocFit voidWorld (wholeRegexps noDefs (Includes voidLoad "." voidText) []) voidDoc ∧
    WholeFit voidDefs noDefs (Includes voidLoad "." voidText) voidLoad.ref voidSource ["s"] ∧
    SourcesDerive (terminalMatch voidWorld.lower voidWorld.registry) [voidSource] "s" voidDoc.tokens ∧
    ∀ call ∈ [apiParse, apiParseAny, apiExtractAll, apiExtractMaxAll], call voidWorld ld.gram 60 "" [122] ["s"] = .ok [] := by
  obtain ⟨ld, st, hload, hinc, hre, hparse⟩ := void_load
  have hF : FilesRead voidLoad noDefs (Includes voidLoad "." voidText) :=
    ⟨fun q t h => absurd h (hinc q), fun q h => absurd h (hinc q)⟩
  have hc : NoCollision voidLoad.lex.hash voidDefs := by
    refine ⟨(fun d _ b _ h => by cases h), ?_⟩
    intro d hd b hb d' hd' b' hb' e
    have key : ∀ d ∈ voidDefs, ∀ b ∈ d.bodies, b = voidLit ∨
        b = ⟨[⟨"a", .nonterminal, .nil⟩, ⟨"b", .nonterminal, .nil⟩, ⟨"z", .terminal, .nil⟩], none⟩ := by
      intro d hd b hb
      simp only [voidDefs, List.mem_cons, List.not_mem_nil, or_false] at hd
      rcases hd with rfl | rfl | rfl <;> rw [List.mem_singleton] at hb <;> simp [hb]
    rcases key d hd b hb with rfl | rfl <;> rcases key d' hd' b' hb' with rfl | rfl <;>
      first
      | rfl
      | exact absurd e (by decide +kernel)
  have ht : TextRead voidWorld "" [122] voidDoc := ⟨by decide, .plain rfl, _, List.mem_cons_self, by decide⟩
  have hR : ∀ k s, ¬ wholeRegexps noDefs (Includes voidLoad "." voidText) [] k s := by
    rintro k s (h | ⟨p, -, h⟩) <;> simp [noDefs] at h
  have hdoc : ∀ A ts, docSource voidWorld.find (wholeRegexps noDefs (Includes voidLoad "." voidText) []) voidDoc A ts →
      A = "word" ∧ ∃ t ∈ voidDoc.tokens, ts = [tokenTerm t] := by
    intro A ts h
    have htok : ∀ t ∈ voidDoc.tokens, t.type = .word := by decide
    cases h with
    | word h1 h2 => exact ⟨rfl, _, h1, rfl⟩
    | tag h1 => cases h1
    | regexp h1 => exact absurd h1 (hR _ _)
    | punct h1 h2 => rw [htok _ h1] at h2; cases h2
    | symbol h1 h2 => rw [htok _ h1] at h2; cases h2
    | letters h1 h2 => rw [htok _ h1] at h2; cases h2
  have hd : DocFit voidWorld (wholeRegexps noDefs (Includes voidLoad "." voidText) []) voidDoc := by
    have this : ∀ A b, DocAlt voidWorld.find (wholeRegexps noDefs (Includes voidLoad "." voidText) []) voidDoc A b →
        ∃ t ∈ voidDoc.tokens, b = ⟨[tokenTerm t], none⟩ := by
      intro A b h
      cases h with
      | word h => exact ⟨_, h, rfl⟩
      | punct h => exact ⟨_, h, rfl⟩
      | symbol h => exact ⟨_, h, rfl⟩
      | letters h => exact ⟨_, h, rfl⟩
      | tag h => cases h
      | values h => cases h
      | regexp h => exact absurd h (hR _ _)
    refine ⟨⟨?_, by decide, by decide⟩, (by intro sp h; cases h), (by intro sp h; cases h), ?_, ?_,
      fun k s s' h => absurd h (hR k s)⟩
    · intro k t h
      match k, h with
      | 0, h => cases h; rfl
    · intro A b h e
      obtain ⟨t, ht, rfl⟩ := this _ _ h
      cases e
    · intro A b b' h h' e2
      obtain ⟨t, ht, rfl⟩ := this _ _ h
      obtain ⟨t', ht', rfl⟩ := this _ _ h'
      rw [List.mem_singleton.1 ht, List.mem_singleton.1 ht']
  have hwr : ∀ A b, wholeWritten voidDefs noDefs (Includes voidLoad "." voidText) A b →
      (A = "s" ∨ A = "a" ∨ A = "b") ∧ ∀ t ∈ b.terms, t.meta = .nil ∧ (t.type = .terminal ∨ t.value = "a" ∨ t.value = "b") := by
    rintro A b (⟨d, h1, -, rfl, h2⟩ | ⟨p, h, -⟩)
    · simp only [voidDefs, List.mem_cons, List.not_mem_nil, or_false] at h1
      rcases h1 with rfl | rfl | rfl <;> rw [List.mem_singleton] at h2 <;> subst h2
      · exact ⟨.inl rfl, by decide⟩
      · exact ⟨.inr (.inl rfl), by decide⟩
      · exact ⟨.inr (.inr rfl), by decide⟩
    · exact absurd h (hinc p)
  have hsrc : ∀ A ts, wholeSource voidDefs noDefs (Includes voidLoad "." voidText) voidLoad.ref.annot
      (docSource voidWorld.find (wholeRegexps noDefs (Includes voidLoad "." voidText) []) voidDoc) A ts →
      (A = "s" ∨ A = "a" ∨ A = "b" ∨ A = "word") ∧ ∀ t ∈ ts, t.type = .terminal ∨ t.value = "a" ∨ t.value = "b" := by
    intro A ts h
    have hw : ∀ b, wholeWritten voidDefs noDefs (Includes voidLoad "." voidText) A b →
        (A = "s" ∨ A = "a" ∨ A = "b" ∨ A = "word") ∧
          ∀ t ∈ b.terms.flatMap (readTerm voidLoad.ref.annot), t.type = .terminal ∨ t.value = "a" ∨ t.value = "b" := by
      intro b hb
      obtain ⟨h1, h2⟩ := hwr A b hb
      refine ⟨by rcases h1 with h | h | h <;> simp [h], fun t ht => ?_⟩
      obtain ⟨t0, h0, ht⟩ := List.mem_flatMap.1 ht
      unfold readTerm at ht
      split at ht
      · obtain ⟨a, -, rfl⟩ := List.mem_map.1 ht
        exact .inl rfl
      · rw [List.mem_singleton] at ht
        subst ht
        exact (h2 _ h0).2
    cases h with
    | main h => obtain ⟨b, hb, rfl⟩ := h; exact hw b (.inl hb)
    | included hi h => exact absurd hi (hinc _)
    | document h =>
      obtain ⟨rfl, t, -, rfl⟩ := hdoc A ts h
      refine ⟨by simp, fun t' ht' => ?_⟩
      rw [List.mem_singleton.1 ht']
      exact .inl rfl
  have hfit : WholeFit voidDefs noDefs (Includes voidLoad "." voidText) voidLoad.ref (wholeSource voidDefs noDefs
      (Includes voidLoad "." voidText) voidLoad.ref.annot
      (docSource voidWorld.find (wholeRegexps noDefs (Includes voidLoad "." voidText) []) voidDoc)) ["s"] := by
    refine ⟨?_, fun ⟨p, h⟩ => absurd h (hinc p), ?_⟩
    · rintro t t' ⟨-, A, b, hb, ht⟩ ⟨-, A', b', hb', ht'⟩ _
      rw [((hwr A b hb).2 t ht).1, ((hwr A' b' hb').2 t' ht').1]
    · intro A hA
      have : A = "s" ∨ A = "a" ∨ A = "b" ∨ A = "word" := by
        rcases hA with (⟨ts, h⟩ | ⟨B, ts, h, t, ht, htt, rfl⟩) | h
        · exact (hsrc A ts h).1
        · rcases (hsrc B ts h).2 t ht with h | h | h
          · rw [h] at htt
            simp at htt
          · exact .inr (.inl h)
          · exact .inr (.inr (.inl h))
        · exact .inl (List.mem_singleton.1 h)
      unfold Reserved
      rcases this with rfl | rfl | rfl | rfl <;> decide
  refine ⟨ld, st, hload, hF, hc, ht, hd, hfit, ?_, hparse⟩
  have hv : ∀ A, A = "a" ∨ A = "b" → (sourcesLang (terminalMatch voidWorld.lower voidWorld.registry) [wholeSource voidDefs noDefs
      (Includes voidLoad "." voidText) voidLoad.ref.annot
      (docSource voidWorld.find (wholeRegexps noDefs (Includes voidLoad "." voidText) []) voidDoc)]).prods A [] := by
    intro A hA
    refine ⟨_, List.mem_singleton.2 rfl, .main ⟨voidLit, ⟨⟨false, A, [voidLit]⟩, ?_, rfl, rfl, List.mem_singleton.2 rfl⟩, rfl⟩⟩
    rcases hA with rfl | rfl <;> simp [voidDefs]
  refine Yields.nonterminal (body := [⟨"a", .nonterminal, .nil⟩, ⟨"b", .nonterminal, .nil⟩, ⟨"z", .terminal, .nil⟩]) (w := [])
    (u := voidDoc.tokens) rfl
    ⟨_, List.mem_singleton.2 rfl, .main ⟨_, ⟨_, List.mem_cons_self, rfl, rfl, List.mem_singleton.2 rfl⟩, rfl⟩⟩ ?_ .nil
  refine Yields.nonterminal (body := []) (u := []) rfl (hv _ (.inl rfl)) .nil ?_
  refine Yields.nonterminal (body := []) (u := []) rfl (hv _ (.inr rfl)) .nil ?_
  exact .terminal rfl (by decide) .nil

/-- False: `<a>` and `<b>` are different rules that match nothing, so `<s>` should match `z`; but refinement replaces
both empty literals with one rule, which has already been completed when `<b>` needs it. -/
theorem C73_false : ¬ C73_statement := by
  intro hall
  obtain ⟨ld, st, hload, hF, hc, ht, hd, hfit, hder, hcall⟩ := void_setting
  exact (hall voidLoad exampleLex_ok noDefs voidText voidDefs [] (by decide) void_file hc hF 60 5 "g" [] ld st hload voidWorld
    "" [122] ["s"] voidDoc ht hd _ rfl hfit (by decide) (fun _ _ _ _ _ => List.Perm.refl _) 60 [] (hcall _ (by simp))).2
    ⟨1, by decide, "s", List.mem_singleton.2 rfl, hder⟩ rfl

/-- C75 without the assumptions on optional parts and ranges: whatever is loaded, the call returns trees iff the texts
allow a match somewhere. -/
def C75_statement (call : World → Gram → Nat → String → Bytes → List String → Out (List Node)) : Prop :=
  ∀ (lw : LoadWorld), lw.lex.OK → ∀ (F : Files) (gtext : List Char) (ds : List Def) (ρ : List (String × String)),
    runeError ∉ gtext → FileSyn lw.lex gtext ds ρ → NoCollision lw.lex.hash ds → FilesRead lw F (Includes lw "." gtext) →
    ∀ fuel0 depth name reg ld st, loadString lw fuel0 depth gtext name reg = .ok (some ld, st) →
    ∀ (w : World) (context : String) (text : Bytes) (starts : List String) (d : Doc), TextRead w context text d →
    DocFit w (wholeRegexps F (Includes lw "." gtext) ρ) d →
    ∀ src : Source, src = wholeSource ds F (Includes lw "." gtext) lw.ref.annot
      (docSource w.find (wholeRegexps F (Includes lw "." gtext) ρ) d) →
    WholeFit ds F (Includes lw "." gtext) lw.ref src starts → starts ≠ [] → w.OrdOK →
    ∀ fuel ns, call w ld.gram fuel context text starts = .ok ns →
      (ns ≠ [] ↔ ∃ i k, SpanMatch (TextSpan w src d.words) starts d.words.length i k)

/-- False for all three calls, for the same reason. -/
theorem C75_false : ∀ call ∈ [apiParseAny, apiExtractAll, apiExtractMaxAll], ¬ C75_statement call := by
  intro call hm hall
  obtain ⟨ld, st, hload, hF, hc, ht, hd, hfit, hder, hcall⟩ := void_setting
  exact (hall voidLoad exampleLex_ok noDefs voidText voidDefs [] (by decide) void_file hc hF 60 5 "g" [] ld st hload voidWorld
    "" [122] ["s"] voidDoc ht hd _ rfl hfit (by decide) (fun _ _ _ _ _ => List.Perm.refl _) 60 []
    (hcall _ (List.mem_cons_of_mem _ hm))).2
    ⟨0, 1, by decide, by decide, "s", List.mem_singleton.2 rfl, hder⟩ rfl

end Fmr
