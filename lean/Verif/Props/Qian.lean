import Verif.Spec.Qian
import Verif.Proofs.ShippedLoad
import Verif.Proofs.WordWitness

/-!
# C102: 前 and 千

`refine` names the rule of a literal after its words in ASCII. Where a file and one that it includes have literals with the
same ASCII, each stands for both.
-/

namespace Fmr

/-- grammars/limit.grammar and grammars/time.grammar -/
def limitSheets : List Sheet := [sheets[2]'(by decide), sheets[5]'(by decide)]

theorem limitSheets_mem : ∀ s ∈ limitSheets, s ∈ sheets := by
  intro s hs
  rcases List.mem_cons.1 hs with rfl | hs
  · exact List.getElem_mem _
  · rw [List.mem_singleton.1 hs]
    exact List.getElem_mem _

/-- the literals of the file -/
def Sheet.lits (s : Sheet) : List String :=
  if s.file.name = "number.zh.grammar" then zhLits else if s.file.name = "math.zh.grammar" then mathLits
  else if s.file.name = "limit.grammar" then limitLits else timeLits

/-- the literals of all four files -/
def allLits : List String := zhLits ++ mathLits ++ limitLits ++ timeLits

def Sheet.check (s : Sheet) (ds : List Def) : Bool :=
  defsLike limitNames s.lits ds && (s.file.name == "number.zh.grammar" || s.file.name == "math.zh.grammar" ||
    ds.any fun d => !d.frame && d.bodies.any fun b => b.terms.contains (lit "前"))

/-- the rules of numbers are defined with their own rules and literals -/
def Sheet.checkNumbers (s : Sheet) (ds : List Def) : Bool :=
  if s.file.name == "number.zh.grammar" || s.file.name == "math.zh.grammar" then defsLike ownNames s.lits ds
  else ds.all fun d => !ownNames.contains d.name

def Sheet.checks (s : Sheet) (ds : List Def) : Bool := s.check ds && s.checkNumbers ds

set_option maxRecDepth 100000 in
theorem zh_passes : SheetPasses (Sheet.checks (sheets[0]'(by decide))) (sheets[0]'(by decide)) :=
  ⟨_, .cons rfl <| .cons rfl <| .cons rfl <| .cons rfl <| .cons rfl <| .cons rfl <| .cons rfl <| .cons rfl <| .cons rfl <| .cons rfl <| .cons rfl <| .cons rfl <| .cons rfl <| .cons rfl <| .cons rfl <| .cons rfl <| .cons rfl <| .nil, by decide +kernel⟩

set_option maxRecDepth 100000 in
theorem mathZh_passes : SheetPasses (Sheet.checks (sheets[1]'(by decide))) (sheets[1]'(by decide)) :=
  ⟨_, .cons rfl <| .cons rfl <| .cons rfl <| .cons rfl <| .cons rfl <| .cons rfl <| .cons rfl <| .cons rfl <| .nil, by decide +kernel⟩

set_option maxRecDepth 100000 in
theorem limit_passes : SheetPasses (Sheet.checks (sheets[2]'(by decide))) (sheets[2]'(by decide)) :=
  ⟨_, .cons rfl <| .cons rfl <| .cons rfl <| .nil, by decide +kernel⟩

set_option maxRecDepth 100000 in
theorem time_passes : SheetPasses (Sheet.checks (sheets[5]'(by decide))) (sheets[5]'(by decide)) :=
  ⟨_, .cons rfl <| .cons rfl <| .cons rfl <| .cons rfl <| .cons rfl <| .cons rfl <| .cons rfl <| .nil, by decide +kernel⟩

deriving instance DecidableEq for ShippedFile, Sheet

theorem limit_reach : Sheet.reach 3 (sheets[2]'(by decide)) = [sheets[1]'(by decide), sheets[0]'(by decide)] := by decide +kernel

theorem time_reach : Sheet.reach 3 (sheets[5]'(by decide)) = [sheets[1]'(by decide), sheets[0]'(by decide)] := by decide +kernel

theorem limit_passes_all {s : Sheet} (hs : s ∈ limitSheets) : ∀ t ∈ s :: Sheet.reach 3 s, SheetPasses t.checks t := by
  rcases List.mem_cons.1 hs with rfl | hs
  · rw [limit_reach]
    simp only [List.mem_cons, List.not_mem_nil, or_false]
    rintro t (rfl | rfl | rfl)
    exacts [limit_passes, mathZh_passes, zh_passes]
  · rw [List.mem_singleton.1 hs, time_reach]
    simp only [List.mem_cons, List.not_mem_nil, or_false]
    rintro t (rfl | rfl | rfl)
    exacts [time_passes, mathZh_passes, zh_passes]

theorem limit_zh {s : Sheet} (hs : s ∈ limitSheets) : (sheets[0]'(by decide)) ∈ s :: Sheet.reach 3 s := by
  rcases List.mem_cons.1 hs with rfl | hs
  · rw [limit_reach]; simp
  · rw [List.mem_singleton.1 hs, time_reach]; simp

theorem Sheet.lits_sub (s : Sheet) : ∀ x ∈ s.lits, x ∈ allLits := by
  intro x hx
  unfold Sheet.lits at hx
  simp only [allLits, List.mem_append]
  split at hx
  · simp [hx]
  · split at hx
    · simp [hx]
    · split at hx <;> simp [hx]

theorem limitNames_free {A : String} (h : A ∈ limitNames) : ¬ Reserved A := by
  have : ∀ A ∈ limitNames, (A == "ɣ" || "g_t".toList.isPrefixOf A.toList) = false := by decide +kernel
  exact Reserved.of_dec (this A h)

/-- the literals in a file of the repository -/
theorem zh_defs {lw : LoadWorld} {place : String → String} (h : ReadsShipped lw place) :
    sheetDefs lw.lex (sheets[0]'(by decide)) = zhDefs := by
  have hs : (sheets[0]'(by decide)) ∈ sheets := List.getElem_mem _
  obtain ⟨ρ, k⟩ := sheet_says h hs
  have hp := h.text (List.mem_cons_of_mem _ (Sheet.good hs))
  exact (C80_unique h.ok k.clean k.is.syn (.defs (zh_syntax ⟨h.ok, h.capitals, h.ints, fun s q h => by cases h⟩ hp))).1

/-! ### the name of a literal -/

section
variable {lw : LoadWorld} {ds : List Def} {f : Grammar × Grammar}

/-- Some literal of the file has the name that the words of a literal give, and its alternatives refer to it by this name. -/
theorem Piece.named (h : Piece lw ds f) {A : String} {b : RuleBody} {t : Term} (hb : Written ds false A b) (ht : t ∈ b.terms)
    (htt : t.type = .terminal) (hfree : ∀ b, ¬ Written ds false (literalName lw.ref "g" t.value) b) :
    ∃ u, f.1.Literal u ∧ NameFor lw.ref "g" u.value (literalName lw.ref "g" t.value) ∧
      f.2.source (literalName lw.ref "g" t.value) (readTerm lw.ref.annot u) ∧
      ∀ B c x, Written ds false B c → c.terms = [x] → x.type = .terminal → x.value = u.value →
        f.2.source B [⟨literalName lw.ref "g" t.value, .nonterminal, x.meta⟩] := by
  obtain ⟨fuel, reg, reg', hr⟩ := h.refines
  obtain ⟨es, rules, hR, hn⟩ := refine_named h.wf.unrefined hr
  have hl : f.1.rules.lookup (literalName lw.ref "g" t.value) = none := by
    cases e : f.1.rules.lookup (literalName lw.ref "g" t.value) with
    | none => rfl
    | some r =>
      obtain ⟨b, hb⟩ := h.names e
      exact absurd hb (hfree b)
  obtain ⟨e, he, hlit⟩ := hR.entry_of ((h.source A _).2 ⟨b, hb, rfl⟩) ht htt
  obtain ⟨e', he', hname⟩ := (hn e he).2 (by rw [hlit]; exact hl)
  rw [hlit] at hname
  refine ⟨_, hR.occurs e' he', ?_, ?_, fun B c x hc hx hxt hxv => ?_⟩
  · rw [← hname]
    exact (hn e' he').1
  · rw [← hname]
    exact (hR.source_new he' _).2 (by rw [hR.body e' he'])
  · have hBn : B ∉ es.map Entry.name := by
      intro hc'
      obtain ⟨e2, he2, rfl⟩ := List.mem_map.1 hc'
      obtain ⟨d, hd, hf, hnm, -⟩ := hc
      obtain ⟨r, hr⟩ := (h.holds.names e2.name).2 ⟨d, hd, hf, hnm⟩
      rw [hR.fresh e2 he2] at hr
      cases hr
    obtain ⟨ts, h1, h2⟩ := hR.source_up hBn ((h.source B _).2 ⟨c, hc, rfl⟩)
    rw [hx] at h2
    cases h2 with
    | cons h3 h4 =>
      cases h4
      rcases h3 with ⟨h3, -⟩ | ⟨-, e2, he2, h5, rfl⟩
      · exact absurd hxt h3
      · have : e2 = e' := List.inj_on_of_nodup_map hR.litsNodup he2 he' (h5.trans hxv)
        rw [this, hname] at h1
        exact h1

/-- alternatives without literals stay -/
theorem Piece.refs (h : Piece lw ds f) {A : String} {b : RuleBody} (hb : Written ds false A b)
    (hall : ∀ t ∈ b.terms, t.type ≠ .terminal) : f.2.source A b.terms := by
  obtain ⟨fuel, reg, reg', hr⟩ := h.refines
  obtain ⟨es, rules, hR, -⟩ := refine_named h.wf.unrefined hr
  have hBn : A ∉ es.map Entry.name := by
    intro hc'
    obtain ⟨e2, he2, rfl⟩ := List.mem_map.1 hc'
    obtain ⟨d, hd, hf, hnm, -⟩ := hb
    obtain ⟨r, hr⟩ := (h.holds.names e2.name).2 ⟨d, hd, hf, hnm⟩
    rw [hR.fresh e2 he2] at hr
    cases hr
  obtain ⟨ts, h1, h2⟩ := hR.source_up hBn ((h.source A _).2 ⟨b, hb, rfl⟩)
  have key : ∀ {l l' : List Term}, List.Forall₂ (TermRel es) l l' → (∀ t ∈ l, t.type ≠ .terminal) → l' = l := by
    intro l l' h
    induction h with
    | nil => exact fun _ => rfl
    | cons h1 _ ih =>
      intro hall
      rw [ih fun t ht => hall t (List.mem_cons_of_mem _ ht)]
      rcases h1 with ⟨-, rfl⟩ | ⟨h1, -⟩
      · rfl
      · exact absurd h1 (hall _ List.mem_cons_self)
  rw [key h2 hall] at h1
  exact h1

end

theorem literalName_one {w : RefineWorld} {x : String} {t : Token} (h : w.annot x = some [t]) (h1 : t.text = x) (h2 : t.type ≠ .space)
    (h3 : t.type ≠ .punct) : literalName w "g" x = "g_t_" ++ w.ascii x := by
  rw [literalName, h, Option.getD_some, List.foldl_cons, List.foldl_nil, if_neg (by simp [h2, h3]), h1]
  rfl

section
variable {lw : LoadWorld} {place : String → String} (h : ReadsShipped lw place) {s : Sheet} (hs : s ∈ limitSheets)
include h hs

theorem limit_regexps : wholeRegexps (shippedFiles lw place) (s.others lw place)
    ((shippedFiles lw place).regexps (s.path lw place)) = fun _ _ => False := by
  have key : ∀ t ∈ s :: Sheet.reach 3 s, (shippedFiles lw place).regexps (t.path lw place) = [] := by
    intro t ht
    refine ((limit_passes_all hs t ht).sound h ?_).2
    rcases List.mem_cons.1 ht with rfl | ht
    · exact limitSheets_mem _ hs
    · exact (sheet_reach h (limitSheets_mem _ hs) ht).1
  funext k x
  refine propext ⟨?_, False.elim⟩
  rintro (hx | ⟨p, hp, hx⟩)
  · rw [key s List.mem_cons_self] at hx
    cases hx
  · obtain ⟨t, ht, rfl⟩ := sheet_reached h (limitSheets_mem _ hs) hp.1
    rw [key t (List.mem_cons_of_mem _ ht)] at hx
    cases hx

theorem limit_checks {t : Sheet} (ht : t ∈ s :: Sheet.reach 3 s) : t.checks (sheetDefs lw.lex t) = true := by
  refine ((limit_passes_all hs t ht).sound h ?_).1
  rcases List.mem_cons.1 ht with rfl | ht
  · exact limitSheets_mem _ hs
  · exact (sheet_reach h (limitSheets_mem _ hs) ht).1

theorem limit_check {t : Sheet} (ht : t ∈ s :: Sheet.reach 3 s) : t.check (sheetDefs lw.lex t) = true := by
  have := limit_checks h hs ht
  rw [Sheet.checks, Bool.and_eq_true] at this
  exact this.1

theorem limit_numbers {t : Sheet} (ht : t ∈ s :: Sheet.reach 3 s) : t.checkNumbers (sheetDefs lw.lex t) = true := by
  have := limit_checks h hs ht
  rw [Sheet.checks, Bool.and_eq_true] at this
  exact this.2

theorem limit_written {A : String} {b : RuleBody}
    (hb : wholeWritten (sheetDefs lw.lex s) (shippedFiles lw place) (s.others lw place) A b) :
    A ∈ limitNames ∧ b.terms ≠ [] ∧ ∀ t ∈ b.terms,
      (t.type = .nonterminal ∧ t.value ∈ limitNames) ∨ (t.type = .terminal ∧ t.meta = .nil ∧ t.value ∈ allLits) := by
  obtain ⟨t, ht, hb⟩ := (shipped_written h (limitSheets_mem _ hs)).1 hb
  have hc := limit_check h hs ht
  rw [Sheet.check, Bool.and_eq_true] at hc
  obtain ⟨h1, h2, h3⟩ := defsLike_written hc.1 hb
  refine ⟨h1, h2, fun u hu => ?_⟩
  rcases h3 u hu with h4 | ⟨h4, h5, h6⟩
  · exact .inl h4
  · exact .inr ⟨h4, h5, t.lits_sub _ h6⟩

/-- the file has the literal 前 -/
theorem limit_has : ∃ A b, Written (sheetDefs lw.lex s) false A b ∧ lit "前" ∈ b.terms := by
  have hc := limit_check h hs List.mem_cons_self
  rw [Sheet.check, Bool.and_eq_true] at hc
  have hn : (s.file.name == "number.zh.grammar" || s.file.name == "math.zh.grammar") = false := by
    have : ∀ s ∈ limitSheets, (s.file.name == "number.zh.grammar" || s.file.name == "math.zh.grammar") = false := by decide +kernel
    exact this s hs
  rw [hn, Bool.false_or] at hc
  obtain ⟨d, h1, h2⟩ := List.any_eq_true.1 hc.2
  rw [Bool.and_eq_true] at h2
  obtain ⟨b, h3, h4⟩ := List.any_eq_true.1 h2.2
  exact ⟨d.name, b, ⟨d, h1, by simpa using h2.1, rfl, h3⟩, by simpa using h4⟩

/-- where 前, 千 and 仟 are transcribed alike, 前 is a thousand -/
theorem qian_derives (ha : QianAlike lw.ref allLits) {ρ : List (String × String)} {ld : Loaded}
    (hl : HeldBy lw (sheetDefs lw.lex s) ρ (shippedFiles lw place) (s.others lw place) ld) {lower : String → String}
    {reg : String → Option Token} (more : List Source) {tok : Token} (htok : tok.text = "前") :
    SourcesDerive (terminalMatch lower reg) ((ld.gram.main :: ld.gram.includes).map Grammar.source ++ more) "number" [tok] := by
  obtain ⟨f, hf, hpf⟩ := shipped_piece h (limitSheets_mem _ hs) hl List.mem_cons_self
  obtain ⟨z, hz, hpz⟩ := shipped_piece h (limitSheets_mem _ hs) hl (limit_zh hs)
  have hname : ∀ x ∈ ["前", "千", "仟"], literalName lw.ref "g" x = "g_t_" ++ lw.ref.ascii "前" := by
    intro x hx
    obtain ⟨t, h1, h2, h3, h4⟩ := ha.word x hx
    rw [literalName_one h1 h2 h3 h4]
    simp only [List.mem_cons, List.not_mem_nil, or_false] at hx
    rcases hx with rfl | rfl | rfl
    · rfl
    · rw [ha.alike.1]
    · rw [ha.alike.2]
  have hwr : ∀ t ∈ s :: Sheet.reach 3 s, ∀ A b, Written (sheetDefs lw.lex t) false A b → A ∈ limitNames ∧ ∀ x ∈ b.terms,
      x.type = .terminal → x.meta = .nil ∧ x.value ∈ t.lits := by
    intro t ht A b hb
    have hc := limit_check h hs ht
    rw [Sheet.check, Bool.and_eq_true] at hc
    obtain ⟨h1, -, h3⟩ := defsLike_written hc.1 hb
    refine ⟨h1, fun x hx hxt => ?_⟩
    rcases h3 x hx with ⟨h4, -⟩ | ⟨-, h5, h6⟩
    · rw [hxt] at h4; cases h4
    · exact ⟨h5, h6⟩
  have hfree : ∀ t ∈ s :: Sheet.reach 3 s, ∀ x b, ¬ Written (sheetDefs lw.lex t) false (literalName lw.ref "g" x) b := by
    intro t ht x b hb
    exact limitNames_free (hwr t ht _ b hb).1 (.inr (literalName_prefix lw.ref "g" x))
  have honly : ∀ x ∈ allLits, NameFor lw.ref "g" x ("g_t_" ++ lw.ref.ascii "前") → x ∈ ["前", "千", "仟"] := by
    intro x hx hn
    by_contra hc
    obtain ⟨h1, h2⟩ := ha.others x hx hc
    rcases hn with hn | ⟨k, hn⟩
    · exact h1 hn.symm
    · exact h2 k hn.symm
  -- 前, in the file itself
  obtain ⟨A, b, hb, hm⟩ := limit_has h hs
  obtain ⟨u, hu1, hu2, hu3, -⟩ := hpf.named hb hm rfl (hfree s List.mem_cons_self _)
  have hlv : (lit "前").value = "前" := rfl
  rw [hlv, hname "前" (by simp)] at hu2 hu3
  obtain ⟨hut, B, c, hc, hcu⟩ := hpf.literal hu1
  obtain ⟨hum, hul⟩ := (hwr s List.mem_cons_self B c hc).2 u hcu hut
  have huv : u.value = "前" := by
    have hmem := honly u.value (s.lits_sub _ hul) hu2
    have : ∀ s ∈ limitSheets, ∀ x ∈ s.lits, x ∈ ["前", "千", "仟"] → x = "前" := by decide +kernel
    exact this s hs _ hul hmem
  have hread : readTerm lw.ref.annot u = [⟨"前", .terminal, .nil⟩] := by
    obtain ⟨t, h1, h2, h3, -⟩ := ha.word "前" (by simp)
    rw [readTerm, if_pos hut, huv, h1, Option.getD_some, hum, List.filter_cons_of_pos (by simpa using h3)]
    simp [h2]
  rw [hread] at hu3
  -- 千, in number.zh.grammar
  have hcn : ∀ x n, x = "千" ∨ x = "仟" → n = (1000 : Int) → Written zhDefs false "cn_e3" (numAlt x n) := by
    rintro x n hx rfl
    refine ⟨⟨false, "cn_e3", [numAlt "千" 1000, numAlt "仟" 1000]⟩, by simp [zhDefs], rfl, rfl, ?_⟩
    rcases hx with rfl | rfl <;> simp
  have hzf := hfree _ (limit_zh hs) "千"
  have hzw := hwr _ (limit_zh hs)
  rw [zh_defs h] at hpz hzf hzw
  obtain ⟨v, hv1, hv2, -, hv4⟩ := hpz.named (t := lit "千") (hcn "千" 1000 (.inl rfl) rfl) (by simp [numAlt]) rfl hzf
  have hlv : (lit "千").value = "千" := rfl
  rw [hlv, hname "千" (by simp)] at hv2 hv4
  obtain ⟨hvt, B', c', hc', hcv⟩ := hpz.literal hv1
  obtain ⟨-, hvl⟩ := (hzw B' c' hc').2 v hcv hvt
  have hvv : v.value = "千" ∨ v.value = "仟" := by
    have hmem := honly v.value (Sheet.lits_sub _ _ hvl) hv2
    have : ∀ x ∈ (sheets[0]'(by decide)).lits, x ∈ ["前", "千", "仟"] → x = "千" ∨ x = "仟" := by decide +kernel
    exact this _ hvl hmem
  have he3 : z.2.source "cn_e3" [⟨"g_t_" ++ lw.ref.ascii "前", .nonterminal, .nil⟩] :=
    hv4 "cn_e3" (numAlt v.value 1000) (lit v.value) (hcn _ _ hvv rfl) rfl rfl rfl
  have hnum : z.2.source "number" [nt "cn_e3"] := by
    refine hpz.refs (b := sameAlt "cn_e3") ?_ (by simp [sameAlt, nt])
    exact ⟨⟨false, "number", [sameAlt "cn_e2", sameAlt "cn_e3", sameAlt "cn_e4", sameAlt "cn_e8"]⟩, by simp [zhDefs], rfl, rfl, by simp⟩
  have hsrc : ∀ {g : Grammar} {A : String} {ts : List Term}, g ∈ ld.gram.main :: ld.gram.includes → g.source A ts →
      (sourcesLang (terminalMatch lower reg) ((ld.gram.main :: ld.gram.includes).map Grammar.source ++ more)).prods A ts :=
    fun hg ht => ⟨_, List.mem_append_left _ (List.mem_map_of_mem hg), ht⟩
  refine Yields.nonterminal_one rfl (hsrc hz hnum) ?_
  refine Yields.nonterminal_one rfl (hsrc hz he3) ?_
  refine Yields.nonterminal_one rfl (hsrc hf hu3) ?_
  refine .terminal rfl ?_ .nil
  show terminalMatch lower reg ⟨"前", .terminal, .nil⟩ tok = true
  simp [terminalMatch, htok]

/-- the rules of numbers have no other alternatives -/
theorem number_written {A : String} {b : RuleBody} (hA : A ∈ ownNames)
    (hb : wholeWritten (sheetDefs lw.lex s) (shippedFiles lw place) (s.others lw place) A b) :
    ∀ t ∈ b.terms, (t.type = .nonterminal ∧ t.value ∈ ownNames) ∨ (t.type = .terminal ∧ t.value ∈ zhLits ++ mathLits) := by
  obtain ⟨t, ht, hb⟩ := (shipped_written h (limitSheets_mem _ hs)).1 hb
  have hc := limit_numbers h hs ht
  rw [Sheet.checkNumbers] at hc
  split at hc
  · rename_i hn
    obtain ⟨-, -, h3⟩ := defsLike_written hc hb
    intro u hu
    rcases h3 u hu with h4 | ⟨h4, -, h6⟩
    · exact .inl h4
    · refine .inr ⟨h4, ?_⟩
      rw [Bool.or_eq_true, beq_iff_eq, beq_iff_eq] at hn
      rw [Sheet.lits] at h6
      rcases hn with hn | hn
      · rw [if_pos hn] at h6
        exact List.mem_append_left _ h6
      · rw [if_neg (by rw [hn]; decide), if_pos hn] at h6
        exact List.mem_append_right _ h6
  · obtain ⟨d, h1, -, rfl, -⟩ := hb
    have := List.all_eq_true.1 hc d h1
    simp [hA] at this

section
variable {w : World} {context : String} {txt : Bytes} {d : Doc}

omit h hs in
theorem doc_alt {R : String → String → Prop} {A : String} {ts : List Term} (h : docSource w.find R d A ts) :
    ∃ b, DocAlt w.find R d A b ∧ b.terms = ts := by
  cases h with
  | word g1 g2 => exact ⟨_, .word g1 g2, rfl⟩
  | punct g1 g2 => exact ⟨_, .punct g1 g2, rfl⟩
  | symbol g1 g2 => exact ⟨_, .symbol g1 g2, rfl⟩
  | letters g1 g2 => exact ⟨_, .letters g1 g2, rfl⟩
  | @tag sp m _ vs g1 g2 g3 =>
    cases vs with
    | scalar => exact ⟨_, .tag g1 g2 g3, rfl⟩
    | items vs => exact ⟨_, .values g1 g2 g3, rfl⟩
  | regexp g1 g2 g3 g4 => exact ⟨_, .regexp g1 g2 g3 g4, rfl⟩

/-- C102: where 前 ("before", "the first"), 千 and 仟 (both "thousand") are transcribed alike, as they are by unidecode, and a
grammar is loaded from grammars/limit.grammar or grammars/time.grammar, `Parse` reads the text 前 as a number. -/
theorem C102_read (hw : HaveWords lw.ref allLits) (ha : QianAlike lw.ref allLits) {fuel0 depth : Nat} {reg : Registry} {ld : Loaded}
    {st : LoadSt} (hload : loadFile lw fuel0 depth (s.path lw place) reg = .ok (some ld, st)) (ho : w.OrdOK)
    (htxt : HasWords w context txt d ["前"] limitNames) :
    ∃ N, ∀ fuel ≥ N, ∃ ns, apiParse w ld.gram fuel context txt ["number"] = .ok ns ∧ ns ≠ [] := by
  have hl := (shipped_from h (limitSheets_mem _ hs) hload).held h.ok
  have hR := limit_regexps h hs
  have hd : DocFit w (wholeRegexps (shippedFiles lw place) (s.others lw place) ((shippedFiles lw place).regexps (s.path lw place))) d :=
    hR ▸ htxt.fit
  have hdoc : ∀ A ts, docSource w.find (wholeRegexps (shippedFiles lw place) (s.others lw place)
      ((shippedFiles lw place).regexps (s.path lw place))) d A ts → ¬ Reserved A ∧ ts ≠ [] := by
    intro A ts hA
    rw [hR] at hA
    obtain ⟨b, h1, rfl⟩ := doc_alt hA
    exact (htxt.tags A b h1).2
  obtain ⟨l, hp⟩ := hl.processes htxt.read hd
  have hann := annotates_iff.1 htxt.read.annotated
  have hgam : ∀ A, ¬ Reserved A → A ≠ gammaRule := fun A h e => h (.inl e)
  obtain ⟨hwf, hun, hany⟩ := loaded_env hl.wf hp (fun d' h' => by rw [hann, Option.some.injEq] at h'; exact h' ▸ hd.spans) ["number"] 0
    ⟨fun A rb hA => by
      rcases hl.defines hp hann hd hA with ⟨-, h1, -⟩ | ⟨b, hb, -⟩ | ⟨h1, -⟩
      · exact h1
      · exact hgam _ (limitNames_free (limit_written h hs hb).1)
      · exact hgam _ (hdoc _ _ h1).1,
    fun t ht htt => by
      rcases hl.occurs hp hann hd ht htt with ⟨A, b, hb, h1⟩ | ⟨-, h1⟩
      · rcases (limit_written h hs hb).2.2 t h1 with ⟨-, h2⟩ | ⟨h2, -⟩
        · exact hgam _ (limitNames_free h2)
        · exact absurd h2 htt
      · intro e
        rw [e] at h1
        exact absurd h1 (by decide),
    by decide⟩
  have hrange : ∀ A b, wholeWritten (sheetDefs lw.lex s) (shippedFiles lw place) (s.others lw place) A b → ∀ t ∈ b.terms,
      t.type ≠ .any ∧ t.type ≠ .list := by
    intro A b hb t ht
    rcases (limit_written h hs hb).2.2 t ht with ⟨e, -⟩ | ⟨e, -⟩ <;> rw [e] <;> decide
  have hne : NoEmpty (envFor w ld.gram l d.words ["number"] 0) := by
    refine hl.noEmpty hp hann hd ⟨fun t ht => ?_, fun A b hb t ht htt => ?_, fun A hA => (hdoc A [] hA).2 rfl⟩
    · obtain ⟨h1, A, b, hb, h2⟩ := ht
      rcases (limit_written h hs hb).2.2 t h2 with ⟨e, -⟩ | ⟨-, -, e⟩
      · rw [h1] at e; cases e
      · obtain ⟨ts, h3, k, h4, h5⟩ := hw _ e
        rw [readTerm, if_pos h1, h3, Option.getD_some]
        refine List.ne_nil_of_mem (List.mem_map_of_mem (List.mem_filter.2 ⟨h4, ?_⟩))
        simpa using h5
    · rcases htt with e | e
      · exact absurd e (hrange A b hb t ht).1
      · exact absurd e (hrange A b hb t ht).2
  have hu : UniformBounds (envFor w ld.gram l d.words ["number"] 0) := by
    refine hl.uniform hp hann hd ?_
    intro A b A' b' hb hb' t ht t' ht' e
    rcases e with ⟨e, -⟩ | ⟨e, -⟩
    · exact absurd e (hrange A b hb t ht).1
    · exact absurd e (hrange A b hb t ht).2
  obtain ⟨N, hN⟩ := C54_end_to_end_partial w ld.gram context txt ["number"] d.words l hp (by simp) ho hwf hne.nullSafe hu hun hany
  refine ⟨N, fun fuel hf => ?_⟩
  obtain ⟨ns, h1, h2, -⟩ := hN fuel hf
  refine ⟨ns, h1, h2.2 ⟨1, ?_⟩⟩
  obtain ⟨tok, htok, hone⟩ : ∃ tok, d.words = [tok] ∧ tok.text = "前" := by
    have := htxt.words
    cases hdw : d.words with
    | nil => rw [hdw] at this; simp at this
    | cons a l =>
      rw [hdw] at this
      cases l with
      | nil => exact ⟨a, rfl, by simpa using this⟩
      | cons => simp at this
  have htoks : (envFor w ld.gram l d.words ["number"] 0).tokens = [tok] := htok
  refine ⟨by rw [htoks]; simp, "number", by simp [envFor], ?_⟩
  rw [derives_iff_sources, envFor_sources, htoks]
  exact qian_derives h hs ha hl _ hone

/-- the words of numbers -/
theorem number_words {split : String → List String} (hsp : ∀ x ∈ zhLits ++ mathLits, "前" ∉ split x) {V : Type}
    {ev : List (Option V) → FMR → Option V} {A : String} {l : List String} {v : Option V}
    (hv : WordLang (wholeWritten (sheetDefs lw.lex s) (shippedFiles lw place) (s.others lw place)) split ev A l v)
    (hA : A ∈ ownNames) : "前" ∉ l := by
  refine WordLang.rec (motive_1 := fun A l _ _ => A ∈ ownNames → "前" ∉ l) (motive_2 := fun ts l _ _ =>
    (∀ t ∈ ts, (t.type = .nonterminal ∧ t.value ∈ ownNames) ∨ (t.type = .terminal ∧ t.value ∈ zhLits ++ mathLits)) → "前" ∉ l)
    ?_ ?_ ?_ ?_ hv hA
  · intro A b l vs hb _ ih hA
    exact ih (number_written h hs hA hb)
  · intro _
    simp
  · intro t ts l vs htt _ ih hall
    rw [List.mem_append]
    rintro (hc | hc)
    · rcases hall t List.mem_cons_self with ⟨e, -⟩ | ⟨-, e⟩
      · rw [htt] at e; cases e
      · exact hsp _ e hc
    · exact ih (fun u hu => hall u (List.mem_cons_of_mem _ hu)) hc
  · intro t ts l l' v vs htt _ _ ih1 ih2 hall
    rw [List.mem_append]
    rintro (hc | hc)
    · rcases hall t List.mem_cons_self with ⟨-, e⟩ | ⟨e, -⟩
      · exact ih1 e hc
      · rw [htt] at e; cases e
    · exact ih2 (fun u hu => hall u (List.mem_cons_of_mem _ hu)) hc

omit h hs in
theorem words_some {W : String → RuleBody → Prop} {split : String → List String} {V : Type} {ev : List (Option V) → FMR → Option V}
    (hW : ∀ A b, W A b → b.terms ≠ [] ∧ ∀ t ∈ b.terms, t.type = .terminal → split t.value ≠ []) {A : String} {l : List String} {v : Option V}
    (hv : WordLang W split ev A l v) : l ≠ [] := by
  refine WordLang.rec (motive_1 := fun _ l _ _ => l ≠ []) (motive_2 := fun ts l _ _ =>
    (∀ t ∈ ts, t.type = .terminal → split t.value ≠ []) → ts ≠ [] → l ≠ []) ?_ ?_ ?_ ?_ hv
  · intro A b l vs hb _ ih
    exact ih (hW A b hb).2 (hW A b hb).1
  · intro _ h
    exact absurd rfl h
  · intro t ts l vs htt _ _ hall _
    simp [hall t List.mem_cons_self htt]
  · intro t ts l l' v vs _ _ _ ih _ _ _
    simp [ih]

/-- C102 where different literals are transcribed differently: the text 前 is not a number. Missing for a full statement:
the transcriptions (`C102_false`, `C102_read`). -/
theorem C102_partial (hw : HaveWords lw.ref allLits) (hn : LitsWords lw.ref allLits (zhLits ++ mathLits))
    (ha : LitsApart lw.ref allLits) {fuel0 depth : Nat} {reg : Registry} {ld : Loaded}
    {st : LoadSt} (hload : loadFile lw fuel0 depth (s.path lw place) reg = .ok (some ld, st)) (ho : w.OrdOK)
    (htxt : HasWords w context txt d ["前"] limitNames) {nw : NodeWorld} (hc : CallsReturn nw) :
    ∃ N, ∀ fuel ≥ N, apiParse w ld.gram fuel context txt ["number"] = .ok [] := by
  have hR := limit_regexps h hs
  have hlf := shipped_from h (limitSheets_mem _ hs) hload
  let split : String → List String := fun x => (((lw.ref.annot x).getD []).filter fun t => t.type ≠ .space).map (·.text)
  have hsplit : ∀ x c, c ∈ split x → ∃ ts, lw.ref.annot x = some ts ∧ ∃ t ∈ ts, t.text = c := by
    intro x c hc
    obtain ⟨t, h1, rfl⟩ := List.mem_map.1 hc
    have h2 := (List.mem_filter.1 h1).1
    cases he : lw.ref.annot x with
    | none => rw [he] at h2; cases h2
    | some ts => rw [he] at h2; exact ⟨ts, rfl, t, h2, rfl⟩
  have hsome : ∀ x ∈ allLits, split x ≠ [] := by
    intro x hx
    obtain ⟨ts, h3, k, h4, h5⟩ := hw _ hx
    refine List.ne_nil_of_mem (a := k.text) (List.mem_map_of_mem (List.mem_filter.2 ⟨?_, by simpa using h5⟩))
    rw [h3]
    exact h4
  obtain ⟨N, hN⟩ := words_calls (V := Unit) (split := split) (ev := fun _ _ => none) (is := fun _ _ => False) (rules := limitNames)
    h.ok hlf w context txt d htxt.read (hR ▸ htxt.fit) htxt.ordered ho nw hc (fun _ _ _ _ _ _ _ h => by cases h)
    (fun A b hb t ht => by
      rcases (limit_written h hs hb).2.2 t ht with h1 | ⟨h1, h2, -⟩
      · exact .inl h1
      · refine .inr ⟨h1, ?_⟩
        rw [readTerm, if_pos h1, h2, List.map_map]
        rfl)
    (fun A b hb => by
      obtain ⟨h1, h2, h3⟩ := limit_written h hs hb
      refine ⟨h2, h1, fun t ht htt => ?_⟩
      rcases h3 t ht with ⟨e, -⟩ | ⟨-, -, e⟩
      · rw [htt] at e; cases e
      · refine ⟨hsome _ e, fun hg => ?_⟩
        obtain ⟨ts, h6, k, h7, h8⟩ := hsplit _ _ hg
        exact hn.gamma _ e ts h6 k h7 h8)
    (fun A => limitNames_free)
    (fun _ t t' ht ht' => by
      have key : ∀ t, wholeLiteral (sheetDefs lw.lex s) (shippedFiles lw place) (s.others lw place) t → t.value ∈ allLits := by
        rintro t ⟨h1, A, b, hb, h2⟩
        rcases (limit_written h hs hb).2.2 t h2 with ⟨e, -⟩ | ⟨-, -, e⟩
        · rw [h1] at e; cases e
        · exact e
      exact ha _ (key t ht) _ (key t' ht'))
    (by rw [hR]; exact htxt.tags) htxt.tokens (S := "number") (by decide) htxt.words
  refine ⟨N, fun fuel hf => ?_⟩
  obtain ⟨ns, h1, h2⟩ := (hN fuel hf).1
  have hno : ∀ k, ¬ SpanMatch (WordSpan (wholeWritten (sheetDefs lw.lex s) (shippedFiles lw place) (s.others lw place)) split
      (fun (_ : List (Option Unit)) _ => none) ["前"]) ["number"] d.words.length 0 k := by
    rintro k ⟨-, -, S, hS, v, hv⟩
    obtain rfl := List.mem_singleton.1 hS
    rw [List.drop_zero] at hv
    cases k with
    | zero =>
      refine words_some (fun A b hb => ?_) hv rfl
      obtain ⟨-, h2, h3⟩ := limit_written h hs hb
      refine ⟨h2, fun t ht htt => ?_⟩
      rcases h3 t ht with ⟨e, -⟩ | ⟨-, -, e⟩
      · rw [htt] at e; cases e
      · exact hsome _ e
    | succ k =>
      rw [List.take_succ_cons] at hv
      refine number_words h hs (fun x hx hm => ?_) hv (by decide) List.mem_cons_self
      obtain ⟨ts, h6, t, h7, h8⟩ := hsplit _ _ hm
      exact hn.words x hx ts h6 t h7 h8
  have : ns = [] := by
    by_contra hc
    obtain ⟨k, hk⟩ := h2.found.1 hc
    exact hno k hk
  rw [h1, this]

end

end

/-! ### settings in which the assumptions hold -/

/-- every literal is one word, with this transcription -/
noncomputable def alikeLoad (ascii : String → String) : LoadWorld :=
  { shLoad with ref := { annot := fun s => some [{ text := s, type := .otherTok }], ascii := ascii, hash := fun _ => some 0 } }

theorem alikeLoad_ok (ascii : String → String) : ReadsShipped (alikeLoad ascii) id where
  ok := shLoad_ok.ok
  capitals := shLoad_ok.capitals
  ints := shLoad_ok.ints
  half := shLoad_ok.half
  percent := shLoad_ok.percent
  regexp := shLoad_ok.regexp
  spaces := shLoad_ok.spaces
  read := shLoad_ok.read
  dir := shLoad_ok.dir
  hash := shLoad_ok.hash
  apart := shLoad_ok.apart
  annot s := by simp [alikeLoad]
  termHash b := by simp [alikeLoad]
  update := shLoad_ok.update

theorem alikeLoad_words (ascii : String → String) : HaveWords (alikeLoad ascii).ref allLits :=
  fun _ _ => ⟨_, rfl, _, List.mem_singleton_self _, by simp⟩

theorem alikeLoad_name (ascii : String → String) (x : String) : literalName (alikeLoad ascii).ref "g" x = "g_t_" ++ ascii x :=
  literalName_one (w := (alikeLoad ascii).ref) (t := { text := x, type := .otherTok }) rfl rfl (by simp) (by simp)

theorem alikeLoad_lits (ascii : String → String) : LitsWords (alikeLoad ascii).ref allLits (zhLits ++ mathLits) := by
  constructor
  · intro x hx ts hts t ht
    cases hts
    rw [List.mem_singleton.1 ht]
    have : ∀ x ∈ zhLits ++ mathLits, x ≠ "前" := by decide +kernel
    exact this x hx
  · intro x hx ts hts t ht
    cases hts
    rw [List.mem_singleton.1 ht]
    have : ∀ x ∈ allLits, x ≠ "ɣ" := by decide +kernel
    exact this x hx

/-- the transcription of the three words -/
def qianAscii (x : String) : String := if x = "千" ∨ x = "仟" then "前" else x

theorem qian_alike : QianAlike (alikeLoad qianAscii).ref allLits := by
  refine ⟨fun x _ => ⟨_, rfl, rfl, by simp, by simp⟩, ⟨by decide +kernel, by decide +kernel⟩, fun x hx hne => ?_⟩
  have h1 : ∀ x ∈ allLits, x ∉ ["前", "千", "仟"] → qianAscii x ≠ "前" ∧ qianAscii x ≠ "" := by decide +kernel
  obtain ⟨h2, h3⟩ := h1 x hx hne
  have h4 : (alikeLoad qianAscii).ref.ascii "前" = "前" := by
    show qianAscii "前" = "前"
    decide +kernel
  rw [alikeLoad_name, h4]
  constructor
  · intro e
    exact h2 ((String.append_right_inj _).1 e)
  · intro k e
    have := congrArg String.length e
    have h5 : (qianAscii x).length ≠ 0 := by simpa using h3
    have h6 : "前".length = 1 := by decide +kernel
    have h7 : "_".length = 1 := by decide +kernel
    simp only [String.length_append] at this
    omega

theorem apart_id : LitsApart (alikeLoad id).ref allLits := by
  intro x _ y _ e
  rw [alikeLoad_name, alikeLoad_name] at e
  simpa using e

/-- the files can be loaded -/
theorem alikeLoad_loads (ascii : String → String) {s : Sheet} (hs : s ∈ limitSheets) :
    ∃ fuel depth ld st, loadFile (alikeLoad ascii) fuel depth (s.path (alikeLoad ascii) id) [] = .ok (some ld, st) := by
  have hf := Sheet.good (limitSheets_mem s hs)
  have h := alikeLoad_ok ascii
  obtain ⟨N, ld, st, hN⟩ := C83_loads_partial h hf (h.read _ (List.mem_cons_of_mem _ hf)) (h.dir _ (List.mem_cons_of_mem _ hf)) []
  exact ⟨N, N, ld, st, hN N N (Nat.le_refl _) (Nat.le_refl _)⟩

theorem wordWorld_ord (ws : List String) : (wordWorld ws).OrdOK := fun _ _ _ _ l => List.Perm.refl l

/-- C102: a text is a number for a grammar loaded from grammars/limit.grammar or grammars/time.grammar only if its words are
words of the rules of numbers; thus the text 前 is not one. -/
def C102_statement : Prop :=
  ∀ (lw : LoadWorld) (place : String → String), ReadsShipped lw place → HaveWords lw.ref allLits →
    LitsWords lw.ref allLits (zhLits ++ mathLits) → ∀ s ∈ limitSheets, ∀ fuel0 depth reg ld st,
    loadFile lw fuel0 depth (s.path lw place) reg = .ok (some ld, st) → ∀ (w : World), w.OrdOK → ∀ context txt d,
    HasWords w context txt d ["前"] limitNames → ∃ N, ∀ fuel ≥ N, apiParse w ld.gram fuel context txt ["number"] = .ok []

/-- C102 is false. -/
theorem C102_false : ¬ C102_statement := by
  intro hst
  have hs : (sheets[2]'(by decide)) ∈ limitSheets := List.mem_cons_self
  have h := alikeLoad_ok qianAscii
  obtain ⟨fuel0, depth, ld, st, hload⟩ := alikeLoad_loads qianAscii hs
  have htxt := wordWorld_ok (ws := ["前"]) (names := limitNames) (by simp) (by decide)
  obtain ⟨N, hN⟩ := hst _ _ h (alikeLoad_words _) (alikeLoad_lits _) _ hs _ _ _ _ _ hload _ (wordWorld_ord _) _ _ _ htxt
  obtain ⟨M, hM⟩ := C102_read h hs (alikeLoad_words _) qian_alike hload (wordWorld_ord _) htxt
  obtain ⟨ns, h1, h2⟩ := hM (max N M) (Nat.le_max_right _ _)
  rw [hN (max N M) (Nat.le_max_left _ _)] at h1
  exact h2 (Out.ok.inj h1).symm

/-- for both files -/
example (s : Sheet) (hs : s ∈ limitSheets) : ∃ lw ld N, ReadsShipped lw id ∧ (∃ fuel depth st, loadFile lw fuel depth (s.path lw id) [] = .ok (some ld, st)) ∧
    ∀ fuel ≥ N, ∃ ns, apiParse (wordWorld ["前"]) ld.gram fuel "" (wordDoc ["前"]).text ["number"] = .ok ns ∧ ns ≠ [] := by
  obtain ⟨fuel0, depth, ld, st, hload⟩ := alikeLoad_loads qianAscii hs
  obtain ⟨N, hN⟩ := C102_read (alikeLoad_ok _) hs (alikeLoad_words _) qian_alike hload (wordWorld_ord _)
    (wordWorld_ok (ws := ["前"]) (names := limitNames) (by simp) (by decide))
  exact ⟨_, ld, N, alikeLoad_ok _, ⟨_, _, _, hload⟩, hN⟩

/-- the assumptions of `C102_partial` hold of a setting -/
example (s : Sheet) (hs : s ∈ limitSheets) (nw : NodeWorld) (hc : CallsReturn nw) : ∃ lw ld N, ReadsShipped lw id ∧
    (∃ fuel depth st, loadFile lw fuel depth (s.path lw id) [] = .ok (some ld, st)) ∧
    ∀ fuel ≥ N, apiParse (wordWorld ["前"]) ld.gram fuel "" (wordDoc ["前"]).text ["number"] = .ok [] := by
  obtain ⟨fuel0, depth, ld, st, hload⟩ := alikeLoad_loads id hs
  obtain ⟨N, hN⟩ := C102_partial (alikeLoad_ok _) hs (alikeLoad_words _) (alikeLoad_lits _) apart_id hload (wordWorld_ord _)
    (wordWorld_ok (ws := ["前"]) (names := limitNames) (by simp) (by decide)) hc
  exact ⟨_, ld, N, alikeLoad_ok _, ⟨_, _, _, hload⟩, hN⟩

end Fmr
