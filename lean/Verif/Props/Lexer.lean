import Verif.Props.LexerWitness
import Verif.Proofs.LexerWrite
import Verif.Proofs.LexerPost
import Verif.Proofs.LexerMono
import Verif.Proofs.LexerHalt

/-!
# Properties of the grammar text parser (C28 to C32, and the text part of C27)
-/

namespace Fmr

theorem grammarRules_run {w : LexWorld} {inp : List Char} (hg : runeError ∉ inp) {fuel : Nat} {name : String}
    {m : List (String × Rule) × List (String × Rule)} {ρ : List (String × String)}
    (h : Reads inp (rulesLoop w inp fuel fuel ([], [])) inp [] m [] ρ) :
    ∃ s, grammarRules w inp fuel name pst0 = .ok (⟨name, m.1, m.2, ρ, false⟩, s) := by
  obtain ⟨s1, e1, hs1⟩ := h pst0 ⟨rfl, rfl⟩
  obtain ⟨s2, e2, hs2⟩ := reads_next hg s1 hs1
  refine ⟨s2, ?_⟩
  unfold grammarRules
  rw [P.bind_run, e1]
  simp only [Out.bind_ok]
  rw [P.bind_run, e2, ← hs2.2]
  rfl

/-! ## C28: texts in the documented syntax -/

/-- C28: a text of definitions in the documented syntax is read as exactly these definitions. -/
theorem C28_text {w : LexWorld} (hw : w.OK) {inp : List Char} (hg : runeError ∉ inp) {ds : List Def}
    {ρ : List (String × String)} (h : DefsSyn w inp ds [] ρ) (hc : NoCollision w.hash ds) (name : String)
    {fuel : Nat} (hf : inp.length < fuel) :
    ∃ g s, grammarRules w inp fuel name pst0 = .ok (g, s) ∧ g.name = name ∧ g.regexps = ρ ∧
      HoldsDefs w.hash ds false g.rules ∧ HoldsDefs w.hash ds true g.frames := by
  obtain ⟨kds, hk⟩ := keyed_all hc.1
  have h1 := reads_rulesLoop hg hw (n0 := fuel) (n := fuel) (m := ([], [])) h hk hf hf
  obtain ⟨s, e⟩ := grammarRules_run (name := name) hg h1
  have hd := holds_addDefs (ds0 := []) (m := ([], [])) hk hc HoldsDefs.nil HoldsDefs.nil
  exact ⟨_, s, e, rfl, rfl, hd.1, hd.2⟩

/-- C28: every well-formed list of definitions can be written, and is read back. Every text that writes
it down is read back as it (`C28_text`). -/
theorem C28_roundtrip {w : LexWorld} (hw : w.OK) {ds : List Def} (h : ∀ d ∈ ds, DefOK w d)
    (hc : NoCollision w.hash ds) (name : String) :
    ∃ inp ρ, DefsSyn w inp ds [] ρ ∧ ∀ fuel, inp.length < fuel →
      ∃ g s, grammarRules w inp fuel name pst0 = .ok (g, s) ∧ g.name = name ∧ g.regexps = ρ ∧
        HoldsDefs w.hash ds false g.rules ∧ HoldsDefs w.hash ds true g.frames := by
  obtain ⟨inp, ρ, hg, hs⟩ := exists_defs hw h []
  exact ⟨inp, ρ, hs, fun fuel hf => C28_text hw hg hs hc name hf⟩

/-- the definitions of the examples: `<a> = "x" <b> {nf.f($1, 7)} | (any{1,2}) ;` and `[c] = <a> ;` -/
def exampleDefs : List Def :=
  [⟨false, "a", [⟨[⟨"x", .terminal, .nil⟩, ⟨"b", .nonterminal, .nil⟩],
      some (.mk "nf.f" [.mk "index" (.int 1), .mk "int" (.bigInt 7)])⟩, ⟨[⟨"any", .any, .range 1 2⟩], none⟩]⟩,
   ⟨true, "c", [⟨[⟨"a", .nonterminal, .nil⟩], none⟩]⟩]

theorem exampleDefs_collision : ¬ NoCollision asciiLex.hash exampleDefs := by
  intro h
  have := h.2 _ (List.mem_cons_self) _ (List.mem_cons_of_mem _ List.mem_cons_self) _
    (List.mem_cons_of_mem _ List.mem_cons_self) _ List.mem_cons_self (by rfl)
  have := congrArg (fun b => b.terms.map Term.value) this
  simp at this

/-- a hash that tells the examples apart -/
def exampleLex : LexWorld := { asciiLex with
  hash := fun b => some (b.terms.length * 10 + (b.terms.map fun t => t.value.length).sum) }

theorem exampleLex_ok : exampleLex.OK :=
  ⟨asciiLex_ok.1, asciiLex_ok.2, asciiLex_ok.3, asciiLex_ok.4, asciiLex_ok.5, asciiLex_ok.6, asciiLex_ok.7, asciiLex_ok.8⟩

theorem ident_alpha {c : Char} {t : List Char} (h : c.isAlpha = true) (ht : t.all Char.isAlpha = true) :
    Ident exampleLex (c :: t) := by
  refine .mk (.inl h) fun d hd => .inl ?_
  exact List.all_eq_true.mp ht d hd

theorem exampleDefs_ok : ∀ d ∈ exampleDefs, DefOK exampleLex d := by
  have ha : Ident exampleLex ['a'] := ident_alpha (by rfl) (by rfl)
  have hb : Ident exampleLex ['b'] := ident_alpha (by rfl) (by rfl)
  have hcc : Ident exampleLex ['c'] := ident_alpha (by rfl) (by rfl)
  have hx : TermOK exampleLex ⟨String.ofList ['x'], .terminal, .nil⟩ := by
    refine .literal ⟨by decide, fun c hc => ?_⟩
    cases hc
    decide
  have hf : FmrOK exampleLex (.mk (String.ofList "nf.f".toList) [.mk "index" (.int 1), .mk "int" (.bigInt 7)]) := by
    refine .mk (.mk (.inl (by decide)) ?_ ?_) (.index (n := 1) (by decide)) (.cons (.int (s := "7") ⟨['7'], .inl ⟨rfl, by decide⟩, ?_⟩ ?_) .nil)
    · decide
    · decide
    · exact ⟨by decide, by decide, by decide⟩
    · decide +kernel
  intro d hd
  simp only [exampleDefs, List.mem_cons, List.not_mem_nil, or_false] at hd
  rcases hd with rfl | rfl
  · refine ⟨⟨['a'], rfl, ha⟩, by simp, fun b hb' => ?_⟩
    simp only [List.mem_cons, List.not_mem_nil, or_false] at hb'
    rcases hb' with rfl | rfl
    · refine ⟨by simp, fun t ht => ?_, fun f e => ?_⟩
      · simp only [List.mem_cons, List.not_mem_nil, or_false] at ht
        rcases ht with rfl | rfl
        · exact hx
        · exact .nonterminal (x := ['b']) hb
      · cases e; exact hf
    · refine ⟨by simp, fun t ht => ?_, fun f e => by cases e⟩
      simp only [List.mem_cons, List.not_mem_nil, or_false] at ht
      subst ht
      exact .any (.some (a := 1) (b := 2) (by decide) (by decide))
  · refine ⟨⟨['c'], rfl, hcc⟩, by simp, fun b hb' => ?_⟩
    simp only [List.mem_cons, List.not_mem_nil, or_false] at hb'
    subst hb'
    refine ⟨by simp, fun t ht => ?_, fun f e => by cases e⟩
    simp only [List.mem_cons, List.not_mem_nil, or_false] at ht
    subst ht
    exact .nonterminal (x := ['a']) ha

theorem exampleDefs_noCollision : NoCollision exampleLex.hash exampleDefs := by
  refine ⟨fun d _ b _ => by simp [exampleLex], ?_⟩
  intro d hd b hb d' hd' b' hb' e
  have key : ∀ d ∈ exampleDefs, ∀ b ∈ d.bodies,
      b = ⟨[⟨"x", .terminal, .nil⟩, ⟨"b", .nonterminal, .nil⟩],
        some (.mk "nf.f" [.mk "index" (.int 1), .mk "int" (.bigInt 7)])⟩ ∨
      b = ⟨[⟨"any", .any, .range 1 2⟩], none⟩ ∨ b = ⟨[⟨"a", .nonterminal, .nil⟩], none⟩ := by
    intro d hd b hb
    simp only [exampleDefs, List.mem_cons, List.not_mem_nil, or_false] at hd
    rcases hd with rfl | rfl
    · simp only [List.mem_cons, List.not_mem_nil, or_false] at hb
      rcases hb with rfl | rfl
      · exact .inl rfl
      · exact .inr (.inl rfl)
    · simp only [List.mem_cons, List.not_mem_nil, or_false] at hb
      exact .inr (.inr hb)
  rcases key d hd b hb with rfl | rfl | rfl <;> rcases key d' hd' b' hb' with rfl | rfl | rfl <;>
    first
    | rfl
    | exact absurd e (by decide +kernel)

example : ∃ inp ρ, DefsSyn exampleLex inp exampleDefs [] ρ := by
  obtain ⟨inp, ρ, h, _⟩ := C28_roundtrip exampleLex_ok exampleDefs_ok exampleDefs_noCollision "g"
  exact ⟨inp, ρ, h⟩

/-- a concrete text, with comments -/
example : (match grammarRules exampleLex
    "<a> = \"x\"<b> {nf.f($1, 7)} // one\n | (any{1,2}); /* two */ [c] = <a>;".toList 100 "g" pst0 with
    | .ok (g, _) =>
      decide ((g.rules.map fun e => (e.1, e.2.body.map fun b => b.2.terms)) =
        [("a", [[⟨"x", .terminal, .nil⟩, ⟨"b", .nonterminal, .nil⟩], [⟨"any", .any, .range 1 2⟩]])] ∧
      g.frames.map (·.1) = ["c"])
    | _ => false) = true := by decide +kernel

/-! ## C32: no alternative is lost -/

/-- C32: every alternative written for a rule is in the loaded rule, and nothing else. False of the code,
see `C32_false`. -/
def C32_statement : Prop :=
  ∀ (w : LexWorld) (inp : List Char) (ds : List Def) (ρ : List (String × String)) (name : String) (fuel : Nat)
    (g : Grammar) (s : PSt), w.OK → runeError ∉ inp → DefsSyn w inp ds [] ρ →
    grammarRules w inp fuel name pst0 = .ok (g, s) →
    ∀ fr x b, Written ds fr x b →
      ∃ r k, (if fr then g.frames else g.rules).lookup x = some r ∧ (k, b) ∈ r.body

/-- C32 when different alternatives have different hashes. Missing for the full statement: it is false. -/
theorem C32_partial {w : LexWorld} (hw : w.OK) {inp : List Char} (hg : runeError ∉ inp) {ds : List Def}
    {ρ : List (String × String)} (h : DefsSyn w inp ds [] ρ) (hc : NoCollision w.hash ds) (name : String)
    {fuel : Nat} (hf : inp.length < fuel) :
    ∃ g s, grammarRules w inp fuel name pst0 = .ok (g, s) ∧ ∀ fr x b,
      Written ds fr x b ↔ ∃ r k, (if fr then g.frames else g.rules).lookup x = some r ∧ (k, b) ∈ r.body := by
  obtain ⟨g, s, e, -, -, h1, h2⟩ := C28_text hw hg h hc name hf
  refine ⟨g, s, e, fun fr x b => ?_⟩
  have key : ∀ (m : List (String × Rule)), HoldsDefs w.hash ds fr m →
      (Written ds fr x b ↔ ∃ r k, m.lookup x = some r ∧ (k, b) ∈ r.body) := by
    intro m hm
    constructor
    · intro hwr
      have hwr' := hwr
      obtain ⟨d, hd, e1, e2, e3⟩ := hwr
      obtain ⟨r, hr⟩ := (hm.names x).mpr ⟨d, hd, e1, e2⟩
      cases hk : w.hash b with
      | none => exact absurd hk (hc.1 d hd b e3)
      | some k => exact ⟨r, k, hr, (hm.bodies x r k b hr).mpr ⟨hk, hwr'⟩⟩
    · rintro ⟨r, k, hr, hb⟩
      exact ((hm.bodies x r k b hr).mp hb).2
  cases fr with
  | false => exact key _ h1
  | true => exact key _ h2

/-- `<a> = "x" {f(1)} | "x" {f(2)};` -/
def collisionText : List Char := "<a>=\"x\"{f(1)}|\"x\"{f(2)};".toList

def collisionBody (i : Int) : RuleBody :=
  ⟨[⟨"x", .terminal, .nil⟩], some (.mk "f" [.mk "int" (.bigInt i)])⟩

/-- C32 is false: `hashstructure.Hash` skips unexported fields, and a `*big.Int` has no others, so the hash
does not depend on the value of an integer argument. In every such world of hashes the second alternative
replaces the first. -/
theorem C32_false (hash : RuleBody → Option Nat) (k : Nat) (h : ∀ i, hash (collisionBody i) = some k) :
    let w := { asciiLex with hash := hash }
    DefsSyn w collisionText [⟨false, "a", [collisionBody 1, collisionBody 2]⟩] [] [] ∧
    ∀ fuel, 30 ≤ fuel → ∃ g s, grammarRules w collisionText fuel "g" pst0 = .ok (g, s) ∧
      g.rules = [("a", ⟨"a", [(k, collisionBody 2)]⟩)] := by
  intro w
  have hw : w.OK :=
    ⟨asciiLex_ok.1, asciiLex_ok.2, asciiLex_ok.3, asciiLex_ok.4, asciiLex_ok.5, asciiLex_ok.6, asciiLex_ok.7, asciiLex_ok.8⟩
  have hn : Spaces w [] := by simp [Spaces]
  have hbody : ∀ (c : Char) (i : Int), c.isDigit = true → c ≠ '.' → scanDec (String.ofList [c]) = some i →
      BodySyn w (("\"x\"".toList ++ []) ++ '{' :: ((([] : List Char) ++ (['f'] ++ ([] ++ '(' :: (([] ++ ([c] ++ ([] ++ [')']))) ++ [])))) ++ '}' :: []))
        (collisionBody i) [] [] := by
    intro c i hd hdot hi
    refine .fn (.one (.literal (.plain (s := []) (t := ['x']) (v := ['x']) hn (.plain (by decide) (by decide) .nil) ?_)) Gap.nil)
      (.mk (x := ['f']) hn (.mk (.inl (show Char.isAlpha 'f' = true by decide)) (by simp) (by simp)) hn (.last hn (.int ⟨by simp, ?_, ?_⟩ ?_ hi) hn) hn) Gap.nil
    · intro c hc; cases hc; exact ⟨show asciiLex.isSpace 'x' = false by decide, by decide⟩
    · intro c' hc'; rw [List.mem_singleton] at hc'; subst hc'; exact .inl hd
    · simp [hdot, List.count_cons]
    · simpa using hdot
  have hsyn : DefsSyn w collisionText [⟨false, "a", [collisionBody 1, collisionBody 2]⟩] [] [] := by
    refine .cons (g := []) (r := []) Gap.nil (.rule (x := ['a']) (.mk (.inl (show Char.isAlpha 'a' = true by decide)) (by simp)) Gap.nil Gap.nil
      (.more (hbody '1' 1 (by decide) (by decide) (by decide +kernel)) Gap.nil
        (.one (hbody '2' 2 (by decide) (by decide) (by decide +kernel))))) (.nil Gap.nil)
  refine ⟨hsyn, fun fuel hf => ?_⟩
  have hg : runeError ∉ collisionText := by decide
  have hkey : keyed w [collisionBody 1, collisionBody 2] = some [(k, collisionBody 1), (k, collisionBody 2)] := by
    simp only [keyed]
    rw [show w.hash = hash from rfl, h, h]
  have h1 := reads_rulesLoop hg hw (n0 := fuel) (n := fuel) (m := ([], [])) hsyn
    (kds := [(⟨false, "a", [collisionBody 1, collisionBody 2]⟩, [(k, collisionBody 1), (k, collisionBody 2)])])
    (.cons ⟨rfl, hkey⟩ .nil) (Nat.lt_of_lt_of_le (by decide) hf) (Nat.lt_of_lt_of_le (by decide) hf)
  obtain ⟨s, e⟩ := grammarRules_run (name := "g") hg h1
  exact ⟨_, s, e, by simp [addDefs, addRule, Def.rule, mapSets, mapSet]⟩

example : ¬ C32_statement := by
  intro hs
  obtain ⟨h1, h2⟩ := C32_false (fun b => some b.terms.length) 1 (fun _ => rfl)
  obtain ⟨g, s, e, hr⟩ := h2 30 (Nat.le_refl _)
  have hw : ({ asciiLex with hash := fun b => some b.terms.length } : LexWorld).OK :=
    ⟨asciiLex_ok.1, asciiLex_ok.2, asciiLex_ok.3, asciiLex_ok.4, asciiLex_ok.5, asciiLex_ok.6, asciiLex_ok.7, asciiLex_ok.8⟩
  obtain ⟨r, k, hl, hb⟩ := hs _ _ _ _ "g" 30 g s hw (by decide) h1 e false "a" (collisionBody 1)
    ⟨_, List.mem_cons_self, rfl, rfl, List.mem_cons_self⟩
  rw [if_neg (by simp), hr] at hl
  simp at hl
  subst hl
  simp [collisionBody] at hb

/-! ## C30: loaded grammars are well-formed -/

/-- C30 for the grammar read from a text, for every text and every fuel. -/
theorem C30_text_wellformed {w : LexWorld} (hw : w.OK) {inp : List Char} {fuel : Nat} {name : String} {g : Grammar}
    {s : PSt} (h : grammarRules w inp fuel name pst0 = .ok (g, s)) : g.name = name ∧ GrammarWF w g :=
  (post_grammarRules hw pst0 g s ⟨KeysNodup.nil, by simp [pst0]⟩ h).2

example : ∃ g, GrammarWF exampleLex g ∧ g.rules ≠ [] ∧ g.frames ≠ [] := by
  obtain ⟨inp, ρ, _, h⟩ := C28_roundtrip exampleLex_ok exampleDefs_ok exampleDefs_noCollision "g"
  obtain ⟨g, s, e, -, -, h1, h2⟩ := h _ (Nat.lt_succ_self _)
  refine ⟨g, (C30_text_wellformed exampleLex_ok e).2, ?_, ?_⟩
  · intro e0
    obtain ⟨r, hr⟩ := (h1.names "a").mpr ⟨_, List.mem_cons_self, rfl, rfl⟩
    rw [e0] at hr
    cases hr
  · intro e0
    obtain ⟨r, hr⟩ := (h2.names "c").mpr ⟨_, List.mem_cons_of_mem _ List.mem_cons_self, rfl, rfl⟩
    rw [e0] at hr
    cases hr

/-! ## C31: numbers -/

/-- the number read at the start of a text -/
def ReadsNumber (w : LexWorld) (ds : List Char) (v : Int) : Prop :=
  ∀ r fuel, runeError ∉ ds ++ r → (∀ c, r.head? = some c → w.isDigit c = false) → (ds ++ r).length < fuel →
    ∃ s, getInt w (ds ++ r) fuel pst0 = .ok (v, s) ∧ (ds ++ r).drop s.pos = r

/-- C31: a decimal number is read as its value. False of the code, see `C31_false`. -/
def C31_statement : Prop :=
  ∀ (w : LexWorld), w.OK → ∀ ds : List Char, ds ≠ [] → (∀ c ∈ ds, '0' ≤ c ∧ c ≤ '9') →
    ReadsNumber w ds (Nat.ofDigitChars 10 ds 0)

/-- C31 for numbers below 2^63, with any number of leading zeros. -/
theorem C31_partial {w : LexWorld} (hw : w.OK) {ds : List Char} (hne : ds ≠ []) (hd : ∀ c ∈ ds, '0' ≤ c ∧ c ≤ '9')
    (hn : Nat.ofDigitChars 10 ds 0 < 2 ^ 63) : ReadsNumber w ds (Nat.ofDigitChars 10 ds 0) := by
  intro r fuel hg hr hf
  obtain ⟨s, e, hs⟩ := reads_getInt hg hw (ds := ds) (r := r) (ρ := []) (num_small hne hd hn) hr hf pst0 ⟨rfl, rfl⟩
  exact ⟨s, e, hs.1⟩

/-- C31 for all numbers: digits stand for one number `v`, modulo 2^64 and with restarts (`IntOf`). They are read as `v`,
and refused if `v` is -1. -/
theorem C31_exact {w : LexWorld} (hw : w.OK) {ds : List Char} (hne : ds ≠ []) (hd : ∀ c ∈ ds, '0' ≤ c ∧ c ≤ '9') :
    ∃ v, (∀ v', IntOf ds v' ↔ v' = v) ∧ (v ≠ -1 → ReadsNumber w ds v) ∧
      (v = -1 → ∀ r fuel, runeError ∉ ds ++ r → (∀ c, r.head? = some c → w.isDigit c = false) → (ds ++ r).length < fuel →
        getInt w (ds ++ r) fuel pst0 = .err) := by
  obtain ⟨c, t, rfl⟩ := List.exists_cons_of_ne_nil hne
  have hv : IntOf (c :: t) ((c :: t).foldl intStep (-1)) := intOf_fold t.length [c] t (Nat.le_refl _) hd (noRestart_one c) (by simp)
  refine ⟨_, fun v' => ⟨fun h => (h.fold hd).symm.trans (hv.fold hd), fun e => e ▸ hv⟩, fun h r fuel hg hr hf => ?_,
    fun h r fuel hg hr hf => ?_⟩
  · obtain ⟨s, e, hs⟩ := reads_getInt hg hw (ρ := []) ⟨hd, hv, h⟩ hr hf pst0 ⟨rfl, rfl⟩
    exact ⟨s, e, hs.1⟩
  · obtain ⟨s, e, -⟩ := readsB_getIntLoop (ρ := []) (idx := -1) hg hw hd hr hf pst0 ⟨rfl, rfl⟩
    rw [h] at e
    unfold getInt
    rw [P.bind_run, e]
    rfl

example : ReadsNumber asciiLex "0042".toList 42 := by
  have := C31_partial asciiLex_ok (ds := "0042".toList) (by decide) (by decide) (by decide)
  exact this

/-- C31: 2^64 - 1 with one more digit is read as this digit -/
example : ReadsNumber asciiLex "184467440737095516157".toList 7 := by
  obtain ⟨v, h1, h2, -⟩ := C31_exact asciiLex_ok (ds := "184467440737095516157".toList) (by decide) (by decide)
  have h : IntOf "184467440737095516157".toList 7 := by
    refine .rest (p := "18446744073709551615".toList) (q := ['7']) (by decide) ?_ (by decide +kernel) ?_
    · intro p q e hp hq
      have : ∀ n < 20, n ≠ 0 → intValue ("18446744073709551615".toList.take n) ≠ -1 := by decide +kernel
      have e1 : p = "18446744073709551615".toList.take p.length := by rw [e]; simp
      rw [e1]
      refine this _ ?_ (by simpa using hp)
      have := congrArg List.length e
      rw [List.length_append] at this
      have h3 : "18446744073709551615".toList.length = 20 := by decide
      have := List.length_pos_iff.2 hq
      omega
    · have e7 : intValue ['7'] = 7 := by decide +kernel
      have := IntOf.all (ds := ['7']) (by decide) (noRestart_one '7')
      rwa [e7] at this
  obtain rfl := (h1 7).1 h
  exact h2 (by decide)

/-- C31 is false: 2^63 is read as -2^63. -/
theorem C31_false : ¬ C31_statement := by
  intro h
  obtain ⟨s, e, -⟩ := h asciiLex asciiLex_ok "9223372036854775808".toList (by decide) (by decide) [] 20
    (by decide) (by simp) (by decide)
  have : getInt asciiLex ("9223372036854775808".toList ++ []) 20 pst0 =
      .ok (-9223372036854775808, { pos := 19, width := 0 }) := by decide +kernel
  rw [this] at e
  cases e

/-- 2^64 - 1 is rejected: its value modulo 2^64 is the marker for a missing number -/
theorem C31_false_marker : getInt asciiLex "18446744073709551615".toList 21 pst0 = .err := by decide +kernel

end Fmr
