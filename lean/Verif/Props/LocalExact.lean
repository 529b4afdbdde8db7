import Verif.Proofs.LocalAlts

/-!
# C74: the local grammar holds exactly the alternatives of the document, with their meanings
-/

namespace Fmr

/-- C74 as claimed, for one hash function. -/
def C74_statement (hash : RuleBody → Option Nat) : Prop :=
  ∀ (find : String → Bytes → Option (List (Nat × Nat))) (regexps : List (String × String)) (d : Doc) (l : Option Grammar),
    TagsInside d → (regexps ≠ [] → DocOK d) → localGrammar hash find regexps d = .ok l →
    ∀ tmatch A rb, (∃ g, l = some g ∧ (soloEnv g tmatch).Defines A rb) ↔ DocAlt find (fun k s => (k, s) ∈ regexps) d A rb

/-- C74, when the local grammar exists: with tagged spans inside the document, `localGrammar` fails exactly if an
alternative of the document has no hash, and it never panics. -/
theorem C74_fails (hash : RuleBody → Option Nat) (find : String → Bytes → Option (List (Nat × Nat)))
    (regexps : List (String × String)) (d : Doc) (ht : TagsInside d) (hd : regexps ≠ [] → DocOK d) :
    ((∃ l, localGrammar hash find regexps d = .ok l) ↔
      ∀ A rb, DocAlt find (fun k s => (k, s) ∈ regexps) d A rb → hash rb ≠ none) ∧
    (localGrammar hash find regexps d = .err ↔
      ∃ A rb, DocAlt find (fun k s => (k, s) ∈ regexps) d A rb ∧ hash rb = none) := by
  obtain ⟨h1, h2, h3⟩ := localGrammar_err (hash := hash) (find := find) ht hd
  refine ⟨?_, h3⟩
  constructor
  · rintro ⟨l, hl⟩ A rb h e
    rw [h3.2 ⟨A, rb, h, e⟩] at hl
    cases hl
  · intro h
    cases hl : localGrammar hash find regexps d with
    | ok l => exact ⟨l, rfl⟩
    | panic => exact absurd hl h1
    | div => exact absurd hl h2
    | err =>
      obtain ⟨A, rb, g1, g2⟩ := h3.1 hl
      exact absurd g2 (h A rb g1)

/-- C74: the local grammar has exactly the alternatives of the document - with their meanings - if no two of one rule
have the same hash. A nil local grammar has none. (Missing: hash collisions, for which it is false, `C74_false`.) -/
theorem C74_alternatives_partial (hash : RuleBody → Option Nat) (find : String → Bytes → Option (List (Nat × Nat)))
    (regexps : List (String × String)) (d : Doc) (l : Option Grammar) (ht : TagsInside d) (hd : regexps ≠ [] → DocOK d)
    (hinj : ∀ A a b, DocAlt find (fun k s => (k, s) ∈ regexps) d A a → DocAlt find (fun k s => (k, s) ∈ regexps) d A b →
      hash a = hash b → a = b)
    (h : localGrammar hash find regexps d = .ok l) (tmatch : Term → Token → Bool) (A : String) (rb : RuleBody) :
    (∃ g, l = some g ∧ (soloEnv g tmatch).Defines A rb) ↔ DocAlt find (fun k s => (k, s) ∈ regexps) d A rb := by
  have hc : NoDocCollision hash find regexps d := by
    intro A a b k h1 h2 e1 e2
    rw [docBody_iff ht hd] at h1 h2
    exact hinj A a b h1 h2 (e1.trans e2.symm)
  rw [← docBody_iff ht hd, ← localGrammar_rules hc h]
  simp only [soloEnv_defines]
  cases l with
  | none => simp [HasBody.nil]
  | some g => simp

/-- C74, what a rule of the document matches: the texts of one of its alternatives. -/
theorem C74_derives_partial (hash : RuleBody → Option Nat) (find : String → Bytes → Option (List (Nat × Nat)))
    (regexps : List (String × String)) (d : Doc) (g : Grammar) (ht : TagsInside d) (hd : regexps ≠ [] → DocOK d)
    (hinj : ∀ A a b, DocAlt find (fun k s => (k, s) ∈ regexps) d A a → DocAlt find (fun k s => (k, s) ∈ regexps) d A b →
      hash a = hash b → a = b)
    (h : localGrammar hash find regexps d = .ok (some g)) (lower : String → String) (reg : String → Option Token)
    (A : String) (w : List Token) :
    Derives (soloEnv g (terminalMatch lower reg)) A w ↔
      ∃ rb, DocAlt find (fun k s => (k, s) ∈ regexps) d A rb ∧ rb.terms.map (·.value) = w.map (·.text) := by
  have hplain : ∀ rb, DocAlt find (fun k s => (k, s) ∈ regexps) d A rb → ∀ t ∈ rb.terms, t.type = .terminal ∧ t.meta = .nil := by
    intro rb hrb t ht
    cases hrb <;> simp only [List.mem_singleton, List.mem_map] at ht
    all_goals first
      | (subst ht; exact ⟨rfl, rfl⟩)
      | (obtain ⟨x, -, rfl⟩ := ht; exact ⟨rfl, rfl⟩)
  have key := C74_alternatives_partial hash find regexps d _ ht hd hinj h (terminalMatch lower reg) A
  simp only [Option.some.injEq, exists_eq_left'] at key
  rw [derives_iff]
  constructor
  · rintro ⟨rb, h1, h2⟩
    have hrb := (key rb).1 h1
    exact ⟨rb, hrb, (yields_texts (L := (soloEnv g (terminalMatch lower reg)).lang)
      (fun t a => terminalMatch_plain lower reg t a) _ _ (hplain rb hrb)).1 h2⟩
  · rintro ⟨rb, h1, h2⟩
    exact ⟨rb, (key rb).2 h1, (yields_texts (L := (soloEnv g (terminalMatch lower reg)).lang)
      (fun t a => terminalMatch_plain lower reg t a) _ _ (hplain rb h1)).2 h2⟩

/-- C74 fails for every 64 bit hash function: of two alternatives of a rule with the same hash one is forgotten. -/
theorem C74_false (hash : RuleBody → Option Nat) (h64 : ∀ rb, ∃ h < 2^64, hash rb = some h) : ¬ C74_statement hash := by
  intro hall
  refine C35_false hash h64 fun find regexps d l lower reg ty a hty hsp hre h => ?_
  have ht : TagsInside d := by rw [TagsInside, hsp]; simp
  have key := hall find regexps d _ ht (fun e => absurd hre e) h (terminalMatch lower reg) (className ty)
  simp only [Option.some.injEq, exists_eq_left'] at key
  have hdoc : ∀ rb, DocAlt find (fun k s => (k, s) ∈ regexps) d (className ty) rb ↔
      ∃ t ∈ d.tokens, t.type = ty ∧ rb = tokenBody t := by
    intro rb
    rw [← docBody_iff ht (fun e => absurd hre e)]
    constructor
    · rintro (⟨t, ht, h1, -, rfl⟩ | ⟨sp, hs, -⟩)
      · exact ⟨t, ht, className_inj (by rw [h1]; exact hty) h1, rfl⟩
      · simp [regexpTag, regexpSpans, hsp, hre] at hs
    · rintro ⟨t, ht, rfl, rfl⟩
      exact .inl ⟨t, ht, rfl, hty, rfl⟩
  rw [derives_iff]
  have hy : ∀ t : Token, Yields (soloEnv l (terminalMatch lower reg)).lang (tokenBody t).terms [a] ↔ t.text = a.text := by
    intro t
    rw [yields_texts (L := (soloEnv l (terminalMatch lower reg)).lang)
      (fun t a => terminalMatch_plain lower reg t a) _ _ (by simp [tokenBody])]
    simp [tokenBody]
  constructor
  · rintro ⟨rb, h1, h2⟩
    obtain ⟨t, ht, e, rfl⟩ := (hdoc rb).1 ((key rb).1 h1)
    exact ⟨t, ht, e, (hy t).1 h2⟩
  · rintro ⟨t, ht, e, h2⟩
    exact ⟨tokenBody t, (key _).2 ((hdoc _).2 ⟨t, ht, e, rfl⟩), (hy t).2 h2⟩

/-- a document `ab 12` where `ab` is tagged as a city with a value -/
def dTagged : Doc :=
  { dEx with spans := [{ start := 0, stop := 1, ann := .map [("city", .items [.str "x"])], text := "ab" }] }

/-- the meaning of the tag -/
def cityFmr : FMR := .mk "fmr.list" [.mk "string" (.str "ab"), .mk "func" (.fmr (.mk "fmr.entity"
  [.mk "string" (.str "city"), .mk "func" (.fmr (.mk "fmr.list" [.mk "string" (.str "x")]))]))]

/-- non-vacuity of C74: a document with words, a tag with a value and a match of a regexp; the local grammar is built,
and the tag has its meaning -/
example : ∃ (hash : RuleBody → Option Nat) (g : Grammar), HashInj hash ∧ TagsInside dTagged ∧ DocOK dTagged ∧
    localGrammar hash exFind [("x", "re")] dTagged = .ok (some g) ∧
    (soloEnv g plainMatch).Defines "city" ⟨[tt "ab"], some cityFmr⟩ ∧
    (soloEnv g plainMatch).Defines "x" exB2 := by
  have ht : TagsInside dTagged := by
    intro sp hsp m _ _
    simp only [dTagged, List.mem_singleton] at hsp
    subst hsp
    exact ⟨by decide, by decide⟩
  have hd : DocOK dTagged := ⟨dEx_ok.numbered, dEx_ok.sorted, dEx_ok.nonempty⟩
  have htok : ∀ t ∈ dTagged.tokens, t = { text := "ab", type := .word, startByte := 0, endByte := 2, i := 0 } ∨
      t = { text := " ", type := .space, startByte := 2, endByte := 3, i := 1 } ∨
      t = { text := "12", type := .word, startByte := 3, endByte := 5, i := 2 } := by
    intro t ht
    simpa [dTagged, dEx] using ht
  have hcov : SpanCovers dTagged exSpan (0, 5) := ⟨0, 2, _, _, rfl, rfl, rfl, rfl, rfl, rfl⟩
  obtain ⟨hash, hh, hinj⟩ : ∃ hash : RuleBody → Option Nat,
      (∀ A rb, DocAlt exFind (fun k s => (k, s) ∈ [("x", "re")]) dTagged A rb → hash rb ≠ none) ∧ HashInj hash := by
    classical
    let B : List RuleBody := [exB0, exB1, exB2, ⟨[tt "ab"], some cityFmr⟩]
    refine ⟨fun rb => B.findIdx? (fun b => decide (b = rb)), ?_, ?_⟩
    · intro A rb h e
      have hm : rb ∈ B := by
        cases h with
        | @word t h1 h2 =>
          rcases htok t h1 with rfl | rfl | rfl
          · exact List.mem_cons_self
          · cases h2
          · exact List.mem_cons_of_mem _ List.mem_cons_self
        | @punct t h1 h2 => rcases htok t h1 with rfl | rfl | rfl <;> cases h2
        | @symbol t h1 h2 => rcases htok t h1 with rfl | rfl | rfl <;> cases h2
        | @letters t h1 h2 => rcases htok t h1 with rfl | rfl | rfl <;> cases h2
        | tag h1 h2 h3 => cases List.mem_singleton.1 h1; cases h2; cases List.mem_singleton.1 h3
        | values h1 h2 h3 =>
          cases List.mem_singleton.1 h1; cases h2; cases List.mem_singleton.1 h3
          simp [B, spanTokens, dTagged, dEx, tokenTerm, tt, cityFmr]
        | regexp h1 h2 h3 h4 =>
          cases h2
          cases List.mem_singleton.1 h3
          rw [h4.unique hd hcov]
          simp [B, spanTokens, dTagged, dEx, exSpan, tokenTerm, tt, exB2]
      simp only [List.findIdx?_eq_none_iff, decide_eq_false_iff_not] at e
      exact e rb hm rfl
    · intro a b n ha hb
      obtain ⟨h1, h2, -⟩ := List.findIdx?_eq_some_iff_getElem.1 ha
      obtain ⟨h1', h2', -⟩ := List.findIdx?_eq_some_iff_getElem.1 hb
      exact (of_decide_eq_true h2).symm.trans (of_decide_eq_true h2')
  obtain ⟨l, hl⟩ := (C74_fails hash exFind [("x", "re")] dTagged ht (fun _ => hd)).1.2 hh
  have key := fun A rb => C74_alternatives_partial hash exFind [("x", "re")] dTagged l ht (fun _ => hd)
    (fun A a b ha hb e => by
      cases h : hash a with
      | none => exact absurd h (hh A a ha)
      | some n => exact hinj a b n h (e ▸ h)) hl plainMatch A rb
  have h1 := (key "city" ⟨[tt "ab"], some cityFmr⟩).2 (.values
    (sp := { start := 0, stop := 1, ann := .map [("city", .items [.str "x"])], text := "ab" })
    (m := [("city", .items [.str "x"])]) (List.mem_singleton.2 rfl) rfl (List.mem_singleton.2 rfl))
  have h2 := (key "x" exB2).2 (.regexp (sp := exSpan) (m := (0, 5)) (List.mem_singleton.2 rfl) rfl (List.mem_singleton.2 rfl)
    hcov)
  obtain ⟨g, rfl, h1⟩ := h1
  obtain ⟨g', e, h2⟩ := h2
  cases e
  exact ⟨hash, g, hinj, ht, hd, hl, h1, h2⟩

end Fmr
