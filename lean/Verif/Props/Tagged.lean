import Verif.Spec.Tagged
import Verif.Props.LocalExact
import Verif.Props.Separate
import Mathlib.Tactic.IntervalCases

/-!
# C104: a tag or a regexp is found only where it is
-/

namespace Fmr

/-- What the theorems of C104 assume of a call: the text is annotated to `d`, whose tokens are numbered and whose tags lie inside,
the alternatives of the document have different hashes, and `k` is neither a class of tokens nor a rule of the grammar. -/
structure TagSetting (w : World) (g : Gram) (context : String) (text : Bytes) (toks : List Token) (l : Option Grammar) (d : Doc)
    (k : String) : Prop where
  proc : process w g context text = .ok (toks, l)
  doc : annotateText w context (w.trim text) = some d
  inside : TagsInside d
  numbered : DocOK d
  hash : ∀ A a b, DocAlt w.find (fun k s => (k, s) ∈ g.main.regexps) d A a →
    DocAlt w.find (fun k s => (k, s) ∈ g.main.regexps) d A b → w.hash a = w.hash b → a = b
  noClass : ¬ IsClass k
  noRule : ∀ x ∈ [g.main] ++ g.includes, x.rules.lookup k = none

section
variable {w : World} {g : Gram} {context : String} {text : Bytes} {toks : List Token} {l : Option Grammar} {d : Doc} {k : String}

/-- the rule `k` has the alternatives of the document only -/
theorem TagSetting.defines (h : TagSetting w g context text toks l d k) (starts : List String) (call : Nat) (ts : List Token)
    (rb : RuleBody) : (envFor w g l ts starts call).Defines k rb ↔
      DocAlt w.find (fun k s => (k, s) ∈ g.main.regexps) d k rb := by
  obtain ⟨-, d', hd', -, -, hl⟩ := process_ok h.proc
  obtain rfl : d = d' := Option.some.inj (h.doc.symm.trans hd')
  rw [← C74_alternatives_partial w.hash w.find g.main.regexps d l h.inside (fun _ => h.numbered) h.hash hl
    (terminalMatch w.lower w.registry) k rb]
  constructor
  · rintro ⟨x, hx, r, hr, hrb⟩
    rcases List.mem_append.1 hx with hx | hx
    · rw [h.noRule x hx] at hr
      cases hr
    · cases l with
      | none => cases hx
      | some l =>
        obtain rfl := List.mem_singleton.1 hx
        exact ⟨x, rfl, x, List.mem_singleton.2 rfl, r, hr, hrb⟩
  · rintro ⟨x, rfl, y, hy, r, hr, hrb⟩
    obtain rfl := List.mem_singleton.1 hy
    exact ⟨y, by simp [envFor], r, hr, hrb⟩

/-- the words of the alternatives are those that are tagged -/
theorem docAlt_tagged {find : String → Bytes → Option (List (Nat × Nat))} {R : String → String → Prop} (hk : ¬ IsClass k)
    (ws : List Term) : (∃ f, DocAlt find R d k ⟨ws, f⟩) ↔ ∃ a b, Tagged find R d k a b ∧ ws = (d.between a b).map tokenTerm := by
  constructor
  · rintro ⟨f, h⟩
    cases h with
    | word => exact absurd (.inl rfl) hk
    | punct => exact absurd (.inr (.inl rfl)) hk
    | symbol => exact absurd (.inr (.inr (.inl rfl))) hk
    | letters => exact absurd (.inr (.inr (.inr rfl))) hk
    | tag h1 h2 h3 => exact ⟨_, _, .tag h1 h2 h3, rfl⟩
    | values h1 h2 h3 => exact ⟨_, _, .tag h1 h2 h3, rfl⟩
    | regexp h1 h2 h3 h4 =>
      obtain ⟨i, j, a, b, e1, e2, hi, hj, ha, hb⟩ := h4
      refine ⟨_, _, .regexp h1 h2 h3 hi hj ha hb, ?_⟩
      rw [← e1, ← e2]
      rfl
  · rintro ⟨a, b, h, rfl⟩
    cases h with
    | @tag sp m k vs h1 h2 h3 =>
      cases vs with
      | scalar => exact ⟨_, .tag h1 h2 h3⟩
      | items vs => exact ⟨_, .values h1 h2 h3⟩
    | @regexp k s ms m i j a b h1 h2 h3 hi hj ha hb =>
      exact ⟨_, .regexp (sp := ⟨i, j + 1, .absent, ""⟩) h1 h2 h3 ⟨i, j, a, b, rfl, rfl, hi, hj, ha, hb⟩⟩

theorem docAlt_plain {find : String → Bytes → Option (List (Nat × Nat))} {R : String → String → Prop} {rb : RuleBody}
    (hrb : DocAlt find R d k rb) : ∀ t ∈ rb.terms, t.type = .terminal ∧ t.meta = .nil := by
  intro t ht
  cases hrb <;> simp only [List.mem_singleton, List.mem_map] at ht
  all_goals first
    | (subst ht; exact ⟨rfl, rfl⟩)
    | (obtain ⟨x, -, rfl⟩ := ht; exact ⟨rfl, rfl⟩)

/-- C104, exactly: a tag is found in all places that have the words of a tagged place. -/
theorem C104_exact (h : TagSetting w g context text toks l d k) (starts : List String) (call : Nat) (ts u : List Token) :
    Derives (envFor w g l ts starts call) k u ↔
      ∃ a b, Tagged w.find (fun k s => (k, s) ∈ g.main.regexps) d k a b ∧ (d.between a b).map (·.text) = u.map (·.text) := by
  have key := fun rb hrb => yields_texts (L := (envFor w g l ts starts call).lang)
    (fun t a => terminalMatch_plain w.lower w.registry t a) rb.terms u
    (docAlt_plain (find := w.find) (R := fun k s => (k, s) ∈ g.main.regexps) (d := d) (k := k) (rb := rb) hrb)
  rw [derives_iff]
  constructor
  · rintro ⟨⟨ws, f⟩, h1, h2⟩
    rw [h.defines] at h1
    obtain ⟨a, b, h3, rfl⟩ := (docAlt_tagged h.noClass ws).1 ⟨f, h1⟩
    refine ⟨a, b, h3, ?_⟩
    rw [← (key _ h1).1 h2]
    simp [tokenTerm, Function.comp_def]
  · rintro ⟨a, b, h1, h2⟩
    obtain ⟨f, h3⟩ := (docAlt_tagged h.noClass _).2 ⟨a, b, h1, rfl⟩
    refine ⟨_, (h.defines _ _ _ _).2 h3, (key _ h3).2 ?_⟩
    rw [← h2]
    simp [tokenTerm, Function.comp_def]

/-- Every meaning of a tagged place is one of every place with the same words. -/
theorem C104_meanings (h : TagSetting w g context text toks l d k) (starts : List String) (call : Nat) (ts u : List Token)
    {sp : Span} {m : List (String × SpanVals)} {vs : List Val} (hsp : sp ∈ d.spans) (hm : sp.ann = .map m)
    (hk : (k, .items vs) ∈ m) (hu : (d.between sp.start sp.stop).map (·.text) = u.map (·.text)) :
    ∃ rb, (envFor w g l ts starts call).Defines k rb ∧ Yields (envFor w g l ts starts call).lang rb.terms u ∧
      rb.f = some (.mk "fmr.list" [.mk "string" (.str sp.text), .mk "func" (.fmr (.mk "fmr.entity"
        [.mk "string" (.str k), .mk "func" (.fmr (.mk "fmr.list" (vs.map (.mk "string"))))]))]) := by
  have h1 := DocAlt.values (find := w.find) (R := fun k s => (k, s) ∈ g.main.regexps) hsp hm hk
  refine ⟨_, (h.defines _ _ _ _).2 h1, (yields_texts (L := (envFor w g l ts starts call).lang)
    (fun t a => terminalMatch_plain w.lower w.registry t a) _ u (docAlt_plain h1)).2 ?_, rfl⟩
  rw [← hu]
  simp [tokenTerm, Function.comp_def, spanTokens, Doc.between]

/-- C104 where the words decide: if all places with the words of a tagged place are tagged, a tag is found exactly where it is. -/
theorem C104_partial (h : TagSetting w g context text toks l d k) (starts : List String) (call : Nat) (ts : List Token)
    (hdec : ∀ a b i j : Int, Tagged w.find (fun k s => (k, s) ∈ g.main.regexps) d k a b → 0 ≤ i → i < j → j ≤ d.tokens.length →
      (d.between a b).map (·.text) = (d.between i j).map (·.text) → Tagged w.find (fun k s => (k, s) ∈ g.main.regexps) d k i j)
    {i j : Int} (hi : 0 ≤ i) (hij : i < j) (hj : j ≤ d.tokens.length) : Derives (envFor w g l ts starts call) k (d.between i j) ↔
      Tagged w.find (fun k s => (k, s) ∈ g.main.regexps) d k i j := by
  rw [C104_exact h]
  exact ⟨fun ⟨a, b, h1, h2⟩ => hdec a b i j h1 hi hij hj h2, fun h1 => ⟨i, j, h1, rfl⟩⟩

end

/-- C104 as claimed: what a tag is found at is tagged with it. -/
def C104_statement : Prop :=
  ∀ (w : World) (g : Gram) (context : String) (text : Bytes) (toks : List Token) (l : Option Grammar) (d : Doc) (k : String),
    TagSetting w g context text toks l d k → ∀ (starts : List String) (call : Nat) (i j : Int), 0 ≤ i → i < j → j ≤ d.tokens.length →
      Derives (envFor w g l toks starts call) k (d.between i j) →
      Tagged w.find (fun k s => (k, s) ∈ g.main.regexps) d k i j

/-- the regexp `a$`: the last byte, if it is an `a` -/
def wLast : World :=
  { wBytes with find := fun _ b => some (if b.getLast? = some 97 then [(b.length - 1, b.length)] else []) }

/-- a rule with the regexp `a$` -/
def gLast : Gram :=
  { main := { name := "g", rules := [rl "s" [[⟨"h", .nonterminal, .nil⟩]]], regexps := [("h", "a$")] }, includes := [] }

/-- the offsets of the matches that `EarleyParseMaxAll` finds, and their lengths -/
def placesIn (w : World) (g : Gram) (text : Bytes) : Out (List (Nat × Nat)) :=
  (earleyParseMaxAll w g 40 "" text ["s"]).bind (fun ps => .ok (ps.map fun p => (p.off, maxEnd p.res.finals)))

/-- With the regexp `a$` nothing is found in `a!`, and in `a!a` also the first `a`. -/
theorem C104_away : placesIn wLast gLast [97, 33] = .ok [] ∧ placesIn wLast gLast [97, 33, 97] = .ok [(0, 1), (2, 1)] := by
  decide +kernel

/-- the document `a!a` -/
def dLast : Doc :=
  { text := [97, 33, 97], spans := [],
    tokens := [{ text := "a", startByte := 0, endByte := 1, i := 0 }, { text := "!", type := .punct, startByte := 1, endByte := 2, i := 1 },
      { text := "a", startByte := 2, endByte := 3, i := 2 }] }

theorem dLast_tagged {i j : Int} : Tagged wLast.find (fun k s => (k, s) ∈ gLast.main.regexps) dLast "h" i j ↔ i = 2 ∧ j = 3 := by
  constructor
  · intro h
    cases h with
    | tag h1 => cases h1
    | @regexp _ s ms m i j a b h1 h2 h3 hi hj ha hb =>
      obtain rfl : ms = [(2, 3)] := (Option.some.inj h2).symm
      obtain rfl := List.mem_singleton.1 h3
      have hi3 : i < 3 := (List.getElem?_eq_some_iff.1 hi).1
      have hj3 : j < 3 := (List.getElem?_eq_some_iff.1 hj).1
      interval_cases i <;> interval_cases j <;> simp [dLast] at hi hj <;> subst hi <;> subst hj <;> simp_all
  · rintro ⟨rfl, rfl⟩
    exact .regexp (i := 2) (j := 2) (List.mem_singleton.2 rfl) rfl (List.mem_singleton.2 rfl) rfl rfl rfl rfl

theorem gLast_setting_of {f : String → Bytes → Option (List (Nat × Nat))}
    (hf : ∀ i j, Tagged f (fun k s => (k, s) ∈ gLast.main.regexps) dLast "h" i j → i = 0 ∧ j = 1 ∨ i = 2 ∧ j = 3)
    {toks : List Token} {l : Option Grammar} (hp : process { wBytes with find := f } gLast "" [97, 33, 97] = .ok (toks, l)) :
    TagSetting { wBytes with find := f } gLast "" [97, 33, 97] toks l dLast "h" := by
  refine ⟨hp, rfl, ?_, ?_, ?_, ?_, ?_⟩
  · intro sp h
    cases h
  · refine ⟨?_, ?_, ?_⟩
    · intro k t h
      have hk : k < 3 := (List.getElem?_eq_some_iff.1 h).1
      interval_cases k <;> simp [dLast] at h <;> subst h <;> rfl
    · simp [dLast]
    · simp [dLast]
  · have h1 : ∀ A rb, DocAlt f (fun k s => (k, s) ∈ gLast.main.regexps) dLast A rb →
        (A ≠ "punct" ∧ rb = ⟨[tt "a"], none⟩) ∨ (A = "punct" ∧ rb = ⟨[tt "!"], none⟩) := by
      intro A rb h
      cases h with
      | word h1 h2 =>
        simp only [dLast, List.mem_cons, List.not_mem_nil, or_false] at h1
        rcases h1 with rfl | rfl | rfl
        · exact .inl ⟨by decide, rfl⟩
        · cases h2
        · exact .inl ⟨by decide, rfl⟩
      | punct h1 h2 =>
        simp only [dLast, List.mem_cons, List.not_mem_nil, or_false] at h1
        rcases h1 with rfl | rfl | rfl
        · cases h2
        · exact .inr ⟨rfl, rfl⟩
        · cases h2
      | symbol h1 h2 =>
        simp only [dLast, List.mem_cons, List.not_mem_nil, or_false] at h1
        rcases h1 with rfl | rfl | rfl <;> cases h2
      | letters h1 h2 =>
        simp only [dLast, List.mem_cons, List.not_mem_nil, or_false] at h1
        rcases h1 with rfl | rfl | rfl <;> cases h2
      | tag h1 => cases h1
      | values h1 => cases h1
      | @regexp A s ms m sp h1 h2 h3 h4 =>
        obtain ⟨rfl, -⟩ := Prod.mk.inj (List.mem_singleton.1 h1)
        obtain ⟨i, j, a, b, e1, e2, hi, hj, ha, hb⟩ := h4
        refine .inl ⟨by decide, ?_⟩
        rcases hf _ _ (.regexp h1 h2 h3 hi hj ha hb) with ⟨k1, k2⟩ | ⟨k1, k2⟩ <;>
        · rw [spanTokens, e1, e2, k1, k2]
          rfl
    intro A a b ha hb _
    rcases h1 A a ha with ⟨k1, rfl⟩ | ⟨k1, rfl⟩ <;> rcases h1 A b hb with ⟨k2, rfl⟩ | ⟨k2, rfl⟩
    · rfl
    · exact absurd k2 k1
    · exact absurd k1 k2
    · rfl
  · simp [IsClass]
  · simp [gLast, rl]

theorem gLast_setting : ∃ toks l, TagSetting wLast gLast "" [97, 33, 97] toks l dLast "h" :=
  ⟨_, _, gLast_setting_of (f := wLast.find) (fun _ _ h => .inr (dLast_tagged.1 h)) rfl⟩

/-- C104 is false: in `a!a` the first `a` is found for the regexp `a$`. -/
theorem C104_false : ¬ C104_statement := by
  intro hall
  obtain ⟨toks, l, h⟩ := gLast_setting
  have := hall _ _ _ _ _ _ _ _ h ["s"] 0 0 1 (by decide) (by decide) (by decide)
    ((C104_exact h _ _ _ _).2 ⟨2, 3, dLast_tagged.2 ⟨rfl, rfl⟩, rfl⟩)
  exact absurd (dLast_tagged.1 this).1 (by decide)

/-- the value in the meaning of a tag with one value -/
def tagValue : FMR → Option String
  | .mk _ [_, .mk _ (.fmr (.mk _ [_, .mk _ (.fmr (.mk _ [.mk _ (.str s)]))]))] => some s
  | _ => none

/-- two tags with the same word and different values: `a!a` with a company and a fruit -/
def wTagged : World :=
  { wBytes with
    annotate := fun _ => some { dLast with spans :=
      [{ start := 0, stop := 1, ann := .map [("h", .items [.str "company"])], text := "a" },
       { start := 2, stop := 3, ann := .map [("h", .items [.str "fruit"])], text := "a" }] }
    hash := fun b => some (match b.f.bind tagValue with | some s => s.length | none => 0) }

/-- the tag `h` as a rule -/
def gTagged : Gram := { main := { name := "g", rules := [rl "s" [[⟨"h", .nonterminal, .nil⟩]]] }, includes := [] }

/-- the offsets of the matches that `EarleyParseMaxAll` finds for the tag `h`, with the values of their trees -/
def valuesIn (w : World) (g : Gram) (text : Bytes) : Out (List (Nat × List (Option String))) :=
  (earleyParseMaxAll w g 40 "" text ["h"]).bind fun ps => outFlat (fun p => (treesOf 40 true p).bind fun ns =>
    .ok [(p.off, ns.flatMap fun n => n.children.map fun c => (c.value.rb.bind (·.f)).bind tagValue)]) ps

/-- Of `a!a` the first `a` is tagged as a company and the second as a fruit; both are found as both. -/
theorem C104_mixed : valuesIn wTagged gTagged [97, 33, 97] =
    .ok [(0, [some "company", some "fruit"]), (2, [some "company", some "fruit"])] := by
  decide +kernel

/-- the regexp `a` in `a!a` -/
def wBoth : World := { wBytes with find := fun _ _ => some [(0, 1), (2, 3)] }

theorem dLast_both {i j : Int} : Tagged wBoth.find (fun k s => (k, s) ∈ gLast.main.regexps) dLast "h" i j ↔
    i = 0 ∧ j = 1 ∨ i = 2 ∧ j = 3 := by
  constructor
  · intro h
    cases h with
    | tag h1 => cases h1
    | @regexp _ s ms m i j a b h1 h2 h3 hi hj ha hb =>
      obtain rfl : ms = [(0, 1), (2, 3)] := (Option.some.inj h2).symm
      have hi3 : i < 3 := (List.getElem?_eq_some_iff.1 hi).1
      have hj3 : j < 3 := (List.getElem?_eq_some_iff.1 hj).1
      simp only [List.mem_cons, List.not_mem_nil, or_false] at h3
      rcases h3 with rfl | rfl <;> interval_cases i <;> interval_cases j <;> simp [dLast] at hi hj <;> subst hi <;> subst hj <;> simp_all
  · rintro (⟨rfl, rfl⟩ | ⟨rfl, rfl⟩)
    · exact .regexp (i := 0) (j := 0) (m := (0, 1)) (List.mem_singleton.2 rfl) rfl (by simp) rfl rfl rfl rfl
    · exact .regexp (i := 2) (j := 2) (m := (2, 3)) (List.mem_singleton.2 rfl) rfl (by simp) rfl rfl rfl rfl

/-- Non-vacuity of `C104_partial`: with the regexp `a` in `a!a` its two places are found, and no other. -/
example : ∃ toks l, TagSetting wBoth gLast "" [97, 33, 97] toks l dLast "h" ∧
    ∀ i j : Int, 0 ≤ i → i < j → j ≤ 3 →
      (Derives (envFor wBoth gLast l toks ["s"] 0) "h" (dLast.between i j) ↔ i = 0 ∧ j = 1 ∨ i = 2 ∧ j = 3) := by
  obtain ⟨toks, l, h⟩ : ∃ toks l, TagSetting wBoth gLast "" [97, 33, 97] toks l dLast "h" :=
    ⟨_, _, gLast_setting_of (f := wBoth.find) (fun _ _ => dLast_both.1) rfl⟩
  refine ⟨toks, l, h, fun i j hi hij hj => ?_⟩
  rw [C104_partial h ["s"] 0 toks ?_ hi hij hj, dLast_both]
  intro a b i j hab hi hij hj e
  rw [dLast_both] at hab ⊢
  have hj' : j ≤ 3 := hj
  have hi' : i < 3 := by omega
  have e1 : (dLast.between a b).map (·.text) = ["a"] := by
    rcases hab with ⟨rfl, rfl⟩ | ⟨rfl, rfl⟩ <;> rfl
  rw [e1] at e
  interval_cases i <;> interval_cases j <;> first | (exfalso; revert e; decide) | simp

end Fmr
