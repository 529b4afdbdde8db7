import Verif.Proofs.Alike
import Verif.Props.Api
import Verif.Props.Local
import Verif.Props.Rename

/-!
# C97: texts that the literals of the grammar do not tell apart have the same trees
-/

namespace Fmr

/-- Two outcomes of the same kind, with related values. -/
def Out.Both {α β : Type} (r : α → β → Prop) : Out α → Out β → Prop
  | .ok a, .ok b => r a b
  | .err, .err => True
  | .panic, .panic => True
  | .div, .div => True
  | _, _ => False

theorem Out.Both.bind {α β γ δ : Type} {r : α → β → Prop} {q : γ → δ → Prop} {x : Out α} {y : Out β}
    {f : α → Out γ} {k : β → Out δ} (h : x.Both r y) (hf : ∀ a b, r a b → (f a).Both q (k b)) :
    (x >>= f).Both q (y >>= k) := by
  cases x <;> cases y <;> first | exact hf _ _ h | exact h.elim | trivial

/-- The charts, final states and offsets of two parses are the same. -/
def SameRun (p p' : Parsed) : Prop := p'.res = p.res ∧ p'.off = p.off ∧ p'.env.starts = p.env.starts

section
variable {w : World} {g : Gram} {R : String → Prop} {starts : List String}

/-- the literals of the grammar and its includes do not tell the tokens apart -/
def World.AlikeTokens (w : World) (g : Gram) (R : String → Prop) : Token → Token → Prop :=
  Fmr.AlikeTokens R ([g.main] ++ g.includes) (terminalMatch w.lower w.registry) (terminalMatch w.lower w.registry)

theorem alike_earleyParse (hc : Closed R ([g.main] ++ g.includes) starts) (ho : w.OrdOK)
    {l l' : Option Grammar} (hl : ∀ x ∈ l, Unused R [x]) (hl' : ∀ x ∈ l', Unused R [x]) {toks toks' : List Token}
    (ht : List.Forall₂ (w.AlikeTokens g R) toks toks') (fuel : Nat) (flag : Bool) (text text' : Bytes)
    (call off : Nat) : (earleyParse w g fuel flag text toks l starts call off).Both SameRun
      (earleyParse w g fuel flag text' toks' l' starts call off) := by
  have more : ∀ {m : Option Grammar}, (∀ x ∈ m, Unused R [x]) →
      Unused R (match m with | some l => [l] | none => []) := by
    intro m hm
    cases m with
    | none => intro x hx; simp at hx
    | some x => exact hm x rfl
  have h : Alike R ([g.main] ++ g.includes) (envFor w g l toks starts call) (envFor w g l' toks' starts call) :=
    { left := ⟨_, rfl, more hl⟩, right := ⟨_, rfl, more hl'⟩, starts := rfl, ord := rfl, closed := hc, tokens := ht }
  have hp := alike_parse h (ho call) flag fuel
  unfold earleyParse
  rw [ht.length_eq]
  split
  · trivial
  · split
    · trivial
    · simp only [hp]
      cases parse (envFor w g l toks starts call) flag fuel with
      | none => trivial
      | some r => exact ⟨rfl, rfl, rfl⟩

theorem alike_anyLoop (hc : Closed R ([g.main] ++ g.includes) starts) (ho : w.OrdOK)
    {l l' : Option Grammar} (hl : ∀ x ∈ l, Unused R [x]) (hl' : ∀ x ∈ l', Unused R [x]) (fuel : Nat)
    (text text' : Bytes) : ∀ {toks toks' : List Token} (i : Nat) {p p' : Option Parsed},
    List.Forall₂ (w.AlikeTokens g R) toks toks' → Option.Rel SameRun p p' →
    (parseAnyLoop w g fuel text l starts toks i p).Both (Option.Rel SameRun)
      (parseAnyLoop w g fuel text' l' starts toks' i p')
  | [], _, i, p, p', .nil, hp => by unfold parseAnyLoop; exact hp
  | t :: ts, _, i, p, p', .cons (b := t') (l₂ := ts') h hs, hp => by
    unfold parseAnyLoop
    refine (alike_earleyParse hc ho hl hl' (.cons h hs) fuel true text text' i i).bind (fun a b hab => ?_)
    rw [hab.1]
    split
    · exact .some hab
    · exact alike_anyLoop hc ho hl hl' fuel text text' (i+1) hs (.some hab)

theorem alike_maxAllLoop (hc : Closed R ([g.main] ++ g.includes) starts) (ho : w.OrdOK)
    {l l' : Option Grammar} (hl : ∀ x ∈ l, Unused R [x]) (hl' : ∀ x ∈ l', Unused R [x]) (fuel : Nat)
    (text text' : Bytes) {toks toks' : List Token} (ht : List.Forall₂ (w.AlikeTokens g R) toks toks') :
    ∀ n call i, (maxAllLoop w g fuel text toks l starts n call i).Both (List.Forall₂ SameRun)
      (maxAllLoop w g fuel text' toks' l' starts n call i)
  | 0, _, _ => trivial
  | n+1, call, i => by
    unfold maxAllLoop
    rw [ht.length_eq]
    split
    · refine (alike_earleyParse hc ho hl hl' (List.forall₂_drop i ht) fuel true text text' call i).bind
        (fun a b hab => ?_)
      rw [hab.1]
      split
      · refine (alike_maxAllLoop hc ho hl hl' fuel text text' ht n _ _).bind (fun r r' hr => ?_)
        exact List.Forall₂.cons hab hr
      · exact alike_maxAllLoop hc ho hl hl' fuel text text' ht n _ _
    · exact List.Forall₂.nil

theorem alike_allLoop (hc : Closed R ([g.main] ++ g.includes) starts) (ho : w.OrdOK)
    {l l' : Option Grammar} (hl : ∀ x ∈ l, Unused R [x]) (hl' : ∀ x ∈ l', Unused R [x]) (fuel : Nat)
    (text text' : Bytes) : ∀ {toks toks' : List Token} (i : Nat),
    List.Forall₂ (w.AlikeTokens g R) toks toks' →
    (parseAllLoop w g fuel text l starts toks i).Both (List.Forall₂ SameRun)
      (parseAllLoop w g fuel text' l' starts toks' i)
  | [], _, i, .nil => by unfold parseAllLoop; exact List.Forall₂.nil
  | t :: ts, _, i, .cons (b := t') (l₂ := ts') h hs => by
    unfold parseAllLoop
    refine (alike_earleyParse hc ho hl hl' (.cons h hs) fuel false text text' i i).bind (fun a b hab => ?_)
    refine (alike_allLoop hc ho hl hl' fuel text text' (i+1) hs).bind (fun r r' hr => ?_)
    rw [hab.1]
    split
    · exact List.Forall₂.cons hab hr
    · exact hr

theorem alike_treesOf {p p' : Parsed} (h : SameRun p p') (fuel : Nat) (flag : Bool) :
    treesOf fuel flag p' = treesOf fuel flag p := by
  unfold treesOf
  rw [h.1, h.2.2]

theorem alike_flat (fuel : Nat) (flag : Bool) : ∀ {ps ps' : List Parsed}, List.Forall₂ SameRun ps ps' →
    outFlat (treesOf fuel flag) ps' = outFlat (treesOf fuel flag) ps
  | _, _, .nil => rfl
  | _, _, .cons h hs => by simp only [outFlat, alike_treesOf h, alike_flat fuel flag hs]

theorem alike_extract (fuel : Nat) (flag : Bool) {x y : Out (List Parsed)} (h : x.Both (List.Forall₂ SameRun) y) :
    extract fuel flag y = extract fuel flag x := by
  unfold extract
  cases x <;> cases y <;> first | exact alike_flat fuel flag h | exact h.elim | rfl

/-! ## the names of the local grammar -/

theorem addBody_lookup {rules : List (String × Rule)} {k : String} {h : Nat} {rb : RuleBody} {A : String}
    (hA : A ≠ k) : (addBody rules k h rb).lookup A = rules.lookup A := by
  unfold addBody
  split <;> rw [mapSet_lookup] <;> simp [hA]

theorem localTokens_lookup {hash : RuleBody → Option Nat} {A : String}
    (hA : A ∉ ["word", "punct", "symbol", "letters"]) : ∀ {ts : List Token} {rules rules' : List (String × Rule)},
    localTokens hash ts rules = .ok rules' → rules'.lookup A = rules.lookup A
  | [], rules, rules', h => by
    simp only [localTokens, Out.ok.injEq] at h
    rw [h]
  | t :: ts, rules, rules', h => by
    unfold localTokens at h
    simp only at h
    split at h
    · rename_i hk
      split at h
      · simp at h
      · rw [localTokens_lookup hA h]
        refine addBody_lookup (fun he => hA ?_)
        rw [he]
        cases hty : t.type <;> simp_all [className]
    · exact localTokens_lookup hA h

theorem spanRules_lookup {hash : RuleBody → Option Nat} {sp : Span} {terms : List Term} {A : String} :
    ∀ {m : List (String × SpanVals)} {rules rules' : List (String × Rule)}, A ∉ m.map Prod.fst →
    spanRules hash sp terms m rules = .ok rules' → rules'.lookup A = rules.lookup A
  | [], rules, rules', _, h => by
    simp only [spanRules, Out.ok.injEq] at h
    rw [h]
  | (k, vs) :: m, rules, rules', hA, h => by
    unfold spanRules at h
    simp only at h
    simp only [List.map_cons, List.mem_cons, not_or] at hA
    split at h
    · simp at h
    · rw [spanRules_lookup hA.2 h, addBody_lookup hA.1]

theorem localSpans_lookup {hash : RuleBody → Option Nat} {d : Doc} {A : String} :
    ∀ {sps : List Span} {rules rules' : List (String × Rule)},
    (∀ sp ∈ sps, ∀ m, sp.ann = .map m → A ∉ m.map Prod.fst) →
    localSpans hash d sps rules = .ok rules' → rules'.lookup A = rules.lookup A
  | [], rules, rules', _, h => by
    simp only [localSpans, Out.ok.injEq] at h
    rw [h]
  | sp :: sps, rules, rules', hA, h => by
    have hs := fun sp h => hA sp (List.mem_cons_of_mem _ h)
    unfold localSpans at h
    split at h
    · exact localSpans_lookup hs h
    · exact localSpans_lookup hs h
    · rename_i m hm
      obtain ⟨terms, _, h⟩ := Out.bind_eq_ok.1 h
      obtain ⟨r, hr, h⟩ := Out.bind_eq_ok.1 h
      rw [localSpans_lookup hs h, spanRules_lookup (hA sp List.mem_cons_self m hm) hr]

/-- The local grammar defines classes of tokens, tags and regexps only. -/
theorem C97_local {hash : RuleBody → Option Nat} {find : String → Bytes → Option (List (Nat × Nat))}
    {regexps : List (String × String)} {d : Doc} {x : Grammar}
    (h : localGrammar hash find regexps d = .ok (some x)) {A : String} (hA : ¬ DocName regexps d A) :
    x.rules.lookup A = none := by
  unfold localGrammar at h
  simp only at h
  split at h
  · simp at h
  · obtain ⟨r1, h1, h⟩ := Out.bind_eq_ok.1 h
    obtain ⟨r2, h2, h⟩ := Out.bind_eq_ok.1 h
    simp only [Out.pure_eq, Out.ok.injEq] at h
    split at h
    · simp at h
    · simp only [Option.some.injEq] at h
      subst h
      simp only [DocName, not_or] at hA
      simp only
      rw [localSpans_lookup (fun sp hsp m hm => ?_) h2, localTokens_lookup hA.1 h1]
      · rfl
      · rcases List.mem_append.1 hsp with hsp | hsp
        · exact fun h => hA.2.1 ⟨sp, hsp, m, hm, h⟩
        · unfold regexpSpans at hsp
          split at hsp
          · simp at hsp
          · obtain ⟨⟨typ, s⟩, hts, hsp⟩ := List.mem_flatMap.1 hsp
            simp only at hsp
            split at hsp
            · simp at hsp
            · obtain ⟨mm, _, hsp⟩ := List.mem_flatMap.1 hsp
              unfold matchSpan at hsp
              simp only at hsp
              split at hsp
              · simp at hsp
              · rw [List.mem_singleton.1 hsp] at hm
                simp only [SpanAnn.map.injEq] at hm
                subst hm
                intro h
                simp only [List.map_cons, List.map_nil, List.mem_singleton] at h
                exact hA.2.2 (h ▸ List.mem_map_of_mem (f := Prod.fst) hts)

/-- Let `R` contain the start rules and whatever the rules named in `R` refer to, and let neither local
grammar define a rule in `R`. If the tokens of two texts correspond one to one, such that no literal
of a rule in `R` tells the corresponding tokens apart, then each of the four calls gives the same
trees for both. -/
theorem C97_calls (hc : Closed R ([g.main] ++ g.includes) starts) (ho : w.OrdOK)
    {context context' : String} {text text' : Bytes} {toks toks' : List Token} {l l' : Option Grammar}
    (hp : process w g context text = .ok (toks, l)) (hp' : process w g context' text' = .ok (toks', l'))
    (hl : ∀ x ∈ l, Unused R [x]) (hl' : ∀ x ∈ l', Unused R [x])
    (ht : List.Forall₂ (w.AlikeTokens g R) toks toks') (fuel : Nat) :
    apiParse w g fuel context' text' starts = apiParse w g fuel context text starts ∧
    apiParseAny w g fuel context' text' starts = apiParseAny w g fuel context text starts ∧
    apiExtractMaxAll w g fuel context' text' starts = apiExtractMaxAll w g fuel context text starts ∧
    apiExtractAll w g fuel context' text' starts = apiExtractAll w g fuel context text starts := by
  refine ⟨?_, ?_, ?_, ?_⟩
  · unfold apiParse earleyParseCtx
    rw [hp, hp']
    refine alike_extract _ _ ?_
    exact (alike_earleyParse hc ho hl hl' ht fuel true text text' 0 0).bind
      (fun a b hab => List.Forall₂.cons hab .nil)
  · unfold apiParseAny earleyParseAny
    rw [hp, hp']
    refine alike_extract _ _ ?_
    refine (alike_anyLoop hc ho hl hl' fuel text text' 0 ht .none).bind (fun a b hab => ?_)
    cases hab with
    | none => trivial
    | some h => exact List.Forall₂.cons h .nil
  · unfold apiExtractMaxAll earleyParseMaxAll
    rw [hp, hp']
    exact alike_extract _ _ (alike_maxAllLoop hc ho hl hl' fuel text text' ht _ _ _)
  · unfold apiExtractAll earleyParseAll
    rw [hp, hp']
    exact alike_extract _ _ (alike_allLoop hc ho hl hl' fuel text text' 0 ht)

/-- The same, in terms of what the annotator returns: no rule in `R` is named like a class of tokens, a tag
of either document or a regexp of the grammar. -/
theorem C97_texts (hc : Closed R ([g.main] ++ g.includes) starts) (ho : w.OrdOK)
    {context context' : String} {text text' : Bytes} {toks toks' : List Token} {l l' : Option Grammar}
    (hp : process w g context text = .ok (toks, l)) (hp' : process w g context' text' = .ok (toks', l'))
    {d d' : Doc} (hd : annotateText w context (w.trim text) = some d)
    (hd' : annotateText w context' (w.trim text') = some d')
    (hn : ∀ A, R A → ¬ DocName g.main.regexps d A ∧ ¬ DocName g.main.regexps d' A)
    (ht : List.Forall₂ (w.AlikeTokens g R) toks toks') (fuel : Nat) :
    apiParse w g fuel context' text' starts = apiParse w g fuel context text starts ∧
    apiParseAny w g fuel context' text' starts = apiParseAny w g fuel context text starts ∧
    apiExtractMaxAll w g fuel context' text' starts = apiExtractMaxAll w g fuel context text starts ∧
    apiExtractAll w g fuel context' text' starts = apiExtractAll w g fuel context text starts := by
  obtain ⟨-, e, he, -, -, hl⟩ := process_ok hp
  obtain ⟨-, e', he', -, -, hl'⟩ := process_ok hp'
  rw [hd] at he
  rw [hd'] at he'
  cases he
  cases he'
  refine C97_calls hc ho hp hp' (fun x hx => ?_) (fun x hx => ?_) ht fuel
  · rw [Option.mem_def] at hx
    rw [hx] at hl
    intro y hy A hA
    rw [List.mem_singleton.1 hy]
    exact C97_local hl (hn A hA).1
  · rw [Option.mem_def] at hx
    rw [hx] at hl'
    intro y hy A hA
    rw [List.mem_singleton.1 hy]
    exact C97_local hl' (hn A hA).2

/-- Tokens that no literal matches are interchangeable. -/
theorem C97_unknown {a a' : Token}
    (h : ∀ t, IsLiteral R ([g.main] ++ g.includes) t → terminalMatch w.lower w.registry t a = false)
    (h' : ∀ t, IsLiteral R ([g.main] ++ g.includes) t → terminalMatch w.lower w.registry t a' = false) :
    w.AlikeTokens g R a a' := fun t ht => by rw [h t ht, h' t ht]

/-- Of a token only the text, the lemma and the norm in lower case matter, not its class or place. -/
theorem C97_fields {a a' : Token} (ht : a'.text = a.text) (hl : a'.lemma_ = a.lemma_)
    (hn : w.lower a'.norm = w.lower a.norm) : w.AlikeTokens g R a a' := by
  intro t _
  unfold terminalMatch
  rw [ht, hl, hn]

/-- Without literals that have flags only the text of a token matters. -/
theorem C97_text {a a' : Token} (ht : a'.text = a.text)
    (hm : ∀ t, IsLiteral R ([g.main] ++ g.includes) t → t.meta = .nil) : w.AlikeTokens g R a a' := by
  intro t hlit
  unfold terminalMatch
  rw [ht, hm t hlit]

/-- If all literals have the flag `i`, not `l`, and are registered, then upper and lower case do not matter. -/
theorem C97_case {a a' : Token} (hn : w.lower a'.norm = w.lower a.norm)
    (hm : ∀ t, IsLiteral R ([g.main] ++ g.includes) t → (w.registry t.value).isSome = true ∧
      ∃ s, t.meta = .flags s ∧ hasFlag s 'i' = true ∧ hasFlag s 'l' = false) : w.AlikeTokens g R a a' := by
  intro t hlit
  obtain ⟨hr, s, h1, h2, h3⟩ := hm t hlit
  obtain ⟨u, hu⟩ := Option.isSome_iff_exists.1 hr
  unfold terminalMatch
  simp only [h1, hu, h2, h3, hn, if_true, if_false, Bool.false_eq_true]

/-- If all literals have the flag `l` and are registered, then words with the same lemma are interchangeable. -/
theorem C97_lemma {a a' : Token} (hl : a'.lemma_ = a.lemma_)
    (hm : ∀ t, IsLiteral R ([g.main] ++ g.includes) t → (w.registry t.value).isSome = true ∧
      ∃ s, t.meta = .flags s ∧ hasFlag s 'l' = true) : w.AlikeTokens g R a a' := by
  intro t hlit
  obtain ⟨hr, s, h1, h2⟩ := hm t hlit
  obtain ⟨u, hu⟩ := Option.isSome_iff_exists.1 hr
  unfold terminalMatch
  simp only [h1, hu, h2, hl, if_true]

end

/-- The same for one parse: the chart and the final states are the same. -/
theorem C97_parse {R : String → Prop} {gs : List Grammar} {env env' : Env} (h : Alike R gs env env') (ho : env.OrdOK)
    (flag : Bool) (fuel : Nat) : parse env' flag fuel = parse env flag fuel := alike_parse h ho flag fuel

/-! ## non-vacuity, and why the names of the local grammar are excluded -/

/-- `<s> = "a" (any)` -/
def gAny : Gram := { main := { name := "g", rules := [rl "s" [[tt "a", ⟨"any", .any, .nil⟩]]] }, includes := [] }

/-- `<s> = "a" <word>` -/
def gWord : Gram := { main := { name := "g", rules := [rl "s" [[tt "a", nt "word"]]] }, includes := [] }

theorem gAny_closed : Closed (· = "s") ([gAny.main] ++ gAny.includes) ["s"] where
  roots := by simp
  closed := by
    rintro A rfl g hg r hr b hb t ht
    simp [gAny] at hg
    subst hg
    simp [rl, List.lookup] at hr
    subst hr
    simp [Rule.bodies, tt] at hb
    subst hb
    simp at ht
    rcases ht with rfl | rfl <;> simp [Term.within]

/-- each byte is a token; letters are words and everything else is punctuation -/
def wBytes : World :=
  { wWorld [] with
    annotate := fun b => some
      { text := b, spans := [],
        tokens := b.zipIdx.map (fun p =>
          { text := String.singleton (Char.ofNat p.1.toNat), type := if 97 ≤ p.1.toNat then .word else .punct,
            startByte := p.2, endByte := p.2 + 1, i := p.2 }) }
    hash := fun b => some ((b.terms.map (fun t => (t.value.toList.map Char.toNat).sum)).sum) }

theorem wBytes_ord : wBytes.OrdOK := fun _ _ _ _ _ => List.Perm.refl _

/-- `ab` and `a!` -/
def outcomeOf (g : Gram) (text : Bytes) : Out (List (List String)) :=
  (apiExtractAll wBytes g 40 "" text ["s"]).bind (fun ns => .ok (ns.map (·.shape.labels)))

example : apiExtractAll wBytes gAny 40 "" [97, 33] ["s"] = apiExtractAll wBytes gAny 40 "" [97, 98] ["s"] ∧
    outcomeOf gAny [97, 98] = .ok [["ɣ", "s", "a", "any"]] := by
  refine ⟨(C97_texts (R := (· = "s")) gAny_closed wBytes_ord (context := "") (context' := "") (text := [97, 98])
    (text' := [97, 33]) rfl rfl rfl rfl ?_ ?_ 40).2.2.2, by decide +kernel⟩
  · rintro A rfl
    simp [DocName, gAny]
  · refine .cons (C97_fields rfl rfl rfl) (.cons (C97_unknown ?_ ?_) .nil) <;>
    · rintro t ⟨hty, A, g, r, b, rfl, hg, hr, hb, ht⟩
      simp [gAny] at hg
      subst hg
      simp [rl, List.lookup] at hr
      subst hr
      simp [Rule.bodies, tt] at hb
      subst hb
      simp at ht
      rcases ht with rfl | rfl
      · decide +kernel
      · simp at hty

/-- `<s> = (flags:"i", "a")`, in a world that knows the token `a` -/
def gCase : Gram := { main := { name := "g", rules := [rl "s" [[⟨"a", .terminal, .flags "i"⟩]]] }, includes := [] }

def wCase : World :=
  { wBytes with
    lower := fun s => String.ofList (s.toList.map Char.toLower)
    registry := fun s => if s = "a" then some { text := "a", norm := "a" } else none
    annotate := fun b => some
      { text := b, spans := [],
        tokens := b.zipIdx.map (fun p =>
          { text := String.singleton (Char.ofNat p.1.toNat), norm := String.singleton (Char.ofNat p.1.toNat),
            type := .word, startByte := p.2, endByte := p.2 + 1, i := p.2 }) } }

/-- `A` is found like `a`; without the flag it is not -/
example : apiParse wCase gCase 40 "" [65] ["s"] = apiParse wCase gCase 40 "" [97] ["s"] ∧
    (apiParse wCase gCase 40 "" [97] ["s"]).bind (fun ns => .ok (ns.map (·.shape.labels))) = .ok [["ɣ", "s", "a"]] ∧
    outcomeOf gAny [65, 98] = .ok [] := by
  refine ⟨(C97_texts (w := wCase) (R := (· = "s")) ?_ (fun _ _ _ _ _ => .refl _) (context := "") (context' := "") (text := [97])
    (text' := [65]) rfl rfl rfl rfl ?_ ?_ 40).1, by decide +kernel, by decide +kernel⟩
  · refine ⟨by simp, ?_⟩
    rintro A rfl g hg r hr b hb t ht
    simp [gCase] at hg
    subst hg
    simp [rl, List.lookup] at hr
    subst hr
    simp [Rule.bodies] at hb
    subst hb
    simp at ht
    subst ht
    simp [Term.within]
  · rintro A rfl
    simp [DocName, gCase]
  · refine .cons (C97_case (by decide +kernel) ?_) .nil
    rintro t ⟨-, A, g, r, b, rfl, hg, hr, hb, ht⟩
    simp [gCase] at hg
    subst hg
    simp [rl, List.lookup] at hr
    subst hr
    simp [Rule.bodies] at hb
    subst hb
    simp at ht
    subst ht
    exact ⟨by decide +kernel, "i", rfl, by decide +kernel, by decide +kernel⟩

/-- With a rule that refers to a class of tokens the same two texts differ. -/
theorem C97_class : outcomeOf gWord [97, 98] = .ok [["ɣ", "s", "a", "word", "b"]] ∧
    outcomeOf gWord [97, 33] = .ok [] := by decide +kernel

end Fmr
