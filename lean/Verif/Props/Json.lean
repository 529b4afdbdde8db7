import Verif.Proofs.Json
import Verif.Props.FrameWitness

/-!
# C99: a grammar written as JSON and read again
-/

namespace Fmr

/-- Full statement of C99: a loaded grammar that was written as JSON and read again parses like before. -/
def C99_statement : Prop :=
  ∀ (ft : Rat → String) (lw : LoadWorld) (ld : Loaded), LoadedBy lw ld → ∀ (w : World), w.OrdOK →
    ∀ (fuel : Nat) (context : String) (text : Bytes) (starts : List String) (ns : List Node),
    apiParse w ld.gram fuel context text starts = .ok ns → ∃ fuel', apiParse w (ld.gram.json ft) fuel' context text starts = .ok ns

/-! ## Nothing is found -/

theorem json_lookup {ft : Rat → String} {g : Grammar} {A : String} {r : Rule} (h : lookupRule (g.json ft) A = some r) :
    ∃ r', lookupRule g A = some r' ∧ r = r'.json ft := by
  unfold lookupRule Grammar.json at h
  simp only at h
  rw [lookup_mapVal (fun _ (r : Rule) => r.json ft)] at h
  unfold lookupRule
  cases h' : g.rules.lookup A with
  | none => rw [h'] at h; simp at h
  | some r' => rw [h'] at h; exact ⟨r', rfl, (Option.some.inj h).symm⟩

/-- no term but a rule is called like the internal start symbol -/
def Grammar.Ungamma (g : Grammar) : Prop :=
  ∀ A r, g.rules.lookup A = some r → ∀ b ∈ r.bodies, ∀ t ∈ b.terms, t.type ≠ .nonterminal → t.value ≠ gammaRule

/-- C99, what happens instead: whatever the grammar, the text, the annotations and the order of map iteration, none of
the four parse calls with the grammar that was read finds anything, unless the document itself defines the start
rule. -/
theorem C99_nothing {ft : Rat → String} {w : World} (hw : w.OrdOK) {g : Gram} (hg : g.main.Ungamma) {fuel : Nat} {context : String} {text : Bytes}
    {starts : List String} (hs : "" ∉ starts ∧ gammaRule ∉ starts)
    (hl : ∀ tokens l, process w (g.json ft) context text = .ok (tokens, some l) → l.Ungamma ∧ ∀ A r, l.rules.lookup A = some r → A ∉ starts ∧ A ≠ gammaRule)
    {ns : List Node} (h : Answer w (g.json ft) fuel context text starts ns) : ns = [] := by
  rw [List.eq_nil_iff_forall_not_mem]
  intro n hn
  obtain ⟨p, bs, hb, ht, hnb⟩ := h.behind n hn
  obtain ⟨tokens, l, hp⟩ : ∃ tokens l, process w (g.json ft) context text = .ok (tokens, l) := by
    cases hp : process w (g.json ft) context text with
    | ok x => exact ⟨x.1, x.2, rfl⟩
    | err => cases hb <;> simp_all [earleyParseCtx, earleyParseAny, earleyParseAll, earleyParseMaxAll]
    | panic => cases hb <;> simp_all [earleyParseCtx, earleyParseAny, earleyParseAll, earleyParseMaxAll]
    | div => cases hb <;> simp_all [earleyParseCtx, earleyParseAny, earleyParseAll, earleyParseMaxAll]
  obtain ⟨-, -, flag, c, henv, hres⟩ := hb.facts hp
  have hu : Unnamed p.env := by
    rw [henv]
    have hmem : ∀ g' ∈ (envFor w (g.json ft) l (tokens.drop p.off) starts c).grammars, g' = g.main.json ft ∨ l = some g' := by
      intro g' hg'
      simp only [envFor, Gram.json, List.append_nil, List.singleton_append, List.mem_cons] at hg'
      rcases hg' with h | h
      · exact .inl h
      · cases l with
        | none => simp at h
        | some l => simp only [List.mem_singleton] at h; exact .inr (by rw [h])
    refine ⟨hs.2, ?_, ?_⟩
    · intro g' hg' A r hr
      rcases hmem g' hg' with rfl | rfl
      · obtain ⟨r', -, rfl⟩ := json_lookup hr
        exact ⟨hs.1, by simp [Rule.json, gammaRule]⟩
      · have hn : r.name = A := by
          unfold process at hp
          simp only at hp
          split at hp
          · simp at hp
          · split at hp
            · simp at hp
            · split at hp
              · simp at hp
              · rename_i d _ _
                cases hloc : localGrammar w.hash w.find (g.json ft).main.regexps d with
                | ok l' =>
                  rw [hloc] at hp
                  simp only [Out.bind_ok, pure, Out.ok.injEq, Prod.mk.injEq] at hp
                  rw [hp.2] at hloc
                  exact (local_rules hloc A r hr).1
                | err => rw [hloc] at hp; simp at hp
                | panic => rw [hloc] at hp; simp at hp
                | div => rw [hloc] at hp; simp at hp
        rw [hn]
        exact (hl _ _ hp).2 A r hr
    · intro g' hg' A r hr
      rcases hmem g' hg' with rfl | rfl
      · obtain ⟨r', hr', rfl⟩ := json_lookup hr
        intro b hb t ht
        simp only [Rule.bodies, Rule.json, List.map_map, List.mem_map, Function.comp] at hb
        obtain ⟨e, he, rfl⟩ := hb
        simp only [RuleBody.json, List.mem_map] at ht
        obtain ⟨u, hu, rfl⟩ := ht
        exact hg A r' hr' e.2 (List.mem_map_of_mem he) u hu
      · exact (hl _ _ hp).1 A r hr
  have ho : p.env.OrdOK := by
    rw [henv]
    exact fun a b c' l => hw _ a b c' l
  have hf := no_finals ho hu hres
  obtain ⟨addrs, -, h1, tss, h2, rfl⟩ := ht
  rw [hf] at h1
  have : addrs = [] := by simpa using h1
  subst this
  cases h2
  simp at hnb

/-! ## Parsing does not end -/

theorem div_calls {w : World} {g : Gram} {fuel : Nat} {context : String} {text : Bytes} {starts : List String}
    {tokens : List Token} {l : Option Grammar} (hp : process w g context text = .ok (tokens, l))
    (h : ∀ flag ts c, Fmr.parse (envFor w g l ts starts c) flag fuel = none) (hs : starts ≠ []) :
    apiParse w g fuel context text starts = .div ∧ apiParseAny w g fuel context text starts = .div ∧
    apiExtractAll w g fuel context text starts = .div ∧ apiExtractMaxAll w g fuel context text starts = .div := by
  have hne : tokens ≠ [] := by
    unfold process at hp
    simp only at hp
    split at hp
    · simp at hp
    · split at hp
      · simp at hp
      · split at hp
        · simp at hp
        · rename_i d _ hr
          cases hloc : localGrammar w.hash w.find g.main.regexps d with
          | ok l' =>
            rw [hloc] at hp
            simp only [Out.bind_ok, pure, Out.ok.injEq, Prod.mk.injEq] at hp
            rw [← hp.1]
            exact hr
          | err => rw [hloc] at hp; simp at hp
          | panic => rw [hloc] at hp; simp at hp
          | div => rw [hloc] at hp; simp at hp
  have he : ∀ flag (ts : List Token) c off, ts ≠ [] → earleyParse w g fuel flag text ts l starts c off = .div := by
    intro flag ts c off hts
    unfold earleyParse
    rw [if_neg (by simpa using hs), if_neg (by simpa using hts)]
    simp only [h]
  obtain ⟨t, ts, rfl⟩ := List.exists_cons_of_ne_nil hne
  refine ⟨?_, ?_, ?_, ?_⟩
  · simp [apiParse, earleyParseCtx, hp, he _ _ _ _ hne, extract]
  · simp [apiParseAny, earleyParseAny, hp, parseAnyLoop, he _ _ _ _ hne, extract]
  · simp [apiExtractAll, earleyParseAll, hp, parseAllLoop, he _ _ _ _ hne, extract]
  · cases fuel with
    | zero => simp [apiExtractMaxAll, earleyParseMaxAll, hp, maxAllLoop, extract]
    | succ n => simp [apiExtractMaxAll, earleyParseMaxAll, hp, maxAllLoop, he _ _ _ _ hne, extract]

/-- C99, worse: if an alternative of a start rule begins with that rule, and has a range or a function with a number,
an index or a call as an argument, then with the grammar that was read the four parse calls never return, whatever the
text. This is so even if the names of the rules are put back. -/
theorem C99_forever {ft : Rat → String} {w : World} (hw : w.OrdOK) {g : Gram} {A : String} {b : RuleBody} (hlr : LeftRecursiveWith g.main A b)
    (hd : b.Delicate) {g' : Gram} (hg' : g'.main = g.main.json ft ∨ g'.main = (g.main.json ft).named)
    {context : String} {text : Bytes} {starts : List String} (hA : A ∈ starts)
    {tokens : List Token} {l : Option Grammar} (hp : process w g' context text = .ok (tokens, l)) (fuel : Nat) :
    apiParse w g' fuel context text starts = .div ∧ apiParseAny w g' fuel context text starts = .div ∧
    apiExtractAll w g' fuel context text starts = .div ∧ apiExtractMaxAll w g' fuel context text starts = .div := by
  obtain ⟨r, hr, hb, t, ts, ht1, ht2, ht3⟩ := hlr
  have hj : (g.main.json ft).rules.lookup A = some (r.json ft) := by
    unfold Grammar.json
    simp only
    rw [lookup_mapVal (fun _ (r : Rule) => r.json ft), hr]
    rfl
  have hbj : b.json ft ∈ (r.json ft).bodies := by
    simp only [Rule.bodies, Rule.json, List.map_map, List.mem_map, Function.comp] at hb ⊢
    obtain ⟨e, he, rfl⟩ := hb
    exact ⟨e, he, rfl⟩
  obtain ⟨r', hr', hb'⟩ : ∃ r', lookupRule g'.main A = some r' ∧ b.json ft ∈ r'.bodies := by
    rcases hg' with h | h
    · exact ⟨_, by rw [h]; exact hj, hbj⟩
    · refine ⟨{ r.json ft with name := A }, ?_, hbj⟩
      rw [h]
      unfold lookupRule Grammar.named
      simp only
      have := lookup_mapVal (fun k (r : Rule) => ({ r with name := k } : Rule)) A (g.main.json ft).rules
      rw [hj] at this
      exact this
  refine div_calls hp (fun flag ts' c => ?_) (List.ne_nil_of_mem hA)
  refine parse_forever (A := A) (g := g'.main) (fun a b c' l => hw _ a b c' l) hA (by simp [envFor]) hr' hb' (body_fresh hd)
    ⟨t.json, ts.map Term.json, by simp [RuleBody.json, ht1], ht2, ht3⟩ flag fuel

/-! ## What survives -/

theorem wordy_json {ft : Rat → String} {b : RuleBody} (h : b.Wordy) : b.json ft = b := by
  obtain ⟨ts, f⟩ := b
  unfold RuleBody.json
  congr 1
  · conv_rhs => rw [← List.map_id ts]
    apply List.map_congr_left
    intro t ht
    obtain ⟨v, ty, m⟩ := t
    rcases h.1 _ ht with e | ⟨s, e⟩ <;> simp only at e <;> subst e <;> rfl
  · cases f with
    | none => rfl
    | some f =>
      obtain ⟨fn, as⟩ := f
      simp only [Option.map_some, FMR.json, FMR.fn, FMR.args, Option.some.injEq, FMR.mk.injEq, true_and]
      conv_rhs => rw [← List.map_id as]
      apply List.map_congr_left
      intro a ha
      obtain ⟨ty, v⟩ := a
      obtain ⟨s, e⟩ := h.2 _ rfl _ ha
      simp only [Arg.value] at e
      subst e
      rfl

/-- an alternative survives only if it has no ranges and no arguments but strings -/
theorem json_wordy {ft : Rat → String} {b : RuleBody} (hwf : b.WF) (h : b.json ft = b) : b.Wordy := by
  rw [wordy_iff hwf]
  intro hd
  have := body_fresh (ft := ft) hd (b.json ft)
  rw [h, RuleBody.equal_refl hwf] at this
  cases this

theorem rules_named {ft : Rat → String} (l : List (String × Rule)) (hn : ∀ e ∈ l, e.2.name = e.1)
    (hw : ∀ e ∈ l, ∀ b ∈ e.2.body, b.2.Wordy) :
    (l.map (fun e => (e.1, e.2.json ft))).map (fun e => (e.1, { e.2 with name := e.1 })) = l := by
  rw [List.map_map]
  conv_rhs => rw [← List.map_id l]
  apply List.map_congr_left
  rintro ⟨k, n, body⟩ he
  have h1 : n = k := hn _ he
  subst h1
  simp only [Function.comp, Rule.json, id, Prod.mk.injEq, Rule.mk.injEq, true_and]
  conv_rhs => rw [← List.map_id body]
  apply List.map_congr_left
  intro e hb
  rw [wordy_json (hw _ he e hb)]
  rfl

theorem each_of_map {α : Type} {f : α → α} : ∀ {l : List α}, l.map f = l → ∀ x ∈ l, f x = x
  | [], _, x, h => by simp at h
  | a :: l, h, x, hx => by
    rw [List.map_cons] at h
    rcases List.mem_cons.1 hx with rfl | hx
    · exact (List.cons.inj h).1
    · exact each_of_map (List.cons.inj h).2 x hx

/-- C99 where it holds: with the names of the rules put back, a grammar without includes that has no ranges and no
functions with arguments other than strings is the grammar that was written; no other grammar is. -/
theorem C99_partial (ft : Rat → String) (g : Grammar) (hf : g.Filed)
    (hwf : ∀ e ∈ g.rules ++ g.frames, ∀ b ∈ e.2.body, b.2.WF) : (g.json ft).named = g ↔ g.Wordy := by
  constructor
  · intro h
    obtain ⟨name, rules, frames, regexps, refined⟩ := g
    simp only [Grammar.named, Grammar.json, Grammar.mk.injEq, true_and, and_true, List.map_map] at h
    have key : ∀ l : List (String × Rule), (∀ e ∈ l, ∀ b ∈ e.2.body, b.2.WF) →
        l.map ((fun e => (e.1, ({ e.2 with name := e.1 } : Rule))) ∘ fun e => (e.1, e.2.json ft)) = l → ∀ e ∈ l, ∀ b ∈ e.2.body, b.2.Wordy := by
      intro l hwf hl e he b hb
      have h1 := each_of_map hl e he
      obtain ⟨k, n, body⟩ := e
      simp only [Function.comp, Rule.json, Prod.mk.injEq, Rule.mk.injEq, true_and] at h1
      have h2 := each_of_map h1.2 b hb
      obtain ⟨i, b⟩ := b
      simp only [Prod.mk.injEq, true_and] at h2
      exact json_wordy (hwf _ he _ hb) h2
    exact ⟨key rules (fun e he => hwf e (List.mem_append_left _ he)) h.1, key frames (fun e he => hwf e (List.mem_append_right _ he)) h.2⟩
  · intro hw
    obtain ⟨name, rules, frames, regexps, refined⟩ := g
    simp only [Grammar.named, Grammar.json, Grammar.mk.injEq, true_and, and_true]
    exact ⟨rules_named rules hf.1 hw.1, rules_named frames hf.2 hw.2⟩

/-! ## Witnesses -/

/-- no class of the document, and no term, gets in the way -/
def jsonCheck (ld : Loaded) (text : Bytes) : Bool :=
  (ld.gram.main.rules.all fun e => e.2.bodies.all fun b => b.terms.all fun t => t.value != gammaRule) &&
  match process exWorld (ld.gram.json fun _ => "") "" text with
  | .ok (_, none) => true
  | .ok (_, some l) => l.rules.all fun e => e.1 != gammaRule && e.1 != "s" && e.2.bodies.all fun b => b.terms.all fun t => t.value != gammaRule
  | _ => false

/-- the text finds something with the grammar that was written -/
def foundCheck (ld : Loaded) (text : Bytes) : Bool :=
  match apiParse exWorld ld.gram 40 "" text ["s"] with
  | .ok (_ :: _) => true
  | _ => false

/-- C99 is false: `<s> = "a"` finds the text `a`, and nothing once it was written and read. -/
theorem C99_false : ¬ C99_statement := by
  intro h
  obtain ⟨ld, st, main, -, h1, h2, h3⟩ := exCheck_ok (gt := "<s>=\"a\";\n") (P := fun ld => jsonCheck ld [97] && foundCheck ld [97]) (by decide +kernel)
  simp only [Bool.and_eq_true] at h3
  obtain ⟨h3, h4⟩ := h3
  unfold foundCheck at h4
  split at h4
  · rename_i n ns he
    obtain ⟨fuel', h5⟩ := h (fun _ => "") exLoad ld h1 exWorld exWorld_ord _ _ _ _ _ he
    unfold jsonCheck at h3
    simp only [Bool.and_eq_true] at h3
    have hall : ∀ {l : List (String × Rule)} {P : String → Rule → Bool}, (l.all fun e => P e.1 e.2) = true → ∀ A r, l.lookup A = some r → P A r = true :=
      fun h A r hr => List.all_eq_true.1 h _ (mem_of_lookup hr)
    have := C99_nothing (ft := fun _ => "") exWorld_ord (g := ld.gram) ?_ (starts := ["s"]) (by decide +kernel) ?_ (.inl h5)
    · simp at this
    · intro A r hr b hb t ht _
      have := hall (P := fun _ r => r.bodies.all fun b => b.terms.all fun t => t.value != gammaRule) h3.1 A r hr
      simpa using List.all_eq_true.1 (List.all_eq_true.1 this b hb) t ht
    · intro tokens l hp
      have h6 := h3.2
      rw [hp] at h6
      have h7 := hall (P := fun A r => A != gammaRule && A != "s" && r.bodies.all fun b => b.terms.all fun t => t.value != gammaRule) h6
      constructor
      · intro A r hr b hb t ht _
        have := h7 A r hr
        simp only [Bool.and_eq_true] at this
        simpa using List.all_eq_true.1 (List.all_eq_true.1 this.2 b hb) t ht
      · intro A r hr
        have := h7 A r hr
        simp only [Bool.and_eq_true, bne_iff_ne] at this
        exact ⟨by simpa using this.1.2, this.1.1⟩
  · simp at h4

/-- the rule `s` has an alternative that begins with `s` and has an index in its function -/
def loopCheck (ld : Loaded) (text : Bytes) : Bool :=
  (match ld.gram.main.rules.lookup "s" with
  | some r => r.bodies.any fun b =>
      (match b.terms with | t :: _ => t.type == .nonterminal && t.value == "s" | [] => false) &&
      (match b.f with | some f => f.args.any fun a => a.type == "index" | none => false)
  | none => false) &&
  match process exWorld (ld.gram.json fun _ => "") "" text with
  | .ok _ => true
  | _ => false

/-- `<s> = <s> "b" {f($1)} | "a"` finds `ab`; once it was written and read, no call returns. -/
theorem C99_loop : ∃ ld, LoadedBy exLoad ld ∧ (∃ n ns, apiParse exWorld ld.gram 40 "" [97, 98] ["s"] = .ok (n :: ns)) ∧
    ∀ fuel, apiParse exWorld (ld.gram.json fun _ => "") fuel "" [97, 98] ["s"] = .div := by
  obtain ⟨ld, st, main, -, h1, -, h3⟩ := exCheck_ok (gt := "<s>=<s> \"b\" {f($1)} | \"a\";\n")
    (P := fun ld => loopCheck ld [97, 98] && foundCheck ld [97, 98]) (by decide +kernel)
  simp only [Bool.and_eq_true, loopCheck] at h3
  obtain ⟨⟨h3, h4⟩, h5⟩ := h3
  refine ⟨ld, h1, ?_, fun fuel => ?_⟩
  · unfold foundCheck at h5
    split at h5
    · exact ⟨_, _, by assumption⟩
    · simp at h5
  · split at h3
    · rename_i r hr
      obtain ⟨b, hb, h6⟩ := List.any_eq_true.1 h3
      simp only [Bool.and_eq_true] at h6
      split at h4
      · rename_i x hp
        refine (C99_forever exWorld_ord (A := "s") (b := b) ⟨r, hr, hb, ?_⟩ (.inr ?_) (.inl rfl) (by simp) (tokens := x.1) (l := x.2) hp fuel).1
        · have h7 := h6.1
          split at h7
          · rename_i t ts ht
            simp only [Bool.and_eq_true, beq_iff_eq] at h7
            exact ⟨t, ts, ht, h7⟩
          · simp at h7
        · have h7 := h6.2
          split at h7
          · rename_i f hf
            obtain ⟨a, ha, h8⟩ := List.any_eq_true.1 h7
            exact ⟨f, hf, a, ha, .inr (.inr (.inl (by simpa using h8)))⟩
          · simp at h7
      · simp at h4
    · simp at h3

/-- non-vacuity of `C99_partial`: a grammar that survives, and one that does not -/
example : (Grammar.json (fun _ => "") { name := "g", rules := [rl "s" [[tt "a", ⟨"b", .terminal, .flags "i"⟩]]] }).named =
    { name := "g", rules := [rl "s" [[tt "a", ⟨"b", .terminal, .flags "i"⟩]]] } := rfl

example : ¬ Grammar.Wordy { name := "g", rules := [rl "s" [[⟨"any", .any, .range 1 2⟩]]] } := by
  intro h
  rcases (h.1 _ (List.mem_singleton.2 rfl) _ (List.mem_singleton.2 rfl)).1 _ (List.mem_singleton.2 rfl) with e | ⟨s, e⟩ <;> cases e

end Fmr
