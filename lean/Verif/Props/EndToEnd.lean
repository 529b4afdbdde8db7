import Verif.Props.Extract
import Verif.Spec.Drivers

/-!
# C54: the other drivers, end to end

`ParseAny`, `ExtractMaxAll` and `ExtractAll` from the words of the text to the trees.
-/

namespace Fmr

/-! ## trees are found with enough fuel -/

theorem outFlat_total {α β : Type} {F : Nat → α → Out (List β)} : ∀ {l : List α},
    (∀ a ∈ l, ∃ n bs, ∀ f ≥ n, F f a = .ok bs) →
    ∃ n bss, Rel2 (fun a bs => ∀ f ≥ n, F f a = .ok bs) l bss ∧ ∀ f ≥ n, outFlat (F f) l = .ok bss.flatten
  | [], _ => ⟨0, [], .nil, fun _ _ => rfl⟩
  | a :: l, h => by
    obtain ⟨n1, bs, h1⟩ := h a List.mem_cons_self
    obtain ⟨n2, bss, h2, h3⟩ := outFlat_total (fun b hb => h b (List.mem_cons_of_mem _ hb))
    refine ⟨max n1 n2, bs :: bss, .cons (fun f hf => h1 f (by omega)) (h2.imp fun a bs h f hf => h f (by omega)), fun f hf => ?_⟩
    rw [outFlat, h1 f (by omega), h3 f (by omega)]
    rfl

/-- the trees of one parse -/
theorem treesOf_total {p : Parsed} {flag : Bool} {n0 : Nat} (hwf : p.env.WF) (ho : p.env.OrdOK) (hun : Unmixed p.env)
    (hs : p.env.starts ≠ []) (hpar : parse p.env flag n0 = some p.res) :
    ∃ n ns, ∀ f ≥ n, treesOf f flag p = .ok ns := by
  have hall : ∀ a ∈ finalPtrs flag p.res.chart, ∃ n ts, ∀ f ≥ n,
      Out.ofFuel (getTrees p.res.chart f a.1 a.2) = .ok ts := by
    intro a ha
    have : chartGet p.res.chart a.1 a.2 ∈ p.res.finals.map some := by
      rw [(parse_chart hs hpar).2, ← finalPtrs_get]; exact List.mem_map.2 ⟨a, ha, rfl⟩
    obtain ⟨s, hs', hs''⟩ := List.mem_map.1 this
    obtain ⟨S, hS, j, hm, _, _⟩ := C01_relaxed_partial _ flag n0 p.res hwf ho hpar s hs'
    obtain ⟨n, ts, h⟩ := C11_getTrees_returns _ flag n0 p.res hwf ho hun hpar a.1 a.2 s hs''.symm S hS j hm
    exact ⟨n, ts, fun f hf => by rw [h f hf]; rfl⟩
  obtain ⟨n, tss, -, h⟩ := outFlat_total (F := fun f (a : Nat × Nat) => Out.ofFuel (getTrees p.res.chart f a.1 a.2)) hall
  refine ⟨n, tss.flatten, fun f hf => ?_⟩
  unfold treesOf
  rw [if_neg hs]
  exact h f hf

/-- the trees of all parses of a driver -/
theorem extract_total' {X : Nat → Out (List Parsed)} {flag : Bool} {n0 : Nat} {ps : List Parsed}
    (hX : ∀ f ≥ n0, X f = .ok ps)
    (hps : ∀ p ∈ ps, p.env.WF ∧ p.env.OrdOK ∧ Unmixed p.env ∧ p.env.starts ≠ [] ∧ parse p.env flag n0 = some p.res) :
    ∃ n nss, n0 ≤ n ∧ Rel2 (fun p ns => TreesOf n p ns ∧ ∀ f ≥ n, treesOf f flag p = .ok ns) ps nss ∧
      ∀ f ≥ n, extract f flag (X f) = .ok nss.flatten := by
  obtain ⟨n, nss, h1, h2⟩ := outFlat_total (F := fun f p => treesOf f flag p) (l := ps) (fun p hp => by
    obtain ⟨a, b, c, d, e⟩ := hps p hp
    exact treesOf_total a b c d e)
  refine ⟨max n n0, nss, by omega, h1.imp_mem (fun p hp ns h => ?_), fun f hf => ?_⟩
  · obtain ⟨a, b, c, d, e⟩ := hps p hp
    exact ⟨treesOf_ok d e (h _ (by omega)), fun f hf => h f (by omega)⟩
  · unfold extract
    rw [hX f (by omega), Out.bind_ok]
    exact h2 f (by omega)

theorem extract_total {X : Nat → Out (List Parsed)} {flag : Bool} {n0 : Nat} {ps : List Parsed}
    (hX : ∀ f ≥ n0, X f = .ok ps)
    (hps : ∀ p ∈ ps, p.env.WF ∧ p.env.OrdOK ∧ Unmixed p.env ∧ p.env.starts ≠ [] ∧ parse p.env flag n0 = some p.res) :
    ∃ n nss, n0 ≤ n ∧ Rel2 (fun p ns => TreesOf n p ns) ps nss ∧ ∀ f ≥ n, extract f flag (X f) = .ok nss.flatten := by
  obtain ⟨n, nss, h1, h2, h3⟩ := extract_total' hX hps
  exact ⟨n, nss, h1, h2.imp fun _ _ h => h.1, h3⟩

theorem Rel2.length_eq {α β : Type} {R : α → β → Prop} {l : List α} {l' : List β} (h : Rel2 R l l') :
    l.length = l'.length := by
  induction h with
  | nil => rfl
  | cons _ _ ih => simp [ih]

theorem Rel2.with_zip {α β γ : Type} {R : α → γ × β → Prop} {f : α → γ} {l : List α} {l' : List β}
    (h : Rel2 (fun a b => R a (f a, b)) l l') : Rel2 R l ((l.map f).zip l') := by
  induction h with
  | nil => exact .nil
  | cons h1 _ ih => exact .cons h1 ih

/-- The groups are the trees of the parses that `EarleyParseMaxAll` returns, one group for each, in order. -/
def ParseGroups (w : World) (g : Gram) (fuel : Nat) (context : String) (text : Bytes) (starts : List String) (tokens : List Token)
    (groups : List ((Nat × Nat) × List Node)) : Prop :=
  ∃ ps, earleyParseMaxAll w g fuel context text starts = .ok ps ∧
    Rel2 (fun p a => p.text = text ∧ p.env.tokens = tokens.drop a.1.1 ∧ p.env.starts ≠ [] ∧ (∃ s, p.res.finals = [s]) ∧
      treesOf fuel true p = .ok a.2) ps groups

/-- the rows of two lists, one beside the other -/
theorem Rel2.mem_zip {α β γ : Type} {R : α → β → Prop} (f : α → γ) {l : List α} {l' : List β} (h : Rel2 R l l') :
    (∀ x ∈ (l.map f).zip l', ∃ a ∈ l, x.1 = f a ∧ R a x.2) ∧
    (∀ a ∈ l, ∃ x ∈ (l.map f).zip l', x.1 = f a ∧ R a x.2) := by
  induction h with
  | nil => simp
  | @cons a b l l' h1 _ ih =>
    refine ⟨?_, ?_⟩
    · intro x hx
      rw [List.map_cons, List.zip_cons_cons] at hx
      rcases List.mem_cons.1 hx with rfl | hx
      · exact ⟨a, List.mem_cons_self, rfl, h1⟩
      · obtain ⟨c, hc, h2⟩ := ih.1 x hx
        exact ⟨c, List.mem_cons_of_mem _ hc, h2⟩
    · intro c hc
      rw [List.map_cons, List.zip_cons_cons]
      rcases List.mem_cons.1 hc with rfl | hc
      · exact ⟨_, List.mem_cons_self, rfl, h1⟩
      · obtain ⟨x, hx, h2⟩ := ih.2 c hc
        exact ⟨x, List.mem_cons_of_mem _ hx, h2⟩

mutual
theorem TreeOK.congr {env env' : Env} {L : Lang} (ht : env.tokens = env'.tokens)
    (hd : ∀ A rb, env.Defines A rb → env'.Defines A rb) {t a b n} (h : TreeOK env L t a b n) : TreeOK env' L t a b n := by
  obtain ⟨v, cs⟩ := n
  cases h with
  | terminal h1 h2 h3 h4 h5 h6 h7 h8 => exact TreeOK.terminal h1 (ht ▸ h2) h3 h4 h5 h6 h7 h8
  | any h1 h2 h3 h4 h5 h6 h7 h8 h9 h10 => exact TreeOK.any h1 h2 (ht ▸ h3) h4 h5 h6 h7 h8 h9 h10
  | nonterminal h1 h2 h3 h4 h5 h6 h7 h8 =>
    exact TreeOK.nonterminal h1 (hd _ _ h2) h3 h4 h5 h6 h7 (ForestOK.congr ht hd h8)
  | list h1 h2 h3 h4 h5 h6 h7 h8 => exact TreeOK.list h1 h2 h3 h4 h5 h6 h7 (ForestOK.congr ht hd h8)
theorem ForestOK.congr {env env' : Env} {L : Lang} (ht : env.tokens = env'.tokens)
    (hd : ∀ A rb, env.Defines A rb → env'.Defines A rb) {ts a b ns} (h : ForestOK env L ts a b ns) :
    ForestOK env' L ts a b ns := by
  cases h with
  | nil => exact ForestOK.nil
  | cons h1 h2 => exact ForestOK.cons (TreeOK.congr ht hd h1) (ForestOK.congr ht hd h2)
end

theorem MatchFor.unique {S S' : String} {j j' : Nat} {s : TState} (h : MatchFor S j s) (h' : MatchFor S' j' s) : S = S' := by
  have := h.2.1.symm.trans h'.2.1
  simpa using this

/-! ## the drivers -/

section
variable (w : World) (g : Gram) (context : String) (text : Bytes) (starts : List String) (tokens : List Token)
  (l : Option Grammar) (hp : process w g context text = .ok (tokens, l)) (hs : starts ≠ []) (ho : w.OrdOK)
  (hwf : (envFor w g l tokens starts 0).WF)
  (hsafe : NullSafe (envFor w g l tokens starts 0)) (hu : UniformBounds (envFor w g l tokens starts 0))
  (hun : Unmixed (envFor w g l tokens starts 0)) (hany : AnyNamed (envFor w g l tokens starts 0))
include hp hs ho hwf hsafe hu hun hany

omit hp hs hsafe in
/-- the trees of a parse at offset `i` -/
theorem trees_at {p : Parsed} {flag : Bool} {f c i : Nat} {ns : List Node} (he : p.env = envFor w g l (tokens.drop i) starts c)
    (hpar : parse p.env flag f = some p.res) (h : TreesOf f p ns) :
    (∀ t ∈ ns, ∃ S ∈ starts, ∃ s ∈ p.res.finals, MatchFor S s.stop s ∧ s.stop ≤ tokens.length - i ∧
      RootOK (envFor w g l (tokens.drop i) starts 0) (envFor w g l tokens starts 0).lang S s.stop t ∧
      Derives (envFor w g l tokens starts 0) S ((tokens.drop i).take s.stop)) ∧
    (∀ s ∈ p.res.finals, ∃ t ∈ ns, ∃ S ∈ starts, MatchFor S s.stop s ∧
      RootOK (envFor w g l (tokens.drop i) starts 0) (envFor w g l tokens starts 0).lang S s.stop t) := by
  obtain ⟨ptext, env, res, off⟩ := p
  subst he
  have hwf' := wf_envFor hwf (tokens.drop i) c
  have ho' := ord_envFor ho g l (tokens.drop i) starts c
  obtain ⟨h1, h2⟩ := C54_trees _ flag f f ns hwf' ho' hun hany hpar h
  have conv : ∀ {S k t}, RootOK (envFor w g l (tokens.drop i) starts c) (envFor w g l (tokens.drop i) starts c).relaxedLang S k t →
      RootOK (envFor w g l (tokens.drop i) starts 0) (envFor w g l tokens starts 0).lang S k t := by
    rintro S k t ⟨h0, h1, h2, h3, h4, c0, h5, h6⟩
    have h7 : TreeOK (envFor w g l (tokens.drop i) starts c) (envFor w g l tokens starts 0).lang _ 0 k c0 :=
      TreeOK.strict (env := envFor w g l (tokens.drop i) starts c) hu h6 (by simp)
    exact ⟨h0, h1, h2, h3, h4, c0, h5, TreeOK.congr (env := envFor w g l (tokens.drop i) starts c) (env' := envFor w g l (tokens.drop i) starts 0) rfl (fun A rb h => h) h7⟩
  refine ⟨?_, ?_⟩
  · intro t ht
    obtain ⟨S, hS, s, hs', hm, hr⟩ := h1 t ht
    obtain ⟨S', hS', j, hm', hj, hd⟩ := C01_relaxed_partial _ flag f _ hwf' ho' hpar s hs'
    obtain rfl := hm.unique hm'
    obtain rfl : s.stop = j := hm'.2.2.2.2
    exact ⟨S, hS, s, hs', hm, by simpa [envFor] using hj, conv hr,
      DerivesRelaxed.strict (env := envFor w g l (tokens.drop i) starts c) hu hd⟩
  · intro s hs'
    obtain ⟨t, ht, S, hS, hm, hr⟩ := h2 s hs'
    exact ⟨t, ht, S, hS, hm, conv hr⟩

/-- what a start rule derives from the tokens of a call -/
abbrev callDerives (S : String) (i k : Nat) : Prop := Derives (envFor w g l tokens starts 0) S ((tokens.drop i).take k)

/-- the trees of a call -/
abbrev callTree (i : Nat) (S : String) (k : Nat) (n : Node) : Prop :=
  RootOK (envFor w g l (tokens.drop i) starts 0) (envFor w g l tokens starts 0).lang S k n

/-- C54, end to end for `ParseAny`: it returns; there are trees iff a start rule matches somewhere, and each spells a
longest match at the first place where there is one. (Missing: unsafely placed empty derivations and mixed bounds, see
C01, C02; the same for the two calls below.) -/
theorem C54_any_partial :
    ∃ n ns, (∀ fuel ≥ n, apiParseAny w g fuel context text starts = .ok ns) ∧
      FirstMatches (callDerives w g starts tokens l) (callTree w g starts tokens l) starts tokens.length ns := by
  obtain ⟨n0, h0⟩ := C17_terminates w g context text starts tokens l hp hs hwf ho
  obtain ⟨r, hr⟩ := h0 n0 (Nat.le_refl _)
  obtain ⟨p, rfl, hlt, he, hpar, -, -⟩ := C17_leftmost w g n0 context text starts tokens l hp r hr
  obtain ⟨p', e, hd1, hd2⟩ := C17_derivable_partial w g n0 context text starts tokens l hp _ hwf ho hsafe hu hr
  cases e
  obtain ⟨n, nss, hn, hrel, hex⟩ := extract_total (flag := true) (n0 := n0) (ps := [p]) (X := fun f => do
      let p ← earleyParseAny w g f context text starts
      match p with
      | some p => pure [p]
      | none => .panic) (fun f hf => by rw [earleyParseAny_mono hf hr]; rfl) (by
    intro q hq
    rw [List.mem_singleton.1 hq]
    refine ⟨?_, ?_, ?_, ?_, hpar⟩ <;> rw [he]
    · exact wf_envFor hwf _ _
    · exact ord_envFor ho _ _ _ _ _
    · exact hun
    · exact hs)
  obtain ⟨ns, rfl⟩ : ∃ ns, nss = [ns] := by
    cases hrel with
    | cons a b => cases b; exact ⟨_, rfl⟩
  have htr : TreesOf n p ns := by
    cases hrel with
    | cons a b => exact a
  obtain ⟨ht1, ht2⟩ := trees_at w g starts tokens l ho hwf hu hun hany he (parse_mono hpar hn) htr
  refine ⟨n, ns, fun f hf => by
    have := hex f hf
    rw [List.flatten_singleton] at this
    exact this, ?_, ?_⟩
  · refine Iff.trans (Iff.trans ?_ hd1) (exists_congr fun i => exists_congr fun k => Iff.rfl)
    constructor
    · intro hne
      obtain ⟨t, ht⟩ := List.exists_mem_of_ne_nil _ hne
      obtain ⟨-, -, s, hs', -⟩ := ht1 t ht
      exact List.ne_nil_of_mem hs'
    · intro hne
      obtain ⟨s, hs'⟩ := List.exists_mem_of_ne_nil _ hne
      obtain ⟨t, ht, -⟩ := ht2 s hs'
      exact List.ne_nil_of_mem ht
  · intro t ht
    obtain ⟨S, hS, s, hs', -, -, hroot, hder⟩ := ht1 t ht
    obtain ⟨g1, g2⟩ := hd2 s hs'
    exact ⟨S, hS, p.off, s.stop, hroot, hder, ⟨hlt, g1⟩, fun i' k' h' => g2 i' k' h'.1 h'.2⟩

/-- C54, end to end for `ExtractAll`: it returns, and the trees come in groups for ascending places; every tree spells
a match at the place of its group, and every match of a start rule at any place has a tree. -/
theorem C54_all_partial :
    ∃ n, ∃ groups : List (Nat × List Node),
      (∀ fuel ≥ n, apiExtractAll w g fuel context text starts = .ok (groups.map (·.2)).flatten) ∧
      AllMatches (callDerives w g starts tokens l) (callTree w g starts tokens l) starts tokens.length groups := by
  obtain ⟨n0, h0⟩ := C19_terminates w g context text starts tokens l hp hs hwf ho
  obtain ⟨ps, hps⟩ := h0 n0 (Nat.le_refl _)
  obtain ⟨h1, h2, -⟩ := C19_all_offsets w g n0 context text starts tokens l hp ps hps
  have hd := C19_derivable_partial w g n0 context text starts tokens l hp ps hwf ho hsafe hu hps
  obtain ⟨n, nss, hn, hrel, hex⟩ := extract_total (flag := false) (n0 := n0) (ps := ps)
    (X := fun f => earleyParseAll w g f context text starts) (fun f hf => earleyParseAll_mono hf hps) (by
    intro q hq
    obtain ⟨-, -, he, hpar, -⟩ := h2 q hq
    refine ⟨?_, ?_, ?_, ?_, hpar⟩ <;> rw [he]
    · exact wf_envFor hwf _ _
    · exact ord_envFor ho _ _ _ _ _
    · exact hun
    · exact hs)
  have hlen := hrel.length_eq
  refine ⟨n, (ps.map (·.off)).zip nss, ?_, ?_, ?_, ?_, ?_⟩
  · intro f hf
    rw [List.map_snd_zip (by simp [hlen])]
    exact hex f hf
  · rw [List.map_fst_zip (by simp [hlen])]
    exact h1
  · intro a ha
    obtain ⟨p, hpm, e, htr⟩ := (hrel.mem_zip (·.off)).1 a ha
    obtain ⟨i1, -, he, hpar, hfin⟩ := h2 p hpm
    obtain ⟨-, ht2⟩ := trees_at w g starts tokens l ho hwf hu hun hany he (parse_mono hpar hn) htr
    obtain ⟨s, hs'⟩ := List.exists_mem_of_ne_nil _ hfin
    obtain ⟨t, ht, -⟩ := ht2 s hs'
    exact List.ne_nil_of_mem ht
  · intro a ha t ht
    obtain ⟨p, hpm, e, htr⟩ := (hrel.mem_zip (·.off)).1 a ha
    obtain ⟨i1, -, he, hpar, hfin⟩ := h2 p hpm
    obtain ⟨ht1, -⟩ := trees_at w g starts tokens l ho hwf hu hun hany he (parse_mono hpar hn) htr
    rw [e]
    obtain ⟨S, hS, s, hs', hm, hle, hroot, hder⟩ := ht1 t ht
    exact ⟨S, hS, s.stop, hroot, hder, i1, by omega, S, hS, hder⟩
  · intro S hS i k hi hik hder
    obtain ⟨p, hpm, rfl, s, hs', hm⟩ := (hd S hS i k hik hi).2 hder
    obtain ⟨a, ha, e, htr⟩ := (hrel.mem_zip (·.off)).2 p hpm
    obtain ⟨-, -, he, hpar, -⟩ := h2 p hpm
    obtain ⟨-, ht2⟩ := trees_at w g starts tokens l ho hwf hu hun hany he (parse_mono hpar hn) htr
    obtain ⟨t, ht, S', -, hm', hroot⟩ := ht2 s hs'
    obtain rfl := hm.unique hm'
    obtain rfl : s.stop = k := hm.2.2.2.2
    exact ⟨a, ha, e, t, ht, hroot⟩

/-- `ExtractMaxAll`, with the parses that the trees belong to -/
theorem maxAll_groups (hnm : NoEmptyMatch (envFor w g l tokens starts 0)) :
    ∃ n, ∃ groups : List ((Nat × Nat) × List Node),
      (∀ fuel ≥ n, apiExtractMaxAll w g fuel context text starts = .ok (groups.map (·.2)).flatten) ∧
      GreedyMatches (callDerives w g starts tokens l) (callTree w g starts tokens l) starts tokens.length groups ∧
      ∀ fuel ≥ n, ParseGroups w g fuel context text starts tokens groups := by
  obtain ⟨n0, h0⟩ := C18_terminates_partial w g context text starts tokens l hp hs hwf ho hnm
  obtain ⟨ps, hps⟩ := h0 n0 (Nat.le_refl _)
  obtain ⟨h1, h2, -⟩ := C18_greedy w g n0 context text starts tokens l hp ps hps
  obtain ⟨hd1, hd2⟩ := C18_derivable_partial w g n0 context text starts tokens l hp ps hwf ho hsafe hu hnm hps
  obtain ⟨n, nss, hn, hrel', hex⟩ := extract_total' (flag := true) (n0 := n0) (ps := ps)
    (X := fun f => earleyParseMaxAll w g f context text starts) (fun f hf => earleyParseMaxAll_mono hf hps) (by
    intro q hq
    obtain ⟨-, -, ⟨c, he⟩, hpar, -⟩ := h1 q hq
    refine ⟨?_, ?_, ?_, ?_, hpar⟩ <;> rw [he]
    · exact wf_envFor hwf _ _
    · exact ord_envFor ho _ _ _ _ _
    · exact hun
    · exact hs)
  have hrel : Rel2 (fun p ns => TreesOf n p ns) ps nss := hrel'.imp fun _ _ h => h.1
  have hlen := hrel.length_eq
  refine ⟨n, (ps.map (fun p => (p.off, maxEnd p.res.finals))).zip nss, ?_, ⟨?_, ?_, ?_, ?_, ?_⟩, fun f hf => ⟨ps, earleyParseMaxAll_mono (by omega) hps, ?_⟩⟩
  · intro f hf
    rw [List.map_snd_zip (by simp [hlen])]
    exact hex f hf
  · rw [List.map_fst_zip (by simp [hlen]), List.pairwise_map]
    have h2' : ps.Pairwise (fun p q => p ∈ ps ∧ (∀ s ∈ p.res.finals, p.off + s.stop ≤ q.off)) := by
      rw [List.pairwise_iff_forall_sublist] at h2 ⊢
      intro a b hab
      exact ⟨hab.subset (by simp), (h2 hab).1⟩
    refine h2'.imp ?_
    rintro p q ⟨hpm, hle⟩
    obtain ⟨s, hs', -⟩ := hd1 p hpm
    have := hle s (by rw [hs']; simp)
    rw [hs', maxEnd_single]
    exact this
  · intro a ha
    obtain ⟨p, hpm, e, htr⟩ := (hrel.mem_zip (fun p : Parsed => (p.off, maxEnd p.res.finals))).1 a ha
    obtain ⟨-, -, ⟨c, he⟩, hpar, -⟩ := h1 p hpm
    obtain ⟨s, hs', hpos, -, -⟩ := hd1 p hpm
    obtain ⟨-, ht2⟩ := trees_at w g starts tokens l ho hwf hu hun hany he (parse_mono hpar hn) htr
    rw [hs', maxEnd_single] at e
    rw [e]
    obtain ⟨t, ht, -⟩ := ht2 s (by rw [hs']; simp)
    exact ⟨hpos, List.ne_nil_of_mem ht⟩
  · intro a ha
    obtain ⟨p, hpm, e, -⟩ := (hrel.mem_zip (fun p : Parsed => (p.off, maxEnd p.res.finals))).1 a ha
    obtain ⟨s, hs', hpos, hm, hmax⟩ := hd1 p hpm
    rw [hs', maxEnd_single] at e
    rw [e]
    exact ⟨⟨(h1 p hpm).1, hm⟩, fun k hk => hmax k hk.2⟩
  · intro a ha t ht
    obtain ⟨p, hpm, e, htr⟩ := (hrel.mem_zip (fun p : Parsed => (p.off, maxEnd p.res.finals))).1 a ha
    obtain ⟨-, -, ⟨c, he⟩, hpar, -⟩ := h1 p hpm
    obtain ⟨s, hs', -⟩ := hd1 p hpm
    obtain ⟨ht1, -⟩ := trees_at w g starts tokens l ho hwf hu hun hany he (parse_mono hpar hn) htr
    rw [hs', maxEnd_single] at e
    rw [e]
    obtain ⟨S, hS, s', hs'', -, -, hroot, hder⟩ := ht1 t ht
    rw [hs', List.mem_singleton] at hs''
    rw [hs''] at hroot hder
    exact ⟨S, hS, hroot, hder⟩
  · intro i k hno hm
    refine hd2 i hm.1 ?_ k hm.2
    rintro ⟨p, hpm, s, hs', hc⟩
    obtain ⟨a, ha, e, -⟩ := (hrel.mem_zip (fun p : Parsed => (p.off, maxEnd p.res.finals))).2 p hpm
    obtain ⟨s0, hs0, -⟩ := hd1 p hpm
    rw [hs0, List.mem_singleton] at hs'
    subst hs'
    rw [hs0, maxEnd_single] at e
    exact hno a ha (by rw [e]; exact hc)
  · refine Rel2.with_zip (hrel'.imp_mem fun p hpm ns h => ?_)
    obtain ⟨-, g2, ⟨c, he⟩, -, g5⟩ := h1 p hpm
    exact ⟨g2, by rw [he]; rfl, by rw [he]; exact hs, g5, h.2 f hf⟩

/-- C54, end to end for `ExtractMaxAll`: it returns if no start rule matches the empty text; the trees come in groups
for segments that do not overlap, each a longest match at its first token; no match starts at a token outside the
segments. -/
theorem C54_maxAll_partial (hnm : NoEmptyMatch (envFor w g l tokens starts 0)) :
    ∃ n, ∃ groups : List ((Nat × Nat) × List Node),
      (∀ fuel ≥ n, apiExtractMaxAll w g fuel context text starts = .ok (groups.map (·.2)).flatten) ∧
      GreedyMatches (callDerives w g starts tokens l) (callTree w g starts tokens l) starts tokens.length groups := by
  obtain ⟨n, groups, h1, h2, -⟩ := maxAll_groups w g context text starts tokens l hp hs ho hwf hsafe hu hun hany hnm
  exact ⟨n, groups, h1, h2⟩

end

/-- non-vacuity: what the calls return for "z", "1", "2", "z" (the assumptions hold together by the examples for C18 and
C54) -/
example : (match apiParseAny (wWorld [tk "z", tk "1", tk "2", tk "z"]) gGood 60 "" [97] ["s"] with
      | .ok ns => ns.map (fun n => n.value.stop)
      | _ => []) = [2] ∧
    (match apiExtractAll (wWorld [tk "z", tk "1", tk "2", tk "z"]) gGood 60 "" [97] ["s"] with
      | .ok ns => ns.map (fun n => n.value.stop)
      | _ => []) = [2, 1, 1] ∧
    (match apiExtractMaxAll (wWorld [tk "z", tk "1", tk "2", tk "z", tk "1"]) gGood 60 "" [97] ["s"] with
      | .ok ns => ns.map (fun n => n.value.stop)
      | _ => []) = [2, 1] := by decide +kernel

/-! ## other words for matches -/

section
variable {D D' : String → Nat → Nat → Prop} {T : Nat → String → Nat → Node → Prop} {starts : List String} {len : Nat}
  (h : ∀ S ∈ starts, ∀ i k, D S i k ↔ D' S i k)
include h

theorem spanMatch_congr {i k : Nat} : SpanMatch D starts len i k ↔ SpanMatch D' starts len i k :=
  and_congr_right fun _ => and_congr_right fun _ => exists_congr fun S => and_congr_right fun hS => h S hS i k

theorem PrefixMatches.congr {ns : List Node} (hf : PrefixMatches D T starts len ns) : PrefixMatches D' T starts len ns := by
  refine ⟨hf.found.trans (exists_congr fun k => spanMatch_congr h), fun n hn => ?_⟩
  obtain ⟨S, hS, k, h1, h3, h4⟩ := hf.trees n hn
  exact ⟨S, hS, k, h1, (spanMatch_congr h).1 h3, fun k' h' => h4 k' ((spanMatch_congr h).2 h')⟩

theorem FirstMatches.congr {ns : List Node} (hf : FirstMatches D T starts len ns) : FirstMatches D' T starts len ns := by
  refine ⟨hf.found.trans (exists_congr fun i => exists_congr fun k => spanMatch_congr h), fun n hn => ?_⟩
  obtain ⟨S, hS, i, k, h1, h2, h3, h4⟩ := hf.trees n hn
  exact ⟨S, hS, i, k, h1, (h S hS i k).1 h2, (spanMatch_congr h).1 h3, fun i' k' h' => h4 i' k' ((spanMatch_congr h).2 h')⟩

theorem AllMatches.congr {groups : List (Nat × List Node)} (hf : AllMatches D T starts len groups) :
    AllMatches D' T starts len groups := by
  refine ⟨hf.ascending, hf.nonempty, fun a ha n hn => ?_, fun S hS i k hi hik hd => hf.complete S hS i k hi hik ((h S hS i k).2 hd)⟩
  obtain ⟨S, hS, k, h1, h2, h3⟩ := hf.trees a ha n hn
  exact ⟨S, hS, k, h1, (h S hS _ k).1 h2, (spanMatch_congr h).1 h3⟩

theorem GreedyMatches.congr {groups : List ((Nat × Nat) × List Node)} (hf : GreedyMatches D T starts len groups) :
    GreedyMatches D' T starts len groups := by
  refine ⟨hf.disjoint, hf.nonempty, fun a ha => ?_, fun a ha n hn => ?_, fun i k hno hm => hf.rest i k hno ((spanMatch_congr h).2 hm)⟩
  · obtain ⟨h1, h2⟩ := hf.longest a ha
    exact ⟨(spanMatch_congr h).1 h1, fun k hk => h2 k ((spanMatch_congr h).2 hk)⟩
  · obtain ⟨S, hS, h1, h2⟩ := hf.trees a ha n hn
    exact ⟨S, hS, h1, (h S hS _ _).1 h2⟩

end

end Fmr
