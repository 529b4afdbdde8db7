import Verif.Props.Alike
import Verif.Props.Extract
import Verif.Props.Eval

/-!
# C109: white space around a text
-/

namespace Fmr

/-! ## parsing -/

/-- the same parse, made from another text -/
def Parsed.of (p : Parsed) (text : Bytes) : Parsed := { p with text := text }

theorem process_trim {w : World} {text text' : Bytes} (ht : w.trim text' = w.trim text) (g : Gram) (context : String) :
    process w g context text' = process w g context text := by
  unfold process
  rw [ht]

section
variable {w : World} {text text' : Bytes} {g : Gram} {fuel : Nat} {l : Option Grammar} {starts : List String}

theorem earleyParse_of (flag : Bool) (toks : List Token) (call off : Nat) :
    (earleyParse w g fuel flag text toks l starts call off).Both (fun p p' => p' = p.of text')
      (earleyParse w g fuel flag text' toks l starts call off) := by
  unfold earleyParse
  split
  · trivial
  · split
    · trivial
    · dsimp only
      cases parse (envFor w g l toks starts call) flag fuel with
      | none => trivial
      | some r => rfl

theorem anyLoop_of : ∀ (toks : List Token) (i : Nat) {p p' : Option Parsed}, p' = p.map (·.of text') →
    (parseAnyLoop w g fuel text l starts toks i p).Both (fun p p' => p' = p.map (·.of text'))
      (parseAnyLoop w g fuel text' l starts toks i p')
  | [], i, p, p', hp => by unfold parseAnyLoop; exact hp
  | t :: ts, i, p, p', hp => by
    unfold parseAnyLoop
    refine (earleyParse_of (text := text) (text' := text') true (t :: ts) i i).bind (fun a b hab => ?_)
    subst hab
    have : (a.of text').res = a.res := rfl
    rw [this]
    split
    · rfl
    · exact anyLoop_of ts (i+1) rfl

theorem maxAllLoop_of (toks : List Token) : ∀ n call i,
    (maxAllLoop w g fuel text toks l starts n call i).Both (fun p p' => p' = p.map (·.of text'))
      (maxAllLoop w g fuel text' toks l starts n call i)
  | 0, _, _ => trivial
  | n+1, call, i => by
    unfold maxAllLoop
    split
    · refine (earleyParse_of (text := text) (text' := text') true (toks.drop i) call i).bind (fun a b hab => ?_)
      subst hab
      have : (a.of text').res = a.res := rfl
      rw [this]
      split
      · refine (maxAllLoop_of toks n _ _).bind (fun r r' hr => ?_)
        subst hr
        rfl
      · exact maxAllLoop_of toks n _ _
    · rfl

theorem allLoop_of : ∀ (toks : List Token) (i : Nat),
    (parseAllLoop w g fuel text l starts toks i).Both (fun p p' => p' = p.map (·.of text'))
      (parseAllLoop w g fuel text' l starts toks i)
  | [], i => by unfold parseAllLoop; rfl
  | t :: ts, i => by
    unfold parseAllLoop
    refine (earleyParse_of (text := text) (text' := text') false (t :: ts) i i).bind (fun a b hab => ?_)
    refine (allLoop_of ts (i+1)).bind (fun r r' hr => ?_)
    subst hab hr
    have : (a.of text').res = a.res := rfl
    rw [this]
    split <;> rfl

end

/-- C109 for the parses: texts that differ in white space around them have the same parses, but for the text that they keep. -/
theorem C109_parses (w : World) (g : Gram) (fuel : Nat) (context : String) (starts : List String) {text text' : Bytes}
    (ht : w.trim text' = w.trim text) :
    (earleyParseCtx w g fuel context text starts).Both (fun p p' => p' = p.of text') (earleyParseCtx w g fuel context text' starts) ∧
    (earleyParseAny w g fuel context text starts).Both (fun p p' => p' = p.map (·.of text')) (earleyParseAny w g fuel context text' starts) ∧
    (earleyParseMaxAll w g fuel context text starts).Both (fun p p' => p' = p.map (·.of text'))
      (earleyParseMaxAll w g fuel context text' starts) ∧
    (earleyParseAll w g fuel context text starts).Both (fun p p' => p' = p.map (·.of text'))
      (earleyParseAll w g fuel context text' starts) := by
  have hp := process_trim ht g context
  have refl : (process w g context text).Both Eq (process w g context text) := by
    cases process w g context text <;> first | rfl | trivial
  refine ⟨?_, ?_, ?_, ?_⟩
  · unfold earleyParseCtx
    rw [hp]
    refine refl.bind ?_
    rintro ⟨toks, l⟩ _ rfl
    exact earleyParse_of true toks 0 0
  · unfold earleyParseAny
    rw [hp]
    refine refl.bind ?_
    rintro ⟨toks, l⟩ _ rfl
    exact anyLoop_of toks 0 rfl
  · unfold earleyParseMaxAll
    rw [hp]
    refine refl.bind ?_
    rintro ⟨toks, l⟩ _ rfl
    exact maxAllLoop_of toks _ _ _
  · unfold earleyParseAll
    rw [hp]
    refine refl.bind ?_
    rintro ⟨toks, l⟩ _ rfl
    exact allLoop_of toks 0

theorem sameRun_of (text' : Bytes) : ∀ ps : List Parsed, List.Forall₂ SameRun ps (ps.map (·.of text'))
  | [] => .nil
  | _ :: ps => .cons ⟨rfl, rfl, rfl⟩ (sameRun_of text' ps)

/-- C109 for the trees: each of the four calls gives the same trees, or the same failure. -/
theorem C109_trees (w : World) (g : Gram) (fuel : Nat) (context : String) (starts : List String) {text text' : Bytes}
    (ht : w.trim text' = w.trim text) :
    apiParse w g fuel context text' starts = apiParse w g fuel context text starts ∧
    apiParseAny w g fuel context text' starts = apiParseAny w g fuel context text starts ∧
    apiExtractMaxAll w g fuel context text' starts = apiExtractMaxAll w g fuel context text starts ∧
    apiExtractAll w g fuel context text' starts = apiExtractAll w g fuel context text starts := by
  obtain ⟨h1, h2, h3, h4⟩ := C109_parses w g fuel context starts ht
  refine ⟨?_, ?_, ?_, ?_⟩
  · refine alike_extract _ _ (h1.bind ?_)
    rintro a _ rfl
    exact sameRun_of text' [a]
  · refine alike_extract _ _ (h2.bind ?_)
    rintro a _ rfl
    cases a with
    | none => trivial
    | some a => exact sameRun_of text' [a]
  · refine alike_extract _ _ ?_
    have := h3.bind (f := Out.ok) (k := Out.ok) (q := List.Forall₂ SameRun) (by rintro a _ rfl; exact sameRun_of text' a)
    revert this
    cases earleyParseMaxAll w g fuel context text starts <;> cases earleyParseMaxAll w g fuel context text' starts <;> exact id
  · refine alike_extract _ _ ?_
    have := h4.bind (f := Out.ok) (k := Out.ok) (q := List.Forall₂ SameRun) (by rintro a _ rfl; exact sameRun_of text' a)
    revert this
    cases earleyParseAll w g fuel context text starts <;> cases earleyParseAll w g fuel context text' starts <;> exact id

/-! ## `Semantic` -/

section
variable {nw : NodeWorld} {self self' : Self} {ks ks' : List (Option Kid)}
variable (hks : ks'.map (Option.map Kid.sem) = ks.map (Option.map Kid.sem))
include hks

theorem indexStr_sem (nl : String) (i : Int) : indexStr ks' nl i = indexStr ks nl i := by
  unfold indexStr
  have hl : ks'.length = ks.length := by simpa using congrArg List.length hks
  have hg : (ks'[(i-1).toNat]?).map (Option.map Kid.sem) = (ks[(i-1).toNat]?).map (Option.map Kid.sem) := by
    simpa using congrArg (·[(i-1).toNat]?) hks
  rw [hl]
  split
  · rfl
  · split
    · rfl
    · revert hg
      cases ks'[(i-1).toNat]? with
      | none => cases ks[(i-1).toNat]? <;> simp
      | some k' =>
        cases ks[(i-1).toNat]? with
        | none => simp
        | some k => cases k <;> cases k' <;> simp

mutual
theorem fmrStr_sem (nl : String) : ∀ f : FMR, f.NoContext → fmrStr nw self' ks' nl f = fmrStr nw self ks nl f
  | .mk fn args, h => by
    unfold FMR.NoContext at h
    unfold fmrStr
    split
    · match args, h with
      | [], _ => rfl
      | [a], h =>
        have h2 : a.NoContext := by unfold NoContexts at h; exact h.1
        exact semStr_sem nl a h2
      | _ :: _ :: _, _ => rfl
    · rw [semStrs_sem nl args h]
theorem semStrs_sem (nl : String) : ∀ as : List Arg, NoContexts as → semStrs nw self' ks' nl as = semStrs nw self ks nl as
  | [], _ => rfl
  | a :: as, h => by
    unfold NoContexts at h
    unfold semStrs
    rw [semStr_sem nl a h.1, semStrs_sem nl as h.2]
theorem semStr_sem (nl : String) : ∀ a : Arg, a.NoContext → semStr nw self' ks' nl a = semStr nw self ks nl a
  | .mk t v, h => by
    unfold Arg.NoContext at h
    unfold semStr
    exact semVal_sem nl t h.1 v h.2
theorem semVal_sem (nl : String) (t : String) (ht : t ≠ "context") : ∀ v : Val, v.NoContext →
    semVal nw self' ks' nl t v = semVal nw self ks nl t v
  | .str s, _ => by simp [semVal, ht]
  | .bigInt i, _ => by simp [semVal, ht]
  | .bigFloat q, _ => by simp [semVal, ht]
  | .int i, _ => by simp [semVal, ht, indexStr_sem hks]
  | .fmr f, h => by
    unfold Val.NoContext at h
    simp [semVal, ht, fmrStr_sem nl f h]
  | .nilFmr, _ => by simp [semVal, ht]
  | .other _, _ => by simp [semVal, ht]
end
end

mutual
theorem kid_sem (nw : NodeWorld) (p : Parsed) (text' : Bytes) : ∀ n : Node, n.Plain → (n.kid nw (p.of text')).sem = (n.kid nw p).sem
  | .mk v cs, h => by
    unfold Node.Plain at h
    have hk := kidsOf_sem nw p text' cs h.2
    simp only [Node.kid]
    unfold semanticWith
    have hnl : (nodeSelf nw (p.of text') v).nl = (nodeSelf nw p v).nl := rfl
    rw [hnl]
    congr 1
    funext nl
    cases hr : v.rb with
    | none => rfl
    | some rb =>
      dsimp only
      cases hf : rb.f with
      | none => rfl
      | some f => exact fmrStr_sem hk _ f (h.1 rb f hr hf)
theorem kidsOf_sem (nw : NodeWorld) (p : Parsed) (text' : Bytes) : ∀ cs : List Node, nodesPlain cs →
    (kidsOf nw (p.of text') cs).map (Option.map Kid.sem) = (kidsOf nw p cs).map (Option.map Kid.sem)
  | [], _ => rfl
  | c :: cs, h => by
    unfold nodesPlain at h
    simp only [kidsOf, List.map_cons, Option.map_some, kid_sem nw p text' c h.1, kidsOf_sem nw p text' cs h.2]
end

/-- C109 for `Semantic`: what it prints depends on the tokens only, if no function takes the context `@`. -/
theorem C109_semantic (nw : NodeWorld) (p : Parsed) (text' : Bytes) {n : Node} (h : n.Plain) :
    n.semantic nw (p.of text') = n.semantic nw p :=
  kid_sem nw p text' n h

/-! ## `Eval` -/

/-- the tokens are inside of the part that two texts have in common at their beginnings -/
structure CommonStart (p : Parsed) (text' : Bytes) (L : Nat) : Prop where
  left : L ≤ p.text.length
  right : L ≤ text'.length
  same : text'.take L = p.text.take L
  inside : ∀ t ∈ p.env.tokens, t.startByte ≤ L ∧ t.endByte ≤ L

theorem columnToken_mem {toks : List Token} {k : Nat} {t : Token} (h : columnToken toks k = .ok t) : t ∈ toks := by
  cases k with
  | zero => cases h
  | succ k =>
    simp only [columnToken, Out.ofIndex_eq_ok] at h
    exact List.mem_of_getElem? h

theorem orig_of {p : Parsed} {text' : Bytes} {L : Nat} (h : CommonStart p text' L) (n : Node) :
    (p.of text').originalText n = p.originalText n := by
  unfold Parsed.originalText
  have hpos : (p.of text').pos n = p.pos n := rfl
  rw [hpos]
  cases hp : p.pos n with
  | ok pos =>
    have hin : pos.endByte ≤ L := by
      unfold Parsed.pos boundary at hp
      obtain ⟨a, ha, hp⟩ := Out.bind_eq_ok.1 hp
      obtain ⟨b, hb, hp⟩ := Out.bind_eq_ok.1 hp
      cases hp
      dsimp only
      split
      · exact (h.inside a (columnToken_mem ha)).1
      · exact (h.inside b (columnToken_mem hb)).2
    have e : text'.take pos.endByte = p.text.take pos.endByte := by
      have := congrArg (List.take pos.endByte) h.same
      rwa [List.take_take, List.take_take, Nat.min_eq_left hin] at this
    have h1 : pos.endByte ≤ text'.length := hin.trans h.right
    have h2 : pos.endByte ≤ p.text.length := hin.trans h.left
    simp only [Out.bind_ok]
    show sliceBytes text' _ _ = _
    unfold sliceBytes
    rw [e]
    simp [h1, h2]
  | _ => rfl

mutual
theorem kid_of {p : Parsed} {text' : Bytes} {L : Nat} (h : CommonStart p text' L) (nw : NodeWorld) : ∀ n : Node,
    n.kid nw (p.of text') = n.kid nw p
  | .mk v cs => by
    have hs : nodeSelf nw (p.of text') v = nodeSelf nw p v := by
      unfold nodeSelf
      rw [orig_of h]
      rfl
    simp only [Node.kid, orig_of h, hs, kidsOf_of h nw cs]
theorem kidsOf_of {p : Parsed} {text' : Bytes} {L : Nat} (h : CommonStart p text' L) (nw : NodeWorld) : ∀ cs : List Node,
    kidsOf nw (p.of text') cs = kidsOf nw p cs
  | [] => rfl
  | c :: cs => by simp only [kidsOf, kid_of h nw c, kidsOf_of h nw cs]
end

/-- C109 as claimed: texts that differ in the white space around them have the same trees, with the same meanings and the same values. The
tokens are those of the text without that white space. -/
def C109_statement : Prop :=
  ∀ (w : World) (g : Gram) (fuel : Nat) (context : String) (text text' : Bytes) (starts : List String) (nw : NodeWorld) (p p' : Parsed),
    w.trim text' = w.trim text → (w.trim text) <:+: text → (w.trim text) <:+: text' →
    earleyParseCtx w g fuel context text starts = .ok p → earleyParseCtx w g fuel context text' starts = .ok p' →
    (∀ t ∈ p.env.tokens, t.startByte ≤ (w.trim text).length ∧ t.endByte ≤ (w.trim text).length) →
    ∀ ns, apiParse w g fuel context text starts = .ok ns → apiParse w g fuel context text' starts = .ok ns ∧
      ∀ n ∈ ns, n.semantic nw p' = n.semantic nw p ∧ n.eval nw p' = n.eval nw p

/-- C109 for white space at the end, for all four calls (with `C109_parses` and `C109_trees`): `Semantic` and `Eval` are the same for all
trees. Missing: white space in front (see `C109_false`), for which `C109_semantic` gives the meanings. -/
theorem C109_partial (w : World) {text text' : Bytes} (ht : w.trim text' = w.trim text) (h1 : w.trim text <+: text)
    (h2 : w.trim text <+: text') (nw : NodeWorld) {p : Parsed} (hp : p.text = text)
    (hin : ∀ t ∈ p.env.tokens, t.startByte ≤ (w.trim text).length ∧ t.endByte ≤ (w.trim text).length) (n : Node) :
    n.semantic nw (p.of text') = n.semantic nw p ∧ n.eval nw (p.of text') = n.eval nw p := by
  have h : CommonStart p text' (w.trim text).length := by
    refine ⟨hp ▸ h1.length_le, h2.length_le, ?_, hin⟩
    rw [hp, ← List.prefix_iff_eq_take.1 h1, ← List.prefix_iff_eq_take.1 h2]
  unfold Node.semantic Node.eval
  rw [kid_of h]
  exact ⟨rfl, rfl⟩

/-- what `Eval` gives for the trees of a text by the grammar `<s> = "a"`, as bytes, and where the tokens are -/
def spaceAns (text : Bytes) : Option (List (Option Bytes) × List (Nat × Nat)) :=
  match earleyParseCtx wSpace gA 20 "" text ["s"], apiParse wSpace gA 20 "" text ["s"] with
  | .ok p, .ok ns => some (ns.map (fun n => match n.eval wPlain p with | .ok (.str b) => some b | _ => none),
      p.env.tokens.map (fun t => (t.startByte, t.endByte)))
  | _, _ => none

/-- the value of the text `a` is `a`, also with a space after it, but with a space in front it is that space -/
theorem space_values :
    spaceAns [97] = some ([some [97]], [(0, 1)]) ∧ spaceAns [97, 32] = some ([some [97]], [(0, 1)]) ∧
    spaceAns [32, 97] = some ([some [32]], [(0, 1)]) := by
  refine ⟨?_, ?_, ?_⟩ <;> decide +kernel

theorem spaceAns_some {text : Bytes} {bs : List (Option Bytes)} {ts : List (Nat × Nat)} (h : spaceAns text = some (bs, ts)) :
    ∃ p ns, earleyParseCtx wSpace gA 20 "" text ["s"] = .ok p ∧ apiParse wSpace gA 20 "" text ["s"] = .ok ns ∧
      ns.map (fun n => match n.eval wPlain p with | .ok (.str b) => some b | _ => none) = bs ∧
      p.env.tokens.map (fun t => (t.startByte, t.endByte)) = ts := by
  unfold spaceAns at h
  generalize earleyParseCtx wSpace gA 20 "" text ["s"] = x at h ⊢
  generalize apiParse wSpace gA 20 "" text ["s"] = y at h ⊢
  cases x with
  | ok p =>
    cases y with
    | ok ns => cases h; exact ⟨p, ns, rfl, rfl, rfl, rfl⟩
    | _ => cases h
  | _ => cases h

/-- C109 fails: with a space in front of `a`, `Eval` gives the space. -/
theorem C109_false : ¬ C109_statement := by
  intro hall
  obtain ⟨p, ns, hp, hn, hv, ht⟩ := spaceAns_some space_values.1
  obtain ⟨p', ns', hp', hn', hv', _⟩ := spaceAns_some space_values.2.2
  have hin : ∀ t ∈ p.env.tokens, t.startByte ≤ (wSpace.trim [97]).length ∧ t.endByte ≤ (wSpace.trim [97]).length := by
    intro t hm
    have hl : (wSpace.trim [97]).length = 1 := by decide +kernel
    have := List.mem_map_of_mem (f := fun t : Token => (t.startByte, t.endByte)) hm
    rw [ht, List.mem_singleton, Prod.mk.injEq] at this
    omega
  obtain ⟨hsame, hboth⟩ := hall wSpace gA 20 "" [97] [32, 97] ["s"] wPlain p p' (by decide +kernel) (by decide +kernel)
    (by decide +kernel) hp hp' hin ns hn
  rw [hn'] at hsame
  cases hsame
  have e : ns.map (fun n => match n.eval wPlain p' with | .ok (.str b) => some b | _ => none) =
      ns.map (fun n => match n.eval wPlain p with | .ok (.str b) => some b | _ => none) :=
    List.map_congr_left fun n hn => by rw [(hboth n hn).2]
  rw [hv, hv'] at e
  simp at e

/-- non-vacuity of `C109_partial`: a space after `a` -/
example : ∃ p ns, earleyParseCtx wSpace gA 20 "" [97] ["s"] = .ok p ∧ apiParse wSpace gA 20 "" [97] ["s"] = .ok ns ∧ ns.length = 1 ∧
    apiParse wSpace gA 20 "" [97, 32] ["s"] = .ok ns ∧
    ∀ n ∈ ns, n.semantic wPlain (p.of [97, 32]) = n.semantic wPlain p ∧ n.eval wPlain (p.of [97, 32]) = n.eval wPlain p := by
  obtain ⟨p, ns, hp, hn, hv, ht⟩ := spaceAns_some space_values.1
  have htr : wSpace.trim [97, 32] = wSpace.trim [97] := by decide +kernel
  have htext : p.text = [97] := by
    have h := (C109_parses wSpace gA 20 "" ["s"] (text := [97]) (text' := [97]) rfl).1
    rw [hp] at h
    exact congrArg Parsed.text h
  refine ⟨p, ns, hp, hn, by simpa using congrArg List.length hv, (C109_trees wSpace gA 20 "" ["s"] htr).1.trans hn, fun n _ => ?_⟩
  refine C109_partial wSpace htr (by decide +kernel) (by decide +kernel) wPlain htext ?_ n
  intro t hm
  have hl : (wSpace.trim [97]).length = 1 := by decide +kernel
  have := List.mem_map_of_mem (f := fun t : Token => (t.startByte, t.endByte)) hm
  rw [ht, List.mem_singleton, Prod.mk.injEq] at this
  omega

end Fmr
