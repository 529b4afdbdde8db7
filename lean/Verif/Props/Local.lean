import Verif.Spec.Local
import Mathlib.Data.Fintype.Pigeonhole
import Verif.Props.Values
import Verif.Props.Witness

/-!
# C34–C36: regexp tags, token classes, tagged spans
-/

namespace Fmr

/-! ## C34 -/

/-- the value of `matchBounds`: -1, or one more than/the index of a fitting token -/
theorem matchBounds_spec (tokens : List Token) (m : Nat × Nat) :
    (((matchBounds tokens m).1 = -1 ∧ ∀ t ∈ tokens, t.startByte ≠ m.1) ∨
      ∃ t ∈ tokens, t.startByte = m.1 ∧ (matchBounds tokens m).1 = t.i) ∧
    (((matchBounds tokens m).2 = -1 ∧ ∀ t ∈ tokens, t.endByte ≠ m.2) ∨
      ∃ t ∈ tokens, t.endByte = m.2 ∧ (matchBounds tokens m).2 = t.i + 1) := by
  unfold matchBounds
  suffices h : ∀ (l : List Token) (acc : Int × Int),
      (((l.foldl (fun acc token =>
          (if token.startByte = m.1 then (token.i : Int) else acc.1,
           if token.endByte = m.2 then (token.i : Int) + 1 else acc.2)) acc).1 = acc.1 ∧
          ∀ t ∈ l, t.startByte ≠ m.1) ∨
        ∃ t ∈ l, t.startByte = m.1 ∧ (l.foldl (fun acc token =>
          (if token.startByte = m.1 then (token.i : Int) else acc.1,
           if token.endByte = m.2 then (token.i : Int) + 1 else acc.2)) acc).1 = t.i) ∧
      (((l.foldl (fun acc token =>
          (if token.startByte = m.1 then (token.i : Int) else acc.1,
           if token.endByte = m.2 then (token.i : Int) + 1 else acc.2)) acc).2 = acc.2 ∧
          ∀ t ∈ l, t.endByte ≠ m.2) ∨
        ∃ t ∈ l, t.endByte = m.2 ∧ (l.foldl (fun acc token =>
          (if token.startByte = m.1 then (token.i : Int) else acc.1,
           if token.endByte = m.2 then (token.i : Int) + 1 else acc.2)) acc).2 = t.i + 1) from
    h tokens (-1, -1)
  intro l
  induction l with
  | nil => intro acc; simp
  | cons x l ih =>
    intro acc
    rw [List.foldl_cons]
    obtain ⟨h1, h2⟩ := ih
      (if x.startByte = m.1 then (x.i : Int) else acc.1, if x.endByte = m.2 then (x.i : Int) + 1 else acc.2)
    constructor
    · rcases h1 with ⟨h1, h1'⟩ | ⟨t, ht, h1, h1'⟩
      · by_cases hx : x.startByte = m.1
        · exact .inr ⟨x, List.mem_cons_self, hx, by rw [h1]; simp [hx]⟩
        · refine .inl ⟨by rw [h1]; simp [hx], ?_⟩
          intro t ht
          rcases List.mem_cons.1 ht with rfl | ht
          · exact hx
          · exact h1' t ht
      · exact .inr ⟨t, List.mem_cons_of_mem _ ht, h1, h1'⟩
    · rcases h2 with ⟨h1, h1'⟩ | ⟨t, ht, h1, h1'⟩
      · by_cases hx : x.endByte = m.2
        · exact .inr ⟨x, List.mem_cons_self, hx, by rw [h1]; simp [hx]⟩
        · refine .inl ⟨by rw [h1]; simp [hx], ?_⟩
          intro t ht
          rcases List.mem_cons.1 ht with rfl | ht
          · exact hx
          · exact h1' t ht
      · exact .inr ⟨t, List.mem_cons_of_mem _ ht, h1, h1'⟩

theorem mem_regexpSpans {find regexps d sp} (h : sp ∈ regexpSpans find regexps d) :
    ∃ typ s ms m, (typ, s) ∈ regexps ∧ find s d.text = some ms ∧ m ∈ ms ∧
      sp ∈ matchSpan d.tokens typ m := by
  unfold regexpSpans at h
  split at h
  · simp at h
  · obtain ⟨⟨typ, s⟩, hmem, hsp⟩ := List.mem_flatMap.1 h
    simp only at hsp
    split at hsp
    · simp at hsp
    · rename_i ms hms
      obtain ⟨m, hm, hsp⟩ := List.mem_flatMap.1 hsp
      exact ⟨typ, s, ms, m, hmem, hms, hm, hsp⟩

/-- two tokens where the later ends not after the earlier starts -/
theorem DocOK.order {d : Doc} (h : DocOK d) {i j : Nat} {a b : Token} (ha : d.tokens[i]? = some a)
    (hb : d.tokens[j]? = some b) (hle : a.startByte ≤ b.endByte) : i ≤ j + 1 := by
  rcases Nat.lt_or_ge (j+1) i with hlt | hge
  · obtain ⟨hi, rfl⟩ := List.getElem?_eq_some_iff.1 ha
    obtain ⟨hj, rfl⟩ := List.getElem?_eq_some_iff.1 hb
    have hk : j + 1 < d.tokens.length := by omega
    have h1 := List.pairwise_iff_getElem.1 h.sorted j (j+1) hj hk (by omega)
    have h2 := List.pairwise_iff_getElem.1 h.sorted (j+1) i hk hi hlt
    have h3 := h.nonempty d.tokens[j+1] (List.getElem_mem hk)
    omega
  · exact hge

/-- the spans of regexp matches, whether or not the matches end before they start -/
theorem regexpSpans_cover (find : String → Bytes → Option (List (Nat × Nat)))
    (regexps : List (String × String)) (d : Doc) (hd : DocOK d) :
    (∀ sp ∈ regexpSpans find regexps d, ∃ typ s ms m, (typ, s) ∈ regexps ∧
      find s d.text = some ms ∧ m ∈ ms ∧ sp.ann = .map [(typ, .scalar)] ∧
      SpanCovers d sp m) ∧
    (∀ typ s ms m, (typ, s) ∈ regexps → find s d.text = some ms → m ∈ ms →
      (∃ a ∈ d.tokens, a.startByte = m.1) → (∃ b ∈ d.tokens, b.endByte = m.2) →
      ∃ sp ∈ regexpSpans find regexps d, sp.ann = .map [(typ, .scalar)] ∧ SpanCovers d sp m) := by
  constructor
  · intro sp hsp
    obtain ⟨typ, s, ms, m, h1, h2, h3, h4⟩ := mem_regexpSpans hsp
    refine ⟨typ, s, ms, m, h1, h2, h3, ?_⟩
    unfold matchSpan at h4
    simp only at h4
    split at h4
    · simp at h4
    rename_i hne
    obtain ⟨hs, he⟩ := matchBounds_spec d.tokens m
    rcases hs with ⟨hs, _⟩ | ⟨a, ha, ha1, ha2⟩
    · exact absurd (.inl hs) hne
    rcases he with ⟨he, _⟩ | ⟨b, hb, hb1, hb2⟩
    · exact absurd (.inr he) hne
    rw [List.mem_singleton] at h4
    subst h4
    obtain ⟨i, hi⟩ := List.getElem?_of_mem ha
    obtain ⟨j, hj⟩ := List.getElem?_of_mem hb
    have hai := hd.numbered i a hi
    have hbj := hd.numbered j b hj
    exact ⟨rfl, i, j, a, b, by simp [ha2, hai], by simp [hb2, hbj], hi, hj, ha1, hb1⟩
  · rintro typ s ms m h1 h2 h3 ⟨a, ha, ha1⟩ ⟨b, hb, hb1⟩
    obtain ⟨hs, he⟩ := matchBounds_spec d.tokens m
    rcases hs with ⟨_, hs⟩ | ⟨a', ha', ha1', ha2'⟩
    · exact absurd ha1 (hs a ha)
    rcases he with ⟨_, he⟩ | ⟨b', hb', hb1', hb2'⟩
    · exact absurd hb1 (he b hb)
    obtain ⟨i, hi⟩ := List.getElem?_of_mem ha'
    obtain ⟨j, hj⟩ := List.getElem?_of_mem hb'
    refine ⟨{ start := (matchBounds d.tokens m).1, stop := (matchBounds d.tokens m).2,
              ann := .map [(typ, .scalar)] }, ?_, rfl, ?_⟩
    · unfold regexpSpans
      rw [if_neg (by
        rintro (h | h)
        · rw [h] at ha; simp at ha
        · rw [h] at h1; simp at h1)]
      refine List.mem_flatMap.2 ⟨(typ, s), h1, ?_⟩
      simp only [h2]
      refine List.mem_flatMap.2 ⟨m, h3, ?_⟩
      unfold matchSpan
      simp only
      rw [if_neg (by rw [ha2', hb2']; omega)]
      exact List.mem_singleton.2 rfl
    · exact ⟨i, j, a', b', by simp [ha2', hd.numbered i a' hi], by simp [hb2', hd.numbered j b' hj],
        hi, hj, ha1', hb1'⟩

/-- C34: every span added by the regexps is named after a regexp and covers exactly a match of it,
and every match of a regexp that starts and ends on token boundaries yields a span. Matches come as
byte ranges (`m.1 ≤ m.2`), as regexp libraries return them. -/
theorem C34_regexp_spans (find : String → Bytes → Option (List (Nat × Nat)))
    (regexps : List (String × String)) (d : Doc) (hd : DocOK d)
    (hfind : ∀ s ms, find s d.text = some ms → ∀ m ∈ ms, m.1 ≤ m.2) :
    (∀ sp ∈ regexpSpans find regexps d, ∃ typ s ms m, (typ, s) ∈ regexps ∧
      find s d.text = some ms ∧ m ∈ ms ∧ sp.ann = .map [(typ, .scalar)] ∧
      SpanCovers d sp m ∧ sp.start ≤ sp.stop) ∧
    (∀ typ s ms m, (typ, s) ∈ regexps → find s d.text = some ms → m ∈ ms →
      (∃ a ∈ d.tokens, a.startByte = m.1) → (∃ b ∈ d.tokens, b.endByte = m.2) →
      ∃ sp ∈ regexpSpans find regexps d, sp.ann = .map [(typ, .scalar)] ∧ SpanCovers d sp m) := by
  obtain ⟨h1, h2⟩ := regexpSpans_cover find regexps d hd
  refine ⟨fun sp hsp => ?_, h2⟩
  obtain ⟨typ, s, ms, m, g1, g2, g3, g4, g5⟩ := h1 sp hsp
  refine ⟨typ, s, ms, m, g1, g2, g3, g4, g5, ?_⟩
  obtain ⟨i, j, a, b, e1, e2, hi, hj, ha, hb⟩ := g5
  have := hd.order hi hj (by rw [ha, hb]; exact hfind s ms g2 m g3)
  omega

/-- the document `ab 12` with its tokens -/
def dEx : Doc :=
  { text := [97, 98, 32, 49, 50],
    tokens := [{ text := "ab", type := .word, startByte := 0, endByte := 2, i := 0 },
               { text := " ", type := .space, startByte := 2, endByte := 3, i := 1 },
               { text := "12", type := .word, startByte := 3, endByte := 5, i := 2 }],
    spans := [] }

theorem dEx_ok : DocOK dEx := by
  refine ⟨?_, by decide, by decide⟩
  intro k t h
  match k with
  | 0 => simp [dEx] at h; rw [← h]
  | 1 => simp [dEx] at h; rw [← h]
  | 2 => simp [dEx] at h; rw [← h]
  | k+3 => simp [dEx] at h

/-- non-vacuity: a regexp for the whole text, one for the digits, one that cuts a token -/
example : (regexpSpans (fun s _ => if s = "all" then some [(0, 5)] else if s = "dig" then some [(3, 5)]
      else some [(0, 1)]) [("x", "all"), ("y", "dig"), ("z", "cut")] dEx).map (fun sp => (sp.start, sp.stop))
    = [(0, 3), (2, 3)] := by decide

/-! ## C35, C36: the rules of the local grammar -/

/-- rule `k` has body `rb` -/
def HasBody (rules : List (String × Rule)) (k : String) (rb : RuleBody) : Prop :=
  ∃ r, rules.lookup k = some r ∧ rb ∈ r.bodies

/-- bodies are stored under their hash -/
def Hashed (hash : RuleBody → Option Nat) (rules : List (String × Rule)) : Prop :=
  ∀ k r, rules.lookup k = some r → r.name = k ∧ ∀ e ∈ r.body, hash e.2 = some e.1

theorem mapSet_lookup {ν : Type} (m : List (String × ν)) (k : String) (v : ν) (k' : String) :
    (mapSet m k v).lookup k' = if k' = k then some v else m.lookup k' := by
  induction m with
  | nil =>
    simp only [mapSet, List.lookup_cons, List.lookup_nil]
    by_cases h : k' = k
    · simp [h]
    · simp [h, beq_eq_false_iff_ne.2 h]
  | cons e m ih =>
    obtain ⟨a, b⟩ := e
    rw [mapSet]
    by_cases ha : a = k
    · subst ha
      simp only [beq_self_eq_true, if_true, List.lookup_cons]
      by_cases h : k' = a
      · simp [h]
      · simp [h, beq_eq_false_iff_ne.2 h]
    · rw [if_neg (by simpa using ha)]
      simp only [List.lookup_cons, ih]
      by_cases h : k' = a
      · subst h; simp [ha]
      · simp [beq_eq_false_iff_ne.2 h]

theorem mem_mapSet {ν : Type} {m : List (Nat × ν)} {k : Nat} {v : ν} {e : Nat × ν}
    (h : e ∈ mapSet m k v) : e = (k, v) ∨ e ∈ m := by
  induction m with
  | nil => simp [mapSet] at h; exact .inl h
  | cons x m ih =>
    obtain ⟨a, b⟩ := x
    rw [mapSet] at h
    split at h
    · rename_i ha
      rcases List.mem_cons.1 h with rfl | h
      · simp at ha; exact .inl (by rw [ha])
      · exact .inr (List.mem_cons_of_mem _ h)
    · rcases List.mem_cons.1 h with rfl | h
      · exact .inr List.mem_cons_self
      · rcases ih h with h | h
        · exact .inl h
        · exact .inr (List.mem_cons_of_mem _ h)

theorem mapSet_mem_new {ν : Type} (m : List (Nat × ν)) (k : Nat) (v : ν) : (k, v) ∈ mapSet m k v := by
  induction m with
  | nil => simp [mapSet]
  | cons x m ih =>
    obtain ⟨a, b⟩ := x
    rw [mapSet]
    split
    · rename_i ha; simp at ha; subst ha; exact List.mem_cons_self
    · exact List.mem_cons_of_mem _ ih

theorem mapSet_mem_old {ν : Type} {m : List (Nat × ν)} {k : Nat} {v : ν} {e : Nat × ν}
    (h : e ∈ m) (hk : e.1 ≠ k) : e ∈ mapSet m k v := by
  induction m with
  | nil => simp at h
  | cons x m ih =>
    obtain ⟨a, b⟩ := x
    rw [mapSet]
    split
    · rename_i ha
      simp at ha
      rcases List.mem_cons.1 h with rfl | h
      · exact absurd ha hk
      · exact List.mem_cons_of_mem _ h
    · rcases List.mem_cons.1 h with rfl | h
      · exact List.mem_cons_self
      · exact List.mem_cons_of_mem _ (ih h)

theorem addBody_hashed {hash rules k h rb} (hh : Hashed hash rules) (hrb : hash rb = some h) :
    Hashed hash (addBody rules k h rb) := by
  intro k' r hr
  unfold addBody at hr
  cases hl : rules.lookup k with
  | some r0 =>
    rw [hl] at hr
    simp only [mapSet_lookup] at hr
    split at hr
    · rename_i hk
      cases hr
      obtain ⟨h1, h2⟩ := hh k r0 hl
      refine ⟨by rw [hk]; exact h1, ?_⟩
      intro e he
      rcases mem_mapSet he with rfl | he
      · exact hrb
      · exact h2 e he
    · exact hh k' r hr
  | none =>
    rw [hl] at hr
    simp only [mapSet_lookup] at hr
    split at hr
    · rename_i hk
      cases hr
      refine ⟨hk.symm, ?_⟩
      intro e he
      rw [List.mem_singleton.1 he]; exact hrb
    · exact hh k' r hr

/-- the hash tells the bodies of each rule apart -/
def InjOn (hash : RuleBody → Option Nat) (P : String → RuleBody → Prop) : Prop :=
  ∀ k a b h, P k a → P k b → hash a = some h → hash b = some h → a = b

/-- without collisions, adding a body adds just that body -/
theorem addBody_has {hash rules k h rb} {P : String → RuleBody → Prop} (hinj : InjOn hash P)
    (hh : Hashed hash rules) (hP : ∀ k rb, HasBody rules k rb → P k rb) (hk : P k rb)
    (hrb : hash rb = some h) (k' : String) (rb' : RuleBody) :
    HasBody (addBody rules k h rb) k' rb' ↔ HasBody rules k' rb' ∨ (k' = k ∧ rb' = rb) := by
  unfold HasBody addBody
  cases hl : rules.lookup k with
  | some r0 =>
    simp only [mapSet_lookup]
    by_cases hkk : k' = k
    · subst hkk
      simp only [if_true, Option.some.injEq, exists_eq_left', true_and, hl]
      simp only [Rule.bodies, List.mem_map]
      constructor
      · rintro ⟨e, he, rfl⟩
        rcases mem_mapSet he with rfl | he
        · exact .inr rfl
        · exact .inl ⟨e, he, rfl⟩
      · rintro (⟨e, he, rfl⟩ | rfl)
        · by_cases hek : e.1 = h
          · have : e.2 = rb := hinj k' e.2 rb h (hP k' e.2 ⟨r0, hl, List.mem_map_of_mem he⟩) hk (by rw [← hek]; exact (hh k' r0 hl).2 e he) hrb
            exact ⟨(h, rb), mapSet_mem_new _ _ _, this.symm⟩
          · exact ⟨e, mapSet_mem_old he hek, rfl⟩
        · exact ⟨(h, rb'), mapSet_mem_new _ _ _, rfl⟩
    · simp [hkk]
  | none =>
    simp only [mapSet_lookup]
    by_cases hkk : k' = k
    · subst hkk
      simp [hl, Rule.bodies]
    · simp [hkk]

/-- the body for a token of a class -/
def tokenBody (t : Token) : RuleBody := { terms := [{ value := t.text, type := .terminal }], f := none }

theorem localTokens_spec {hash} {P : String → RuleBody → Prop} (hinj : InjOn hash P) : ∀ (ts : List Token) (rules r1 : List (String × Rule)),
    Hashed hash rules → (∀ k rb, HasBody rules k rb → P k rb) →
    (∀ t ∈ ts, className t.type ≠ "" → P (className t.type) (tokenBody t)) →
    localTokens hash ts rules = .ok r1 →
    Hashed hash r1 ∧ ∀ k rb, HasBody r1 k rb ↔ HasBody rules k rb ∨
      ∃ t ∈ ts, className t.type = k ∧ k ≠ "" ∧ rb = tokenBody t := by
  intro ts
  induction ts with
  | nil =>
    intro rules r1 hh hP hN h
    simp only [localTokens, Out.ok.injEq] at h
    subst h
    exact ⟨hh, by simp⟩
  | cons t ts ih =>
    intro rules r1 hh hP hN h
    rw [localTokens] at h
    simp only at h
    split at h
    · rename_i hk
      split at h
      · simp at h
      rename_i hv hrb
      have hPt : P (className t.type) (tokenBody t) := hN t List.mem_cons_self hk
      have hadd := addBody_has hinj hh hP hPt hrb
      obtain ⟨h1, h2⟩ := ih _ _ (addBody_hashed hh hrb) (fun k' rb' h' => by
        rcases (hadd k' rb').1 h' with h' | ⟨rfl, rfl⟩
        · exact hP _ _ h'
        · exact hPt) (fun t' ht' => hN t' (List.mem_cons_of_mem _ ht')) h
      refine ⟨h1, fun k rb => ?_⟩
      rw [h2]
      refine (or_congr (hadd k rb) Iff.rfl).trans ?_
      constructor
      · rintro ((h | ⟨rfl, rfl⟩) | ⟨t', ht', h⟩)
        · exact .inl h
        · exact .inr ⟨t, List.mem_cons_self, rfl, hk, rfl⟩
        · exact .inr ⟨t', List.mem_cons_of_mem _ ht', h⟩
      · rintro (h | ⟨t', ht', hcl, hne, hrb'⟩)
        · exact .inl (.inl h)
        · rcases List.mem_cons.1 ht' with rfl | ht'
          · exact .inl (.inr ⟨hcl.symm, hrb'⟩)
          · exact .inr ⟨t', ht', hcl, hne, hrb'⟩
    · rename_i hk
      simp only [ne_eq, Decidable.not_not] at hk
      obtain ⟨h1, h2⟩ := ih _ _ hh hP (fun t' ht' => hN t' (List.mem_cons_of_mem _ ht')) h
      refine ⟨h1, fun k rb => ?_⟩
      rw [h2]
      constructor
      · rintro (h | ⟨t', ht', h⟩)
        · exact .inl h
        · exact .inr ⟨t', List.mem_cons_of_mem _ ht', h⟩
      · rintro (h | ⟨t', ht', h, hne, hrb'⟩)
        · exact .inl h
        · rcases List.mem_cons.1 ht' with rfl | ht'
          · exact absurd (h.symm.trans hk) hne
          · exact .inr ⟨t', ht', h, hne, hrb'⟩

theorem spanRules_spec {hash} {P : String → RuleBody → Prop} (hinj : InjOn hash P) (sp : Span) (terms : List Term) :
    ∀ (m : List (String × SpanVals)) (rules r1 : List (String × Rule)),
    Hashed hash rules → (∀ k rb, HasBody rules k rb → P k rb) →
    (∀ k vs, (k, vs) ∈ m → P k { terms := terms, f := spanFmr sp k vs }) →
    spanRules hash sp terms m rules = .ok r1 →
    Hashed hash r1 ∧ ∀ k rb, HasBody r1 k rb ↔ HasBody rules k rb ∨
      ∃ vs, (k, vs) ∈ m ∧ rb = { terms := terms, f := spanFmr sp k vs } := by
  intro m
  induction m with
  | nil =>
    intro rules r1 hh hP hN h
    simp only [spanRules, Out.ok.injEq] at h
    subst h
    exact ⟨hh, by simp⟩
  | cons e m ih =>
    intro rules r1 hh hP hN h
    obtain ⟨k0, vs0⟩ := e
    rw [spanRules] at h
    split at h
    · simp at h
    rename_i hv hrb
    have hPt := hN k0 vs0 List.mem_cons_self
    have hadd := addBody_has hinj hh hP hPt hrb
    obtain ⟨h1, h2⟩ := ih _ _ (addBody_hashed hh hrb) (fun k' rb' h' => by
      rcases (hadd k' rb').1 h' with h' | ⟨rfl, rfl⟩
      · exact hP _ _ h'
      · exact hPt) (fun k vs h' => hN k vs (List.mem_cons_of_mem _ h')) h
    refine ⟨h1, fun k rb => ?_⟩
    rw [h2, hadd]
    constructor
    · rintro ((h | ⟨rfl, rfl⟩) | ⟨vs, hvs, h⟩)
      · exact .inl h
      · exact .inr ⟨vs0, List.mem_cons_self, rfl⟩
      · exact .inr ⟨vs, List.mem_cons_of_mem _ hvs, h⟩
    · rintro (h | ⟨vs, hvs, h⟩)
      · exact .inl (.inl h)
      · rcases List.mem_cons.1 hvs with e | hvs
        · cases e; exact .inl (.inr ⟨rfl, h⟩)
        · exact .inr ⟨vs, hvs, h⟩

theorem localSpans_spec {hash} {P : String → RuleBody → Prop} (hinj : InjOn hash P) (d : Doc) :
    ∀ (sps : List Span) (rules r1 : List (String × Rule)),
    Hashed hash rules → (∀ k rb, HasBody rules k rb → P k rb) →
    (∀ sp ∈ sps, ∀ m, sp.ann = .map m → ∀ k vs, (k, vs) ∈ m → ∀ terms,
      spanTerms d sp.start (sp.stop - sp.start).toNat = .ok terms → P k { terms := terms, f := spanFmr sp k vs }) →
    localSpans hash d sps rules = .ok r1 →
    Hashed hash r1 ∧ ∀ k rb, HasBody r1 k rb ↔ HasBody rules k rb ∨
      ∃ sp ∈ sps, ∃ m, sp.ann = .map m ∧ ∃ vs, (k, vs) ∈ m ∧
        ∃ terms, spanTerms d sp.start (sp.stop - sp.start).toNat = .ok terms ∧
          rb = { terms := terms, f := spanFmr sp k vs } := by
  intro sps
  induction sps with
  | nil =>
    intro rules r1 hh hP hN h
    simp only [localSpans, Out.ok.injEq] at h
    subst h
    exact ⟨hh, by simp⟩
  | cons sp sps ih =>
    intro rules r1 hh hP hN h
    rw [localSpans] at h
    have skip : (∀ m, sp.ann ≠ .map m) → localSpans hash d sps rules = .ok r1 →
        Hashed hash r1 ∧ ∀ k rb, HasBody r1 k rb ↔ HasBody rules k rb ∨
        ∃ s ∈ sp :: sps, ∃ m, s.ann = .map m ∧ ∃ vs, (k, vs) ∈ m ∧
          ∃ terms, spanTerms d s.start (s.stop - s.start).toNat = .ok terms ∧
            rb = { terms := terms, f := spanFmr s k vs } := by
      intro hno h
      obtain ⟨h1, h2⟩ := ih _ _ hh hP (fun s hs => hN s (List.mem_cons_of_mem _ hs)) h
      refine ⟨h1, fun k rb => ?_⟩
      rw [h2]
      constructor
      · rintro (h | ⟨s, hs, h⟩)
        · exact .inl h
        · exact .inr ⟨s, List.mem_cons_of_mem _ hs, h⟩
      · rintro (h | ⟨s, hs, m, hm, h⟩)
        · exact .inl h
        · rcases List.mem_cons.1 hs with rfl | hs
          · exact absurd hm (hno m)
          · exact .inr ⟨s, hs, m, hm, h⟩
    split at h
    · rename_i ha; exact skip (by simp [ha]) h
    · rename_i ha; exact skip (by simp [ha]) h
    · rename_i m ha
      obtain ⟨terms, ht, h⟩ := Out.bind_eq_ok.1 h
      obtain ⟨r0, hr0, h⟩ := Out.bind_eq_ok.1 h
      have hPt : ∀ k vs, (k, vs) ∈ m → P k { terms := terms, f := spanFmr sp k vs } :=
        fun k vs hk => hN sp List.mem_cons_self m ha k vs hk terms ht
      obtain ⟨g1, g2⟩ := spanRules_spec hinj sp terms m rules r0 hh hP hPt hr0
      obtain ⟨h1, h2⟩ := ih _ _ g1 (fun k rb h' => by
        rcases (g2 k rb).1 h' with h' | ⟨vs, hvs, rfl⟩
        · exact hP _ _ h'
        · exact hPt k vs hvs) (fun s hs => hN s (List.mem_cons_of_mem _ hs)) h
      refine ⟨h1, fun k rb => ?_⟩
      rw [h2, g2]
      constructor
      · rintro ((h | ⟨vs, hvs, h⟩) | ⟨s, hs, h⟩)
        · exact .inl h
        · exact .inr ⟨sp, List.mem_cons_self, m, ha, vs, hvs, terms, ht, h⟩
        · exact .inr ⟨s, List.mem_cons_of_mem _ hs, h⟩
      · rintro (h | ⟨s, hs, m', hm', vs, hvs, terms', ht', h⟩)
        · exact .inl (.inl h)
        · rcases List.mem_cons.1 hs with rfl | hs
          · rw [ha] at hm'; cases hm'
            rw [ht] at ht'; cases ht'
            exact .inl (.inr ⟨vs, hvs, h⟩)
          · exact .inr ⟨s, hs, m', hm', vs, hvs, terms', ht', h⟩

theorem hashed_nil (hash) : Hashed hash [] := by intro k r h; simp at h

theorem HasBody.nil {k rb} : ¬ HasBody [] k rb := by rintro ⟨r, h, _⟩; simp at h

/-- `rb` is an alternative that the document gives to rule `k`: the text of a token of class `k`, or the
tokens of a span tagged `k` (bodies are listed by content). -/
def DocBody (find : String → Bytes → Option (List (Nat × Nat))) (regexps : List (String × String)) (d : Doc)
    (k : String) (rb : RuleBody) : Prop :=
  (∃ t ∈ d.tokens, className t.type = k ∧ k ≠ "" ∧ rb = tokenBody t) ∨
  ∃ sp ∈ (regexpTag find regexps d).spans, ∃ m, sp.ann = .map m ∧ ∃ vs, (k, vs) ∈ m ∧
    ∃ terms, spanTerms d sp.start (sp.stop - sp.start).toNat = .ok terms ∧
      rb = { terms := terms, f := spanFmr sp k vs }

/-- No two different alternatives that the document gives to one rule have the same hash. -/
def NoDocCollision (hash : RuleBody → Option Nat) (find : String → Bytes → Option (List (Nat × Nat)))
    (regexps : List (String × String)) (d : Doc) : Prop :=
  InjOn hash (DocBody find regexps d)

theorem HashInj.noDocCollision {hash : RuleBody → Option Nat} (h : HashInj hash) (find regexps d) :
    NoDocCollision hash find regexps d := fun _ a b k _ _ => h a b k

/-- The rules of the local grammar, exactly: one body per token of a class and one per annotation of
a span (bodies are listed by content). A nil local grammar has no rules. -/
theorem localGrammar_rules {hash find regexps d l} (hinj : NoDocCollision hash find regexps d)
    (h : localGrammar hash find regexps d = .ok l) (k : String) (rb : RuleBody) :
    HasBody ((l.map (·.rules)).getD []) k rb ↔ DocBody find regexps d k rb := by
  have hst : ∀ n (s : Int), spanTerms (regexpTag find regexps d) s n = spanTerms d s n := by
    intro n
    induction n with
    | zero => intro s; rfl
    | succ n ih => intro s; simp only [spanTerms, ih]; rfl
  unfold localGrammar at h
  simp only at h
  split at h
  · rename_i he
    simp only [Out.ok.injEq] at h
    subst h
    have h1 : d.tokens = [] := List.length_eq_zero_iff.1 he.2
    have h2 := List.length_eq_zero_iff.1 he.1
    constructor
    · intro h; exact absurd h HasBody.nil
    · rintro (⟨t, ht, _⟩ | ⟨sp, hsp, _⟩)
      · rw [h1] at ht; simp at ht
      · rw [h2] at hsp; simp at hsp
  · obtain ⟨r1, h1, h⟩ := Out.bind_eq_ok.1 h
    obtain ⟨r2, h2, h⟩ := Out.bind_eq_ok.1 h
    obtain ⟨a1, a2⟩ := localTokens_spec hinj _ _ _ (hashed_nil hash) (fun _ _ h => absurd h HasBody.nil)
      (fun t ht hc => .inl ⟨t, ht, rfl, hc, rfl⟩) h1
    obtain ⟨b1, b2⟩ := localSpans_spec hinj _ _ _ _ a1 (fun k rb h => by
        rcases (a2 k rb).1 h with h | h
        · exact absurd h HasBody.nil
        · exact .inl h)
      (fun sp hsp m hm k vs hk terms ht => .inr ⟨sp, hsp, m, hm, vs, hk, terms, (hst _ _).symm.trans ht, rfl⟩) h2
    simp only [Out.pure_eq, Out.ok.injEq] at h
    have hrules : (l.map (·.rules)).getD [] = r2 := by
      rw [← h]
      split
      · rename_i h0; simp [List.length_eq_zero_iff.1 h0]
      · rfl
    rw [hrules, b2, a2]
    simp only [hst]
    constructor
    · rintro ((h | h) | h)
      · exact absurd h HasBody.nil
      · exact .inl h
      · exact .inr h
    · rintro (h | h)
      · exact .inl (.inr h)
      · exact .inr h

theorem soloEnv_defines {g : Grammar} {tmatch A rb} :
    (soloEnv g tmatch).Defines A rb ↔ HasBody g.rules A rb := by
  unfold Env.Defines soloEnv HasBody
  simp

theorem derives_iff {env : Env} {S w} : Derives env S w ↔
    ∃ rb, env.Defines S rb ∧ Yields env.lang rb.terms w := by
  unfold Derives
  constructor
  · intro h
    generalize hts : [({ value := S, type := .nonterminal, «meta» := .nil } : Term)] = ts at h
    cases h with
    | nil => simp at hts
    | terminal h1 => simp at hts; rw [← hts.1] at h1; simp at h1
    | nonterminal h1 h2 h3 h4 =>
      simp at hts
      obtain ⟨rb, hd, rfl⟩ := h2
      rw [← hts.1] at hd
      rw [hts.2] at h4
      cases h4
      rw [List.append_nil]
      exact ⟨rb, hd, h3⟩
    | any h1 => simp at hts; rw [← hts.1] at h1; simp at h1
    | list h1 => simp at hts; rw [← hts.1] at h1; simp at h1
  · rintro ⟨rb, hd, h⟩
    have := Yields.nonterminal (L := env.lang) (ts := [])
      (t := { value := S, type := .nonterminal, «meta» := .nil }) rfl ⟨rb, hd, rfl⟩ h Yields.nil
    rwa [List.append_nil] at this

/-- plain terminals derive exactly the sequence of their texts -/
theorem yields_texts {L : Lang} (hL : ∀ t a, t.type = .terminal → t.meta = .nil →
      (L.tmatch t a = true ↔ t.value = a.text)) :
    ∀ (ts : List Term) (w : List Token), (∀ t ∈ ts, t.type = .terminal ∧ t.meta = .nil) →
    (Yields L ts w ↔ ts.map (·.value) = w.map (·.text)) := by
  intro ts
  induction ts with
  | nil =>
    intro w _
    constructor
    · intro h; cases h; rfl
    · intro h
      have : w = [] := by simpa using h.symm
      subst this; exact .nil
  | cons t ts ih =>
    intro w hts
    have ht := hts t List.mem_cons_self
    have ih := fun w => ih w (fun t ht => hts t (List.mem_cons_of_mem _ ht))
    constructor
    · intro h
      cases h with
      | terminal h1 h2 h3 =>
        rw [List.map_cons, List.map_cons, (ih _).1 h3, (hL _ _ ht.1 ht.2).1 h2]
      | nonterminal h1 => rw [ht.1] at h1; simp at h1
      | any h1 => rw [ht.1] at h1; simp at h1
      | list h1 => rw [ht.1] at h1; simp at h1
    · intro h
      cases w with
      | nil => simp at h
      | cons a w =>
        simp only [List.map_cons, List.cons.injEq] at h
        exact .terminal ht.1 ((hL _ _ ht.1 ht.2).2 h.1) ((ih w).2 h.2)

theorem terminalMatch_plain (lower reg) (t : Term) (a : Token) (h1 : t.type = .terminal)
    (h2 : t.meta = .nil) : terminalMatch lower reg t a = true ↔ t.value = a.text := by
  unfold terminalMatch
  simp [h1, h2]

/-- C35 as claimed, for one hash function. -/
def C35_statement (hash : RuleBody → Option Nat) : Prop :=
  ∀ (find : String → Bytes → Option (List (Nat × Nat))) (regexps : List (String × String)) (d : Doc)
    (l : Grammar) (lower : String → String) (reg : String → Option Token) (ty : TokType) (a : Token),
    className ty ≠ "" → d.spans = [] → regexps = [] →
    localGrammar hash find regexps d = .ok (some l) →
    (Derives (soloEnv l (terminalMatch lower reg)) (className ty) [a] ↔
      ∃ t ∈ d.tokens, t.type = ty ∧ t.text = a.text)

theorem className_inj {a b : TokType} (h : className a ≠ "") (e : className a = className b) : a = b := by
  cases a <;> cases b <;> simp_all [className]

/-- C35: a rule `<word>`, `<punct>`, `<symbol>`, `<letters>` derives a token iff the text has a token of
this class with the same text - provided the hash has no collisions and no tagged span is named like
the class. (Missing: hash collisions, for which it is false, `C35_false`.) -/
theorem C35_partial (hash : RuleBody → Option Nat)
    (find : String → Bytes → Option (List (Nat × Nat))) (regexps : List (String × String)) (d : Doc)
    (hinj : NoDocCollision hash find regexps d) (l : Grammar) (lower : String → String) (reg : String → Option Token) (ty : TokType) (w : List Token)
    (hty : className ty ≠ "")
    (hno : ∀ sp ∈ (regexpTag find regexps d).spans, ∀ m, sp.ann = .map m → ∀ vs, (className ty, vs) ∉ m)
    (h : localGrammar hash find regexps d = .ok (some l)) :
    Derives (soloEnv l (terminalMatch lower reg)) (className ty) w ↔
      ∃ t ∈ d.tokens, t.type = ty ∧ [t.text] = w.map (·.text) := by
  rw [derives_iff]
  constructor
  · rintro ⟨rb, hd, hy⟩
    rw [soloEnv_defines] at hd
    rcases (localGrammar_rules hinj h _ _).1 hd with ⟨t, ht, h1, h2, rfl⟩ | ⟨sp, hsp, m, hm, vs, hvs, _⟩
    · refine ⟨t, ht, className_inj (by rw [h1]; exact hty) h1, ?_⟩
      have := (yields_texts (L := (soloEnv l (terminalMatch lower reg)).lang)
        (fun t a => terminalMatch_plain lower reg t a) (tokenBody t).terms w (by simp [tokenBody])).1 hy
      simpa [tokenBody] using this
    · exact absurd hvs (hno sp hsp m hm vs)
  · rintro ⟨t, ht, rfl, hw⟩
    refine ⟨tokenBody t, soloEnv_defines.2 ((localGrammar_rules hinj h _ _).2
      (.inl ⟨t, ht, rfl, hty, rfl⟩)), ?_⟩
    exact (yields_texts (L := (soloEnv l (terminalMatch lower reg)).lang)
        (fun t a => terminalMatch_plain lower reg t a) (tokenBody t).terms w (by simp [tokenBody])).2
        (by simpa [tokenBody] using hw)

/-- the string of `n` letters `a` -/
def manyA (n : Nat) : String := String.ofList (List.replicate n 'a')

theorem manyA_inj {m n : Nat} (h : manyA m = manyA n) : m = n := by
  have := congrArg (fun s => s.toList.length) h
  simpa [manyA] using this

/-- C35 fails for every 64 bit hash function that accepts rule bodies: some document has two different
words with the same hash, and the first is forgotten. -/
theorem C35_false (hash : RuleBody → Option Nat) (h64 : ∀ rb, ∃ h < 2^64, hash rb = some h) :
    ¬ C35_statement hash := by
  intro hall
  let body : Nat → RuleBody := fun n => tokenBody (tk (manyA n))
  let f : Nat → Fin (2^64) := fun n => ⟨(h64 (body n)).choose, (h64 (body n)).choose_spec.1⟩
  have hf : ∀ n, hash (body n) = some (f n).val := fun n => (h64 (body n)).choose_spec.2
  obtain ⟨a, b, hne, heq⟩ := Finite.exists_ne_map_eq_of_infinite f
  have hb := hf b
  have ha := hf a
  rw [heq] at ha
  let d : Doc := { text := [], tokens := [tk (manyA a), tk (manyA b)], spans := [] }
  let l : Grammar := { name := "local", rules := [("word", { name := "word", body := [((f b).val, body b)] })] }
  have hl : localGrammar hash (fun _ _ => none) [] d = .ok (some l) := by
    have hla : hash { terms := [{ value := manyA a, type := .terminal }], f := none } = some (f b).val := ha
    have hlb : hash { terms := [{ value := manyA b, type := .terminal }], f := none } = some (f b).val := hb
    simp only [localGrammar, regexpTag, regexpSpans, d, or_true, if_true, List.append_nil, List.length_nil,
      List.length_cons, true_and]
    rw [if_neg (by simp)]
    simp only [localTokens, className, hla, hlb, ne_eq, String.reduceEq, not_false_eq_true, if_true,
      Out.bind_ok, localSpans, Out.pure_eq]
    simp [addBody, mapSet, l, body, tokenBody]
  have := hall (fun _ _ => none) [] d l id (fun _ => none) .word (tk (manyA a)) (by simp [className]) rfl rfl hl
  have h2 := this.2 ⟨tk (manyA a), by simp [d], rfl, rfl⟩
  rw [derives_iff] at h2
  obtain ⟨rb, hd, hy⟩ := h2
  rw [soloEnv_defines] at hd
  obtain ⟨r, hr, hrb⟩ := hd
  have hr' : r = { name := "word", body := [((f b).val, body b)] } := by
    simpa [l, className] using hr.symm
  subst hr'
  have hrb' : rb = body b := by simpa [Rule.bodies] using hrb
  subst hrb'
  have := (yields_texts (L := (soloEnv l (terminalMatch id (fun _ => none))).lang)
        (fun t a => terminalMatch_plain id (fun _ => none) t a) (body b).terms _
          (by simp [body, tokenBody])).1 hy
  simp [body, tokenBody] at this
  exact hne (manyA_inj this).symm

/-- terms of a span inside the document -/
theorem spanTerms_ok {d : Doc} : ∀ (n : Nat) (s : Nat), s + n ≤ d.tokens.length →
    spanTerms d s n = .ok (((d.tokens.drop s).take n).map
      (fun t => { value := t.text, type := .terminal })) := by
  intro n
  induction n with
  | zero => intro s _; simp [spanTerms]
  | succ n ih =>
    intro s h
    rw [spanTerms]
    have hlt : s < d.tokens.length := by omega
    rw [if_neg (by omega), Int.toNat_natCast]
    have hidx : d.tokens[s]? = some d.tokens[s] := List.getElem?_eq_getElem hlt
    rw [hidx]
    simp only
    have := ih (s+1) (by omega)
    have hc : ((s : Int) + 1) = ((s + 1 : Nat) : Int) := by omega
    rw [hc, this]
    simp only [Out.bind_ok, Out.pure_eq, Out.ok.injEq]
    rw [List.drop_eq_getElem_cons hlt, List.take_succ_cons, List.map_cons]

/-- C36 as claimed: the tokens of a tagged span - as the parser sees them, without spaces - are derived
by the span's rule. -/
def C36_statement : Prop :=
  ∀ (hash : RuleBody → Option Nat) (find : String → Bytes → Option (List (Nat × Nat)))
    (regexps : List (String × String)) (d : Doc) (l : Grammar) (lower : String → String)
    (reg : String → Option Token) (sp : Span) (m : List (String × SpanVals)) (k : String) (vs : SpanVals),
    HashInj hash → localGrammar hash find regexps d = .ok (some l) →
    sp ∈ (regexpTag find regexps d).spans → sp.ann = .map m → (k, vs) ∈ m →
    0 ≤ sp.start → sp.start ≤ sp.stop → sp.stop ≤ d.tokens.length →
    Derives (soloEnv l (terminalMatch lower reg)) k
      ((spanTokens d sp).filter (fun t => t.type ≠ .space))

/-- C36: the rule of a tagged span derives the token sequence of the span, if the hash has no
collisions. Hence spans without space tokens are recognised. (Missing: spans with space tokens,
`C36_false`.) -/
theorem C36_partial (hash : RuleBody → Option Nat)
    (find : String → Bytes → Option (List (Nat × Nat))) (regexps : List (String × String)) (d : Doc)
    (hinj : NoDocCollision hash find regexps d) (l : Grammar) (lower : String → String) (reg : String → Option Token) (sp : Span)
    (m : List (String × SpanVals)) (k : String) (vs : SpanVals)
    (h : localGrammar hash find regexps d = .ok (some l))
    (hsp : sp ∈ (regexpTag find regexps d).spans) (hm : sp.ann = .map m) (hk : (k, vs) ∈ m)
    (h0 : 0 ≤ sp.start) (h1 : sp.start ≤ sp.stop) (h2 : sp.stop ≤ d.tokens.length) :
    Derives (soloEnv l (terminalMatch lower reg)) k (spanTokens d sp) ∧
    ((∀ t ∈ spanTokens d sp, t.type ≠ .space) →
      Derives (soloEnv l (terminalMatch lower reg)) k
        ((spanTokens d sp).filter (fun t => t.type ≠ .space))) := by
  have key : Derives (soloEnv l (terminalMatch lower reg)) k (spanTokens d sp) := by
    rw [derives_iff]
    obtain ⟨s, hs⟩ := Int.eq_ofNat_of_zero_le h0
    have ht := spanTerms_ok (d := d) (sp.stop - sp.start).toNat s (by omega)
    rw [← hs] at ht
    refine ⟨_, soloEnv_defines.2 ((localGrammar_rules hinj h _ _).2
      (.inr ⟨sp, hsp, m, hm, vs, hk, _, ht, rfl⟩)), ?_⟩
    refine (yields_texts (L := (soloEnv l (terminalMatch lower reg)).lang)
        (fun t a => terminalMatch_plain lower reg t a) _ _ (by
          intro t ht
          obtain ⟨x, _, rfl⟩ := List.mem_map.1 ht
          exact ⟨rfl, rfl⟩)).2 ?_
    rw [List.map_map, spanTokens, hs, Int.toNat_natCast]
    rfl
  refine ⟨key, fun hns => ?_⟩
  rw [List.filter_eq_self.2 (by simpa using hns)]
  exact key

def exB0 : RuleBody := tokenBody (tk "ab")
def exB1 : RuleBody := tokenBody (tk "12")
def exB2 : RuleBody := { terms := [tt "ab", tt " ", tt "12"], f := none }
/-- the local grammar of `dEx` with a regexp `x` that matches all of it -/
def exLocal : Grammar := { name := "local", rules := [
    ("word", { name := "word", body := [(0, exB0), (1, exB1)] }), ("x", { name := "x", body := [(2, exB2)] })] }
def exFind : String → Bytes → Option (List (Nat × Nat)) := fun _ _ => some [(0, 5)]
def exSpan : Span := { start := 0, stop := 3, ann := .map [("x", .scalar)] }

/-- a hash without collisions (one that accepts just the bodies of this document) for which the local
grammar of `dEx` is built -/
theorem exLocal_built : ∃ hash, HashInj hash ∧ localGrammar hash exFind [("x", "re")] dEx = .ok (some exLocal) ∧
    regexpTag exFind [("x", "re")] dEx = { dEx with spans := [exSpan] } := by
  let b0 := exB0
  let b1 := exB1
  let b2 := exB2
  classical
  let hash : RuleBody → Option Nat := fun rb =>
    if rb = b0 then some 0 else if rb = b1 then some 1 else if rb = b2 then some 2 else none
  have h01 : b1 ≠ b0 := by simp [b0, b1, exB0, exB1, tokenBody]
  have h20 : b2 ≠ b0 := by simp [b0, b2, exB0, exB2, tokenBody]
  have h21 : b2 ≠ b1 := by simp [b1, b2, exB1, exB2, tokenBody]
  have hinv : ∀ rb h, hash rb = some h → rb = if h = 0 then b0 else if h = 1 then b1 else b2 := by
    intro rb h hrb
    simp only [hash] at hrb
    split at hrb
    · rename_i e; cases hrb; simp [e]
    · split at hrb
      · rename_i e; cases hrb; simp [e]
      · split at hrb
        · rename_i e; cases hrb; simp [e]
        · simp at hrb
  have hinj : HashInj hash := fun a b h ha hb => (hinv a h ha).trans (hinv b h hb).symm
  let find := exFind
  let l := exLocal
  have hh0 : hash { terms := [{ value := "ab", type := .terminal }], f := none } = some 0 := if_pos rfl
  have hh1 : hash { terms := [{ value := "12", type := .terminal }], f := none } = some 1 := by
    show (if b1 = b0 then some 0 else if b1 = b1 then some 1 else if b1 = b2 then some 2 else none) = some 1
    rw [if_neg h01, if_pos rfl]
  have hh2 : hash { terms := [tt "ab", tt " ", tt "12"], f := none } = some 2 := by
    show (if b2 = b0 then some 0 else if b2 = b1 then some 1 else if b2 = b2 then some 2 else none) = some 2
    rw [if_neg h20, if_neg h21, if_pos rfl]
  let sp := exSpan
  have htag : regexpTag find [("x", "re")] dEx = { dEx with spans := [sp] } := by
    simp [regexpTag, regexpSpans, find, exFind, dEx, matchSpan, matchBounds, sp, exSpan]
  have hl : localGrammar hash find [("x", "re")] dEx = .ok (some l) := by
    unfold localGrammar
    simp only [htag]
    rw [if_neg (by simp)]
    have ht : localTokens hash dEx.tokens [] = .ok [("word", { name := "word", body := [(0, b0), (1, b1)] })] := by
      simp only [dEx, localTokens, className, hh0, hh1]
      simp [addBody, mapSet, b0, b1, exB0, exB1, tokenBody]
    have hs : ∀ sps, spanTerms { text := dEx.text, tokens := dEx.tokens, spans := sps } 0 3 =
        .ok [tt "ab", tt " ", tt "12"] := by
      intro sps; simp [spanTerms, dEx]
    rw [ht]
    simp only [Out.bind_ok, localSpans, sp, exSpan]
    rw [show ((3 : Int) - 0).toNat = 3 from rfl, hs]
    simp only [Out.bind_ok, spanRules, spanFmr, hh2]
    have hx : List.lookup "x" [("word", ({ name := "word", body := [(0, b0), (1, b1)] } : Rule))] = none := rfl
    simp [addBody, hx, mapSet, l, exLocal, exB2, b0, b1]
  exact ⟨hash, hinj, hl, htag⟩

/-- non-vacuity of C35, C36 -/
example : ∃ hash, HashInj hash ∧ localGrammar hash exFind [("x", "re")] dEx = .ok (some exLocal) ∧
    exSpan ∈ (regexpTag exFind [("x", "re")] dEx).spans ∧ 0 ≤ exSpan.start ∧ exSpan.start ≤ exSpan.stop ∧
    exSpan.stop ≤ dEx.tokens.length := by
  obtain ⟨hash, h1, h2, h3⟩ := exLocal_built
  exact ⟨hash, h1, h2, by rw [h3]; simp, by simp [exSpan], by simp [exSpan], by simp [exSpan, dEx]⟩

/-- C36 fails: for the text `ab 12` and a span over all of it, the rule is `"ab" " " "12"`, but the
parser sees the tokens `ab`, `12`. -/
theorem C36_false : ¬ C36_statement := by
  intro hall
  obtain ⟨hash, hinj, hl, htag⟩ := exLocal_built
  have := hall hash exFind [("x", "re")] dEx exLocal id (fun _ => none) exSpan [("x", .scalar)] "x" .scalar hinj hl
    (by rw [htag]; simp) rfl (by simp) (by simp [exSpan]) (by simp [exSpan]) (by simp [exSpan, dEx])
  rw [derives_iff] at this
  obtain ⟨rb, hd, hy⟩ := this
  rw [soloEnv_defines] at hd
  obtain ⟨r, hr, hrb⟩ := hd
  have hr' : r = { name := "x", body := [(2, exB2)] } := (Option.some.inj hr).symm
  subst hr'
  have hrb' : rb = exB2 := by simpa [Rule.bodies] using hrb
  subst hrb'
  have := (yields_texts (L := (soloEnv exLocal (terminalMatch id (fun _ => none))).lang)
        (fun t a => terminalMatch_plain id (fun _ => none) t a) exB2.terms _ (by simp [exB2])).1 hy
  simp [exB2, spanTokens, exSpan, dEx] at this

end Fmr
