import Verif.Proofs.LexerFwd
import Verif.Proofs.Maps

/-!
# The rule maps built from a list of definitions
-/

namespace Fmr

section
variable {w : LexWorld}

/-- a body map holds exactly the bodies satisfying `P` -/
def BodyIs (hash : RuleBody → Option Nat) (P : RuleBody → Prop) (m : List (Nat × RuleBody)) : Prop :=
  KeysNodup m ∧ ∀ h b, (h, b) ∈ m ↔ hash b = some h ∧ P b

theorem BodyIs.mapSets {hash : RuleBody → Option Nat} {P : RuleBody → Prop} {m l : List (Nat × RuleBody)}
    (hm : BodyIs hash P m) (hl : ∀ e ∈ l, hash e.2 = some e.1)
    (hinj : ∀ b b', (P b ∨ ∃ h, (h, b) ∈ l) → (P b' ∨ ∃ h, (h, b') ∈ l) → hash b = hash b' → b = b') :
    BodyIs hash (fun b => P b ∨ ∃ h, (h, b) ∈ l) (mapSets m l) := by
  induction l generalizing m P with
  | nil =>
    refine ⟨hm.1, fun h b => ?_⟩
    simpa [Fmr.mapSets] using hm.2 h b
  | cons e l ih =>
    obtain ⟨k, b0⟩ := e
    have h0 : hash b0 = some k := hl _ List.mem_cons_self
    have step : BodyIs hash (fun b => P b ∨ b = b0) (mapSet m k b0) := by
      refine ⟨hm.1.mapSet k b0, fun h b => ?_⟩
      rw [← (hm.1.mapSet k b0).lookup, lookup_mapSet]
      by_cases hk : h = k
      · subst hk
        rw [if_pos rfl]
        constructor
        · intro e
          cases e
          exact ⟨h0, .inr rfl⟩
        · rintro ⟨e1, e2⟩
          refine congrArg some (hinj b0 b (.inr ⟨h, List.mem_cons_self⟩) ?_ (h0.trans e1.symm))
          rcases e2 with e2 | e2
          · exact .inl e2
          · exact .inr ⟨h, by rw [e2]; exact List.mem_cons_self⟩
      · rw [if_neg hk, hm.1.lookup, hm.2]
        constructor
        · rintro ⟨e1, e2⟩
          exact ⟨e1, .inl e2⟩
        · rintro ⟨e1, e2 | rfl⟩
          · exact ⟨e1, e2⟩
          · rw [h0] at e1
            cases e1
            exact absurd rfl hk
    have hiff : ∀ b, ((P b ∨ b = b0) ∨ ∃ h, (h, b) ∈ l) ↔ (P b ∨ ∃ h, (h, b) ∈ (k, b0) :: l) := by
      intro b
      constructor
      · rintro ((h | rfl) | ⟨h, hb⟩)
        · exact .inl h
        · exact .inr ⟨k, List.mem_cons_self⟩
        · exact .inr ⟨h, List.mem_cons_of_mem _ hb⟩
      · rintro (h | ⟨h, hb⟩)
        · exact .inl (.inl h)
        · rcases List.mem_cons.mp hb with e | hb
          · cases e; exact .inl (.inr rfl)
          · exact .inr ⟨h, hb⟩
    have := ih step (fun e he => hl e (List.mem_cons_of_mem _ he))
      (fun b b' h h' => hinj b b' ((hiff b).mp h) ((hiff b').mp h'))
    refine ⟨this.1, fun h b => ?_⟩
    show (h, b) ∈ Fmr.mapSets (mapSet m k b0) l ↔ _
    rw [this.2]
    exact and_congr_right fun _ => hiff b

theorem keyed_spec {bs : List RuleBody} {kb : List (Nat × RuleBody)} (h : keyed w bs = some kb) :
    (∀ e ∈ kb, w.hash e.2 = some e.1) ∧ ∀ b, b ∈ bs ↔ ∃ k, (k, b) ∈ kb := by
  induction bs generalizing kb with
  | nil =>
    cases h
    simp
  | cons b0 bs ih =>
    obtain ⟨k, l, h1, h2, rfl⟩ := keyed_cons h
    obtain ⟨i1, i2⟩ := ih h2
    refine ⟨fun e he => ?_, fun b => ?_⟩
    · rcases List.mem_cons.mp he with rfl | he
      · exact h1
      · exact i1 e he
    · rw [List.mem_cons, i2]
      constructor
      · rintro (rfl | ⟨k', hb⟩)
        · exact ⟨k, List.mem_cons_self⟩
        · exact ⟨k', List.mem_cons_of_mem _ hb⟩
      · rintro ⟨k', hb⟩
        rcases List.mem_cons.mp hb with e | hb
        · cases e; exact .inl rfl
        · exact .inr ⟨k', hb⟩

theorem keyed_total {bs : List RuleBody} (h : ∀ b ∈ bs, w.hash b ≠ none) : ∃ kb, keyed w bs = some kb := by
  induction bs with
  | nil => exact ⟨[], rfl⟩
  | cons b bs ih =>
    obtain ⟨l, hl⟩ := ih fun b hb => h b (List.mem_cons_of_mem _ hb)
    cases hb : w.hash b with
    | none => exact absurd hb (h b List.mem_cons_self)
    | some k => exact ⟨(k, b) :: l, by unfold keyed; rw [hb, hl]⟩

theorem NoCollision.left {hash : RuleBody → Option Nat} {ds ds' : List Def} (h : NoCollision hash (ds ++ ds')) :
    NoCollision hash ds :=
  ⟨fun d hd => h.1 d (List.mem_append_left _ hd),
    fun d hd b hb d' hd' => h.2 d (List.mem_append_left _ hd) b hb d' (List.mem_append_left _ hd')⟩

theorem HoldsDefs.nil {hash : RuleBody → Option Nat} {fr : Bool} : HoldsDefs hash [] fr [] := by
  constructor <;> simp

theorem HoldsDefs.skip {hash : RuleBody → Option Nat} {ds : List Def} {fr : Bool} {m : List (String × Rule)} {d : Def}
    (h : HoldsDefs hash ds fr m) (hd : d.frame ≠ fr) : HoldsDefs hash (ds ++ [d]) fr m := by
  have hw : ∀ x b, Written (ds ++ [d]) fr x b ↔ Written ds fr x b := by
    intro x b
    constructor
    · rintro ⟨d', hd', e1, e2, e3⟩
      rcases List.mem_append.mp hd' with hd' | hd'
      · exact ⟨d', hd', e1, e2, e3⟩
      · rw [List.mem_singleton] at hd'
        exact absurd (hd' ▸ e1) hd
    · rintro ⟨d', hd', e⟩
      exact ⟨d', List.mem_append_left _ hd', e⟩
  refine ⟨fun x => ?_, h.name, h.nodup, fun x r k b hr => ?_⟩
  · rw [h.names]
    constructor
    · rintro ⟨d', hd', e⟩
      exact ⟨d', List.mem_append_left _ hd', e⟩
    · rintro ⟨d', hd', e⟩
      rcases List.mem_append.mp hd' with hd' | hd'
      · exact ⟨d', hd', e⟩
      · rw [List.mem_singleton] at hd'
        exact absurd (hd' ▸ e.1) hd
  · rw [hw, h.bodies x r k b hr]

theorem HoldsDefs.add {ds : List Def} {fr : Bool} {m : List (String × Rule)} {d : Def}
    {kb : List (Nat × RuleBody)} (h : HoldsDefs w.hash ds fr m) (hd : d.frame = fr)
    (hk : keyed w d.bodies = some kb) (hc : NoCollision w.hash (ds ++ [d])) :
    HoldsDefs w.hash (ds ++ [d]) fr (addRule m (d.rule kb)) := by
  obtain ⟨k1, k2⟩ := keyed_spec hk
  have hwr : ∀ x b, Written (ds ++ [d]) fr x b ↔ Written ds fr x b ∨ (x = d.name ∧ b ∈ d.bodies) := by
    intro x b
    constructor
    · rintro ⟨d', hd', e1, e2, e3⟩
      rcases List.mem_append.mp hd' with hd' | hd'
      · exact .inl ⟨d', hd', e1, e2, e3⟩
      · rw [List.mem_singleton] at hd'
        subst hd'
        exact .inr ⟨e2.symm, e3⟩
    · rintro (⟨d', hd', e⟩ | ⟨rfl, hb⟩)
      · exact ⟨d', List.mem_append_left _ hd', e⟩
      · exact ⟨d, by simp, hd, rfl, hb⟩
  have hnm : ∀ x, (∃ d' ∈ ds ++ [d], d'.frame = fr ∧ d'.name = x) ↔
      (∃ d' ∈ ds, d'.frame = fr ∧ d'.name = x) ∨ x = d.name := by
    intro x
    constructor
    · rintro ⟨d', hd', e1, e2⟩
      rcases List.mem_append.mp hd' with hd' | hd'
      · exact .inl ⟨d', hd', e1, e2⟩
      · rw [List.mem_singleton] at hd'
        subst hd'
        exact .inr e2.symm
    · rintro (⟨d', hd', e⟩ | rfl)
      · exact ⟨d', List.mem_append_left _ hd', e⟩
      · exact ⟨d, by simp, hd, rfl⟩
  have hinj : ∀ b b', (∃ x, Written (ds ++ [d]) fr x b) → (∃ x, Written (ds ++ [d]) fr x b') →
      w.hash b = w.hash b' → b = b' := by
    rintro b b' ⟨x, d1, m1, -, -, b1⟩ ⟨x', d2, m2, -, -, b2⟩ e
    exact hc.2 d1 m1 b b1 d2 m2 b' b2 e
  -- the new body of the rule
  have hnew : ∀ m0, BodyIs w.hash (Written ds fr d.name) m0 →
      BodyIs w.hash (Written (ds ++ [d]) fr d.name) (mapSets m0 (mapSets [] kb)) := by
    intro m0 hm0
    have hnil : BodyIs w.hash (fun _ => False) [] := ⟨KeysNodup.nil, by simp⟩
    have h1 := BodyIs.mapSets hnil k1 (by
      intro b b' h h'
      refine hinj b b' ⟨d.name, (hwr _ _).mpr (.inr ⟨rfl, ?_⟩)⟩ ⟨d.name, (hwr _ _).mpr (.inr ⟨rfl, ?_⟩)⟩
      · exact (k2 b).mpr (by simpa using h)
      · exact (k2 b').mpr (by simpa using h'))
    have hin : ∀ b, (∃ k, (k, b) ∈ mapSets [] kb) ↔ b ∈ d.bodies := by
      intro b
      constructor
      · rintro ⟨k, hb⟩
        have := ((h1.2 k b).mp hb).2
        exact (k2 b).mpr (by simpa using this)
      · intro hb
        obtain ⟨k, hk⟩ := (k2 b).mp hb
        exact ⟨k, (h1.2 k b).mpr ⟨k1 _ hk, .inr ⟨k, hk⟩⟩⟩
    have h2 := BodyIs.mapSets hm0 (l := mapSets [] kb) (fun e he => ((h1.2 e.1 e.2).mp he).1) (by
      intro b b' h h'
      rw [hin] at h h'
      exact hinj b b' ⟨d.name, (hwr _ _).mpr (h.elim .inl fun h => .inr ⟨rfl, h⟩)⟩
        ⟨d.name, (hwr _ _).mpr (h'.elim .inl fun h => .inr ⟨rfl, h⟩)⟩)
    refine ⟨h2.1, fun k b => ?_⟩
    rw [h2.2, hwr]
    refine and_congr_right fun _ => or_congr_right ?_
    rw [hin]
    simp
  -- lookups in the new map
  have hlook : ∃ r, r.name = d.name ∧ BodyIs w.hash (Written (ds ++ [d]) fr d.name) r.body ∧
      addRule m (d.rule kb) = mapSet m d.name r := by
    unfold addRule
    show ∃ r, r.name = d.name ∧ _ ∧ (match m.lookup d.name with
      | some r0 => mapSet m d.name { r0 with body := mapSets r0.body (mapSets [] kb) }
      | none => mapSet m d.name (d.rule kb)) = mapSet m d.name r
    cases hl : m.lookup d.name with
    | some r0 =>
      refine ⟨{ r0 with body := mapSets r0.body (mapSets [] kb) }, h.name _ r0 hl, ?_, rfl⟩
      exact hnew _ ⟨h.nodup _ _ hl, fun k b => h.bodies _ _ k b hl⟩
    | none =>
      refine ⟨d.rule kb, rfl, ?_, rfl⟩
      have hnone : ∀ b, ¬ Written ds fr d.name b := by
        rintro b ⟨d', hd', e1, e2, -⟩
        obtain ⟨r, hr⟩ := (h.names d.name).mpr ⟨d', hd', e1, e2⟩
        rw [hl] at hr
        cases hr
      have := hnew [] ⟨KeysNodup.nil, fun k b => by simp [hnone]⟩
      have e : mapSets [] (mapSets [] kb) = mapSets ([] : List (Nat × RuleBody)) kb := by
        have hid : ∀ (l m : List (Nat × RuleBody)), KeysNodup (m ++ l) → mapSets m l = m ++ l := by
          intro l
          induction l with
          | nil => intro m _; simp [mapSets]
          | cons e l ih =>
            intro m hn
            have hset : mapSet m e.1 e.2 = m ++ [e] := by
              have hnot : e.1 ∉ m.map Prod.fst := by
                unfold KeysNodup at hn
                rw [List.map_append, List.nodup_append] at hn
                exact fun hm => hn.2.2 _ hm e.1 (by simp) rfl
              clear hn ih
              induction m with
              | nil => rfl
              | cons a m ih =>
                rw [List.map_cons, List.mem_cons, not_or] at hnot
                unfold mapSet
                rw [if_neg (by simpa using fun e => hnot.1 e.symm), ih hnot.2]
                rfl
            show mapSets (mapSet m e.1 e.2) l = _
            rw [hset, ih _ (by simpa using hn)]
            simp
        have hkn : ∀ (l m : List (Nat × RuleBody)), KeysNodup m → KeysNodup (mapSets m l) := by
          intro l
          induction l with
          | nil => intro m hm; exact hm
          | cons e l ih => intro m hm; exact ih _ (hm.mapSet _ _)
        exact hid _ [] (by simpa using hkn kb [] KeysNodup.nil)
      rw [e] at this
      exact this
  obtain ⟨r, hr1, hr2, hr3⟩ := hlook
  rw [hr3]
  have hlk : ∀ x, (mapSet m d.name r).lookup x = if x = d.name then some r else m.lookup x :=
    lookup_mapSet m d.name r
  refine ⟨fun x => ?_, fun x r' => ?_, fun x r' => ?_, fun x r' k b => ?_⟩
  · rw [hnm, hlk]
    split
    · rename_i hx
      simp [hx]
    · rename_i hx
      rw [h.names]
      simp [hx]
  · rw [hlk]
    split
    · rintro e; cases e; rename_i hx; rw [hx, hr1]
    · exact h.name x r'
  · rw [hlk]
    split
    · rintro e; cases e; exact hr2.1
    · exact h.nodup x r'
  · rw [hlk]
    split
    · rename_i hx
      rintro e
      cases e
      subst hx
      exact hr2.2 k b
    · rename_i hx
      intro e
      rw [h.bodies x r' k b e, hwr]
      simp [hx]

theorem holds_addDefs {ds ds0 : List Def} {kds : List (Def × List (Nat × RuleBody))}
    {m : List (String × Rule) × List (String × Rule)}
    (hk : List.Forall₂ (fun d e => e.1 = d ∧ keyed w d.bodies = some e.2) ds kds)
    (hc : NoCollision w.hash (ds0 ++ ds)) (h1 : HoldsDefs w.hash ds0 false m.1) (h2 : HoldsDefs w.hash ds0 true m.2) :
    HoldsDefs w.hash (ds0 ++ ds) false (addDefs m kds).1 ∧ HoldsDefs w.hash (ds0 ++ ds) true (addDefs m kds).2 := by
  induction hk generalizing ds0 m with
  | nil => simpa [addDefs] using ⟨h1, h2⟩
  | @cons d e ds kds hde _ ih =>
    obtain ⟨d', kb⟩ := e
    obtain ⟨rfl, hkb⟩ := hde
    have e : ds0 ++ d' :: ds = (ds0 ++ [d']) ++ ds := by simp
    rw [e] at hc ⊢
    unfold addDefs
    cases hf : d'.frame with
    | true =>
      exact ih hc (h1.skip (by simp [hf])) (h2.add hf hkb hc.left)
    | false =>
      exact ih hc (h1.add hf hkb hc.left) (h2.skip (by simp [hf]))

theorem keyed_all {ds : List Def} (h : ∀ d ∈ ds, ∀ b ∈ d.bodies, w.hash b ≠ none) :
    ∃ kds, List.Forall₂ (fun d (e : Def × List (Nat × RuleBody)) => e.1 = d ∧ keyed w d.bodies = some e.2) ds kds := by
  induction ds with
  | nil => exact ⟨[], .nil⟩
  | cons d ds ih =>
    obtain ⟨kds, hk⟩ := ih fun d hd => h d (List.mem_cons_of_mem _ hd)
    obtain ⟨kb, hkb⟩ := keyed_total (h d List.mem_cons_self)
    exact ⟨(d, kb) :: kds, .cons ⟨rfl, hkb⟩ hk⟩

end

end Fmr
