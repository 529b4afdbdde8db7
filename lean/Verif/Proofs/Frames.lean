import Verif.Proofs.Index
import Verif.Proofs.Expr

/-!
# Lemmas on frames
-/

namespace Fmr

instance : LawfulBEq RbKey := inferInstance

/-- slot `s` is stored in frame `k` under `κ` -/
def InSlots (m : List (RbKey × Frame)) (k : RbKey) (κ : Nat) (s : Slot) : Prop :=
  ∃ f, m.lookup k = some f ∧ ∃ ss, f.slots.lookup κ = some ss ∧ s ∈ ss

/-- invariant of the frames being filled -/
def FrInv (g : Grammar) (m : List (RbKey × Frame)) : Prop :=
  ∀ k f, m.lookup k = some f → ∃ rb, frameBody g k = .ok rb ∧ KeysNodup f.slots ∧
    (∀ κ ss, f.slots.lookup κ = some ss → ss ≠ []) ∧ (f.complete = true ↔ rb.terms.length ≤ f.slots.length)

/-- what a step adds to the frames: the frames `T` exist, with the slots `N` -/
structure Fills (g : Grammar) (a b : List (RbKey × Frame)) (T : RbKey → Prop) (N : RbKey → Nat → Slot → Prop) :
    Prop where
  slots : ∀ k κ s, InSlots b k κ s ↔ InSlots a k κ s ∨ N k κ s
  dom : ∀ k, (b.lookup k).isSome ↔ (a.lookup k).isSome ∨ T k
  inv : FrInv g a → FrInv g b
  nodup : KeysNodup a → KeysNodup b

theorem Fills.refl (g : Grammar) (a : List (RbKey × Frame)) {T : RbKey → Prop} {N : RbKey → Nat → Slot → Prop}
    (hT : ∀ k, ¬ T k) (hN : ∀ k κ s, ¬ N k κ s) : Fills g a a T N := by
  constructor <;> simp [hT, hN]

theorem Fills.trans {g : Grammar} {a b c : List (RbKey × Frame)} {T T' : RbKey → Prop}
    {N N' : RbKey → Nat → Slot → Prop} (h : Fills g a b T N) (h' : Fills g b c T' N') :
    Fills g a c (fun k => T k ∨ T' k) (fun k κ s => N k κ s ∨ N' k κ s) := by
  constructor
  · intro k κ s; rw [h'.slots, h.slots, or_assoc]
  · intro k; rw [h'.dom, h.dom, or_assoc]
  · exact fun hi => h'.inv (h.inv hi)
  · exact fun hi => h'.nodup (h.nodup hi)

theorem Fills.congr {g : Grammar} {a b : List (RbKey × Frame)} {T T' : RbKey → Prop}
    {N N' : RbKey → Nat → Slot → Prop} (h : Fills g a b T N) (hT : ∀ k, T k ↔ T' k)
    (hN : ∀ k κ s, N k κ s ↔ N' k κ s) : Fills g a b T' N' := by
  constructor
  · intro k κ s; rw [h.slots, hN]
  · intro k; rw [h.dom, hT]
  · exact h.inv
  · exact h.nodup

theorem foldOut_fills {α : Type} {g : Grammar} {f : List (RbKey × Frame) → α → Out (List (RbKey × Frame))}
    {T : α → RbKey → Prop} {N : α → RbKey → Nat → Slot → Prop} :
    ∀ {l : List α}, (∀ a ∈ l, ∀ s s', f s a = .ok s' → Fills g s s' (T a) (N a)) →
    ∀ {s s' : List (RbKey × Frame)}, foldOut f s l = .ok s' →
    Fills g s s' (fun k => ∃ a ∈ l, T a k) (fun k κ x => ∃ a ∈ l, N a k κ x)
  | [], _, s, s', h => by
    simp only [foldOut, Out.ok.injEq] at h
    subst h
    exact .refl g _ (by simp) (by simp)
  | a :: l, hf, s, s', h => by
    simp only [foldOut, Out.bind_eq_ok] at h
    obtain ⟨s1, h1, h2⟩ := h
    exact ((hf a (by simp) _ _ h1).trans (foldOut_fills (fun b hb => hf b (by simp [hb])) h2)).congr
      (by simp) (by simp)

/-! ### slots of one frame -/

theorem addSlots_spec (key : Nat) : ∀ (new : List Slot) (m : List (Nat × List Slot)),
    (∀ κ s, (∃ ss, (new.foldl (fun m s => addSlot m key s) m).lookup κ = some ss ∧ s ∈ ss) ↔
      (∃ ss, m.lookup κ = some ss ∧ s ∈ ss) ∨ (κ = key ∧ s ∈ new)) ∧
    (KeysNodup m → KeysNodup (new.foldl (fun m s => addSlot m key s) m)) ∧
    ((∀ κ ss, m.lookup κ = some ss → ss ≠ []) →
      ∀ κ ss, (new.foldl (fun m s => addSlot m key s) m).lookup κ = some ss → ss ≠ []) ∧
    m.length ≤ (new.foldl (fun m s => addSlot m key s) m).length
  | [], m => by simp
  | x :: new, m => by
    obtain ⟨h1, h2, h3, h4⟩ := addSlots_spec key new (addSlot m key x)
    simp only [List.foldl_cons]
    refine ⟨fun κ s => ?_, fun h => h2 (h.mapSet _ _), fun h => h3 (fun κ ss hs => ?_), ?_⟩
    · rw [h1]
      unfold addSlot
      rw [lookup_mapSet]
      by_cases hk : κ = key
      · subst hk
        simp only [if_true, Option.some.injEq, exists_eq_left', true_and, List.mem_cons]
        cases hm : m.lookup κ with
        | none => simp
        | some ss => simp [or_assoc]
      · simp [hk]
    · unfold addSlot at hs
      rw [lookup_mapSet] at hs
      split at hs
      · cases hs; simp
      · exact h _ _ hs
    · refine Nat.le_trans ?_ h4
      unfold addSlot
      have := congrArg List.length (keys_mapSet m key ((m.lookup key).getD [] ++ [x]))
      rw [List.length_map] at this
      rw [this]
      split <;> simp

theorem fillFrame_fills {g : Grammar} {key : Nat} {new : List Slot} {m m' : List (RbKey × Frame)} {k : RbKey}
    (h : fillFrame g key new m k = .ok m') :
    Fills g m m' (fun k' => k' = k) (fun k' κ s => k' = k ∧ κ = key ∧ s ∈ new) := by
  unfold fillFrame at h
  simp only [Out.bind_eq_ok, Out.pure_eq, Out.ok.injEq] at h
  obtain ⟨rb, hrb, rfl⟩ := h
  obtain ⟨h1, h2, h3, h4⟩ := addSlots_spec key new ((m.lookup k).getD {}).slots
  constructor
  · intro k' κ s
    unfold InSlots
    rw [lookup_mapSet]
    by_cases hk : k' = k
    · subst hk
      simp only [if_true, Option.some.injEq, exists_eq_left', true_and]
      rw [h1]
      cases hm : m.lookup k' with
      | none => simp
      | some f => simp
    · simp [hk]
  · intro k'
    rw [lookup_mapSet]
    by_cases hk : k' = k <;> simp [hk]
  · intro hi k' f hf
    rw [lookup_mapSet] at hf
    split at hf
    · next hk =>
      subst hk
      simp only [Option.some.injEq] at hf
      subst hf
      have hold : KeysNodup ((m.lookup k').getD {}).slots ∧
          (∀ κ ss, ((m.lookup k').getD {}).slots.lookup κ = some ss → ss ≠ []) ∧
          (((m.lookup k').getD {}).complete = true →
            rb.terms.length ≤ ((m.lookup k').getD {}).slots.length) := by
        cases hm : m.lookup k' with
        | none => exact ⟨KeysNodup.nil, by simp, by simp⟩
        | some f0 =>
          obtain ⟨rb', g1, g2, g3, g4⟩ := hi k' f0 hm
          rw [hrb, Out.ok.injEq] at g1
          subst g1
          exact ⟨g2, g3, g4.1⟩
      refine ⟨rb, hrb, h2 hold.1, h3 hold.2.1, ?_⟩
      simp only [Bool.or_eq_true, decide_eq_true_eq]
      exact ⟨fun o => o.elim (fun hc => Nat.le_trans (hold.2.2 hc) h4) id, .inr⟩
    · exact hi k' f hf
  · exact fun hi => hi.mapSet _ _

/-! ### the words of the text -/

theorem foldl_names {A : String} : ∀ (ks : List RbKey) (rs : List String),
    A ∈ ks.foldl (fun rs k => setAdd rs k.ruleName) rs ↔ A ∈ rs ∨ ∃ k ∈ ks, k.ruleName = A
  | [], rs => by simp
  | k :: ks, rs => by
    rw [List.foldl_cons, foldl_names ks, mem_setAdd, or_assoc]
    simp [eq_comm]

theorem foldl_names_nodup : ∀ (ks : List RbKey) (rs : List String), rs.Nodup →
    (ks.foldl (fun rs k => setAdd rs k.ruleName) rs).Nodup
  | [], _, h => h
  | k :: ks, rs, h => by
    rw [List.foldl_cons]
    exact foldl_names_nodup ks _ (setAdd_nodup h _)

/-- the slots made for a word found in the text -/
def WordSlots (w : FrameWorld) (gi : GIndex) (m : String × List Pos) (k : RbKey) (κ : Nat) (s : Slot) : Prop :=
  InIndex gi.index .frame k m.1 ∧ κ = w.termKey { value := m.1, type := .terminal, «meta» := .nil } ∧
    ∃ p ∈ m.2, s = { pos := p, trees := [] }

theorem matchWord_spec {w : FrameWorld} (ho : ∀ s l, (w.ordKeys s l).Perm l) {g : Grammar} {gi : GIndex}
    {st st' : List (RbKey × Frame) × List String} {m : String × List Pos} (h : matchWord w g gi st m = .ok st') :
    Fills g st.1 st'.1 (fun k => InIndex gi.index .frame k m.1) (WordSlots w gi m) ∧
    (∀ A, A ∈ st'.2 ↔ A ∈ st.2 ∨ ∃ k, InIndex gi.index .rule k m.1 ∧ k.ruleName = A) ∧
    (st.2.Nodup → st'.2.Nodup) := by
  unfold matchWord at h
  split at h
  · simp at h
  · next v hv =>
    simp only [Out.bind_eq_ok, Out.pure_eq, Out.ok.injEq] at h
    obtain ⟨fr, hfr, rfl⟩ := h
    have hin : ∀ c k, InIndex gi.index c k m.1 ↔ k ∈ v.get c := by
      intro c k
      unfold InIndex
      rw [hv]
      simp
    refine ⟨(foldOut_fills (fun a _ s s' h => fillFrame_fills h) hfr).congr ?_ ?_, ?_, ?_⟩
    · intro k
      rw [hin]
      simp only [(ho _ _).mem_iff, exists_eq_right']
      rfl
    · intro k κ s
      unfold WordSlots
      rw [hin]
      simp only [(ho _ _).mem_iff, List.mem_map]
      constructor
      · rintro ⟨a, ha, rfl, rfl, p, hp, rfl⟩; exact ⟨ha, rfl, p, hp, rfl⟩
      · rintro ⟨ha, rfl, p, hp, rfl⟩; exact ⟨k, ha, rfl, rfl, p, hp, rfl⟩
    · intro A
      simp only [foldl_names, (ho _ _).mem_iff, hin]
      rfl
    · exact foldl_names_nodup _ _

theorem matchWords_spec {w : FrameWorld} (ho : ∀ s l, (w.ordKeys s l).Perm l) {g : Grammar} {gi : GIndex} :
    ∀ {ms : List (String × List Pos)} {st st' : List (RbKey × Frame) × List String},
    foldOut (matchWord w g gi) st ms = .ok st' →
    Fills g st.1 st'.1 (fun k => ∃ m ∈ ms, InIndex gi.index .frame k m.1)
      (fun k κ s => ∃ m ∈ ms, WordSlots w gi m k κ s) ∧
    (∀ A, A ∈ st'.2 ↔ A ∈ st.2 ∨ ∃ m ∈ ms, ∃ k, InIndex gi.index .rule k m.1 ∧ k.ruleName = A) ∧
    (st.2.Nodup → st'.2.Nodup)
  | [], st, st', h => by
    simp only [foldOut, Out.ok.injEq] at h
    subst h
    exact ⟨.refl g _ (by simp) (by simp), by simp, id⟩
  | m :: ms, st, st', h => by
    simp only [foldOut, Out.bind_eq_ok] at h
    obtain ⟨s1, h1, h2⟩ := h
    obtain ⟨f1, f2, f3⟩ := matchWord_spec ho h1
    obtain ⟨g1, g2, g3⟩ := matchWords_spec ho h2
    refine ⟨(f1.trans g1).congr (by simp) (by simp), fun A => ?_, fun hn => g3 (f3 hn)⟩
    rw [g2, f2, or_assoc]
    simp

/-- `getCandidates`, taken apart -/
theorem getCandidates_ok {w : FrameWorld} {g : Grammar} {gi : GIndex} {fuel : Nat} {text : Bytes}
    {r : List (RbKey × Frame) × List String} (h : getCandidates w g gi fuel text = .ok r) :
    ∃ ms st rules, w.multiMatch gi.trie text = some ms ∧ foldOut (matchWord w g gi) ([], []) ms = .ok st ∧
      closeRules w gi fuel 0 (w.ordWork st.2) st.2 = .ok rules ∧ r = (st.1, w.ordStarts rules) := by
  unfold getCandidates at h
  simp only [Out.bind_eq_ok, Out.pure_eq, Out.ok.injEq, Out.ofErr_eq_ok] at h
  obtain ⟨ms, h1, st, h2, rules, h3, h4⟩ := h
  exact ⟨ms, st, rules, h1, h2, h3, h4.symm⟩

end Fmr
