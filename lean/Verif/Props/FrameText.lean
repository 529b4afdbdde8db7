import Verif.Spec.FrameText
import Verif.Model.FrameText
import Verif.Proofs.PrintInj

/-!
# C100: the text of a frame
-/

namespace Fmr

/-- a text that can follow an element of a printed list -/
def Closes (r : List Char) : Prop := ∃ c t, r = c :: t ∧ (c = ' ' ∨ c = ']')

theorem plain_split : ∀ {u v x y : List Char}, ' ' ∉ u → ']' ∉ u → ' ' ∉ v → ']' ∉ v → Closes x → Closes y → u ++ x = v ++ y → u = v ∧ x = y
  | [], [], _, _, _, _, _, _, _, _, h => ⟨rfl, h⟩
  | [], c :: v, x, y, _, _, h3, h4, ⟨d, t, hx, hd⟩, _, h => by
    rw [hx] at h
    have := (List.cons.inj h).1
    subst this
    rcases hd with rfl | rfl
    · exact absurd List.mem_cons_self h3
    · exact absurd List.mem_cons_self h4
  | c :: u, [], x, y, h1, h2, _, _, _, ⟨d, t, hy, hd⟩, h => by
    rw [hy] at h
    have := (List.cons.inj h).1
    subst this
    rcases hd with rfl | rfl
    · exact absurd List.mem_cons_self h1
    · exact absurd List.mem_cons_self h2
  | c :: u, d :: v, x, y, h1, h2, h3, h4, hx, hy, h => by
    have h5 := List.cons.inj h
    obtain ⟨h6, h7⟩ := plain_split (fun h => h1 (List.mem_cons_of_mem _ h)) (fun h => h2 (List.mem_cons_of_mem _ h))
      (fun h => h3 (List.mem_cons_of_mem _ h)) (fun h => h4 (List.mem_cons_of_mem _ h)) hx hy h5.2
    exact ⟨by rw [h5.1, h6], h7⟩

/-- a way to write the elements of a list from which they can be read back -/
structure ReadsBack {α : Type} (f : α → List Char) (P : α → Prop) : Prop where
  head : ∀ a, P a → ∃ c t, f a = c :: t ∧ c ≠ ']'
  split : ∀ a b x y, P a → P b → Closes x → Closes y → f a ++ x = f b ++ y → a = b ∧ x = y

theorem blank_split {α : Type} {f : α → List Char} {P : α → Prop} (hf : ReadsBack f P) : ∀ (l m : List α) (x y : List Char),
    (∀ a ∈ l, P a) → (∀ a ∈ m, P a) → blankList (l.map f) ++ x = blankList (m.map f) ++ y → l = m ∧ x = y
  | [], [], x, y, _, _, h => ⟨rfl, (List.cons.inj h).2⟩
  | [], b :: m, x, y, _, hm, h => by
    obtain ⟨c, t, hc, hne⟩ := hf.head b (hm b List.mem_cons_self)
    exfalso
    cases m <;> simp only [List.map_cons, List.map_nil, blankList, hc, List.cons_append, List.nil_append, List.cons.injEq] at h <;> exact hne h.1.symm
  | a :: l, [], x, y, hl, _, h => by
    obtain ⟨c, t, hc, hne⟩ := hf.head a (hl a List.mem_cons_self)
    exfalso
    cases l <;> simp only [List.map_cons, List.map_nil, blankList, hc, List.cons_append, List.nil_append, List.cons.injEq] at h <;> exact hne h.1
  | a :: l, b :: m, x, y, hl, hm, h => by
    have ha := hl a List.mem_cons_self
    have hb := hm b List.mem_cons_self
    cases l with
    | nil =>
      cases m with
      | nil =>
        simp only [List.map_cons, List.map_nil, blankList, List.append_assoc, List.singleton_append] at h
        obtain ⟨h1, h2⟩ := hf.split a b _ _ ha hb ⟨_, _, rfl, .inr rfl⟩ ⟨_, _, rfl, .inr rfl⟩ h
        exact ⟨by rw [h1], (List.cons.inj h2).2⟩
      | cons b' m =>
        simp only [List.map_cons, List.map_nil, blankList, List.append_assoc, List.singleton_append, List.cons_append] at h
        obtain ⟨-, h2⟩ := hf.split a b _ _ ha hb ⟨_, _, rfl, .inr rfl⟩ ⟨_, _, rfl, .inl rfl⟩ h
        exact absurd (List.cons.inj h2).1 (by decide)
    | cons a' l =>
      cases m with
      | nil =>
        simp only [List.map_cons, List.map_nil, blankList, List.append_assoc, List.singleton_append, List.cons_append] at h
        obtain ⟨-, h2⟩ := hf.split a b _ _ ha hb ⟨_, _, rfl, .inl rfl⟩ ⟨_, _, rfl, .inr rfl⟩ h
        exact absurd (List.cons.inj h2).1 (by decide)
      | cons b' m =>
        have e : ∀ (a a' : α) (l : List α) (x : List Char), blankList ((a :: a' :: l).map f) ++ x = f a ++ ' ' :: (blankList ((a' :: l).map f) ++ x) := by
          intro a a' l x
          simp [blankList]
        rw [e, e] at h
        obtain ⟨h1, h2⟩ := hf.split a b _ _ ha hb ⟨_, _, rfl, .inl rfl⟩ ⟨_, _, rfl, .inl rfl⟩ h
        obtain ⟨h3, h4⟩ := blank_split hf (a' :: l) (b' :: m) x y (fun c hc => hl c (List.mem_cons_of_mem _ hc))
          (fun c hc => hm c (List.mem_cons_of_mem _ hc)) (List.cons.inj h2).2
        exact ⟨by rw [h1, h3], h4⟩

theorem readable_address : ReadsBack (fun s : List Char => s) AddressText where
  head a ha := by
    obtain ⟨c, t, rfl⟩ := List.exists_cons_of_ne_nil ha.1
    exact ⟨c, t, rfl, fun h => ha.2.2 (h ▸ List.mem_cons_self)⟩
  split a b x y ha hb hx hy h := plain_split ha.2.1 ha.2.2 hb.2.1 hb.2.2 hx hy h

theorem digits_split : ∀ {u v x y : List Char}, (∀ c ∈ u, c.isDigit = true) → (∀ c ∈ v, c.isDigit = true) → u ++ ':' :: x = v ++ ':' :: y → u = v ∧ x = y
  | [], [], _, _, _, _, h => ⟨rfl, (List.cons.inj h).2⟩
  | [], c :: v, _, _, _, hv, h => by
    have := hv c List.mem_cons_self
    rw [← (List.cons.inj h).1] at this
    exact absurd this (by decide)
  | c :: u, [], _, _, hu, _, h => by
    have := hu c List.mem_cons_self
    rw [(List.cons.inj h).1] at this
    exact absurd this (by decide)
  | c :: u, d :: v, _, _, hu, hv, h => by
    have h1 := List.cons.inj h
    obtain ⟨h2, h3⟩ := digits_split (fun c hc => hu c (List.mem_cons_of_mem _ hc)) (fun c hc => hv c (List.mem_cons_of_mem _ hc)) h1.2
    exact ⟨by rw [h1.1, h2], h3⟩

theorem readable_entry : ReadsBack slotEntry (fun e => ∀ a ∈ e.2, AddressText a) where
  head e _ := by
    obtain ⟨c, t, hc⟩ := List.exists_cons_of_ne_nil (Nat.toDigits_ne_nil (n := e.1) (b := 10))
    refine ⟨c, t ++ ':' :: '[' :: blankList e.2, by simp [slotEntry, hc], ?_⟩
    rintro rfl
    have := digit_toDigits (c := ']') (n := e.1) (by rw [hc]; exact List.mem_cons_self)
    exact absurd this (by decide)
  split a b x y ha hb _ _ h := by
    simp only [slotEntry, List.append_assoc, List.cons_append] at h
    obtain ⟨h1, h2⟩ := digits_split (fun c hc => digit_toDigits hc) (fun c hc => digit_toDigits hc) h
    obtain ⟨h3, h4⟩ := blank_split readable_address a.2 b.2 x y ha hb (by simpa using (List.cons.inj h2).2)
    exact ⟨Prod.ext (nat_repr_inj h1) h3, h4⟩

theorem pointers_mem {ptr : Nat → Nat → List Char} (hp : ∀ k i, AddressText (ptr k i)) (f : Frame) : ∀ e ∈ f.pointers ptr, ∀ a ∈ e.2, AddressText a := by
  intro e he a ha
  obtain ⟨e', -, rfl⟩ := List.mem_map.1 he
  obtain ⟨i, -, rfl⟩ := List.mem_map.1 ha
  exact hp _ _

/-- sorting by distinct keys forgets the order -/
theorem sort_perm {α : Type} {l m : List (Nat × α)} (hl : (l.map Prod.fst).Nodup) (h : l.Perm m) :
    l.insertionSort (fun a b => a.1 ≤ b.1) = m.insertionSort (fun a b => a.1 ≤ b.1) := by
  have hs : ∀ l : List (Nat × α), (l.insertionSort (fun a b => a.1 ≤ b.1)).Pairwise (fun a b => a.1 ≤ b.1) := by
    intro l
    letI : Std.Total (fun a b : Nat × α => a.1 ≤ b.1) := ⟨fun a b => Nat.le_total a.1 b.1⟩
    letI : IsTrans (Nat × α) (fun a b : Nat × α => a.1 ≤ b.1) := ⟨fun _ _ _ => Nat.le_trans⟩
    exact List.pairwise_insertionSort _ l
  have hp := (List.perm_insertionSort (fun a b => a.1 ≤ b.1) l).trans (h.trans (List.perm_insertionSort (fun a b => a.1 ≤ b.1) m).symm)
  refine List.Perm.eq_of_pairwise (le := fun a b => a.1 ≤ b.1) ?_ (hs l) (hs m) hp
  intro a b ha hb h1 h2
  have ha' : a ∈ l := (List.perm_insertionSort _ l).mem_iff.1 ha
  have hb' : b ∈ l := h.mem_iff.2 ((List.perm_insertionSort _ m).mem_iff.1 hb)
  exact List.inj_on_of_nodup_map hl ha' hb' (Nat.le_antisymm h1 h2)

/-- Full statement of C100: frames print alike exactly if they have the same slots. -/
def C100_statement : Prop :=
  ∀ (ptr ptr' : Nat → Nat → List Char), (∀ k i, AddressText (ptr k i)) → (∀ k i, AddressText (ptr' k i)) →
    ∀ f g : Frame, f.Keyed → g.Keyed → (f.string ptr = g.string ptr' ↔ SameSlots f g)

/-- C100 as far as it holds: frames print alike exactly if they have the same flag and the same addresses of slots under
the same keys, in whatever order the map is traversed. -/
theorem C100_partial {ptr ptr' : Nat → Nat → List Char} (hp : ∀ k i, AddressText (ptr k i)) (hp' : ∀ k i, AddressText (ptr' k i))
    {f g : Frame} (hf : f.Keyed) : f.string ptr = g.string ptr' ↔ SameAddresses ptr ptr' f g := by
  constructor
  · intro h
    have hc : f.complete = g.complete ∧ blankList (((f.pointers ptr).insertionSort (fun a b => a.1 ≤ b.1)).map slotEntry) =
        blankList (((g.pointers ptr').insertionSort (fun a b => a.1 ≤ b.1)).map slotEntry) := by
      unfold Frame.string at h
      cases h1 : f.complete <;> cases h2 : g.complete <;> simp_all
    refine ⟨hc.1, ?_⟩
    have := (blank_split readable_entry _ _ [] []
      (fun e he => pointers_mem hp f e ((List.perm_insertionSort _ _).mem_iff.1 he))
      (fun e he => pointers_mem hp' g e ((List.perm_insertionSort _ _).mem_iff.1 he)) (by rw [hc.2])).1
    have h1 := (List.perm_insertionSort (fun a b => a.1 ≤ b.1) (f.pointers ptr)).symm
    rw [this] at h1
    exact h1.trans (List.perm_insertionSort _ _)
  · rintro ⟨h1, h2⟩
    unfold Frame.string
    rw [h1, sort_perm (l := f.pointers ptr) (m := g.pointers ptr') ?_ h2]
    unfold Frame.pointers
    rw [List.map_map]
    exact hf

/-- one slot under the key 7, over the bytes 0 to `n` -/
def oneSlot (n : Nat) : Frame := { slots := [(7, [{ pos := ⟨0, n⟩, trees := [] }])], complete := true }

/-- the example printed: the slot is not to be seen, only where it is in memory -/
theorem C100_shown : (oneSlot 1).string (fun _ _ => "0xc0".toList) = "Complete:true, map[7:[0xc0]]".toList := by
  decide +kernel

/-- C100 is false, both ways: frames with different slots may print alike, and frames with the same slots need not. -/
theorem C100_false : ¬ C100_statement ∧
    (∃ ptr, (∀ k i, AddressText (ptr k i)) ∧ (oneSlot 1).string ptr = (oneSlot 2).string ptr ∧ ¬ SameSlots (oneSlot 1) (oneSlot 2)) ∧
    ∃ ptr ptr', (∀ k i, AddressText (ptr k i)) ∧ (∀ k i, AddressText (ptr' k i)) ∧ (oneSlot 1).string ptr ≠ (oneSlot 1).string ptr' := by
  have hc0 : ∀ _k _i : Nat, AddressText "0xc0".toList := fun _ _ => by unfold AddressText; decide +kernel
  have hc8 : ∀ _k _i : Nat, AddressText "0xc8".toList := fun _ _ => by unfold AddressText; decide +kernel
  have h1 : ¬ SameSlots (oneSlot 1) (oneSlot 2) := by
    rintro ⟨-, h⟩
    have := h.mem_iff.1 (List.mem_singleton.2 rfl)
    simp [oneSlot] at this
  have h2 : (oneSlot 1).string (fun _ _ => "0xc0".toList) = (oneSlot 2).string (fun _ _ => "0xc0".toList) := by decide +kernel
  refine ⟨fun h => h1 ((h _ _ hc0 hc0 _ _ (by simp [Frame.Keyed, oneSlot]) (by simp [Frame.Keyed, oneSlot])).1 h2),
    ⟨_, hc0, h2, h1⟩, _, _, hc0, hc8, by decide +kernel⟩

/-- the order of the map does not show -/
example : let f : Frame := { slots := [(7, []), (10, [{ pos := ⟨0, 1⟩, trees := [] }]), (9, [])] }
    let g : Frame := { slots := [(9, []), (7, []), (10, [{ pos := ⟨0, 1⟩, trees := [] }])] }
    f.string (fun _ _ => "0xc0".toList) = "Complete:false, map[7:[] 9:[] 10:[0xc0]]".toList ∧
    g.string (fun _ _ => "0xc0".toList) = "Complete:false, map[7:[] 9:[] 10:[0xc0]]".toList := by
  decide +kernel

end Fmr
