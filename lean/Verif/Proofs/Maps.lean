import Verif.Model.Local

/-!
# Go maps as association lists
-/

namespace Fmr

section
variable {κ ν : Type} [BEq κ] [LawfulBEq κ] [DecidableEq κ]

theorem lookup_mapSet (m : List (κ × ν)) (k : κ) (v : ν) (k' : κ) :
    (mapSet m k v).lookup k' = if k' = k then some v else m.lookup k' := by
  induction m with
  | nil =>
    unfold mapSet
    rw [List.lookup_cons]
    by_cases h : k' = k
    · simp [h]
    · have : (k' == k) = false := by simpa using h
      rw [this]
      simp [h]
  | cons e m ih =>
    obtain ⟨k1, v1⟩ := e
    unfold mapSet
    by_cases h1 : k1 = k
    · subst h1
      rw [if_pos (by simp), List.lookup_cons, List.lookup_cons]
      by_cases h : k' = k1
      · subst h; simp
      · have : (k' == k1) = false := by simpa using h
        rw [this, if_neg h]
    · rw [if_neg (by simpa using h1), List.lookup_cons, List.lookup_cons, ih]
      by_cases h : k' = k1
      · subst h; simp [h1]
      · have : (k' == k1) = false := by simpa using h
        rw [this]

/-- the keys are pairwise different, as in a Go map -/
def KeysNodup (m : List (κ × ν)) : Prop := (m.map Prod.fst).Nodup

theorem keys_mapSet (m : List (κ × ν)) (k : κ) (v : ν) :
    (mapSet m k v).map Prod.fst = if k ∈ m.map Prod.fst then m.map Prod.fst else m.map Prod.fst ++ [k] := by
  induction m with
  | nil => simp [mapSet]
  | cons e m ih =>
    obtain ⟨k1, v1⟩ := e
    unfold mapSet
    by_cases h1 : k1 = k
    · subst h1
      simp
    · rw [if_neg (by simpa using h1), List.map_cons, ih, List.map_cons]
      have h2 : ¬ k = k1 := fun e => h1 e.symm
      by_cases h : k ∈ m.map Prod.fst
      · rw [if_pos h, if_pos (List.mem_cons_of_mem _ h)]
      · rw [if_neg h, if_neg (by rw [List.mem_cons]; exact fun o => o.elim h2 h)]
        rfl

theorem KeysNodup.mapSet {m : List (κ × ν)} (h : KeysNodup m) (k : κ) (v : ν) :
    KeysNodup (mapSet m k v) := by
  unfold KeysNodup at h ⊢
  rw [keys_mapSet]
  split
  · exact h
  · rename_i hk
    rw [List.nodup_append]
    refine ⟨h, by simp, ?_⟩
    rintro a ha b hb rfl
    rw [List.mem_singleton] at hb
    exact hk (hb ▸ ha)

theorem KeysNodup.nil : KeysNodup ([] : List (κ × ν)) := by simp [KeysNodup]

omit [DecidableEq κ] in
theorem mem_of_lookup {m : List (κ × ν)} {k : κ} {v : ν} (h : m.lookup k = some v) : (k, v) ∈ m := by
  induction m with
  | nil => simp at h
  | cons e m ih =>
    obtain ⟨k1, v1⟩ := e
    rw [List.lookup_cons] at h
    by_cases hk : k = k1
    · subst hk
      simp at h
      simp [h]
    · have : (k == k1) = false := by simpa using hk
      rw [this] at h
      exact List.mem_cons_of_mem _ (ih h)

omit [DecidableEq κ] in
theorem KeysNodup.lookup {m : List (κ × ν)} (h : KeysNodup m) {k : κ} {v : ν} :
    m.lookup k = some v ↔ (k, v) ∈ m := by
  refine ⟨mem_of_lookup, fun hm => ?_⟩
  induction m with
  | nil => simp at hm
  | cons e m ih =>
    obtain ⟨k1, v1⟩ := e
    unfold KeysNodup at h
    rw [List.map_cons, List.nodup_cons] at h
    rw [List.lookup_cons]
    rcases List.mem_cons.mp hm with e | hm2
    · cases e; simp
    · have hk : k ≠ k1 := by
        intro e
        exact h.1 (List.mem_map.mpr ⟨(k, v), hm2, e⟩)
      have : (k == k1) = false := by simpa using hk
      rw [this]
      exact ih h.2 hm2

omit [DecidableEq κ] in
theorem lookup_isSome_iff {m : List (κ × ν)} {k : κ} : (m.lookup k).isSome ↔ k ∈ m.map Prod.fst := by
  induction m with
  | nil => simp
  | cons e m ih =>
    obtain ⟨k1, v1⟩ := e
    rw [List.lookup_cons, List.map_cons, List.mem_cons]
    by_cases hk : k = k1
    · subst hk; simp
    · have : (k == k1) = false := by simpa using hk
      rw [this, ← ih]
      simp [hk]

end

end Fmr
