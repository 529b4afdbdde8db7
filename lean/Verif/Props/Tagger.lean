import Verif.Spec.Tagger
import Verif.Model.Tagger
import Mathlib.Tactic.IntervalCases

/-!
# C110: what the context tagger is asked
-/

namespace Fmr

/-! ## escaping -/

theorem qunhex_hex {b : UInt8} {n : Nat} (h : HexDigit b n) : qunhex b = some n := by
  cases h with
  | digit n h => interval_cases n <;> decide
  | upper n h => interval_cases n <;> decide
  | lower n h => interval_cases n <;> decide

theorem spells_unescape {e s : Bytes} (h : Spells e s) : qunescape e = some s := by
  induction h with
  | nil => rfl
  | plain b h1 h2 _ ih =>
    unfold qunescape
    rw [if_neg h1, ih, if_neg h2]
    rfl
  | space _ ih =>
    unfold qunescape
    rw [if_neg (by decide), ih]
    rfl
  | hex hx hy _ ih =>
    unfold qunescape
    rw [if_pos rfl]
    simp only [qunhex_hex hx, qunhex_hex hy, ih]

theorem hexDigit_qhex {n : Nat} (h : n < 16) : HexDigit (qhex n) n := by
  unfold qhex
  split
  · exact .digit n (by assumption)
  · obtain ⟨m, rfl⟩ : ∃ m, n = 10 + m := ⟨n - 10, by omega⟩
    have e : 55 + (10 + m) = 65 + m := by omega
    rw [e]
    exact .upper m (by omega)

theorem byte_ne {b c : UInt8} (h : b.toNat ≠ c.toNat) : b ≠ c := fun e => h (by rw [e])

theorem qhex_range {n : Nat} (h : n < 16) : 48 ≤ (qhex n).toNat ∧ (qhex n).toNat ≤ 70 ∧ (qhex n).toNat ≠ 59 ∧ (qhex n).toNat ≠ 61 := by
  interval_cases n <;> decide

theorem escape_spells : ∀ s : Bytes, Spells (qescape s) s
  | [] => .nil
  | b :: s => by
    have ih := escape_spells s
    unfold qescape
    split
    · rename_i h
      refine .plain b (byte_ne ?_) (byte_ne ?_) ih
      · intro e; rw [qplain, e] at h; revert h; decide
      · intro e; rw [qplain, e] at h; revert h; decide
    · split
      · rename_i h
        subst h
        exact .space ih
      · have hb : b.toNat < 256 := b.toNat_lt
        have := Spells.hex (hexDigit_qhex (n := b.toNat / 16) (by omega)) (hexDigit_qhex (n := b.toNat % 16) (by omega)) ih
        rw [Nat.div_add_mod, UInt8.ofNat_toNat] at this
        exact this

/-- no separator is in an escaped text -/
theorem escape_no {c : UInt8} (hc : c = 38 ∨ c = 59 ∨ c = 61) : ∀ s : Bytes, c ∉ qescape s
  | [] => by simp [qescape]
  | b :: s => by
    have ih := escape_no hc s
    unfold qescape
    rw [List.mem_append]
    rintro (h | h)
    · have hc' : c.toNat = 38 ∨ c.toNat = 59 ∨ c.toNat = 61 := by rcases hc with rfl | rfl | rfl <;> decide
      split at h
      · rename_i hp
        rw [List.mem_singleton] at h
        subst h
        revert hp
        unfold qplain
        rcases hc' with e | e | e <;> rw [e] <;> decide
      · split at h
        · rw [List.mem_singleton] at h
          subst h
          revert hc
          decide
        · have hb : b.toNat < 256 := b.toNat_lt
          have h1 := qhex_range (n := b.toNat / 16) (by omega)
          have h2 := qhex_range (n := b.toNat % 16) (by omega)
          simp only [List.mem_cons, List.not_mem_nil, or_false] at h
          rcases h with h | h | h
          · subst h; revert hc; decide
          · rw [h] at hc'; omega
          · rw [h] at hc'; omega
    · exact ih h

/-! ## the values -/

theorem QValues.get_put (m : QValues) (k : Bytes) (vs : List Bytes) (k' : Bytes) :
    (m.put k vs).get k' = if k' = k then vs else m.get k' := by
  induction m with
  | nil =>
    by_cases h : k' = k
    · simp [QValues.put, QValues.get, List.lookup, h]
    · have h2 : (k' == k) = false := by simpa using h
      simp [QValues.put, QValues.get, List.lookup, h, h2]
  | cons e m ih =>
    unfold QValues.put
    split
    · rename_i h
      by_cases h' : k' = k
      · simp [QValues.get, List.lookup, h']
      · have : (k' == e.1) = false := by rw [h]; simpa using h'
        have h2 : (k' == k) = false := by simpa using h'
        simp [QValues.get, List.lookup, h', this, h2]
    · rename_i h
      by_cases h' : k' = e.1
      · have : k' ≠ k := h' ▸ h
        simp [QValues.get, List.lookup, h', h]
      · have h2 : (k' == e.1) = false := by simpa using h'
        simpa [QValues.get, List.lookup, h2] using ih

theorem QValues.keys_put (m : QValues) (k : Bytes) (vs : List Bytes) (k' : Bytes) :
    k' ∈ (m.put k vs).map (·.1) ↔ k' = k ∨ k' ∈ m.map (·.1) := by
  induction m with
  | nil => simp [QValues.put]
  | cons e m ih =>
    unfold QValues.put
    split
    · rename_i h
      subst h
      simp
    · simp only [List.map_cons, List.mem_cons, ih]
      tauto

theorem QValues.nodup_put {m : QValues} (h : (m.map (·.1)).Nodup) (k : Bytes) (vs : List Bytes) : ((m.put k vs).map (·.1)).Nodup := by
  induction m with
  | nil => simp [QValues.put]
  | cons e m ih =>
    simp only [List.map_cons, List.nodup_cons] at h
    unfold QValues.put
    split
    · rename_i h'
      subst h'
      simpa using h
    · rename_i h'
      simp only [List.map_cons, List.nodup_cons, QValues.keys_put]
      exact ⟨fun hh => hh.elim h' h.1, ih h.2⟩

theorem QValues.get_absent {m : QValues} {k : Bytes} (h : k ∉ m.map (·.1)) : m.get k = [] := by
  induction m with
  | nil => rfl
  | cons e m ih =>
    simp only [List.map_cons, List.mem_cons, not_or] at h
    have h2 : (k == e.1) = false := by simpa using h.1
    simpa [QValues.get, List.lookup, h2] using ih h.2

theorem nodup_qparam {m : QValues} (h : (m.map (·.1)).Nodup) (part : Bytes) : ((qparam part m).map (·.1)).Nodup := by
  unfold qparam
  split
  · exact h
  · split
    · exact h
    · split
      · exact QValues.nodup_put h _ _
      · exact h

theorem nodup_qparse : ∀ (n : Nat) (q : Bytes) {m : QValues}, (m.map (·.1)).Nodup → ((qparse n q m).map (·.1)).Nodup
  | 0, _, _, h => h
  | n + 1, q, m, h => by
    unfold qparse
    split
    · exact h
    · exact nodup_qparse n _ (nodup_qparam h _)

/-! ## reading -/

theorem qcut_at {c : UInt8} {k v : Bytes} (h : c ∉ k) : qcut c (k ++ c :: v) = (k, v) := by
  induction k with
  | nil => simp [qcut]
  | cons b k ih =>
    simp only [List.mem_cons, not_or] at h
    simp [qcut, Ne.symm h.1, ih h.2]

theorem qcut_none {c : UInt8} {k : Bytes} (h : c ∉ k) : qcut c k = (k, []) := by
  induction k with
  | nil => rfl
  | cons b k ih =>
    simp only [List.mem_cons, not_or] at h
    simp [qcut, Ne.symm h.1, ih h.2]

theorem says_nonempty {e : Bytes} {p : Bytes × Bytes} (h : SaysParam e p) : e ≠ [] ∧ 38 ∉ e := by
  cases h with
  | pair hk hv h1 h2 h3 => exact ⟨by simp, by simp [h2, h3]⟩
  | bare hk h0 h1 h2 => exact ⟨h0, h2⟩

theorem says_qparam {e : Bytes} {p : Bytes × Bytes} (h : SaysParam e p) (hs : 59 ∉ e) (m : QValues) :
    qparam e m = m.put p.1 (m.get p.1 ++ [p.2]) := by
  unfold qparam
  rw [if_neg hs, if_neg (says_nonempty h).1]
  cases h with
  | pair hk hv h1 h2 h3 =>
    rw [qcut_at h1]
    simp only [spells_unescape hk, spells_unescape hv]
  | bare hk h0 h1 h2 =>
    rw [qcut_none h1]
    simp only [spells_unescape hk, qunescape]

/-- entering the parameters one after the other -/
def enter (m : QValues) (ps : List (Bytes × Bytes)) : QValues := ps.foldl (fun m p => m.put p.1 (m.get p.1 ++ [p.2])) m

theorem says_qparse {q : Bytes} {ps : List (Bytes × Bytes)} (h : SaysParams q ps) : 59 ∉ q →
    ∀ (n : Nat) (m : QValues), q.length ≤ n → qparse n q m = enter m ps := by
  induction h with
  | nil =>
    intro _ n m _
    cases n <;> simp [qparse, enter]
  | @last e p h =>
    intro hs n m hn
    have := says_nonempty h
    obtain ⟨n, rfl⟩ : ∃ k, n = k + 1 := ⟨n - 1, by have := List.length_pos_iff.2 this.1; omega⟩
    unfold qparse
    rw [if_neg this.1, qcut_none this.2, says_qparam h hs]
    cases n <;> simp [qparse, enter]
  | @more e q p ps h _ ih =>
    intro hs n m hn
    simp only [List.length_append, List.length_cons] at hn
    have hne := says_nonempty h
    obtain ⟨n, rfl⟩ : ∃ k, n = k + 1 := ⟨n - 1, by omega⟩
    unfold qparse
    rw [if_neg (by simp), qcut_at hne.2, says_qparam h (fun hm => hs (by simp [hm]))]
    exact ih (fun hm => hs (by simp [hm])) n _ (by omega)
  | @skip q ps _ ih =>
    intro hs n m hn
    simp only [List.length_cons] at hn
    obtain ⟨n, rfl⟩ : ∃ k, n = k + 1 := ⟨n - 1, by omega⟩
    unfold qparse
    rw [if_neg (by simp)]
    have e1 : qcut 38 (38 :: q) = ([], q) := by simp [qcut]
    rw [e1]
    have e2 : qparam [] m = m := by simp [qparam]
    rw [e2]
    exact ih (fun hm => hs (by simp [hm])) n m (by omega)

theorem enter_get (k : Bytes) : ∀ (ps : List (Bytes × Bytes)) (m : QValues), (enter m ps).get k = m.get k ++ valuesOf k ps
  | [], m => by simp [enter, valuesOf]
  | p :: ps, m => by
    have := enter_get k ps (m.put p.1 (m.get p.1 ++ [p.2]))
    have e : enter m (p :: ps) = enter (m.put p.1 (m.get p.1 ++ [p.2])) ps := rfl
    rw [e, this, QValues.get_put]
    by_cases h : k = p.1
    · subst h
      simp [valuesOf]
    · have h' : ¬ p.1 = k := fun e => h e.symm
      simp [valuesOf, h, h']

/-- what a query says is read, if it has no semicolon -/
theorem queryOf_says {q : Bytes} {ps : List (Bytes × Bytes)} (h : SaysParams q ps) (hs : 59 ∉ q) (k : Bytes) :
    (queryOf q).get k = valuesOf k ps := by
  unfold queryOf
  rw [says_qparse h hs _ _ (le_refl _), enter_get]
  rfl

/-! ## writing -/

theorem qinsert_perm (k : Bytes) : ∀ l, (qinsert k l).Perm (k :: l)
  | [] => .refl _
  | a :: l => by
    unfold qinsert
    split
    · exact .refl _
    · exact ((qinsert_perm k l).cons a).trans (.swap _ _ _)

theorem qsort_perm : ∀ l, (qsort l).Perm l
  | [] => .refl _
  | k :: l => (qinsert_perm k _).trans ((qsort_perm l).cons k)

theorem joinAmp_says : ∀ (ps : List (Bytes × Bytes)),
    SaysParams (joinAmp (ps.map fun p => qescape p.1 ++ 61 :: qescape p.2)) ps ∧
    59 ∉ joinAmp (ps.map fun p => qescape p.1 ++ 61 :: qescape p.2)
  | [] => ⟨.nil, by simp [joinAmp]⟩
  | [p] => by
    refine ⟨.last (.pair (escape_spells _) (escape_spells _) (escape_no (by simp) _) (escape_no (by simp) _) (escape_no (by simp) _)), ?_⟩
    simp only [List.map_cons, List.map_nil, joinAmp, List.mem_append, List.mem_cons, not_or]
    exact ⟨escape_no (by simp) _, by decide, escape_no (by simp) _⟩
  | p :: p' :: ps => by
    obtain ⟨h1, h2⟩ := joinAmp_says (p' :: ps)
    refine ⟨.more (.pair (escape_spells _) (escape_spells _) (escape_no (by simp) _) (escape_no (by simp) _) (escape_no (by simp) _)) h1, ?_⟩
    simp only [List.map_cons, joinAmp, List.mem_append, List.mem_cons, not_or] at h2 ⊢
    exact ⟨⟨escape_no (by simp) _, by decide, escape_no (by simp) _⟩, by decide, h2⟩

/-- the parameters that `Encode` writes -/
def written (m : QValues) (keys : List Bytes) : List (Bytes × Bytes) := keys.flatMap fun k => (m.get k).map fun v => (k, v)

theorem encode_written (ord : List Bytes → List Bytes) (m : QValues) :
    encodeQuery ord m = joinAmp ((written m (qsort (ord (m.map (·.1))))).map fun p => qescape p.1 ++ 61 :: qescape p.2) := by
  unfold encodeQuery written
  rw [List.map_flatMap]
  simp only [List.map_map, Function.comp_def]

theorem valuesOf_written (m : QValues) (k : Bytes) : ∀ keys : List Bytes, keys.Nodup →
    valuesOf k (written m keys) = if k ∈ keys then m.get k else []
  | [], _ => rfl
  | k' :: keys, h => by
    rw [List.nodup_cons] at h
    have ih := valuesOf_written m k keys h.2
    have e : valuesOf k (written m (k' :: keys)) = valuesOf k ((m.get k').map fun v => (k', v)) ++ valuesOf k (written m keys) := by
      simp [valuesOf, written]
    rw [e, ih]
    by_cases hk : k = k'
    · subst hk
      simp [valuesOf, h.1, List.filter_map, Function.comp_def]
    · have hk' : ¬ k' = k := fun e => hk e.symm
      simp [valuesOf, hk, hk', List.filter_map, Function.comp_def]

/-- What `Encode` writes says exactly the values of the map. -/
theorem encode_says {ord : List Bytes → List Bytes} (ho : ∀ l, (ord l).Perm l) {m : QValues} (h : (m.map (·.1)).Nodup) :
    ∃ ps, SaysParams (encodeQuery ord m) ps ∧ 59 ∉ encodeQuery ord m ∧ ∀ k, valuesOf k ps = m.get k := by
  rw [encode_written]
  refine ⟨_, (joinAmp_says _).1, (joinAmp_says _).2, fun k => ?_⟩
  have hp : (qsort (ord (m.map (·.1)))).Perm (m.map (·.1)) := (qsort_perm _).trans (ho _)
  rw [valuesOf_written m k _ (hp.nodup_iff.2 h)]
  split
  · rfl
  · rename_i hk
    exact (QValues.get_absent fun hm => hk (hp.mem_iff.2 hm)).symm

/-- A query without semicolons says one thing: the values of each key. -/
theorem says_unique {q : Bytes} {ps ps' : List (Bytes × Bytes)} (h : SaysParams q ps) (h' : SaysParams q ps') (hs : 59 ∉ q) (k : Bytes) :
    valuesOf k ps = valuesOf k ps' := by
  rw [← queryOf_says h hs, queryOf_says h' hs]

/-! ## C110 -/

theorem ctxKey_text : ctxKey = contextName := by decide +kernel


/-- C110 as claimed: the query of the request says the context, and all other parameters of the address as they were. -/
def C110_statement : Prop :=
  ∀ (ord : List Bytes → List Bytes) (q context : Bytes) (ps : List (Bytes × Bytes)), (∀ l, (ord l).Perm l) → SaysParams q ps →
    ∃ ps', SaysParams (contextQuery ord q context) ps' ∧ valuesOf contextName ps' = [context] ∧
      ∀ k, k ≠ contextName → valuesOf k ps' = valuesOf k ps

theorem contextQuery_says {ord : List Bytes → List Bytes} (ho : ∀ l, (ord l).Perm l) (q context : Bytes) :
    ∃ ps, SaysParams (contextQuery ord q context) ps ∧ 59 ∉ contextQuery ord q context ∧ valuesOf contextName ps = [context] ∧
      ∀ k, k ≠ contextName → valuesOf k ps = (queryOf q).get k := by
  obtain ⟨ps, h1, h2, h3⟩ := encode_says ho (QValues.nodup_put (nodup_qparse q.length q (m := []) List.nodup_nil) ctxKey [context])
  rw [← ctxKey_text]
  refine ⟨ps, h1, h2, ?_, fun k hk => ?_⟩
  · rw [h3, QValues.get_put, if_pos rfl]
  · rw [h3, QValues.get_put, if_neg hk]
    rfl

/-- C110 for the context: whatever the address and the context are, the request says exactly that context. -/
theorem C110_context {ord : List Bytes → List Bytes} (ho : ∀ l, (ord l).Perm l) (q context : Bytes) :
    ∃ ps, SaysParams (contextQuery ord q context) ps ∧ valuesOf contextName ps = [context] ∧
      ∀ ps', SaysParams (contextQuery ord q context) ps' → ∀ k, valuesOf k ps' = valuesOf k ps := by
  obtain ⟨ps, h1, h2, h3, _⟩ := contextQuery_says ho q context
  exact ⟨ps, h1, h3, fun ps' h' k => says_unique h' h1 h2 k⟩

/-- C110 for addresses without semicolons. Missing: addresses with semicolons, see `C110_false`. -/
theorem C110_partial {ord : List Bytes → List Bytes} (ho : ∀ l, (ord l).Perm l) {q context : Bytes} {ps : List (Bytes × Bytes)}
    (h : SaysParams q ps) (hs : 59 ∉ q) :
    ∃ ps', SaysParams (contextQuery ord q context) ps' ∧ valuesOf contextName ps' = [context] ∧
      ∀ k, k ≠ contextName → valuesOf k ps' = valuesOf k ps := by
  obtain ⟨ps', h1, _, h3, h4⟩ := contextQuery_says ho q context
  exact ⟨ps', h1, h3, fun k hk => (h4 k hk).trans (queryOf_says h hs k)⟩

/-- Different contexts are asked for at different addresses. -/
theorem C110_distinct {ord ord' : List Bytes → List Bytes} (ho : ∀ l, (ord l).Perm l) (ho' : ∀ l, (ord' l).Perm l) {q q' c c' : Bytes}
    (h : contextQuery ord q c = contextQuery ord' q' c') : c = c' := by
  obtain ⟨ps, h1, h2, h3⟩ := C110_context ho q c
  obtain ⟨ps', h1', h2', _⟩ := C110_context ho' q' c'
  have := h3 ps' (h ▸ h1') contextName
  rw [h2, h2'] at this
  exact (List.cons.inj this).1.symm

/-! ## the order of the map -/

theorem bytesLE_total : ∀ a b : Bytes, bytesLE a b ∨ bytesLE b a
  | [], _ => .inl rfl
  | _ :: _, [] => .inr rfl
  | a :: s, b :: t => by
    unfold bytesLE
    by_cases h : a = b
    · subst h
      simpa using bytesLE_total s t
    · have h' : ¬ b = a := fun e => h e.symm
      have : a.toNat ≠ b.toNat := fun e => h (UInt8.toNat_inj.1 e)
      simp only [h, h', if_false, decide_eq_true_eq]
      omega

theorem bytesLE_trans : ∀ a b c : Bytes, bytesLE a b → bytesLE b c → bytesLE a c
  | [], _, _, _, _ => rfl
  | _ :: _, [], _, h, _ => by simp [bytesLE] at h
  | _ :: _, _ :: _, [], _, h => by simp [bytesLE] at h
  | a :: s, b :: t, c :: u, h1, h2 => by
    unfold bytesLE at h1 h2 ⊢
    have inj : ∀ x y : UInt8, x.toNat < y.toNat → x ≠ y := fun x y h e => by rw [e] at h; omega
    by_cases h : a = b
    · subst h
      rw [if_pos rfl] at h1
      by_cases h' : a = c
      · subst h'
        rw [if_pos rfl] at h2 ⊢
        exact bytesLE_trans s t u h1 h2
      · rw [if_neg h'] at h2 ⊢
        exact h2
    · rw [if_neg h, decide_eq_true_eq] at h1
      by_cases h' : b = c
      · subst h'
        rw [if_neg h]
        simpa using h1
      · rw [if_neg h', decide_eq_true_eq] at h2
        rw [if_neg (inj a c (by omega)), decide_eq_true_eq]
        omega

theorem bytesLE_antisymm : ∀ a b : Bytes, bytesLE a b → bytesLE b a → a = b
  | [], [], _, _ => rfl
  | [], _ :: _, _, h => by simp [bytesLE] at h
  | _ :: _, [], h, _ => by simp [bytesLE] at h
  | a :: s, b :: t, h1, h2 => by
    unfold bytesLE at h1 h2
    by_cases h : a = b
    · subst h
      rw [if_pos rfl] at h1 h2
      rw [bytesLE_antisymm s t h1 h2]
    · rw [if_neg h, decide_eq_true_eq] at h1
      rw [if_neg (fun e => h e.symm), decide_eq_true_eq] at h2
      omega

theorem qinsert_sorted (k : Bytes) : ∀ l : List Bytes, l.Pairwise (fun a b => bytesLE a b) →
    (qinsert k l).Pairwise (fun a b => bytesLE a b)
  | [], _ => by simp [qinsert]
  | a :: l, h => by
    rw [List.pairwise_cons] at h
    unfold qinsert
    split
    · rename_i hk
      refine List.pairwise_cons.2 ⟨fun b hb => ?_, List.pairwise_cons.2 h⟩
      rcases List.mem_cons.1 hb with rfl | hb
      · exact hk
      · exact bytesLE_trans _ _ _ hk (h.1 b hb)
    · rename_i hk
      refine List.pairwise_cons.2 ⟨fun b hb => ?_, qinsert_sorted k l h.2⟩
      rcases List.mem_cons.1 ((qinsert_perm k l).mem_iff.1 hb) with rfl | hb
      · exact (bytesLE_total a b).resolve_right hk
      · exact h.1 b hb

theorem qsort_sorted : ∀ l, (qsort l).Pairwise (fun a b => bytesLE a b)
  | [] => .nil
  | k :: l => qinsert_sorted k _ (qsort_sorted l)

/-- The request does not depend on the order of the map. -/
theorem C110_order {ord ord' : List Bytes → List Bytes} (ho : ∀ l, (ord l).Perm l) (ho' : ∀ l, (ord' l).Perm l) (q context : Bytes) :
    contextQuery ord q context = contextQuery ord' q context := by
  unfold contextQuery encodeQuery
  congr 2
  have sorted : ∀ l : List Bytes, (qsort l).Pairwise (fun a b => bytesLE a b) := qsort_sorted
  refine List.Perm.eq_of_pairwise (le := fun a b => bytesLE a b) (fun a b _ _ => bytesLE_antisymm a b) (sorted _) (sorted _) ?_
  exact (qsort_perm _).trans ((ho _).trans ((ho' _).symm.trans (qsort_perm _).symm))

/-- C110 for the calls: if a text is annotated with a context, then by a tagger whose address is that of the flag with a query that says
the context. -/
theorem C110_asked (w : World) {parseURI : String → Option (Bytes × Bytes)} {ask : Bytes → Bytes → Option Doc}
    {ord : List Bytes → List Bytes} (ho : ∀ l, (ord l).Perm l) {context : String} (hc : context ≠ "") {text : Bytes} {d : Doc}
    (h : annotateText (w.asking parseURI ask ord) context text = some d) :
    ∃ base q e ps, parseURI w.ctxTagger = some (base, q) ∧ SaysParams e ps ∧ valuesOf contextName ps = [utf8 context] ∧
      (∀ qs, SaysParams q qs → 59 ∉ q → ∀ k, k ≠ contextName → valuesOf k ps = valuesOf k qs) ∧ ask (base ++ 63 :: e) text = some d := by
  unfold annotateText at h
  rw [if_neg hc] at h
  split at h
  · cases h
  · simp only [World.asking, askContext] at h
    split at h
    · cases h
    · rename_i base q hq
      obtain ⟨ps, h1, _, h3, h4⟩ := contextQuery_says ho q (utf8 context)
      exact ⟨base, q, _, ps, hq, h1, h3, fun qs hqs hs k hk => (h4 k hk).trans (queryOf_says hqs hs k), h⟩

/-- the query `a=1;2` -/
def qSemi : Bytes := [97, 61, 49, 59, 50]

theorem qSemi_says : SaysParams qSemi [([97], [49, 59, 50])] :=
  .last (.pair (k := [97]) (v := [49, 59, 50]) (.plain 97 (by decide) (by decide) .nil)
    (.plain 49 (by decide) (by decide) (.plain 59 (by decide) (by decide) (.plain 50 (by decide) (by decide) .nil)))
    (by decide) (by decide) (by decide))

/-- of the address `…?a=1;2` with the context `x` only `context=x` is left -/
theorem semi_lost : contextQuery id qSemi [120] = contextName ++ [61, 120] := by decide +kernel

/-- C110 fails: a parameter with a semicolon is left out. -/
theorem C110_false : ¬ C110_statement := by
  intro h
  obtain ⟨ps, h1, _, h3⟩ := h id qSemi [120] _ (fun _ => List.Perm.refl _) qSemi_says
  have h4 := h3 [97] (by decide)
  have h5 := queryOf_says h1 (by rw [semi_lost]; decide) [97]
  rw [h4, semi_lost] at h5
  revert h5
  decide +kernel

/-- non-vacuity: the address `…?b=%41+&a=1&b` with the context `x&y` is asked with `a=1&b=A+&b=&context=x%26y` -/
example : SaysParams [98, 61, 37, 52, 49, 43, 38, 97, 61, 49, 38, 98] [([98], [65, 32]), ([97], [49]), ([98], [])] ∧
    contextQuery id [98, 61, 37, 52, 49, 43, 38, 97, 61, 49, 38, 98] [120, 38, 121] =
      [97, 61, 49, 38, 98, 61, 65, 43, 38, 98, 61, 38] ++ contextName ++ [61, 120, 37, 50, 54, 121] := by
  refine ⟨?_, by decide +kernel⟩
  refine .more (e := [98, 61, 37, 52, 49, 43]) (.pair (k := [98]) (v := [37, 52, 49, 43]) (.plain 98 (by decide) (by decide) .nil)
    (.hex (m := 4) (n := 1) (.digit 4 (by decide)) (.digit 1 (by decide)) (.space .nil)) (by decide) (by decide) (by decide)) ?_
  refine .more (e := [97, 61, 49]) (.pair (k := [97]) (v := [49]) (.plain 97 (by decide) (by decide) .nil)
    (.plain 49 (by decide) (by decide) .nil) (by decide) (by decide) (by decide)) ?_
  exact .last (.bare (.plain 98 (by decide) (by decide) .nil) (by decide) (by decide) (by decide))

end Fmr
