import Verif.Model.Conc
import Verif.Props.Refine
import Mathlib.Data.List.Nodup

/-!
# C49 and C51: the token registry under concurrency
-/

namespace Fmr

/-! ## specification -/

/-- the goroutine of an event -/
def CMEv.thread : CMEv → Nat
  | .callGet i _ | .rlock i | .beginRead i | .endRead i _ _ | .retGet i _ _ | .callPut i _ _ | .lock i
  | .beginWrite i | .endWrite i _ _ | .retPut i _ _ => i

/-- the token of the latest `put` of key `k` that was completed in `es` -/
def lastPut (k : String) (es : List CMEv) : Option Token :=
  es.foldl (fun acc e => match e with | .retPut _ k' t => if k' = k then some t else acc | _ => acc) none

/-- the token of the latest write of key `k` in `es` -/
def lastWrite (k : String) (es : List CMEv) : Option Token :=
  es.foldl (fun acc e => match e with | .endWrite _ k' t => if k' = k then some t else acc | _ => acc) none

theorem lastPut_snoc (k : String) (es : List CMEv) (e : CMEv) : lastPut k (es ++ [e]) =
    match e with | .retPut _ k' t => if k' = k then some t else lastPut k es | _ => lastPut k es := by
  rw [lastPut, List.foldl_append]
  cases e <;> rfl

theorem lastWrite_snoc (k : String) (es : List CMEv) (e : CMEv) : lastWrite k (es ++ [e]) =
    match e with | .endWrite _ k' t => if k' = k then some t else lastWrite k es | _ => lastWrite k es := by
  rw [lastWrite, List.foldl_append]
  cases e <;> rfl

/-! ## invariant -/

/-- between `RLock` and `RUnlock` -/
def CMPC.inRead : CMPC → Prop
  | .holdR _ | .reading _ | .gotR _ _ => True
  | _ => False

/-- between `Lock` and `Unlock` -/
def CMPC.inWrite : CMPC → Prop
  | .holdW _ _ | .writing _ _ | .didW _ _ => True
  | _ => False

structure CMInv (es : List CMEv) (s : CMState) : Prop where
  rd : ∀ i, i ∈ s.readers ↔ (s.pc i).inRead
  nd : s.readers.Nodup
  wr : ∀ i, s.writer = some i ↔ (s.pc i).inWrite
  ex : s.writer ≠ none → s.readers = []
  mem : ∀ k, s.tokens k = lastWrite k es
  clean : ∀ k, (∀ i t, s.pc i ≠ .didW k t) → s.tokens k = lastPut k es
  dirty : ∀ i k t, s.pc i = .didW k t → s.tokens k = some t
  got : ∀ i k v, s.pc i = .gotR k v → v = lastPut k es

theorem CMInv.no_writer {es : List CMEv} {s : CMState} (h : CMInv es s) {i j : Nat} (hi : (s.pc i).inRead)
    (hj : (s.pc j).inWrite) : False := by
  have h1 := (h.rd i).2 hi
  rw [h.ex (by rw [(h.wr j).2 hj]; simp)] at h1
  cases h1

theorem CMInv.one_writer {es : List CMEv} {s : CMState} (h : CMInv es s) {i j : Nat} (hi : (s.pc i).inWrite)
    (hj : (s.pc j).inWrite) : i = j := by
  have h1 := (h.wr i).2 hi
  rw [(h.wr j).2 hj] at h1
  exact (Option.some.inj h1).symm

theorem cm_inv {es : List CMEv} {s : CMState} (h : CMRun es s) : CMInv es s := by
  induction h with
  | init =>
    exact {
      rd := by simp [CMState.init, CMPC.inRead]
      nd := by simp [CMState.init]
      wr := by simp [CMState.init, CMPC.inWrite]
      ex := by simp [CMState.init]
      mem := by simp [CMState.init, lastWrite]
      clean := by simp [CMState.init, lastPut]
      dirty := by simp [CMState.init]
      got := by simp [CMState.init] }
  | @step es s e s' _ hs ih =>
    have key : ∀ {i : Nat} {c : CMPC} (j : Nat), ((s.goto i c).pc j) = if j = i then c else s.pc j :=
      fun _ => rfl
    cases hs with
    | @callGet i k hpc =>
      refine ⟨fun j => ?_, ih.nd, fun j => ?_, ih.ex, fun k' => ?_, fun k' hk => ?_, fun j k' t hj => ?_,
        fun j k' v hj => ?_⟩
      · rw [key]; split
        · subst j; have h := ih.rd i; rw [hpc] at h; exact h
        · exact ih.rd j
      · rw [key]; split
        · subst j; have h := ih.wr i; rw [hpc] at h; exact h
        · exact ih.wr j
      · rw [lastWrite_snoc]; exact ih.mem k'
      · rw [lastPut_snoc]
        refine ih.clean k' fun j t hj => hk j t ?_
        rw [key, if_neg (by rintro rfl; rw [hpc] at hj; cases hj)]; exact hj
      · rw [key] at hj; split at hj
        · cases hj
        · exact ih.dirty j k' t hj
      · rw [lastPut_snoc]
        rw [key] at hj; split at hj
        · cases hj
        · exact ih.got j k' v hj
    | @rlock i k hpc hw =>
      refine ⟨fun j => ?_, ?_, fun j => ?_, fun hne => absurd hw hne, fun k' => ?_, fun k' hk => ?_, fun j k' t hj => ?_,
        fun j k' v hj => ?_⟩
      · change j ∈ i :: s.readers ↔ _
        rw [key, List.mem_cons]; split
        · subst j; simp [CMPC.inRead]
        · rename_i h; simp only [h, false_or]; exact ih.rd j
      · refine List.nodup_cons.2 ⟨?_, ih.nd⟩
        rw [ih.rd, hpc]; exact id
      · rw [key]; split
        · subst j; have h := ih.wr i; rw [hpc] at h; exact h
        · exact ih.wr j
      · rw [lastWrite_snoc]; exact ih.mem k'
      · rw [lastPut_snoc]
        refine ih.clean k' fun j t hj => hk j t ?_
        rw [key, if_neg (by rintro rfl; rw [hpc] at hj; cases hj)]; exact hj
      · rw [key] at hj; split at hj
        · cases hj
        · exact ih.dirty j k' t hj
      · rw [lastPut_snoc]
        rw [key] at hj; split at hj
        · cases hj
        · exact ih.got j k' v hj
    | @beginRead i k hpc =>
      refine ⟨fun j => ?_, ih.nd, fun j => ?_, ih.ex, fun k' => ?_, fun k' hk => ?_, fun j k' t hj => ?_,
        fun j k' v hj => ?_⟩
      · rw [key]; split
        · subst j; have h := ih.rd i; rw [hpc] at h; exact h
        · exact ih.rd j
      · rw [key]; split
        · subst j; have h := ih.wr i; rw [hpc] at h; exact h
        · exact ih.wr j
      · rw [lastWrite_snoc]; exact ih.mem k'
      · rw [lastPut_snoc]
        refine ih.clean k' fun j t hj => hk j t ?_
        rw [key, if_neg (by rintro rfl; rw [hpc] at hj; cases hj)]; exact hj
      · rw [key] at hj; split at hj
        · cases hj
        · exact ih.dirty j k' t hj
      · rw [lastPut_snoc]
        rw [key] at hj; split at hj
        · cases hj
        · exact ih.got j k' v hj
    | @endRead i k hpc =>
      refine ⟨fun j => ?_, ih.nd, fun j => ?_, ih.ex, fun k' => ?_, fun k' hk => ?_, fun j k' t hj => ?_,
        fun j k' v hj => ?_⟩
      · rw [key]; split
        · subst j; have h := ih.rd i; rw [hpc] at h; exact h
        · exact ih.rd j
      · rw [key]; split
        · subst j; have h := ih.wr i; rw [hpc] at h; exact h
        · exact ih.wr j
      · rw [lastWrite_snoc]; exact ih.mem k'
      · rw [lastPut_snoc]
        refine ih.clean k' fun j t hj => hk j t ?_
        rw [key, if_neg (by rintro rfl; rw [hpc] at hj; cases hj)]; exact hj
      · rw [key] at hj; split at hj
        · cases hj
        · exact ih.dirty j k' t hj
      · rw [lastPut_snoc]
        rw [key] at hj; split at hj
        · cases hj
          refine ih.clean k fun l t hl => ?_
          exact ih.no_writer (i := i) (j := l) (by rw [hpc]; trivial) (by rw [hl]; trivial)
        · exact ih.got j k' v hj
    | @retGet i k v hpc =>
      refine ⟨fun j => ?_, ih.nd.erase i, fun j => ?_, fun hne => ?_, fun k' => ?_, fun k' hk => ?_, fun j k' t hj => ?_,
        fun j k' v hj => ?_⟩
      · change j ∈ s.readers.erase i ↔ _
        rw [key, ih.nd.mem_erase_iff]; split
        · subst j; simp [CMPC.inRead]
        · rename_i h; simp only [ne_eq, h, not_false_eq_true, true_and]; exact ih.rd j
      · rw [key]; split
        · subst j; have h := ih.wr i; rw [hpc] at h; exact h
        · exact ih.wr j
      · change s.readers.erase i = []
        rw [ih.ex hne]; rfl
      · rw [lastWrite_snoc]; exact ih.mem k'
      · rw [lastPut_snoc]
        refine ih.clean k' fun j t hj => hk j t ?_
        rw [key, if_neg (by rintro rfl; rw [hpc] at hj; cases hj)]; exact hj
      · rw [key] at hj; split at hj
        · cases hj
        · exact ih.dirty j k' t hj
      · rw [lastPut_snoc]
        rw [key] at hj; split at hj
        · cases hj
        · exact ih.got j k' v hj
    | @callPut i k t hpc =>
      refine ⟨fun j => ?_, ih.nd, fun j => ?_, ih.ex, fun k' => ?_, fun k' hk => ?_, fun j k' t hj => ?_,
        fun j k' v hj => ?_⟩
      · rw [key]; split
        · subst j; have h := ih.rd i; rw [hpc] at h; exact h
        · exact ih.rd j
      · rw [key]; split
        · subst j; have h := ih.wr i; rw [hpc] at h; exact h
        · exact ih.wr j
      · rw [lastWrite_snoc]; exact ih.mem k'
      · rw [lastPut_snoc]
        refine ih.clean k' fun j t hj => hk j t ?_
        rw [key, if_neg (by rintro rfl; rw [hpc] at hj; cases hj)]; exact hj
      · rw [key] at hj; split at hj
        · cases hj
        · exact ih.dirty j k' t hj
      · rw [lastPut_snoc]
        rw [key] at hj; split at hj
        · cases hj
        · exact ih.got j k' v hj
    | @lock i k t hpc hw hr =>
      refine ⟨fun j => ?_, ih.nd, fun j => ?_, fun _ => hr, fun k' => ?_, fun k' hk => ?_, fun j k' t hj => ?_,
        fun j k' v hj => ?_⟩
      · rw [key]; split
        · subst j; have h := ih.rd i; rw [hpc] at h; exact h
        · exact ih.rd j
      · change some i = some j ↔ _
        rw [key]; split
        · subst j; simp [CMPC.inWrite]
        · rename_i h
          refine ⟨fun hh => absurd (Option.some.inj hh).symm h, fun hh => ?_⟩
          rw [← ih.wr j, hw] at hh; cases hh
      · rw [lastWrite_snoc]; exact ih.mem k'
      · rw [lastPut_snoc]
        refine ih.clean k' fun j t hj => hk j t ?_
        rw [key, if_neg (by rintro rfl; rw [hpc] at hj; cases hj)]; exact hj
      · rw [key] at hj; split at hj
        · cases hj
        · exact ih.dirty j k' t hj
      · rw [lastPut_snoc]
        rw [key] at hj; split at hj
        · cases hj
        · exact ih.got j k' v hj
    | @beginWrite i k t hpc =>
      refine ⟨fun j => ?_, ih.nd, fun j => ?_, ih.ex, fun k' => ?_, fun k' hk => ?_, fun j k' t hj => ?_,
        fun j k' v hj => ?_⟩
      · rw [key]; split
        · subst j; have h := ih.rd i; rw [hpc] at h; exact h
        · exact ih.rd j
      · rw [key]; split
        · subst j; have h := ih.wr i; rw [hpc] at h; exact h
        · exact ih.wr j
      · rw [lastWrite_snoc]; exact ih.mem k'
      · rw [lastPut_snoc]
        refine ih.clean k' fun j t hj => hk j t ?_
        rw [key, if_neg (by rintro rfl; rw [hpc] at hj; cases hj)]; exact hj
      · rw [key] at hj; split at hj
        · cases hj
        · exact ih.dirty j k' t hj
      · rw [lastPut_snoc]
        rw [key] at hj; split at hj
        · cases hj
        · exact ih.got j k' v hj
    | @endWrite i k t hpc =>
      refine ⟨fun j => ?_, ih.nd, fun j => ?_, ih.ex, fun k' => ?_, fun k' hk => ?_, fun j k' t' hj => ?_,
        fun j k' v hj => ?_⟩
      · change j ∈ s.readers ↔ _
        rw [key]; split
        · subst j; have h := ih.rd i; rw [hpc] at h; exact h
        · exact ih.rd j
      · change s.writer = some j ↔ _
        rw [key]; split
        · subst j; have h := ih.wr i; rw [hpc] at h; exact h
        · exact ih.wr j
      · rw [lastWrite_snoc]
        change (if k' = k then some t else s.tokens k') = _
        by_cases h : k' = k
        · simp [h]
        · simp only [if_neg h, if_neg (Ne.symm h)]; exact ih.mem k'
      · rw [lastPut_snoc]
        change (if k' = k then some t else s.tokens k') = _
        have hne : k' ≠ k := by
          rintro rfl
          exact hk i t (by rw [key, if_pos rfl])
        rw [if_neg hne]
        refine ih.clean k' fun j t hj => hk j t ?_
        rw [key, if_neg (by rintro rfl; rw [hpc] at hj; cases hj)]; exact hj
      · change (if k' = k then some t else s.tokens k') = _
        rw [key] at hj; split at hj
        · cases hj; simp
        · rename_i h
          exact absurd (ih.one_writer (i := j) (j := i) (by rw [hj]; trivial) (by rw [hpc]; trivial)) h
      · rw [lastPut_snoc]
        rw [key] at hj; split at hj
        · cases hj
        · exact ih.got j k' v hj
    | @retPut i k t hpc =>
      refine ⟨fun j => ?_, ih.nd, fun j => ?_, fun hne => absurd rfl hne, fun k' => ?_, fun k' hk => ?_,
        fun j k' t' hj => ?_, fun j k' v hj => ?_⟩
      · change j ∈ s.readers ↔ _
        rw [key]; split
        · subst j; have h := ih.rd i; rw [hpc] at h; exact h
        · exact ih.rd j
      · change none = some j ↔ _
        rw [key]; split
        · simp [CMPC.inWrite]
        · rename_i h
          refine ⟨fun hh => (by cases hh), fun hh => ?_⟩
          exact absurd (ih.one_writer (i := j) (j := i) hh (by rw [hpc]; trivial)) h
      · rw [lastWrite_snoc]; exact ih.mem k'
      · rw [lastPut_snoc]
        change s.tokens k' = if k = k' then some t else lastPut k' es
        by_cases h : k = k'
        · rw [if_pos h, ← h]; exact ih.dirty i k t hpc
        · rw [if_neg h]
          refine ih.clean k' fun j t' hj => hk j t' ?_
          rw [key, if_neg]; · exact hj
          rintro rfl
          rw [hpc] at hj; cases hj; exact h rfl
      · rw [key] at hj; split at hj
        · cases hj
        · exact ih.dirty j k' t' hj
      · rw [key] at hj; split at hj
        · cases hj
        · exact (ih.no_writer (i := j) (j := i) (by rw [hj]; trivial) (by rw [hpc]; trivial)).elim

theorem cm_snoc {es : List CMEv} {e : CMEv} {s : CMState} (h : CMRun (es ++ [e]) s) :
    ∃ s0, CMRun es s0 ∧ CMStep s0 e s := by
  generalize hx : es ++ [e] = xs at h
  cases h with
  | init => exact absurd hx (by simp)
  | step h1 h2 =>
    obtain ⟨rfl, he⟩ := List.append_inj' hx rfl
    obtain rfl := List.singleton_inj.1 he
    exact ⟨_, h1, h2⟩

/-! ## the course of one call -/

/-- goroutine `i` neither calls nor returns nor locks in `b` -/
def Quiet (i : Nat) (b : List CMEv) : Prop := ∀ e ∈ b, e.thread = i → e = .beginRead i ∨ e = .beginWrite i

theorem Quiet.nil (i : Nat) : Quiet i [] := by simp [Quiet]

theorem Quiet.snoc {i : Nat} {b : List CMEv} {e : CMEv} (h : Quiet i b)
    (he : e.thread = i → e = .beginRead i ∨ e = .beginWrite i) : Quiet i (b ++ [e]) := by
  intro x hx
  rcases List.mem_append.1 hx with hx | hx
  · exact h x hx
  · rw [List.mem_singleton.1 hx]; exact he

/-- what has happened when goroutine `i` is at a program counter -/
def Past (i : Nat) (es : List CMEv) : CMPC → Prop
  | .idle => True
  | .wantR k => ∃ a b, es = a ++ .callGet i k :: b ∧ Quiet i b
  | .holdR k => ∃ a b c, es = a ++ .callGet i k :: (b ++ .rlock i :: c) ∧ Quiet i b ∧ Quiet i c ∧
      ∀ k', lastPut k' es = lastPut k' (a ++ .callGet i k :: b)
  | .reading k => ∃ a b c, es = a ++ .callGet i k :: (b ++ .rlock i :: c) ∧ Quiet i b ∧ Quiet i c ∧
      ∀ k', lastPut k' es = lastPut k' (a ++ .callGet i k :: b)
  | .gotR k v => ∃ a b c d, es = a ++ .callGet i k :: (b ++ .rlock i :: (c ++ .endRead i k v :: d)) ∧
      Quiet i b ∧ Quiet i c ∧ Quiet i d ∧ ∀ k', lastPut k' es = lastPut k' (a ++ .callGet i k :: b)
  | .wantW k t => ∃ a b, es = a ++ .callPut i k t :: b ∧ Quiet i b
  | .holdW k t => ∃ a b c, es = a ++ .callPut i k t :: (b ++ .lock i :: c) ∧ Quiet i b ∧ Quiet i c
  | .writing k t => ∃ a b c, es = a ++ .callPut i k t :: (b ++ .lock i :: c) ∧ Quiet i b ∧ Quiet i c
  | .didW k t => ∃ a b c d, es = a ++ .callPut i k t :: (b ++ .lock i :: (c ++ .endWrite i k t :: d)) ∧
      Quiet i b ∧ Quiet i c ∧ Quiet i d

theorem Past.snoc {i : Nat} {es : List CMEv} {e : CMEv} {c : CMPC} (h : Past i es c)
    (he : e.thread = i → e = .beginRead i ∨ e = .beginWrite i)
    (hp : c.inRead → ∀ k, lastPut k (es ++ [e]) = lastPut k es) : Past i (es ++ [e]) c := by
  cases c with
  | idle => trivial
  | wantR k => obtain ⟨a, b, rfl, h⟩ := h; exact ⟨a, b ++ [e], by simp, h.snoc he⟩
  | holdR k =>
    obtain ⟨a, b, c, rfl, hb, hc, hk⟩ := h
    exact ⟨a, b, c ++ [e], by simp, hb, hc.snoc he, fun k' => by rw [hp trivial, hk]⟩
  | reading k =>
    obtain ⟨a, b, c, rfl, hb, hc, hk⟩ := h
    exact ⟨a, b, c ++ [e], by simp, hb, hc.snoc he, fun k' => by rw [hp trivial, hk]⟩
  | gotR k v =>
    obtain ⟨a, b, c, d, rfl, hb, hc, hd, hk⟩ := h
    exact ⟨a, b, c, d ++ [e], by simp, hb, hc, hd.snoc he, fun k' => by rw [hp trivial, hk]⟩
  | wantW k t => obtain ⟨a, b, rfl, h⟩ := h; exact ⟨a, b ++ [e], by simp, h.snoc he⟩
  | holdW k t => obtain ⟨a, b, c, rfl, hb, hc⟩ := h; exact ⟨a, b, c ++ [e], by simp, hb, hc.snoc he⟩
  | writing k t => obtain ⟨a, b, c, rfl, hb, hc⟩ := h; exact ⟨a, b, c ++ [e], by simp, hb, hc.snoc he⟩
  | didW k t =>
    obtain ⟨a, b, c, d, rfl, hb, hc, hd⟩ := h
    exact ⟨a, b, c, d ++ [e], by simp, hb, hc, hd.snoc he⟩

theorem cm_past {es : List CMEv} {s : CMState} (h : CMRun es s) : ∀ i, Past i es (s.pc i) := by
  induction h with
  | init => intro i; trivial
  | @step es s e s' hr hs ih =>
    have inv := cm_inv hr
    have key : ∀ {i : Nat} {c : CMPC} (j : Nat), ((s.goto i c).pc j) = if j = i then c else s.pc j :=
      fun _ => rfl
    have other : ∀ {i : Nat} (j : Nat), j ≠ i → e.thread = i →
        ((s.pc j).inRead → ∀ k, lastPut k (es ++ [e]) = lastPut k es) → Past j (es ++ [e]) (s.pc j) :=
      fun j hne he hp => (ih j).snoc (fun h => absurd (h.symm.trans he) hne) hp
    intro j
    cases hs with
    | @callGet i k hpc =>
      rw [key]; split
      · subst j; exact ⟨es, [], by simp, Quiet.nil _⟩
      · rename_i h; exact other j h rfl fun _ k => by rw [lastPut_snoc]
    | @rlock i k hpc hw =>
      change Past j _ (if j = i then _ else _); split
      · subst j
        have := ih i; rw [hpc] at this
        obtain ⟨a, b, rfl, hb⟩ := this
        exact ⟨a, b, [], by simp, hb, Quiet.nil _, fun k' => by rw [lastPut_snoc]⟩
      · rename_i h; exact other j h rfl fun _ k => by rw [lastPut_snoc]
    | @beginRead i k hpc =>
      rw [key]; split
      · subst j
        have := ih i; rw [hpc] at this
        exact Past.snoc (c := .reading k) this (fun _ => .inl rfl) fun _ k => by rw [lastPut_snoc]
      · rename_i h; exact other j h rfl fun _ k => by rw [lastPut_snoc]
    | @endRead i k hpc =>
      rw [key]; split
      · subst j
        have := ih i; rw [hpc] at this
        obtain ⟨a, b, c, rfl, hb, hc, hk⟩ := this
        exact ⟨a, b, c, [], by simp, hb, hc, Quiet.nil _, fun k' => by rw [lastPut_snoc]; exact hk k'⟩
      · rename_i h; exact other j h rfl fun _ k => by rw [lastPut_snoc]
    | @retGet i k v hpc =>
      change Past j _ (if j = i then _ else _); split
      · trivial
      · rename_i h; exact other j h rfl fun _ k => by rw [lastPut_snoc]
    | @callPut i k t hpc =>
      rw [key]; split
      · subst j; exact ⟨es, [], by simp, Quiet.nil _⟩
      · rename_i h; exact other j h rfl fun _ k => by rw [lastPut_snoc]
    | @lock i k t hpc hw hr =>
      change Past j _ (if j = i then _ else _); split
      · subst j
        have := ih i; rw [hpc] at this
        obtain ⟨a, b, rfl, hb⟩ := this
        exact ⟨a, b, [], by simp, hb, Quiet.nil _⟩
      · rename_i h; exact other j h rfl fun _ k => by rw [lastPut_snoc]
    | @beginWrite i k t hpc =>
      rw [key]; split
      · subst j
        have := ih i; rw [hpc] at this
        exact Past.snoc (c := .writing k t) this (fun _ => .inr rfl) fun _ k => by rw [lastPut_snoc]
      · rename_i h; exact other j h rfl fun _ k => by rw [lastPut_snoc]
    | @endWrite i k t hpc =>
      change Past j _ (if j = i then _ else _); split
      · subst j
        have := ih i; rw [hpc] at this
        obtain ⟨a, b, c, rfl, hb, hc⟩ := this
        exact ⟨a, b, c, [], by simp, hb, hc, Quiet.nil _⟩
      · rename_i h; exact other j h rfl fun _ k => by rw [lastPut_snoc]
    | @retPut i k t hpc =>
      change Past j _ (if j = i then _ else _); split
      · trivial
      · rename_i h
        exact other j h rfl fun hrd _ => (inv.no_writer (i := j) (j := i) hrd (by rw [hpc]; trivial)).elim

/-! ## C49 -/

/-- the goroutine is accessing the map -/
def CMPC.reads (c : CMPC) : Prop := ∃ k, c = .reading k
def CMPC.writes (c : CMPC) : Prop := ∃ k t, c = .writing k t

/-- **C49** no two accesses to the map overlap unless both are reads. -/
theorem C49_race_free {es : List CMEv} {s : CMState} (h : CMRun es s) {i j : Nat} (hij : i ≠ j)
    (hi : (s.pc i).writes) : ¬ (s.pc j).reads ∧ ¬ (s.pc j).writes := by
  obtain ⟨k, t, hi⟩ := hi
  refine ⟨?_, ?_⟩
  · rintro ⟨k', hj⟩
    exact (cm_inv h).no_writer (i := j) (j := i) (by rw [hj]; trivial) (by rw [hi]; trivial)
  · rintro ⟨k', t', hj⟩
    exact hij ((cm_inv h).one_writer (by rw [hi]; trivial) (by rw [hj]; trivial))

/-- **C49** A `get(k)` that returns `v` was called, acquired the read lock, read and returned, in this order and with
nothing else in between; `v` is the token of the latest `put(k, ·)` completed before its critical section, nil
if there is none. -/
theorem C49_get {es : List CMEv} {s : CMState} {i : Nat} {k : String} {v : Option Token}
    (h : CMRun (es ++ [.retGet i k v]) s) :
    ∃ a b c d, es = a ++ .callGet i k :: (b ++ .rlock i :: (c ++ .endRead i k v :: d)) ∧
      Quiet i b ∧ Quiet i c ∧ Quiet i d ∧ v = lastPut k (a ++ .callGet i k :: b) := by
  obtain ⟨s0, h0, hs⟩ := cm_snoc h
  cases hs with
  | retGet hpc =>
    have hp := cm_past h0 i
    rw [hpc] at hp
    obtain ⟨a, b, c, d, he, hb, hc, hd, hk⟩ := hp
    exact ⟨a, b, c, d, he, hb, hc, hd, by rw [← hk k]; exact (cm_inv h0).got i k v hpc⟩

/-- **C49** A `put(k, t)` that returns was called, acquired the lock, wrote and returned. -/
theorem C49_put {es : List CMEv} {s : CMState} {i : Nat} {k : String} {t : Token}
    (h : CMRun (es ++ [.retPut i k t]) s) :
    ∃ a b c d, es = a ++ .callPut i k t :: (b ++ .lock i :: (c ++ .endWrite i k t :: d)) ∧
      Quiet i b ∧ Quiet i c ∧ Quiet i d := by
  obtain ⟨s0, h0, hs⟩ := cm_snoc h
  cases hs with
  | retPut hpc =>
    have hp := cm_past h0 i
    rw [hpc] at hp
    exact hp

theorem cm_prefix {a b : List CMEv} {s : CMState} (h : CMRun (a ++ b) s) : ∃ s0, CMRun a s0 := by
  induction b using List.reverseRecOn generalizing s with
  | nil => exact ⟨s, by simpa using h⟩
  | append_singleton b e ih =>
    rw [← List.append_assoc] at h
    obtain ⟨s0, h0, -⟩ := cm_snoc h
    exact ih h0

/-- **C49** linearizability: the accesses to the map, in the order in which they happen, form a
sequential history of a map, and every call has its access between its call and its return (`C49_get`, `C49_put`). -/
theorem C49_legal {es rest : List CMEv} {s : CMState} {i : Nat} {k : String} {v : Option Token}
    (h : CMRun (es ++ .endRead i k v :: rest) s) : v = lastWrite k es := by
  rw [show es ++ .endRead i k v :: rest = (es ++ [.endRead i k v]) ++ rest by simp] at h
  obtain ⟨s1, h1⟩ := cm_prefix h
  obtain ⟨s0, h0, hs⟩ := cm_snoc h1
  cases hs with
  | endRead hpc => exact (cm_inv h0).mem k

/-- an event that is not a new call -/
def CMEv.inside : CMEv → Bool
  | .callGet _ _ | .callPut _ _ _ => false
  | _ => true

theorem cm_inside {s : CMState} {i : Nat} (h : (s.pc i).inRead ∨ (s.pc i).inWrite) :
    ∃ e s', CMStep s e s' ∧ e.inside = true := by
  cases hpc : s.pc i with
  | holdR k => exact ⟨_, _, .beginRead hpc, rfl⟩
  | reading k => exact ⟨_, _, .endRead hpc, rfl⟩
  | gotR k v => exact ⟨_, _, .retGet hpc, rfl⟩
  | holdW k t => exact ⟨_, _, .beginWrite hpc, rfl⟩
  | writing k t => exact ⟨_, _, .endWrite hpc, rfl⟩
  | didW k t => exact ⟨_, _, .retPut hpc, rfl⟩
  | idle => rw [hpc] at h; simp [CMPC.inRead, CMPC.inWrite] at h
  | wantR k => rw [hpc] at h; simp [CMPC.inRead, CMPC.inWrite] at h
  | wantW k t => rw [hpc] at h; simp [CMPC.inRead, CMPC.inWrite] at h

/-- **C49** no deadlock: while some goroutine is inside `get` or `put`, one of them can go on. -/
theorem C49_progress {es : List CMEv} {s : CMState} (h : CMRun es s) {i : Nat} (hi : s.pc i ≠ .idle) :
    ∃ e s', CMStep s e s' ∧ e.inside = true := by
  have inv := cm_inv h
  have hw : s.writer ≠ none → ∃ e s', CMStep s e s' ∧ e.inside = true := fun hne => by
    obtain ⟨j, hj⟩ := Option.ne_none_iff_exists'.1 hne
    exact cm_inside (.inr ((inv.wr j).1 hj))
  by_cases hn : s.writer = none
  · cases hpc : s.pc i with
    | idle => exact absurd hpc hi
    | wantR k => exact ⟨_, _, .rlock hpc hn, rfl⟩
    | wantW k t =>
      cases hr : s.readers with
      | nil => exact ⟨_, _, .lock hpc hn hr, rfl⟩
      | cons j l => exact cm_inside (.inl ((inv.rd j).1 (by rw [hr]; simp)))
    | _ => exact cm_inside (i := i) (by rw [hpc]; simp [CMPC.inRead, CMPC.inWrite])
  · exact hw hn

/-! ## C51 -/

theorem calls_got {i : Nat} {k : String} {v : Option Token} : ∀ {es : List CMEv},
    .got k v ∈ callsOf i es ↔ .retGet i k v ∈ es
  | [] => by simp [callsOf]
  | e :: es => by
    have ih := calls_got (i := i) (k := k) (v := v) (es := es)
    cases e <;> simp only [callsOf] <;> (try split) <;> simp_all
    all_goals (try (rintro rfl; contradiction))

theorem calls_done {i : Nat} {k : String} {v : Token} : ∀ {es : List CMEv},
    .done k v ∈ callsOf i es ↔ .retPut i k v ∈ es
  | [] => by simp [callsOf]
  | e :: es => by
    have ih := calls_done (i := i) (k := k) (v := v) (es := es)
    cases e <;> simp only [callsOf] <;> (try split) <;> simp_all
    all_goals (try (rintro rfl; contradiction))

theorem calls_put {i : Nat} {k : String} {v : Token} : ∀ {es : List CMEv},
    .put k v ∈ callsOf i es ↔ .callPut i k v ∈ es
  | [] => by simp [callsOf]
  | e :: es => by
    have ih := calls_put (i := i) (k := k) (v := v) (es := es)
    cases e <;> simp only [callsOf] <;> (try split) <;> simp_all
    all_goals (try (rintro rfl; contradiction))

/-- every use of the registry follows the library's code -/
def OnlyLibrary (es : List CMEv) : Prop := ∀ j, ∃ toks more, Ensures toks (callsOf j es ++ more)

theorem ensures_put {toks : List Token} {cs : List CMCall} (h : Ensures toks cs) {k : String} {t : Token}
    (hm : .put k t ∈ cs) : t.text = k := by
  induction h with
  | nil => cases hm
  | lookup _ ih => exact ih (by simpa using hm)
  | present _ ih => exact ih (by simpa using hm)
  | missing _ ih =>
    simp only [List.mem_cons, reduceCtorEq, CMCall.put.injEq, false_or] at hm
    rcases hm with ⟨rfl, rfl⟩ | hm
    · rfl
    · exact ih hm

theorem ensures_has {toks : List Token} {cs : List CMCall} (h : Ensures toks cs) {t : Token} (ht : t ∈ toks) :
    (∃ v, .got t.text (some v) ∈ cs) ∨ .done t.text t ∈ cs := by
  induction h with
  | nil => cases ht
  | lookup _ ih =>
    rcases ih ht with ⟨v, h⟩ | h
    · exact .inl ⟨v, by simp [h]⟩
    · exact .inr (by simp [h])
  | @present t' v toks cs _ ih =>
    rcases List.mem_cons.1 ht with rfl | ht
    · exact .inl ⟨v, by simp⟩
    · rcases ih ht with ⟨v, h⟩ | h
      · exact .inl ⟨v, by simp [h]⟩
      · exact .inr (by simp [h])
  | @missing t' toks cs _ ih =>
    rcases List.mem_cons.1 ht with rfl | ht
    · exact .inr (by simp)
    · rcases ih ht with ⟨v, h⟩ | h
      · exact .inl ⟨v, by simp [h]⟩
      · exact .inr (by simp [h])

/-- a key that was seen with a token never loses it -/
structure CMKeep (es : List CMEv) (s : CMState) : Prop where
  got : ∀ i k v, s.pc i = .gotR k (some v) → s.tokens k ≠ none
  retGet : ∀ i k v, .retGet i k (some v) ∈ es → s.tokens k ≠ none
  retPut : ∀ i k t, .retPut i k t ∈ es → s.tokens k ≠ none
  called : ∀ i k t, (s.pc i = .wantW k t ∨ s.pc i = .holdW k t ∨ s.pc i = .writing k t) → .callPut i k t ∈ es
  held : ∀ k t, s.tokens k = some t → ∃ i, .callPut i k t ∈ es

theorem cm_keep {es : List CMEv} {s : CMState} (h : CMRun es s) : CMKeep es s := by
  induction h with
  | init => exact ⟨by simp [CMState.init], by simp, by simp, by simp [CMState.init], by simp [CMState.init]⟩
  | @step es s e s' hr hs ih =>
    have inv := cm_inv hr
    have goto : ∀ {i : Nat} {c : CMPC} (j : Nat) (d : CMPC), ((s.goto i c).pc j) = d →
        (j = i ∧ c = d) ∨ (j ≠ i ∧ s.pc j = d) := by
      intro i c j d hd
      by_cases hj : j = i
      · exact .inl ⟨hj, by simpa [CMState.goto, hj] using hd⟩
      · exact .inr ⟨hj, by simpa [CMState.goto, hj] using hd⟩
    -- the parts that are the same for all steps that leave the map alone and return no token
    have same : ∀ {i : Nat} {c : CMPC} {s' : CMState}, s'.pc = (s.goto i c).pc → s'.tokens = s.tokens →
        (∀ k v, c = .gotR k (some v) → s.tokens k ≠ none) →
        (∀ k t, (c = .wantW k t ∨ c = .holdW k t ∨ c = .writing k t) → .callPut i k t ∈ es ++ [e]) →
        (∀ j k v, e = .retGet j k (some v) → s.tokens k ≠ none) →
        (∀ j k t, e = .retPut j k t → s.tokens k ≠ none) → CMKeep (es ++ [e]) s' := by
      intro i c s' hpc htok h1 h2 h3 h4
      refine ⟨fun j k v hj => ?_, fun j k v hj => ?_, fun j k t hj => ?_, fun j k t hj => ?_, fun k t hk => ?_⟩
      · rw [hpc] at hj; rw [htok]
        rcases goto j _ hj with ⟨-, hc⟩ | ⟨-, hc⟩
        · exact h1 k v hc
        · exact ih.got j k v hc
      · rw [htok]
        rcases List.mem_append.1 hj with hj | hj
        · exact ih.retGet j k v hj
        · exact h3 j k v (List.mem_singleton.1 hj).symm
      · rw [htok]
        rcases List.mem_append.1 hj with hj | hj
        · exact ih.retPut j k t hj
        · exact h4 j k t (List.mem_singleton.1 hj).symm
      · rw [hpc] at hj
        have hj' : (j = i ∧ (c = .wantW k t ∨ c = .holdW k t ∨ c = .writing k t)) ∨
            (s.pc j = .wantW k t ∨ s.pc j = .holdW k t ∨ s.pc j = .writing k t) := by
          rcases hj with hj | hj | hj <;> rcases goto j _ hj with ⟨a, b⟩ | ⟨a, b⟩ <;> simp [a, b]
        rcases hj' with ⟨rfl, hc⟩ | hc
        · exact h2 k t hc
        · exact List.mem_append_left _ (ih.called j k t hc)
      · rw [htok] at hk
        obtain ⟨j, hj⟩ := ih.held k t hk
        exact ⟨j, List.mem_append_left _ hj⟩
    cases hs with
    | @callGet i k hpc => exact same (i := i) (c := .wantR k) rfl rfl (by simp) (by simp) (by simp) (by simp)
    | @rlock i k hpc hw => exact same (i := i) (c := .holdR k) rfl rfl (by simp) (by simp) (by simp) (by simp)
    | @beginRead i k hpc => exact same (i := i) (c := .reading k) rfl rfl (by simp) (by simp) (by simp) (by simp)
    | @endRead i k hpc =>
      refine same (i := i) (c := .gotR k (s.tokens k)) rfl rfl ?_ (by simp) (by simp) (by simp)
      intro k' v hv
      simp only [CMPC.gotR.injEq] at hv
      obtain ⟨rfl, hv⟩ := hv
      rw [hv]; simp
    | @retGet i k v hpc =>
      refine same (i := i) (c := .idle) rfl rfl (by simp) (by simp) ?_ (by simp)
      intro j k' v' hv
      cases hv
      exact ih.got i k v' hpc
    | @callPut i k t hpc =>
      refine same (i := i) (c := .wantW k t) rfl rfl (by simp) ?_ (by simp) (by simp)
      rintro k' t' (h | h | h)
      · cases h; simp
      · cases h
      · cases h
    | @lock i k t hpc hw hr =>
      refine same (i := i) (c := .holdW k t) rfl rfl (by simp) ?_ (by simp) (by simp)
      rintro k' t' (h | h | h)
      · cases h
      · cases h; exact List.mem_append_left _ (ih.called i k t (.inl hpc))
      · cases h
    | @beginWrite i k t hpc =>
      refine same (i := i) (c := .writing k t) rfl rfl (by simp) ?_ (by simp) (by simp)
      rintro k' t' (h | h | h)
      · cases h
      · cases h
      · cases h; exact List.mem_append_left _ (ih.called i k t (.inr (.inl hpc)))
    | @endWrite i k t hpc =>
      have keep : ∀ k', s.tokens k' ≠ none → (if k' = k then some t else s.tokens k') ≠ none := by
        intro k' h; split
        · simp
        · exact h
      refine ⟨fun j k' v hj => ?_, fun j k' v hj => ?_, fun j k' t' hj => ?_, fun j k' t' hj => ?_,
        fun k' t' hk => ?_⟩
      · rcases goto j _ hj with ⟨-, hc⟩ | ⟨-, hc⟩
        · cases hc
        · exact keep _ (ih.got j k' v hc)
      · rcases List.mem_append.1 hj with hj | hj
        · exact keep _ (ih.retGet j k' v hj)
        · simp at hj
      · rcases List.mem_append.1 hj with hj | hj
        · exact keep _ (ih.retPut j k' t' hj)
        · simp at hj
      · refine List.mem_append_left _ (ih.called j k' t' ?_)
        rcases hj with hj | hj | hj <;> rcases goto j _ hj with ⟨a, b⟩ | ⟨a, b⟩ <;>
          first | (exact absurd b (by simp)) | simp [b]
      · change (if k' = k then some t else s.tokens k') = some t' at hk
        split at hk
        · rename_i h
          cases hk
          exact ⟨i, List.mem_append_left _ (ih.called i k' t (by rw [h]; exact .inr (.inr hpc)))⟩
        · obtain ⟨j, hj⟩ := ih.held k' t' hk
          exact ⟨j, List.mem_append_left _ hj⟩
    | @retPut i k t hpc =>
      refine same (i := i) (c := .idle) rfl rfl (by simp) (by simp) (by simp) ?_
      intro j k' t' hv
      cases hv
      rw [inv.dirty i k t hpc]; simp

/-- **C51** Once a goroutine has run grammar_refine.go:48-50 for the tokens `toks`, the registry holds, for each of
them and at every later moment, a token with that text, whatever the other goroutines do. -/
theorem C51_kept {es : List CMEv} {s : CMState} (h : CMRun es s) (hl : OnlyLibrary es) {i : Nat}
    {toks : List Token} {cs rest : List CMCall} (hcs : Ensures toks cs) (hi : callsOf i es = cs ++ rest) :
    ∀ t ∈ toks, ∃ v, s.tokens t.text = some v ∧ v.text = t.text := by
  intro t ht
  have keep := cm_keep h
  have hne : s.tokens t.text ≠ none := by
    rcases ensures_has hcs ht with ⟨v, hv⟩ | hv
    · exact keep.retGet i _ v (calls_got.1 (by rw [hi]; exact List.mem_append_left _ hv))
    · exact keep.retPut i _ t (calls_done.1 (by rw [hi]; exact List.mem_append_left _ hv))
  obtain ⟨v, hv⟩ := Option.ne_none_iff_exists'.1 hne
  refine ⟨v, hv, ?_⟩
  obtain ⟨j, hj⟩ := keep.held _ _ hv
  obtain ⟨toks', more, he⟩ := hl j
  exact ensures_put he (List.mem_append_left _ (calls_put.2 hj))

/-- the tokens for which the loop of grammar_refine.go:37-51 runs lines 48-50 -/
def literalTokens (toks : List Token) : List Token := toks.filter (fun t => t.type ≠ .space)

/-- the loop adds just these to the registry, and the terms it makes are their texts -/
theorem literalLoop_tokens (w : RefineWorld) (m : Meta) : ∀ (toks : List Token) (tname : String)
    (terms : List Term) (reg : Registry),
    (literalLoop w m toks tname terms reg).2.2 = (literalTokens toks).foldl Registry.add reg ∧
    (literalLoop w m toks tname terms reg).2.1 =
      terms ++ (literalTokens toks).map (fun t => { value := t.text, type := .terminal, «meta» := m })
  | [], tname, terms, reg => by simp [literalLoop, literalTokens]
  | t :: ts, tname, terms, reg => by
    rw [literalLoop]
    split
    · rename_i h
      have := literalLoop_tokens w m ts tname terms reg
      simpa [literalTokens, h] using this
    · rename_i h
      have := literalLoop_tokens w m ts
        (if t.type ≠ .punct then tname ++ "_" ++ w.ascii t.text else tname)
        (terms ++ [{ value := t.text, type := .terminal, «meta» := m }]) (reg.add t)
      simpa [literalTokens, h] using this

/-- **C51** for a literal: whatever runs concurrently, after the loop of grammar_refine.go:37-51 over the tokens of a
literal the registry holds a token with the same text for every term of the rule made for the literal. -/
theorem C51_literal {es : List CMEv} {s : CMState} (h : CMRun es s) (hl : OnlyLibrary es) {i : Nat}
    {toks : List Token} {cs rest : List CMCall} (hcs : Ensures (literalTokens toks) cs)
    (hi : callsOf i es = cs ++ rest) (w : RefineWorld) (m : Meta) (tname : String) (reg : Registry) :
    ∀ t ∈ (literalLoop w m toks tname [] reg).2.1, ∃ v, s.tokens t.value = some v ∧ v.text = t.value := by
  intro t ht
  rw [(literalLoop_tokens w m toks tname [] reg).2, List.nil_append] at ht
  obtain ⟨tok, htok, rfl⟩ := List.mem_map.1 ht
  exact C51_kept h hl hcs hi tok htok

/-! ### a whole refinement -/

/-- `f` does to the registry nothing but lines 48-50 for some tokens, and its result does not depend on the
registry -/
def RegClient {α : Type} (f : RefineSt → α → Out (RefineSt × α)) : Prop :=
  ∀ st a st' a', f st a = .ok (st', a') → ∃ toks : List Token, ∀ reg,
    f { st with reg := reg } a = .ok ({ st' with reg := toks.foldl Registry.add reg }, a')

theorem mapState_client {α : Type} {f : RefineSt → α → Out (RefineSt × α)} (hf : RegClient f) :
    RegClient (mapState f) := by
  intro st l
  induction l generalizing st with
  | nil =>
    intro st' l' h
    simp only [mapState, Out.ok.injEq, Prod.mk.injEq] at h
    obtain ⟨rfl, rfl⟩ := h
    exact ⟨[], fun reg => rfl⟩
  | cons a l ih =>
    intro st' l' h
    rw [mapState] at h
    obtain ⟨⟨st1, a1⟩, h1, h⟩ := Out.bind_eq_ok.1 h
    obtain ⟨⟨st2, l2⟩, h2, h⟩ := Out.bind_eq_ok.1 h
    cases h
    obtain ⟨t1, k1⟩ := hf _ _ _ _ h1
    obtain ⟨t2, k2⟩ := ih _ _ _ h2
    refine ⟨t1 ++ t2, fun reg => ?_⟩
    rw [mapState, k1 reg, Out.bind_ok]
    simp only []
    rw [k2, Out.bind_ok, List.foldl_append]
    rfl

theorem literalLoop_name_reg (w : RefineWorld) (m : Meta) : ∀ (toks : List Token) (tname : String)
    (terms : List Term) (reg reg' : Registry),
    (literalLoop w m toks tname terms reg).1 = (literalLoop w m toks tname terms reg').1
  | [], _, _, _, _ => rfl
  | t :: ts, tname, terms, reg, reg' => by
    rw [literalLoop, literalLoop]
    split
    · exact literalLoop_name_reg w m ts _ _ _ _
    · exact literalLoop_name_reg w m ts _ _ _ _

theorem literalLoop_any (w : RefineWorld) (m : Meta) (toks : List Token) (tname : String) (terms : List Term)
    (reg reg' : Registry) : literalLoop w m toks tname terms reg' =
      ((literalLoop w m toks tname terms reg).1, (literalLoop w m toks tname terms reg).2.1,
        (literalTokens toks).foldl Registry.add reg') := by
  obtain ⟨h1, h2⟩ := literalLoop_tokens w m toks tname terms reg'
  obtain ⟨-, h4⟩ := literalLoop_tokens w m toks tname terms reg
  rw [Prod.ext_iff, Prod.ext_iff]
  exact ⟨literalLoop_name_reg w m toks tname terms reg' reg, by rw [h2, h4], h1⟩

theorem refineTerm_client (w : RefineWorld) (pre : String) (rules : List (String × Rule)) (fuel : Nat) :
    RegClient (refineTerm w pre rules fuel) := by
  intro st t st' t' h
  rw [refineTerm] at h
  simp only [refineTerm]
  split_ifs at h ⊢ with ht
  · cases h; exact ⟨[], fun reg => rfl⟩
  · split at h
    · rename_i v hv
      cases h
      exact ⟨[], fun reg => rfl⟩
    · rename_i hv
      obtain ⟨toks, h1, h⟩ := Out.bind_eq_ok.1 h
      obtain ⟨name, h2, h⟩ := Out.bind_eq_ok.1 h
      obtain ⟨hash, h3, h⟩ := Out.bind_eq_ok.1 h
      refine ⟨literalTokens toks, fun reg => ?_⟩
      simp only [h1, Out.bind_ok]
      rw [literalLoop_any w t.meta toks (pre ++ "_t") [] st.reg reg]
      simp only []
      rw [h2, Out.bind_ok, h3, Out.bind_ok]
      cases h
      rfl

theorem refineBody_client (w : RefineWorld) (pre : String) (rules : List (String × Rule)) (fuel : Nat) :
    RegClient (refineBody w pre rules fuel) := by
  intro st e st' e' h
  rw [refineBody] at h
  obtain ⟨⟨st1, ts⟩, h1, h⟩ := Out.bind_eq_ok.1 h
  cases h
  obtain ⟨toks, k⟩ := mapState_client (refineTerm_client w pre rules fuel) _ _ _ _ h1
  exact ⟨toks, fun reg => by rw [refineBody, k reg, Out.bind_ok]; rfl⟩

theorem refineRule_client (w : RefineWorld) (pre : String) (rules : List (String × Rule)) (fuel : Nat) :
    RegClient (refineRule w pre rules fuel) := by
  intro st e st' e' h
  rw [refineRule] at h
  obtain ⟨⟨st1, ts⟩, h1, h⟩ := Out.bind_eq_ok.1 h
  cases h
  obtain ⟨toks, k⟩ := mapState_client (refineBody_client w pre rules fuel) _ _ _ _ h1
  exact ⟨toks, fun reg => by rw [refineRule, k reg, Out.bind_ok]; rfl⟩

theorem foldl_add_lookup : ∀ {toks : List Token} {reg : Registry} {k : String} {v : Token},
    (toks.foldl Registry.add reg).lookup k = some v → reg.lookup k = some v ∨ (v ∈ toks ∧ v.text = k)
  | [], _, _, _, h => .inl h
  | t :: ts, reg, k, v, h => by
    rcases foldl_add_lookup (toks := ts) h with h | ⟨h, h'⟩
    · rcases Registry.add_only h with h | ⟨rfl, rfl⟩
      · exact .inl h
      · exact .inr ⟨by simp, rfl⟩
    · exact .inr ⟨by simp [h], h'⟩

/-- `refine` uses the registry only by running lines 48-50 for some tokens, in an order that does not depend on the
registry; nor does the refined grammar. The tokens include the text of every literal token of the result. -/
theorem C51_refine {w : RefineWorld} {pre : String} {fuel : Nat} {reg reg' : Registry} {g g' : Grammar}
    (hg : g.refined = false) (h : refine w pre fuel reg g = .ok (reg', g')) :
    ∃ toks : List Token, (∀ r, refine w pre fuel r g = .ok (toks.foldl Registry.add r, g')) ∧
      ∀ A ts, g'.source A ts → ∀ t ∈ ts, t.type = .terminal → ∃ tok ∈ toks, tok.text = t.value := by
  have h' := h
  rw [refine, hg] at h
  simp only [Bool.false_eq_true, if_false] at h
  obtain ⟨⟨st, rules⟩, h1, h⟩ := Out.bind_eq_ok.1 h
  cases h
  obtain ⟨toks, k⟩ := mapState_client (refineRule_client w pre g.rules fuel) _ _ _ _ h1
  have hall : ∀ r, refine w pre fuel r g = .ok (toks.foldl Registry.add r,
      { g with rules := st.terminalRules.foldl (fun m r => mapSet m r.name r) rules, refined := true }) := by
    intro r
    rw [refine, hg]
    simp only [Bool.false_eq_true, if_false]
    have := k r
    simp only [] at this
    rw [this, Out.bind_ok]
    rfl
  refine ⟨toks, hall, fun A ts hs t ht htt => ?_⟩
  obtain ⟨v, hv⟩ := (C55_registry hg (hall [])).2.1 A ts hs t ht htt
  rcases foldl_add_lookup hv with h | ⟨h, h'⟩
  · cases h
  · exact ⟨v, h, h'⟩

/-- **C51** A goroutine that refines a grammar makes, whatever the registry and the other goroutines do, the same
grammar as when it runs alone; and from then on the registry holds a token with the same text for every literal
token of that grammar. The goroutine's uses of the registry are `Ensures toks` with the tokens of `C51_refine`. -/
theorem C51 {w : RefineWorld} {pre : String} {fuel : Nat} {reg reg' : Registry} {g g' : Grammar}
    (hg : g.refined = false) (h : refine w pre fuel reg g = .ok (reg', g')) :
    ∃ toks : List Token, (∀ r, refine w pre fuel r g = .ok (toks.foldl Registry.add r, g')) ∧
      ∀ {es s i cs rest}, CMRun es s → OnlyLibrary es → Ensures toks cs → callsOf i es = cs ++ rest →
        ∀ A ts, g'.source A ts → ∀ t ∈ ts, t.type = .terminal →
          ∃ v, s.tokens t.value = some v ∧ v.text = t.value := by
  obtain ⟨toks, h1, h2⟩ := C51_refine hg h
  refine ⟨toks, h1, fun {es s i cs rest} hr hl hcs hi A ts hs t ht htt => ?_⟩
  obtain ⟨tok, htok, he⟩ := h2 A ts hs t ht htt
  obtain ⟨v, hv, hv'⟩ := C51_kept hr hl hcs hi tok htok
  exact ⟨v, he ▸ hv, he ▸ hv'⟩

/-! ### not vacuous: two goroutines race for the same key, both put -/

def raceA : Token := { text := "x", i := 1 }
def raceB : Token := { text := "x", i := 2 }

/-- both look, both see nothing, both put -/
def raceEvs : List CMEv :=
  [.callGet 0 "x", .callGet 1 "x", .rlock 0, .rlock 1, .beginRead 0, .beginRead 1, .endRead 0 "x" none,
   .endRead 1 "x" none, .retGet 0 "x" none, .retGet 1 "x" none, .callPut 0 "x" raceA, .callPut 1 "x" raceB,
   .lock 0, .beginWrite 0, .endWrite 0 "x" raceA, .retPut 0 "x" raceA,
   .lock 1, .beginWrite 1, .endWrite 1 "x" raceB, .retPut 1 "x" raceB]

/-- the state after an event, if the event is possible -/
def cmExec (s : CMState) : CMEv → Option CMState
  | .callGet i k => match s.pc i with
    | .idle => some (s.goto i (.wantR k))
    | _ => none
  | .rlock i => match s.pc i with
    | .wantR k => if s.writer = none then some { s.goto i (.holdR k) with readers := i :: s.readers } else none
    | _ => none
  | .beginRead i => match s.pc i with
    | .holdR k => some (s.goto i (.reading k))
    | _ => none
  | .endRead i k v => match s.pc i with
    | .reading k' => if k' = k ∧ v = s.tokens k' then some (s.goto i (.gotR k' (s.tokens k'))) else none
    | _ => none
  | .retGet i k v => match s.pc i with
    | .gotR k' v' => if k' = k ∧ v' = v then some { s.goto i .idle with readers := s.readers.erase i } else none
    | _ => none
  | .callPut i k t => match s.pc i with
    | .idle => some (s.goto i (.wantW k t))
    | _ => none
  | .lock i => match s.pc i with
    | .wantW k t => if s.writer = none ∧ s.readers = [] then some { s.goto i (.holdW k t) with writer := some i } else none
    | _ => none
  | .beginWrite i => match s.pc i with
    | .holdW k t => some (s.goto i (.writing k t))
    | _ => none
  | .endWrite i k t => match s.pc i with
    | .writing k' t' => if k' = k ∧ t' = t then
        some { s.goto i (.didW k' t') with tokens := fun k => if k = k' then some t' else s.tokens k } else none
    | _ => none
  | .retPut i k t => match s.pc i with
    | .didW k' t' => if k' = k ∧ t' = t then some { s.goto i .idle with writer := none } else none
    | _ => none

theorem cmExec_step {s s' : CMState} {e : CMEv} (h : cmExec s e = some s') : CMStep s e s' := by
  cases e <;> simp only [cmExec] at h <;> split at h <;> (try split at h) <;> (try cases h)
  · rename_i h; exact .callGet h
  · rename_i h hw; exact .rlock h hw
  · rename_i h; exact .beginRead h
  · rename_i h hw; obtain ⟨rfl, rfl⟩ := hw; exact .endRead h
  · rename_i h hw; obtain ⟨rfl, rfl⟩ := hw; exact .retGet h
  · rename_i h; exact .callPut h
  · rename_i h hw; exact .lock h hw.1 hw.2
  · rename_i h; exact .beginWrite h
  · rename_i h hw; obtain ⟨rfl, rfl⟩ := hw; exact .endWrite h
  · rename_i h hw; obtain ⟨rfl, rfl⟩ := hw; exact .retPut h

def cmExecs : CMState → List CMEv → Option CMState
  | s, [] => some s
  | s, e :: es => (cmExec s e).bind (cmExecs · es)

theorem cmExecs_run : ∀ {es pre : List CMEv} {s s' : CMState}, CMRun pre s → cmExecs s es = some s' →
    CMRun (pre ++ es) s'
  | [], pre, s, s', h, he => by cases he; simpa using h
  | e :: es, pre, s, s', h, he => by
    rw [cmExecs] at he
    obtain ⟨s1, h1, h2⟩ := Option.bind_eq_some_iff.1 he
    have := cmExecs_run (h.step (cmExec_step h1)) h2
    simpa using this

theorem race_run : ∃ s, CMRun raceEvs s ∧ s.tokens "x" = some raceB := by
  have h : (cmExecs CMState.init raceEvs).isSome = true ∧
      (cmExecs CMState.init raceEvs).bind (fun s => s.tokens "x") = some raceB := by decide +kernel
  obtain ⟨s, hs⟩ := Option.isSome_iff_exists.1 h.1
  refine ⟨s, by simpa using cmExecs_run .init hs, ?_⟩
  have := h.2
  rw [hs] at this
  exact this

example : ∃ s, CMRun raceEvs s ∧ OnlyLibrary raceEvs ∧ Ensures [raceA] (callsOf 0 raceEvs) ∧
    Ensures [raceB] (callsOf 1 raceEvs) := by
  obtain ⟨s, h, -⟩ := race_run
  have h0 : Ensures [raceA] (callsOf 0 raceEvs) := .missing .nil
  have h1 : Ensures [raceB] (callsOf 1 raceEvs) := .missing .nil
  refine ⟨s, h, fun j => ?_, h0, h1⟩
  by_cases hj : j = 0
  · subst hj; exact ⟨_, [], by simpa using h0⟩
  · by_cases hj1 : j = 1
    · subst hj1; exact ⟨_, [], by simpa using h1⟩
    · refine ⟨[], [], ?_⟩
      have : callsOf j raceEvs = [] := by
        simp [callsOf, raceEvs, Ne.symm hj, Ne.symm hj1]
      rw [this]; exact .nil

end Fmr
