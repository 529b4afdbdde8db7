import Verif.Model.Conc
import Mathlib.Tactic.Common

/-!
# C50: the pipeline is initialised once
-/

namespace Fmr

/-! ## specification -/

/-- the number of constructor calls -/
def constructs (es : List OnceEv) : Nat :=
  es.countP (fun e => match e with | .construct _ _ => true | _ => false)

/-- the function given to `Do` has ended normally -/
def Succeeded (es : List OnceEv) : Prop := ∃ j, .finish j ∈ es

/-- some library call made by it has returned an error -/
def Failed (es : List OnceEv) : Prop := ∃ j, .construct j none ∈ es ∨ .ext j false ∈ es

/-- the pipeline as `NLP` leaves it: the object that the constructor made, with the dictionary tagger and, if
configured, the API tagger -/
def FullPipe (api : Bool) (es : List OnceEv) (p : Pipe) : Prop :=
  (∃ j, .construct j (some p.num) ∈ es) ∧ p.taggers = if api then [.dict, .api] else [.dict]

/-! ## invariant -/

/-- the mutex of the `Once` is held -/
def OncePC.holds : OncePC → Prop
  | .locked | .construct | .newDict | .addDict | .checkApi | .newApi | .addApi | .setDone _ | .unlock _ => True
  | _ => False

/-- inside the function given to `Do`, or just after it -/
def OncePC.active : OncePC → Prop
  | .construct | .newDict | .addDict | .checkApi | .newApi | .addApi | .setDone _ => True
  | _ => False

/-- what is known at a program counter -/
def OnceAt (api : Bool) (es : List OnceEv) (s : OnceState) : OncePC → Prop
  | .construct => constructs es = 0 ∧ ¬ Succeeded es ∧ ¬ Failed es
  | .newDict | .addDict => ¬ Succeeded es ∧ ¬ Failed es ∧
      ∃ num j, s.nlp = some { num := num, taggers := [] } ∧ .construct j (some num) ∈ es
  | .checkApi => ¬ Succeeded es ∧ ¬ Failed es ∧
      ∃ num j, s.nlp = some { num := num, taggers := [.dict] } ∧ .construct j (some num) ∈ es
  | .newApi | .addApi => ¬ Succeeded es ∧ ¬ Failed es ∧ api = true ∧
      ∃ num j, s.nlp = some { num := num, taggers := [.dict] } ∧ .construct j (some num) ∈ es
  | .setDone false => Succeeded es ∧ ¬ Failed es ∧ ∃ p, s.nlp = some p ∧ FullPipe api es p
  | .setDone true => Failed es ∧ ¬ Succeeded es
  | .unlock true => s.done = true ∧ Failed es
  | .unlock false => s.done = true
  | .readNlp => s.done = true
  | _ => True

structure OnceInv (api : Bool) (es : List OnceEv) (s : OnceState) : Prop where
  mutex : ∀ i, s.mutex = some i ↔ (s.pc i).holds
  notDone : ∀ i, (s.pc i).active → s.done = false
  fresh : s.done = false → (∀ i, ¬ (s.pc i).active) → constructs es = 0 ∧ ¬ Succeeded es ∧ ¬ Failed es
  once : constructs es ≤ 1
  at_ : ∀ i, OnceAt api es s (s.pc i)
  done : s.done = true → (Succeeded es ∧ ¬ Failed es ∧ ∃ p, s.nlp = some p ∧ FullPipe api es p) ∨
    (Failed es ∧ ¬ Succeeded es)
  rets : ∀ i v, .ret i v ∈ es → s.done = true ∧ v = s.nlp

theorem OncePC.active_holds {c : OncePC} (h : c.active) : c.holds := by
  cases c <;> trivial

theorem OnceInv.one {api : Bool} {es : List OnceEv} {s : OnceState} (h : OnceInv api es s) {i j : Nat}
    (hi : (s.pc i).holds) (hj : (s.pc j).holds) : i = j := by
  have h1 := (h.mutex i).2 hi
  rw [(h.mutex j).2 hj] at h1
  exact (Option.some.inj h1).symm

theorem constructs_snoc (es : List OnceEv) (e : OnceEv) : constructs (es ++ [e]) =
    constructs es + match e with | .construct _ _ => 1 | _ => 0 := by
  rw [constructs, List.countP_append]
  cases e <;> rfl

theorem succeeded_snoc {es : List OnceEv} {e : OnceEv} :
    Succeeded (es ++ [e]) ↔ Succeeded es ∨ ∃ j, e = .finish j := by
  simp only [Succeeded, List.mem_append, List.mem_singleton, exists_or]
  simp only [eq_comm]

theorem failed_snoc {es : List OnceEv} {e : OnceEv} :
    Failed (es ++ [e]) ↔ Failed es ∨ ∃ j, e = .construct j none ∨ e = .ext j false := by
  simp only [Failed, List.mem_append, List.mem_singleton]
  constructor
  · rintro ⟨j, (h | h) | (h | h)⟩
    · exact .inl ⟨j, .inl h⟩
    · exact .inr ⟨j, .inl h.symm⟩
    · exact .inl ⟨j, .inr h⟩
    · exact .inr ⟨j, .inr h.symm⟩
  · rintro (⟨j, h | h⟩ | ⟨j, h | h⟩)
    · exact ⟨j, .inl (.inl h)⟩
    · exact ⟨j, .inr (.inl h)⟩
    · exact ⟨j, .inl (.inr h.symm)⟩
    · exact ⟨j, .inr (.inr h.symm)⟩

theorem full_snoc {api : Bool} {es : List OnceEv} {e : OnceEv} {p : Pipe} (h : FullPipe api es p) :
    FullPipe api (es ++ [e]) p := by
  obtain ⟨⟨j, hj⟩, h⟩ := h
  exact ⟨⟨j, List.mem_append_left _ hj⟩, h⟩

theorem OnceAt.free {api : Bool} {es : List OnceEv} {s : OnceState} {c : OncePC} (hc : ¬ c.holds)
    (h : c = .readNlp → s.done = true) : OnceAt api es s c := by
  cases c with
  | readNlp => exact h rfl
  | idle => trivial
  | fast => trivial
  | wantLock => trivial
  | panicked => trivial
  | _ => exact absurd trivial hc

theorem OnceAt.done_of {api : Bool} {es : List OnceEv} {s : OnceState} {c : OncePC} (h : OnceAt api es s c)
    (hc : c = .readNlp) : s.done = true := by subst hc; exact h

/-- the events that matter -/
def OnceEv.plain : OnceEv → Prop
  | .call _ | .tau _ | .ret _ _ | .panic _ | .ext _ true => True
  | _ => False

theorem plain_constructs {es : List OnceEv} {e : OnceEv} (h : e.plain) : constructs (es ++ [e]) = constructs es := by
  rw [constructs_snoc]
  cases e <;> first | rfl | exact False.elim h

theorem plain_succeeded {es : List OnceEv} {e : OnceEv} (h : e.plain) : Succeeded (es ++ [e]) ↔ Succeeded es := by
  rw [succeeded_snoc]
  refine ⟨fun hh => hh.elim id ?_, .inl⟩
  rintro ⟨j, rfl⟩; exact False.elim h

theorem plain_failed {es : List OnceEv} {e : OnceEv} (h : e.plain) : Failed (es ++ [e]) ↔ Failed es := by
  rw [failed_snoc]
  refine ⟨fun hh => hh.elim id ?_, .inl⟩
  rintro ⟨j, rfl | rfl⟩ <;> exact False.elim h

theorem OnceAt.plain {api : Bool} {es : List OnceEv} {s s' : OnceState} {c : OncePC} {e : OnceEv} (he : e.plain)
    (hn : s'.nlp = s.nlp) (hd : s.done = true → s'.done = true) (h : OnceAt api es s c) :
    OnceAt api (es ++ [e]) s' c := by
  have h1 := plain_constructs (es := es) he
  have h2 := plain_succeeded (es := es) he
  have h3 := plain_failed (es := es) he
  have h4 : ∀ {t : List Tagger}, (∃ num j, s.nlp = some { num := num, taggers := t } ∧ .construct j (some num) ∈ es) →
      ∃ num j, s'.nlp = some { num := num, taggers := t } ∧ .construct j (some num) ∈ es ++ [e] := by
    rintro t ⟨num, j, h, h'⟩
    exact ⟨num, j, by rw [hn, h], List.mem_append_left _ h'⟩
  cases c with
  | construct => exact ⟨by rw [h1]; exact h.1, by rw [h2]; exact h.2.1, by rw [h3]; exact h.2.2⟩
  | newDict => exact ⟨by rw [h2]; exact h.1, by rw [h3]; exact h.2.1, h4 h.2.2⟩
  | addDict => exact ⟨by rw [h2]; exact h.1, by rw [h3]; exact h.2.1, h4 h.2.2⟩
  | checkApi => exact ⟨by rw [h2]; exact h.1, by rw [h3]; exact h.2.1, h4 h.2.2⟩
  | newApi => exact ⟨by rw [h2]; exact h.1, by rw [h3]; exact h.2.1, h.2.2.1, h4 h.2.2.2⟩
  | addApi => exact ⟨by rw [h2]; exact h.1, by rw [h3]; exact h.2.1, h.2.2.1, h4 h.2.2.2⟩
  | setDone b =>
    cases b with
    | false =>
      obtain ⟨a, b, p, hp, hf⟩ := h
      exact ⟨h2.2 a, by rw [h3]; exact b, p, by rw [hn, hp], full_snoc hf⟩
    | true => exact ⟨h3.2 h.1, by rw [h2]; exact h.2⟩
  | unlock b =>
    cases b with
    | false => exact hd h
    | true => exact ⟨hd h.1, h3.2 h.2⟩
  | readNlp => exact hd h
  | idle => trivial
  | fast => trivial
  | wantLock => trivial
  | locked => trivial
  | panicked => trivial

theorem goto_pc {s : OnceState} {i : Nat} {c : OncePC} (j : Nat) :
    (s.goto i c).pc j = if j = i then c else s.pc j := rfl

/-- a step of the goroutine that holds the mutex -/
theorem holdStep {api : Bool} {es : List OnceEv} {s s' : OnceState} {e : OnceEv} {i : Nat} {c : OncePC}
    (ih : OnceInv api es s) (h0 : (s.pc i).holds) (hc : c.holds) (hpc : s'.pc = (s.goto i c).pc)
    (hm : s'.mutex = s.mutex) (hd : s.done = true → s'.done = true)
    (ha : c.active → s'.done = false)
    (hf : s'.done = false → ¬ c.active → constructs (es ++ [e]) = 0 ∧ ¬ Succeeded (es ++ [e]) ∧ ¬ Failed (es ++ [e]))
    (ho : constructs (es ++ [e]) ≤ 1) (hat : OnceAt api (es ++ [e]) s' c)
    (hdone : s'.done = true → (Succeeded (es ++ [e]) ∧ ¬ Failed (es ++ [e]) ∧
      ∃ p, s'.nlp = some p ∧ FullPipe api (es ++ [e]) p) ∨ (Failed (es ++ [e]) ∧ ¬ Succeeded (es ++ [e])))
    (he : ∀ j v, e ≠ .ret j v) (hn : s.done = true → s'.nlp = s.nlp) : OnceInv api (es ++ [e]) s' := by
  have hother : ∀ {j}, j ≠ i → ¬ (s.pc j).holds := fun hj hh => hj (ih.one hh h0)
  refine ⟨fun j => ?_, fun j hj => ?_, fun h1 h2 => ?_, ho, fun j => ?_, hdone, fun j v hj => ?_⟩
  · rw [hm, hpc, goto_pc]
    split
    · subst j; exact ⟨fun _ => hc, fun _ => (ih.mutex i).2 h0⟩
    · exact ih.mutex j
  · rw [hpc, goto_pc] at hj
    split at hj
    · exact ha hj
    · rename_i hne; exact absurd (OncePC.active_holds hj) (hother hne)
  · refine hf h1 ?_
    have := h2 i
    rwa [hpc, goto_pc, if_pos rfl] at this
  · rw [hpc, goto_pc]
    split
    · exact hat
    · rename_i hne
      exact OnceAt.free (hother hne) fun hr => hd ((ih.at_ j).done_of hr)
  · rcases List.mem_append.1 hj with hj | hj
    · obtain ⟨h1, h2⟩ := ih.rets j v hj
      exact ⟨hd h1, by rw [h2, hn h1]⟩
    · exact absurd (List.mem_singleton.1 hj).symm (he j v)

/-- a step of a goroutine that changes nothing but its position -/
theorem freeStep {api : Bool} {es : List OnceEv} {s s' : OnceState} {e : OnceEv} {i : Nat} {c : OncePC}
    (ih : OnceInv api es s) (ha0 : ¬ (s.pc i).active) (ha : ¬ c.active) (hpc : s'.pc = (s.goto i c).pc)
    (hm : ∀ j, s'.mutex = some j ↔ (s'.pc j).holds) (hd : s'.done = s.done) (hn : s'.nlp = s.nlp)
    (he : e.plain) (hat : OnceAt api (es ++ [e]) s' c) (hr : ∀ j v, e = .ret j v → s.done = true ∧ v = s.nlp) :
    OnceInv api (es ++ [e]) s' := by
  have h1 := plain_constructs (es := es) he
  have h2 := plain_succeeded (es := es) he
  have h3 := plain_failed (es := es) he
  refine ⟨hm, fun j hj => ?_, fun k1 k2 => ?_, by rw [h1]; exact ih.once, fun j => ?_, fun k1 => ?_, fun j v hj => ?_⟩
  · rw [hpc, goto_pc] at hj
    rw [hd]
    split at hj
    · exact absurd hj ha
    · exact ih.notDone j hj
  · rw [h1, h2, h3]
    refine ih.fresh (hd ▸ k1) fun j hj => ?_
    by_cases hji : j = i
    · subst hji; exact ha0 hj
    · have := k2 j
      rw [hpc, goto_pc, if_neg hji] at this
      exact this hj
  · rw [hpc, goto_pc]
    split
    · exact hat
    · exact (ih.at_ j).plain he hn (fun h => by rw [hd]; exact h)
  · rw [h2, h3, hn]
    rcases ih.done (hd ▸ k1) with ⟨a, b, p, hp, hf⟩ | h
    · exact .inl ⟨a, b, p, hp, full_snoc hf⟩
    · exact .inr h
  · rw [hd, hn]
    rcases List.mem_append.1 hj with hj | hj
    · exact ih.rets j v hj
    · exact hr j v (List.mem_singleton.1 hj).symm

theorem once_inv {api : Bool} {es : List OnceEv} {s : OnceState} (h : OnceRun api es s) : OnceInv api es s := by
  induction h with
  | init =>
    exact ⟨by simp [OnceState.init, OncePC.holds], by simp [OnceState.init, OncePC.active],
      fun _ _ => ⟨rfl, by simp [Succeeded], by simp [Failed]⟩, by simp [constructs],
      fun _ => trivial, by simp [OnceState.init], by simp⟩
  | @step es s e s' _ hs ih =>
    have same : ∀ {i c}, ((s.pc i).holds ↔ c.holds) → ∀ j, s.mutex = some j ↔ ((s.goto i c).pc j).holds := by
      intro i c hh j
      rw [goto_pc]
      split
      · subst j; rw [ih.mutex]; exact hh
      · exact ih.mutex j
    cases hs with
    | @call i hpc =>
      exact freeStep (i := i) (c := .fast) ih (by rw [hpc]; exact id) id rfl (same (by rw [hpc]; rfl)) rfl rfl trivial
        trivial (by simp)
    | @fastDone i hpc hd =>
      exact freeStep (i := i) (c := .readNlp) ih (by rw [hpc]; exact id) id rfl (same (by rw [hpc]; rfl)) rfl rfl
        trivial hd (by simp)
    | @fastNot i hpc hd =>
      exact freeStep (i := i) (c := .wantLock) ih (by rw [hpc]; exact id) id rfl (same (by rw [hpc]; rfl)) rfl rfl
        trivial trivial (by simp)
    | @lock i hpc hm =>
      refine freeStep (i := i) (c := .locked) ih (by rw [hpc]; exact id) id rfl (fun j => ?_) rfl rfl
        trivial trivial (by simp)
      change some i = some j ↔ ((s.goto i .locked).pc j).holds
      rw [goto_pc]
      split
      · subst j; exact ⟨fun _ => trivial, fun _ => rfl⟩
      · rename_i hne
        refine ⟨fun h => absurd (Option.some.inj h).symm hne, fun h => ?_⟩
        have := (ih.mutex j).2 h
        rw [hm] at this; cases this
    | @slowDone i hpc hd =>
      exact freeStep (i := i) (c := .unlock false) ih (by rw [hpc]; exact id) id rfl (same (by rw [hpc]; rfl)) rfl rfl
        trivial hd (by simp)
    | @slowNot i hpc hd =>
      have hno : ∀ j, ¬ (s.pc j).active := by
        intro j hj
        obtain rfl := ih.one (OncePC.active_holds hj) (by rw [hpc]; trivial : (s.pc i).holds)
        rw [hpc] at hj; exact hj
      obtain ⟨h1, h2, h3⟩ := ih.fresh hd hno
      have he : (OnceEv.tau i).plain := trivial
      rw [← plain_constructs (es := es) he] at h1
      rw [← plain_succeeded (es := es) he] at h2
      rw [← plain_failed (es := es) he] at h3
      exact holdStep (i := i) (c := .construct) ih (by rw [hpc]; trivial) trivial rfl rfl id (fun _ => hd)
        (fun _ h => absurd trivial h) (by rw [h1]; exact Nat.zero_le 1) ⟨h1, h2, h3⟩
        (fun h => by rw [show (s.goto i .construct).done = s.done from rfl, hd] at h; cases h)
        (by simp) (fun _ => rfl)
    | @constructOk i num hpc =>
      have hA := ih.at_ i; rw [hpc] at hA
      have hd := ih.notDone i (by rw [hpc]; trivial)
      obtain ⟨h1, h2, h3⟩ := hA
      have h2' : ¬ Succeeded (es ++ [.construct i (some num)]) := by rw [succeeded_snoc]; simpa using h2
      have h3' : ¬ Failed (es ++ [.construct i (some num)]) := by rw [failed_snoc]; simpa using h3
      exact holdStep (i := i) (c := .newDict) ih (by rw [hpc]; trivial) trivial rfl rfl id (fun _ => hd)
        (fun _ h => absurd trivial h) (by rw [constructs_snoc, h1]; exact Nat.le_refl 1) ⟨h2', h3', num, i, rfl, by simp⟩
        (fun h => absurd (hd.symm.trans h) (by simp)) (by simp)
        (fun h => by rw [hd] at h; cases h)
    | @constructErr i hpc =>
      have hA := ih.at_ i; rw [hpc] at hA
      have hd := ih.notDone i (by rw [hpc]; trivial)
      obtain ⟨h1, h2, h3⟩ := hA
      have h2' : ¬ Succeeded (es ++ [.construct i none]) := by rw [succeeded_snoc]; simpa using h2
      exact holdStep (i := i) (c := .setDone true) ih (by rw [hpc]; trivial) trivial rfl rfl id (fun _ => hd)
        (fun _ h => absurd trivial h) (by rw [constructs_snoc, h1]; exact Nat.le_refl 1) ⟨⟨i, .inl (by simp)⟩, h2'⟩
        (fun h => absurd (hd.symm.trans h) (by simp)) (by simp)
        (fun h => by rw [hd] at h; cases h)
    | @newDictOk i hpc =>
      have hA := ih.at_ i; rw [hpc] at hA
      have hd := ih.notDone i (by rw [hpc]; trivial)
      have he : (OnceEv.ext i true).plain := trivial
      exact holdStep (i := i) (c := .addDict) ih (by rw [hpc]; trivial) trivial rfl rfl id (fun _ => hd)
        (fun _ h => absurd trivial h) (by rw [plain_constructs he]; exact ih.once)
        (OnceAt.plain (s := s) (c := .addDict) he rfl id hA)
        (fun h => absurd (hd.symm.trans h) (by simp)) (by simp) (fun _ => rfl)
    | @newDictErr i hpc =>
      have hA := ih.at_ i; rw [hpc] at hA
      have hd := ih.notDone i (by rw [hpc]; trivial)
      have h2' : ¬ Succeeded (es ++ [.ext i false]) := by rw [succeeded_snoc]; simpa using hA.1
      exact holdStep (i := i) (c := .setDone true) ih (by rw [hpc]; trivial) trivial rfl rfl id (fun _ => hd)
        (fun _ h => absurd trivial h) (by rw [constructs_snoc]; exact ih.once) ⟨⟨i, .inr (by simp)⟩, h2'⟩
        (fun h => absurd (hd.symm.trans h) (by simp)) (by simp) (fun _ => rfl)
    | @addDictOk i hpc =>
      have hA := ih.at_ i; rw [hpc] at hA
      have hd := ih.notDone i (by rw [hpc]; trivial)
      have he : (OnceEv.ext i true).plain := trivial
      obtain ⟨h1, h2, num, j, h3, h4⟩ := hA
      exact holdStep (i := i) (c := .checkApi) ih (by rw [hpc]; trivial) trivial rfl rfl id (fun _ => hd)
        (fun _ h => absurd trivial h) (by rw [plain_constructs he]; exact ih.once)
        ⟨by rw [plain_succeeded he]; exact h1, by rw [plain_failed he]; exact h2, num, j,
          by simp [h3], List.mem_append_left _ h4⟩
        (fun h => absurd (hd.symm.trans h) (by simp)) (by simp)
        (fun h => by rw [hd] at h; cases h)
    | @addDictErr i hpc =>
      have hA := ih.at_ i; rw [hpc] at hA
      have hd := ih.notDone i (by rw [hpc]; trivial)
      have h2' : ¬ Succeeded (es ++ [.ext i false]) := by rw [succeeded_snoc]; simpa using hA.1
      exact holdStep (i := i) (c := .setDone true) ih (by rw [hpc]; trivial) trivial rfl rfl id (fun _ => hd)
        (fun _ h => absurd trivial h) (by rw [constructs_snoc]; exact ih.once) ⟨⟨i, .inr (by simp)⟩, h2'⟩
        (fun h => absurd (hd.symm.trans h) (by simp)) (by simp) (fun _ => rfl)
    | @noApi i hpc hapi =>
      have hA := ih.at_ i; rw [hpc] at hA
      have hd := ih.notDone i (by rw [hpc]; trivial)
      obtain ⟨h1, h2, num, j, h3, h4⟩ := hA
      exact holdStep (i := i) (c := .setDone false) ih (by rw [hpc]; trivial) trivial rfl rfl id (fun _ => hd)
        (fun _ h => absurd trivial h) (by rw [constructs_snoc]; exact ih.once)
        ⟨⟨i, by simp⟩, by rw [failed_snoc]; simpa using h2, _, h3, ⟨j, List.mem_append_left _ h4⟩, by simp [hapi]⟩
        (fun h => absurd (hd.symm.trans h) (by simp)) (by simp) (fun _ => rfl)
    | @withApi i hpc hapi =>
      have hA := ih.at_ i; rw [hpc] at hA
      have hd := ih.notDone i (by rw [hpc]; trivial)
      have he : (OnceEv.tau i).plain := trivial
      obtain ⟨h1, h2, num, j, h3, h4⟩ := hA
      exact holdStep (i := i) (c := .newApi) ih (by rw [hpc]; trivial) trivial rfl rfl id (fun _ => hd)
        (fun _ h => absurd trivial h) (by rw [plain_constructs he]; exact ih.once)
        ⟨by rw [plain_succeeded he]; exact h1, by rw [plain_failed he]; exact h2, hapi, num, j, h3,
          List.mem_append_left _ h4⟩
        (fun h => absurd (hd.symm.trans h) (by simp)) (by simp) (fun _ => rfl)
    | @newApiOk i hpc =>
      have hA := ih.at_ i; rw [hpc] at hA
      have hd := ih.notDone i (by rw [hpc]; trivial)
      have he : (OnceEv.ext i true).plain := trivial
      exact holdStep (i := i) (c := .addApi) ih (by rw [hpc]; trivial) trivial rfl rfl id (fun _ => hd)
        (fun _ h => absurd trivial h) (by rw [plain_constructs he]; exact ih.once)
        (OnceAt.plain (s := s) (c := .addApi) he rfl id hA)
        (fun h => absurd (hd.symm.trans h) (by simp)) (by simp) (fun _ => rfl)
    | @newApiErr i hpc =>
      have hA := ih.at_ i; rw [hpc] at hA
      have hd := ih.notDone i (by rw [hpc]; trivial)
      have h2' : ¬ Succeeded (es ++ [.ext i false]) := by rw [succeeded_snoc]; simpa using hA.1
      exact holdStep (i := i) (c := .setDone true) ih (by rw [hpc]; trivial) trivial rfl rfl id (fun _ => hd)
        (fun _ h => absurd trivial h) (by rw [constructs_snoc]; exact ih.once) ⟨⟨i, .inr (by simp)⟩, h2'⟩
        (fun h => absurd (hd.symm.trans h) (by simp)) (by simp) (fun _ => rfl)
    | @addApiOk i hpc =>
      have hA := ih.at_ i; rw [hpc] at hA
      have hd := ih.notDone i (by rw [hpc]; trivial)
      obtain ⟨h1, h2, hapi, num, j, h3, h4⟩ := hA
      exact holdStep (i := i) (c := .setDone false) ih (by rw [hpc]; trivial) trivial rfl rfl id (fun _ => hd)
        (fun _ h => absurd trivial h) (by rw [constructs_snoc]; exact ih.once)
        ⟨⟨i, by simp⟩, by rw [failed_snoc]; simpa using h2, ⟨num, [.dict, .api]⟩, by simp [h3],
          ⟨j, List.mem_append_left _ h4⟩, by simp [hapi]⟩
        (fun h => absurd (hd.symm.trans h) (by simp)) (by simp)
        (fun h => by rw [hd] at h; cases h)
    | @addApiErr i hpc =>
      have hA := ih.at_ i; rw [hpc] at hA
      have hd := ih.notDone i (by rw [hpc]; trivial)
      have h2' : ¬ Succeeded (es ++ [.ext i false]) := by rw [succeeded_snoc]; simpa using hA.1
      exact holdStep (i := i) (c := .setDone true) ih (by rw [hpc]; trivial) trivial rfl rfl id (fun _ => hd)
        (fun _ h => absurd trivial h) (by rw [constructs_snoc]; exact ih.once) ⟨⟨i, .inr (by simp)⟩, h2'⟩
        (fun h => absurd (hd.symm.trans h) (by simp)) (by simp) (fun _ => rfl)
    | @setDone i b hpc =>
      have hA := ih.at_ i; rw [hpc] at hA
      have he : (OnceEv.tau i).plain := trivial
      refine holdStep (i := i) (c := .unlock b) ih (by rw [hpc]; trivial) trivial rfl rfl (fun _ => rfl)
        (fun h => False.elim h) (fun h => by cases h) (by rw [plain_constructs he]; exact ih.once) ?_ (fun _ => ?_)
        (by simp) (fun _ => rfl)
      · cases b with
        | false => exact rfl
        | true => exact ⟨rfl, (plain_failed he).2 hA.1⟩
      · rw [plain_succeeded he, plain_failed he]
        cases b with
        | false =>
          obtain ⟨a, b, p, hp, hf⟩ := hA
          exact .inl ⟨a, b, p, hp, full_snoc hf⟩
        | true => exact .inr hA
    | @unlock i hpc =>
      have hA := ih.at_ i; rw [hpc] at hA
      refine freeStep (i := i) (c := .readNlp) ih (by rw [hpc]; exact id) id rfl (fun j => ?_) rfl rfl
        trivial hA (by simp)
      change none = some j ↔ ((s.goto i .readNlp).pc j).holds
      rw [goto_pc]
      split
      · exact ⟨fun h => (by cases h), fun h => False.elim h⟩
      · rename_i hne
        exact ⟨fun h => (by cases h), fun h => absurd (ih.one h (by rw [hpc]; trivial)) hne⟩
    | @unlockPanic i hpc =>
      refine freeStep (i := i) (c := .panicked) ih (by rw [hpc]; exact id) id rfl (fun j => ?_) rfl rfl
        trivial trivial (by simp)
      change none = some j ↔ ((s.goto i .panicked).pc j).holds
      rw [goto_pc]
      split
      · exact ⟨fun h => (by cases h), fun h => False.elim h⟩
      · rename_i hne
        exact ⟨fun h => (by cases h), fun h => absurd (ih.one h (by rw [hpc]; trivial)) hne⟩
    | @ret i hpc =>
      have hA := ih.at_ i; rw [hpc] at hA
      refine freeStep (i := i) (c := .idle) ih (by rw [hpc]; exact id) id rfl (same (by rw [hpc]; rfl)) rfl rfl
        trivial trivial ?_
      intro j v hv
      cases hv
      exact ⟨hA, rfl⟩

/-! ## C50 -/

/-- **C50** The constructor runs at most once. -/
theorem C50_once {api : Bool} {es : List OnceEv} {s : OnceState} (h : OnceRun api es s) : constructs es ≤ 1 :=
  (once_inv h).once

/-- **C50** If the initialisation has succeeded, then all calls that have returned have returned one and the same
pipeline, the one the constructor made, fully initialised. -/
theorem C50_return {api : Bool} {es : List OnceEv} {s : OnceState} (h : OnceRun api es s) (hs : Succeeded es) :
    ∃ p, FullPipe api es p ∧ s.nlp = some p ∧ ∀ i v, .ret i v ∈ es → v = some p := by
  have inv := once_inv h
  by_cases hd : s.done = true
  · rcases inv.done hd with ⟨-, -, p, hp, hf⟩ | ⟨-, h⟩
    · exact ⟨p, hf, hp, fun i v hv => by rw [(inv.rets i v hv).2, hp]⟩
    · exact absurd hs h
  · have hd' : s.done = false := by simpa using hd
    have hrets : ∀ i v, .ret i v ∈ es → False := fun i v hv => hd (inv.rets i v hv).1
    by_cases hact : ∃ i, (s.pc i).active
    · obtain ⟨i, hi⟩ := hact
      have hA := inv.at_ i
      cases hpc : s.pc i with
      | construct => rw [hpc] at hA; exact absurd hs hA.2.1
      | newDict => rw [hpc] at hA; exact absurd hs hA.1
      | addDict => rw [hpc] at hA; exact absurd hs hA.1
      | checkApi => rw [hpc] at hA; exact absurd hs hA.1
      | newApi => rw [hpc] at hA; exact absurd hs hA.1
      | addApi => rw [hpc] at hA; exact absurd hs hA.1
      | setDone b =>
        rw [hpc] at hA
        cases b with
        | false =>
          obtain ⟨-, -, p, hp, hf⟩ := hA
          exact ⟨p, hf, hp, fun i v hv => (hrets i v hv).elim⟩
        | true => exact absurd hs hA.2
      | _ => rw [hpc] at hi; exact False.elim hi
    · exact absurd hs (inv.fresh hd' (fun i hi => hact ⟨i, hi⟩)).2.1

/-- **C50** No call returns before the initialisation has ended; if it has not succeeded, it has panicked. -/
theorem C50_waits {api : Bool} {es : List OnceEv} {s : OnceState} (h : OnceRun api es s) {i : Nat}
    {v : Option Pipe} (hr : .ret i v ∈ es) : Succeeded es ∨ Failed es := by
  have inv := once_inv h
  rcases inv.done (inv.rets i v hr).1 with h | h
  · exact .inl h.1
  · exact .inr h.1

/-- **C50** Only failed initialisations panic, and not both: a run in which the initialisation succeeds has no panic. -/
theorem C50_exclusive {api : Bool} {es : List OnceEv} {s : OnceState} (h : OnceRun api es s) :
    ¬ (Succeeded es ∧ Failed es) := by
  rintro ⟨hs, hf⟩
  have inv := once_inv h
  by_cases hd : s.done = true
  · rcases inv.done hd with ⟨-, h, -⟩ | ⟨-, h⟩
    · exact h hf
    · exact h hs
  · have hd' : s.done = false := by simpa using hd
    by_cases hact : ∃ i, (s.pc i).active
    · obtain ⟨i, hi⟩ := hact
      have hA := inv.at_ i
      cases hpc : s.pc i with
      | construct => rw [hpc] at hA; exact absurd hs hA.2.1
      | newDict => rw [hpc] at hA; exact absurd hs hA.1
      | addDict => rw [hpc] at hA; exact absurd hs hA.1
      | checkApi => rw [hpc] at hA; exact absurd hs hA.1
      | newApi => rw [hpc] at hA; exact absurd hs hA.1
      | addApi => rw [hpc] at hA; exact absurd hs hA.1
      | setDone b =>
        rw [hpc] at hA
        cases b with
        | false => exact hA.2.1 hf
        | true => exact absurd hs hA.2
      | _ => rw [hpc] at hi; exact False.elim hi
    · exact absurd hs (inv.fresh hd' (fun i hi => hact ⟨i, hi⟩)).2.1

/-- the goroutine writes the variable `nlp` or the pipeline (api.go:26,32,42) -/
def OncePC.writes : OncePC → Prop
  | .construct | .addDict | .addApi => True
  | _ => False

/-- **C50** no data race on the pipeline: nobody reads or writes the variable while another one writes it. -/
theorem C50_race_free {api : Bool} {es : List OnceEv} {s : OnceState} (h : OnceRun api es s) {i j : Nat}
    (hij : i ≠ j) (hi : (s.pc i).writes) : s.pc j ≠ .readNlp ∧ ¬ (s.pc j).writes := by
  have inv := once_inv h
  have hact : (s.pc i).active := by
    cases hpc : s.pc i <;> rw [hpc] at hi <;> trivial
  refine ⟨fun hr => ?_, fun hj => ?_⟩
  · have := (inv.at_ j).done_of hr
    rw [inv.notDone i hact] at this; cases this
  · have hjact : (s.pc j).active := by
      cases hpc : s.pc j <;> rw [hpc] at hj <;> trivial
    exact hij (inv.one (OncePC.active_holds hact) (OncePC.active_holds hjact))

/-- **C50** no deadlock: while some goroutine is inside `NLP`, one of them can go on. -/
theorem C50_progress {api : Bool} {es : List OnceEv} {s : OnceState} (h : OnceRun api es s) {i : Nat}
    (hi : s.pc i ≠ .idle) (hp : s.pc i ≠ .panicked) : ∃ e s', OnceStep api s e s' ∧ ∀ j, e ≠ .call j := by
  have inv := once_inv h
  have hold : ∀ j, (s.pc j).holds → ∃ e s', OnceStep api s e s' ∧ ∀ j, e ≠ .call j := by
    intro j hj
    cases hpc : s.pc j with
    | locked =>
      cases hd : s.done with
      | true => exact ⟨_, _, .slowDone hpc hd, by simp⟩
      | false => exact ⟨_, _, .slowNot hpc hd, by simp⟩
    | construct => exact ⟨_, _, .constructErr hpc, by simp⟩
    | newDict => exact ⟨_, _, .newDictOk hpc, by simp⟩
    | addDict => exact ⟨_, _, .addDictOk hpc, by simp⟩
    | checkApi =>
      cases ha : api with
      | true => exact ⟨_, _, .withApi hpc rfl, by simp⟩
      | false => exact ⟨_, _, .noApi hpc rfl, by simp⟩
    | newApi => exact ⟨_, _, .newApiOk hpc, by simp⟩
    | addApi => exact ⟨_, _, .addApiOk hpc, by simp⟩
    | setDone b => exact ⟨_, _, .setDone hpc, by simp⟩
    | unlock b =>
      cases b with
      | true => exact ⟨_, _, .unlockPanic hpc, by simp⟩
      | false => exact ⟨_, _, .unlock hpc, by simp⟩
    | _ => rw [hpc] at hj; exact False.elim hj
  cases hpc : s.pc i with
  | idle => exact absurd hpc hi
  | panicked => exact absurd hpc hp
  | fast =>
    cases hd : s.done with
    | true => exact ⟨_, _, .fastDone hpc hd, by simp⟩
    | false => exact ⟨_, _, .fastNot hpc hd, by simp⟩
  | wantLock =>
    cases hm : s.mutex with
    | none => exact ⟨_, _, .lock hpc hm, by simp⟩
    | some j => exact hold j ((inv.mutex j).1 hm)
  | readNlp => exact ⟨_, _, .ret hpc, by simp⟩
  | _ => exact hold i (by rw [hpc]; trivial)

/-! ### witnesses -/

/-- a run in which two goroutines call, the first initialises, both return the same pipeline -/
theorem C50_example : ∃ es s, OnceRun false es s ∧ Succeeded es ∧
    .ret 0 (some { num := 7, taggers := [.dict] }) ∈ es ∧ .ret 1 (some { num := 7, taggers := [.dict] }) ∈ es := by
  have h := OnceRun.init (api := false)
  have h := h.step (.call (i := 0) rfl)
  have h := h.step (.call (i := 1) rfl)
  have h := h.step (.fastNot (i := 0) rfl rfl)
  have h := h.step (.fastNot (i := 1) rfl rfl)
  have h := h.step (.lock (i := 0) rfl rfl)
  have h := h.step (.slowNot (i := 0) rfl rfl)
  have h := h.step (.constructOk (i := 0) 7 rfl)
  have h := h.step (.newDictOk (i := 0) rfl)
  have h := h.step (.addDictOk (i := 0) rfl)
  have h := h.step (.noApi (i := 0) rfl rfl)
  have h := h.step (.setDone (i := 0) rfl)
  have h := h.step (.unlock (i := 0) rfl)
  have h := h.step (.lock (i := 1) rfl rfl)
  have h := h.step (.slowDone (i := 1) rfl rfl)
  have h := h.step (.unlock (i := 1) rfl)
  have h := h.step (.ret (i := 1) rfl)
  have h := h.step (.ret (i := 0) rfl)
  exact ⟨_, _, h, ⟨0, by simp⟩, by simp [OnceState.goto, OnceState.init], by simp [OnceState.goto, OnceState.init]⟩

/-- After a panic inside the initialisation later calls return normally, with a nil pipeline if `DefaultNLP`
failed, or with a pipeline that lacks taggers. -/
theorem C50_after_panic : (∃ es s, OnceRun false es s ∧ .panic 0 ∈ es ∧ .ret 1 none ∈ es) ∧
    (∃ es s, OnceRun false es s ∧ .panic 0 ∈ es ∧ .ret 1 (some { num := 7, taggers := [] }) ∈ es) := by
  constructor
  · have h := OnceRun.init (api := false)
    have h := h.step (.call (i := 0) rfl)
    have h := h.step (.fastNot (i := 0) rfl rfl)
    have h := h.step (.lock (i := 0) rfl rfl)
    have h := h.step (.slowNot (i := 0) rfl rfl)
    have h := h.step (.constructErr (i := 0) rfl)
    have h := h.step (.setDone (i := 0) rfl)
    have h := h.step (.unlockPanic (i := 0) rfl)
    have h := h.step (.call (i := 1) rfl)
    have h := h.step (.fastDone (i := 1) rfl rfl)
    have h := h.step (.ret (i := 1) rfl)
    exact ⟨_, _, h, by simp, by simp [OnceState.goto]⟩
  · have h := OnceRun.init (api := false)
    have h := h.step (.call (i := 0) rfl)
    have h := h.step (.fastNot (i := 0) rfl rfl)
    have h := h.step (.lock (i := 0) rfl rfl)
    have h := h.step (.slowNot (i := 0) rfl rfl)
    have h := h.step (.constructOk (i := 0) 7 rfl)
    have h := h.step (.newDictErr (i := 0) rfl)
    have h := h.step (.setDone (i := 0) rfl)
    have h := h.step (.unlockPanic (i := 0) rfl)
    have h := h.step (.call (i := 1) rfl)
    have h := h.step (.fastDone (i := 1) rfl rfl)
    have h := h.step (.ret (i := 1) rfl)
    exact ⟨_, _, h, by simp, by simp [OnceState.goto]⟩

end Fmr
