import Verif.Model.Main
import Verif.Spec.Program
import Verif.Props.Extract

/-!
# Lemmas about the parts of a program
-/

namespace Fmr

theorem Act.bind_def {V α β : Type} (x : Act V α) (f : α → Act V β) (v : V) :
    (x >>= f) v = (match x v with
      | (o, v, .error s) => (o, v, .error s)
      | (o, v, .ok a) => (o ++ (f a v).1, (f a v).2)) := rfl

theorem Act.bind_of {V α β : Type} {x : Act V α} {f : α → Act V β} {v v' : V} {o : Bytes} {a : α} (h : x v = (o, v', .ok a)) :
    (x >>= f) v = (o ++ (f a v').1, (f a v').2) := by
  rw [Act.bind_def, h]

theorem Act.bind_stop {V α β : Type} {x : Act V α} {f : α → Act V β} {v v' : V} {o : Bytes} {s : Halt} (h : x v = (o, v', .error s)) :
    (x >>= f) v = (o, v', .error s) := by
  rw [Act.bind_def, h]

theorem Act.pure_bind' {V α β : Type} (a : α) (f : α → Act V β) : ((pure a : Act V α) >>= f) = f a := by
  funext v
  rw [Act.bind_of (v' := v) (o := []) (a := a) rfl, List.nil_append]

theorem Act.bind_assoc' {V α β γ : Type} (x : Act V α) (f : α → Act V β) (h : β → Act V γ) :
    ((x >>= f) >>= h) = (x >>= fun a => f a >>= h) := by
  funext v
  rcases hx : x v with ⟨o, v', s | a⟩
  · rw [Act.bind_stop (Act.bind_stop hx), Act.bind_stop hx]
  · rw [Act.bind_of hx]
    rcases hf : f a v' with ⟨o', v'', s | b⟩
    · rw [Act.bind_stop (v' := v'') (o := o ++ o') (s := s) (by rw [Act.bind_of hx, hf]), Act.bind_stop hf]
    · rw [Act.bind_of (v' := v'') (o := o ++ o') (a := b) (by rw [Act.bind_of hx, hf]), Act.bind_of hf, List.append_assoc]

/-! ## lines -/

theorem readString_line {l rest : Bytes} (h : (10 : UInt8) ∉ l) : readString (l ++ 10 :: rest) = (l ++ [10], rest, false) := by
  induction l with
  | nil => simp [readString]
  | cons b l ih =>
    rw [List.mem_cons, not_or] at h
    rw [List.cons_append, readString, if_neg (Ne.symm h.1), ih h.2]
    rfl

theorem readString_end {rest : Bytes} (h : (10 : UInt8) ∉ rest) : (readString rest).2.2 = true := by
  induction rest with
  | nil => rfl
  | cons b l ih =>
    rw [List.mem_cons, not_or] at h
    rw [readString, if_neg (Ne.symm h.1)]
    exact ih h.2

/-- The loop takes the lines one after the other, and nothing of what comes after the last newline. -/
theorem answerLoop_eq {V : Type} (line : Bytes → Act V Unit) {inp : Bytes} {ls : List Bytes} {rest : Bytes} (h : SplitLines inp ls rest)
    {n : Nat} (hn : inp.length < n) : answerLoop line n inp = forEach line (ls.map (· ++ [10])) := by
  induction ls generalizing inp n with
  | nil =>
    obtain ⟨n, rfl⟩ : ∃ m, n = m + 1 := ⟨n - 1, by omega⟩
    have e : inp = rest := by simpa using h.all
    rw [answerLoop, e, readString_end h.last]
    rfl
  | cons l ls ih =>
    obtain ⟨n, rfl⟩ : ∃ m, n = m + 1 := ⟨n - 1, by omega⟩
    have e : inp = l ++ 10 :: ((ls.map (· ++ [10])).flatten ++ rest) := by rw [h.all]; simp
    rw [answerLoop, e, readString_line (h.lines l List.mem_cons_self)]
    simp only [Bool.false_eq_true, if_false, List.map_cons, forEach]
    rw [ih ⟨rfl, fun x hx => h.lines x (List.mem_cons_of_mem _ hx), h.last⟩ ?_]
    have := congrArg List.length e
    simp only [List.length_append, List.length_cons] at this ⊢
    omega

theorem splitLines_join {ls : List Bytes} (h : ∀ l ∈ ls, (10 : UInt8) ∉ l) : SplitLines (joinLines ls) ls [] :=
  ⟨by simp [joinLines], h, by simp⟩

/-- Every input has lines. -/
theorem splitLines_exists (inp : Bytes) : ∃ ls rest, SplitLines inp ls rest := by
  induction inp with
  | nil => exact ⟨[], [], rfl, by simp, by simp⟩
  | cons b inp ih =>
    obtain ⟨ls, rest, h⟩ := ih
    by_cases hb : b = 10
    · subst hb
      refine ⟨[] :: ls, rest, by rw [h.all]; simp, ?_, h.last⟩
      rintro l hl
      rcases List.mem_cons.1 hl with rfl | hl
      · simp
      · exact h.lines l hl
    · cases ls with
      | nil =>
        refine ⟨[], b :: rest, by rw [h.all]; simp, by simp, ?_⟩
        rw [List.mem_cons, not_or]
        exact ⟨Ne.symm hb, h.last⟩
      | cons l ls =>
        refine ⟨(b :: l) :: ls, rest, by rw [h.all]; simp, ?_, h.last⟩
        intro x hx
        rcases List.mem_cons.1 hx with rfl | hx
        · rw [List.mem_cons, not_or]
          exact ⟨Ne.symm hb, h.lines l List.mem_cons_self⟩
        · exact h.lines x (List.mem_cons_of_mem _ hx)

theorem forEach_append {V α : Type} (f : α → Act V Unit) (l l' : List α) :
    forEach f (l ++ l') = (forEach f l >>= fun _ => forEach f l') := by
  induction l with
  | nil => rw [List.nil_append, forEach, Act.pure_bind']
  | cons a l ih => rw [List.cons_append, forEach, forEach, ih, Act.bind_assoc']

/-! ## parts that go through -/

/-- From a state with `Ok`, the part goes through, what it writes has `P`, and the state has `Ok` again. -/
def Does {V : Type} (Ok : V → Prop) (x : Act V Unit) (P : Bytes → Prop) : Prop :=
  ∀ v, Ok v → ∃ o v', x v = (o, v', .ok ()) ∧ Ok v' ∧ P o

theorem Does.imp {V : Type} {Ok : V → Prop} {x : Act V Unit} {P Q : Bytes → Prop} (h : Does Ok x P) (hpq : ∀ o, P o → Q o) :
    Does Ok x Q := fun v hv => by
  obtain ⟨o, v', h1, h2, h3⟩ := h v hv
  exact ⟨o, v', h1, h2, hpq o h3⟩

theorem Does.say {V : Type} {Ok : V → Prop} (b : Bytes) : Does Ok (say b) (· = b) := fun v hv => ⟨b, v, rfl, hv, rfl⟩

theorem Does.seq {V : Type} {Ok : V → Prop} {x y : Act V Unit} {P Q : Bytes → Prop} (hx : Does Ok x P) (hy : Does Ok y Q) :
    Does Ok (x >>= fun _ => y) (fun o => ∃ a b, P a ∧ Q b ∧ o = a ++ b) := fun v hv => by
  obtain ⟨o, v', h1, h2, h3⟩ := hx v hv
  obtain ⟨o', v'', g1, g2, g3⟩ := hy v' h2
  exact ⟨o ++ o', v'', by rw [Act.bind_of h1, g1], g2, o, o', h3, g3, rfl⟩

theorem Does.forEach {V α : Type} {Ok : V → Prop} {f : α → Act V Unit} {P : α → Bytes → Prop} {l : List α}
    (h : ∀ a ∈ l, Does Ok (f a) (P a)) : Does Ok (forEach f l) (fun o => ∃ os, Rel2 P l os ∧ o = os.flatten) := by
  induction l with
  | nil => exact fun v hv => ⟨[], v, rfl, hv, [], .nil, rfl⟩
  | cons a l ih =>
    refine (Does.seq (h a List.mem_cons_self) (ih fun b hb => h b (List.mem_cons_of_mem _ hb))).imp ?_
    rintro o ⟨x, y, h1, ⟨os, h2, rfl⟩, rfl⟩
    exact ⟨x :: os, .cons h1 h2, rfl⟩

theorem need_ok {V α β : Type} {x : Out α} {a : α} (h : x = .ok a) (f : α → Act V β) : (need x >>= f) = f a := by
  rw [h, need, Act.pure_bind']

/-! ## the model -/

/-- `GrammarFromFile` does not return a nil grammar without an error. -/
theorem loadFile_some {w : LoadWorld} {fuel depth : Nat} {file : String} {reg : Registry} {r : Option Loaded} {st : LoadSt}
    (h : loadFile w fuel depth file reg = .ok (r, st)) : r ≠ none := by
  unfold loadFile at h
  split at h
  · cases h
  · split at h
    · cases h
    · rw [fromString, if_neg (by simp [LoadSt.count])] at h
      obtain ⟨x, -, h2⟩ := Out.bind_eq_ok.1 h
      obtain ⟨rfl, -⟩ := Prod.mk.inj (Out.ok.inj h2)
      simp

/-- the trees of `ExtractMaxAll`, without their parses -/
theorem extractWith_snd (fuel : Nat) (flag : Bool) (ps : Out (List Parsed)) :
    (extractWith fuel flag ps).map' (List.map (·.2)) = extract fuel flag ps := by
  unfold extractWith extract
  cases ps with
  | err => rfl
  | panic => rfl
  | div => rfl
  | ok ps =>
    rw [Out.bind_ok, Out.bind_ok]
    induction ps with
    | nil => rfl
    | cons p ps ih =>
      rw [outFlat, outFlat, ← ih]
      cases treesOf fuel flag p with
      | err => rfl
      | panic => rfl
      | div => rfl
      | ok ns =>
        rw [Out.bind_ok, Out.pure_eq, Out.bind_ok, Out.bind_ok]
        generalize outFlat _ ps = y
        cases y with
        | err => rfl
        | panic => rfl
        | div => rfl
        | ok y => simp [Out.map', List.map_append, Function.comp_def]

end Fmr
