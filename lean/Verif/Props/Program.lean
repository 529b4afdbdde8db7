import Verif.Proofs.Program

/-!
# C88: the example programs

What examples/arithmetic prints for an input, from the texts of the grammar and of the input to what is written, and which
lines the three programs leave unanswered.
-/

namespace Fmr

/-! ## all lines -/

section
variable {V R : Type} (js : Js V R) (s : Start)

/-- the start with this input -/
def Start.reading (s : Start) (inp : Bytes) : Start := { s with input := some inp }

/-- Before the input is read, the program ends, or has a grammar and a state of the engine. -/
theorem mainWith_cases : (∃ o v h, ∀ inp body, mainWith js (s.reading inp) body js.new = (o, v, .error h)) ∨
    ∃ g v, ∀ inp body, mainWith js (s.reading inp) body js.new = body g inp v := by
  unfold mainWith Start.reading
  simp only [Out.ofErr, need, Act.pure_bind']
  cases hl : loadFile s.load s.loadFuel s.depth s.grammar s.registry with
  | err => exact .inl ⟨_, _, _, fun inp body => Act.bind_stop rfl⟩
  | panic => exact .inl ⟨_, _, _, fun inp body => Act.bind_stop rfl⟩
  | div => exact .inl ⟨_, _, _, fun inp body => Act.bind_stop rfl⟩
  | ok g =>
    simp only [need, Act.pure_bind']
    cases hs : s.script with
    | none => exact .inl ⟨_, _, _, fun inp body => Act.bind_stop rfl⟩
    | some script =>
      simp only [need, Act.pure_bind']
      rcases hr : js.run js.new script with ⟨v, _ | r⟩
      · refine .inl ⟨[], v, .fatal, fun inp body => ?_⟩
        rw [Act.bind_of (v' := v) (o := []) (a := none) (by rw [Js.call, hr])]
        rfl
      · have h1 : js.call script js.new = ([], v, .ok (some r)) := by rw [Js.call, hr]
        rcases g with ⟨_ | ld, st⟩
        · refine .inl ⟨[], v, .crash, fun inp body => ?_⟩
          rw [Act.bind_of h1]
          rfl
        · refine .inr ⟨ld.gram, v, fun inp body => ?_⟩
          rw [Act.bind_of h1]
          rfl

variable (line : Gram → Bytes → Act V Unit)

/-- the three programs -/
def program (inp : Bytes) : Bytes × Option Halt :=
  outcome js (mainWith js (s.reading inp) fun g inp => answerLoop (line g) (inp.length + 1) inp)

theorem program_cases : (∃ o h, ∀ inp, program js s line inp = (o, some h)) ∨
    ∃ g v, ∀ inp ls rest, SplitLines inp ls rest → program js s line inp = finish (forEach (line g) (ls.map (· ++ [10])) v) := by
  rcases mainWith_cases js s with ⟨o, v, h, h1⟩ | ⟨g, v, h1⟩
  · exact .inl ⟨o, h, fun inp => by rw [program, outcome, h1]; rfl⟩
  · refine .inr ⟨g, v, fun inp ls rest h => ?_⟩
    rw [program, outcome, h1, answerLoop_eq _ h (by omega)]

theorem program_lost {inp : Bytes} {ls : List Bytes} {rest : Bytes} (h : SplitLines inp ls rest) :
    program js s line inp = program js s line (joinLines ls) := by
  rcases program_cases js s line with ⟨o, h', h1⟩ | ⟨g, v, h1⟩
  · rw [h1, h1]
  · rw [h1 _ _ _ h, h1 _ _ _ (splitLines_join h.lines)]

theorem finish_bind {x y : Act V Unit} {v : V} : finish ((x >>= fun _ => y) v) =
    (if (finish (x v)).2 = none then ((finish (x v)).1 ++ (finish (y (x v).2.1)).1, (finish (y (x v).2.1)).2) else finish (x v)) := by
  rcases hx : x v with ⟨o, v', h | a⟩
  · rw [Act.bind_stop hx]
    rfl
  · rw [Act.bind_of hx]
    simp only [finish, if_true]
    rcases hy : y v' with ⟨o', v'', h | b⟩ <;> rfl

/-- If a line stops the program in every state, then the lines after it are not answered. -/
theorem program_stop {l : Bytes} {o : Bytes} {h : Halt} (hl : ∀ g v, ∃ v', line g (l ++ [10]) v = (o, v', .error h)) {inp : Bytes}
    {ls ls' : List Bytes} {rest : Bytes} (hs : SplitLines inp (ls ++ l :: ls') rest) :
    program js s line inp = (if (program js s line (joinLines ls)).2 = none then ((program js s line (joinLines ls)).1 ++ o, some h)
      else program js s line (joinLines ls)) := by
  rcases program_cases js s line with ⟨o', h', h1⟩ | ⟨g, v, h1⟩
  · rw [h1, h1]
    rfl
  · rw [h1 _ _ _ hs, h1 _ _ _ (splitLines_join fun x hx => hs.lines x (List.mem_append_left _ hx)), List.map_append, forEach_append,
      finish_bind, List.map_cons, forEach]
    obtain ⟨v', e⟩ := hl g (forEach (line g) (ls.map (· ++ [10])) v).2.1
    rw [Act.bind_stop e]
    rfl

/-- If a line goes through in every state without changing it, then the lines after it are answered as without it. -/
theorem program_skip {l : Bytes} {o : Bytes} (hl : ∀ g v, line g (l ++ [10]) v = (o, v, .ok ())) {inp : Bytes}
    {ls ls' : List Bytes} {rest : Bytes} (hs : SplitLines inp (ls ++ l :: ls') rest) :
    (∃ h, (program js s line (joinLines ls)).2 = some h ∧ program js s line inp = program js s line (joinLines ls)) ∨
    ∃ o₁ o₂ e, program js s line (joinLines ls) = (o₁, none) ∧ program js s line (joinLines (ls ++ ls')) = (o₁ ++ o₂, e) ∧
      program js s line inp = (o₁ ++ o ++ o₂, e) := by
  have hln := hs.lines
  rcases program_cases js s line with ⟨o', h', h1⟩ | ⟨g, v, h1⟩
  · exact .inl ⟨h', by rw [h1], by rw [h1, h1]⟩
  · rw [h1 _ _ _ hs, h1 _ _ _ (splitLines_join (ls := ls) fun x hx => hln x (List.mem_append_left _ hx)),
      h1 _ _ _ (splitLines_join (ls := ls ++ ls') fun x hx => hln x (by
        rcases List.mem_append.1 hx with hx | hx
        · exact List.mem_append_left _ hx
        · exact List.mem_append_right _ (List.mem_cons_of_mem _ hx))),
      List.map_append, List.map_append, forEach_append, forEach_append, finish_bind, finish_bind, List.map_cons, forEach]
    cases he : (finish (forEach (line g) (ls.map (· ++ [10])) v)).2 with
    | some h => exact .inl ⟨h, rfl, rfl⟩
    | none =>
      refine .inr ⟨_, _, _, ?_, rfl, ?_⟩
      · rw [← he]
      · simp only [if_true]
        rw [Act.bind_of (hl g _)]
        generalize forEach (line g) (ls'.map (· ++ [10])) (forEach (line g) (ls.map (· ++ [10])) v).2.1 = y
        rcases y with ⟨o', v'', h | b⟩ <;> simp [finish]

end

section
variable {V R : Type} (w : World) (nw : NodeWorld) (js : Js V R) (fuel : Nat) (s : Start)

/-- C88: what comes after the last newline of the input has no effect, in all three programs. -/
theorem C88_lost {inp : Bytes} {ls : List Bytes} {rest : Bytes} (h : SplitLines inp ls rest) :
    arithmeticMain w nw js fuel (s.reading inp) = arithmeticMain w nw js fuel (s.reading (joinLines ls)) ∧
    (∀ eval start, mathMain w nw js fuel (s.reading inp) eval start = mathMain w nw js fuel (s.reading (joinLines ls)) eval start) ∧
    ∀ start, builtinMain w nw js fuel (s.reading inp) start = builtinMain w nw js fuel (s.reading (joinLines ls)) start := by
  refine ⟨program_lost js s (fun g => arithmeticLine w nw js g fuel) h,
    fun eval start => program_lost js s (fun g => mathLine w nw js g fuel eval start) h, fun start => ?_⟩
  have := program_lost js s (fun g => builtinLine w nw js g fuel start) h
  exact congrArg (fun r : Bytes × Option Halt => (r.1, r.2.map fun h => if h = .crash then .recovered else h)) this

theorem process_blank {g : Gram} {context : String} {text : Bytes} (h : w.trim text = []) : process w g context text = .err := by
  simp [process, h]

variable {l : Bytes} (hl : w.trim (l ++ [10]) = []) {inp : Bytes} {ls ls' : List Bytes} {rest : Bytes}
  (hs : SplitLines inp (ls ++ l :: ls') rest)
include hl hs

/-- C88: a blank line ends examples/arithmetic: it is printed, the program fails, and no line after it is answered. -/
theorem C88_blank : arithmeticMain w nw js fuel (s.reading inp) =
    (if (arithmeticMain w nw js fuel (s.reading (joinLines ls))).2 = none then
      ((arithmeticMain w nw js fuel (s.reading (joinLines ls))).1 ++ (l ++ [10] ++ utf8 "\n"), some .fatal)
    else arithmeticMain w nw js fuel (s.reading (joinLines ls))) := by
  refine program_stop js s (fun g => arithmeticLine w nw js g fuel) (fun g v => ⟨v, ?_⟩) hs
  rw [arithmeticLine, Act.bind_of (v' := v) (o := l ++ [10] ++ utf8 "\n") (a := ()) rfl]
  rw [earleyParseMaxAll, process_blank w hl, Out.bind_err, need]
  rw [show ((halt .fatal : Act V (List Parsed)) >>= fun ps => (forEach (arithmeticParse nw js fuel) ps.zipIdx >>= fun _ =>
      sayString "\n")) v = ([], v, .error .fatal) from Act.bind_stop rfl]
  simp

/-- C88: a blank line ends examples/builtin in the same way. -/
theorem C88_builtin_blank (ht : w.trim [] = []) (start : String) : builtinMain w nw js fuel (s.reading inp) start =
    (if (builtinMain w nw js fuel (s.reading (joinLines ls)) start).2 = none then
      ((builtinMain w nw js fuel (s.reading (joinLines ls)) start).1 ++ utf8 "\n", some .fatal)
    else builtinMain w nw js fuel (s.reading (joinLines ls)) start) := by
  have := program_stop js s (fun g => builtinLine w nw js g fuel start) (o := utf8 "\n") (h := .fatal) (fun g v => ⟨v, by
    rw [builtinLine, hl, List.nil_append, Act.bind_of (v' := v) (o := utf8 "\n") (a := ()) rfl]
    rw [earleyParseMaxAll, process_blank w ht, Out.bind_err, extractWith, Out.bind_err, need]
    rw [show ((halt .fatal : Act V (List (Parsed × Node))) >>= fun ts => (forEach (builtinTree nw js) ts >>= fun _ =>
        sayString "\n")) v = ([], v, .error .fatal) from Act.bind_stop rfl]
    simp⟩) hs
  have e : ∀ inp, builtinMain w nw js fuel (s.reading inp) start =
      ((program js s (fun g => builtinLine w nw js g fuel start) inp).1,
        (program js s (fun g => builtinLine w nw js g fuel start) inp).2.map fun h => if h = .crash then .recovered else h) :=
    fun _ => rfl
  rw [e, e, this]
  rcases program js s (fun g => builtinLine w nw js g fuel start) (joinLines ls) with ⟨o, _ | h⟩ <;> rfl

/-- C88: examples/math prints an empty line for a blank line, and the lines around it are answered as without it (unless the
program ended before). -/
theorem C88_math_blank (eval : Bool) (start : String) :
    (∃ h, (mathMain w nw js fuel (s.reading (joinLines ls)) eval start).2 = some h ∧
      mathMain w nw js fuel (s.reading inp) eval start = mathMain w nw js fuel (s.reading (joinLines ls)) eval start) ∨
    ∃ o₁ o₂ e, mathMain w nw js fuel (s.reading (joinLines ls)) eval start = (o₁, none) ∧
      mathMain w nw js fuel (s.reading (joinLines (ls ++ ls'))) eval start = (o₁ ++ o₂, e) ∧
      mathMain w nw js fuel (s.reading inp) eval start = (o₁ ++ utf8 "\n" ++ o₂, e) := by
  refine program_skip js s (fun g => mathLine w nw js g fuel eval start) (fun g v => ?_) hs
  rw [mathLine, hl]
  rfl

end

/-! ## examples/arithmetic, from the texts to the output -/

/-- What is asked of a line: it has these words, and no expression in them has a value with more than ten digits. -/
structure LineRead (w : World) (words : Bytes → List String) (t : Bytes) : Prop where
  read : ∃ d, HasWords w "" t d (words t) ["number"]
  fit : ∀ i k c, ReadsAs (((words t).drop i).take k) c → c.Fits

/-- What is asked of the setting: the grammar file is the shipped one and was loaded, the script ran, and after it the engine
calculates. -/
structure ArithmeticRuns {V R : Type} (w : World) (nw : NodeWorld) (ext : String → Option BF) (js : Js V R) (s : Start) : Prop where
  loader : ArLoader s.load s.grammar
  loaded : ∃ ld st, loadFile s.load s.loadFuel s.depth s.grammar s.registry = .ok (some ld, st)
  order : w.OrdOK
  calls : CallsReturn nw
  funcs : HasCalc nw ext
  engine : ∃ Ok : V → Prop, JsCalc js Ok ∧ ∃ script v r, s.script = some script ∧ js.run js.new script = (v, some r) ∧ Ok v

/-- C88: all complete lines are answered. Missing for the full statement: what comes after the last newline. -/
theorem C88_partial {V R : Type} {w : World} {nw : NodeWorld} {ext : String → Option BF} {js : Js V R} {s : Start}
    (h : ArithmeticRuns w nw ext js s) {words : Bytes → List String} {inp : Bytes} {ls : List Bytes} {rest : Bytes}
    (hs : SplitLines inp ls rest) (hl : ∀ l ∈ ls, LineRead w words (l ++ [10])) :
    ∃ N, ∀ fuel ≥ N, ∃ out, arithmeticMain w nw js fuel (s.reading inp) = (out, none) ∧
      CalcAnswers words (ls.map (· ++ [10])) out := by
  obtain ⟨ld, st, hload⟩ := h.loaded
  obtain ⟨Ok, hjs, script, v, r, h1, h2, h3⟩ := h.engine
  have hline : ∀ l ∈ ls, ∃ N, ∀ fuel ≥ N, Does Ok (arithmeticLine w nw js ld.gram fuel (l ++ [10])) (CalcAnswer (words (l ++ [10])) (l ++ [10])) := by
    intro l hm
    obtain ⟨⟨d, hw⟩, hf⟩ := hl l hm
    obtain ⟨N, hN⟩ := C84_calls_partial h.loader hload w h.order nw h.calls h.funcs hw
    refine ⟨N, fun fuel hfu => ?_⟩
    obtain ⟨-, -, -, groups, -, g1, g2⟩ := hN fuel hfu
    exact does_line hjs hf (by simpa using (congrArg List.length hw.words).symm) g1 g2
  have hall : ∃ N, ∀ fuel ≥ N, Does Ok (forEach (arithmeticLine w nw js ld.gram fuel) (ls.map (· ++ [10])))
      (CalcAnswers words (ls.map (· ++ [10]))) := by
    clear hs hl
    induction ls with
    | nil => exact ⟨0, fun fuel _ v hv => ⟨[], v, rfl, hv, .nil⟩⟩
    | cons l ls ih =>
      obtain ⟨N, hN⟩ := hline l List.mem_cons_self
      obtain ⟨N', hN'⟩ := ih fun x hx => hline x (List.mem_cons_of_mem _ hx)
      refine ⟨max N N', fun fuel hf => ?_⟩
      rw [List.map_cons, forEach]
      refine ((hN fuel (by omega)).seq (hN' fuel (by omega))).imp ?_
      rintro o ⟨a, b, g1, g2, rfl⟩
      exact .cons g1 g2
  obtain ⟨N, hN⟩ := hall
  refine ⟨N, fun fuel hf => ?_⟩
  obtain ⟨o, v', g1, -, g2⟩ := hN fuel hf v h3
  refine ⟨o, ?_, g2⟩
  have e : mainWith js (s.reading inp) (fun g inp => answerLoop (arithmeticLine w nw js g fuel) (inp.length + 1) inp) js.new =
      answerLoop (arithmeticLine w nw js ld.gram fuel) (inp.length + 1) inp v := by
    unfold mainWith Start.reading
    simp only [hload, h1, Out.ofErr, need, Act.pure_bind']
    rw [Act.bind_of (v' := v) (o := []) (a := some r) (by rw [Js.call, h2])]
    rfl
  rw [arithmeticMain, outcome, e, answerLoop_eq _ hs (by omega), g1]
  rfl

/-- C88, full statement: every line of the input is answered, also the last one if the input does not end with a newline. -/
def C88_statement : Prop :=
  ∀ (V R : Type) (w : World) (nw : NodeWorld) (ext : String → Option BF) (js : Js V R) (s : Start), ArithmeticRuns w nw ext js s →
    ∀ (words : Bytes → List String) (inp : Bytes) (ls : List Bytes) (rest : Bytes), SplitLines inp ls rest →
    (∀ t ∈ ls.map (· ++ [10]) ++ (if rest = [] then [] else [rest]), LineRead w words t) →
    ∃ N, ∀ fuel ≥ N, ∃ out, arithmeticMain w nw js fuel (s.reading inp) = (out, none) ∧
      CalcAnswers words (ls.map (· ++ [10]) ++ (if rest = [] then [] else [rest])) out

end Fmr
