import Verif.Proofs.Answers
import Verif.Props.ProgramWitness
import Verif.Props.Builtin

/-!
# C94: the answers of examples/math and examples/builtin

What the two programs write for all lines of their input, whatever the engine does with the meanings; then with the grammars
that are shipped.
-/

namespace Fmr

/-! ## lines -/

section
variable {V R : Type} {w : World} {nw : NodeWorld} (js : Js V R) {g : Gram} {fuel : Nat} {start : String} {line : Bytes}
  {mss : List (List String)}

theorem mathLine_run (h0 : w.trim line ≠ []) (h : TextMeans w nw g fuel start (w.trim line) mss) (v : V) :
    ∃ v' o, MathAnswer js v (w.trim line) mss v' o ∧ mathLine w nw js g fuel true start line v = (o, v', .ok ()) := by
  obtain ⟨toks, groups, ⟨ps, h1, h2⟩, h3⟩ := h
  obtain ⟨v', b, h4, h5⟩ := mathParts_run (js := js) h2 h3 0 v
  refine ⟨v', _, ⟨b, h4, rfl⟩, ?_⟩
  rw [mathLine, Act.bind_of (v' := v) (o := w.trim line ++ utf8 "\n") (a := ()) rfl, if_neg (by simpa using h0), need_ok h1,
    Act.bind_of h5]
  simp [sayString, say, List.append_assoc]

theorem plainLine_run (h0 : w.trim line ≠ []) (h : TextMeans w nw g fuel start (w.trim line) mss) (v : V) :
    ∃ v' o, PlainAnswer v (w.trim line) mss v' o ∧ mathLine w nw js g fuel false start line v = (o, v', .ok ()) := by
  obtain ⟨toks, groups, ⟨ps, h1, h2⟩, h3⟩ := h
  refine ⟨v, _, ⟨rfl, rfl⟩, ?_⟩
  rw [mathLine, Act.bind_of (v' := v) (o := w.trim line ++ utf8 "\n") (a := ()) rfl, if_neg (by simpa using h0), need_ok h1,
    Act.bind_of (plainParts_run (js := js) h2 h3 0 v)]
  simp [sayString, say, List.append_assoc]

theorem builtinLine_run (h : TextMeans w nw g fuel start (w.trim line) mss) (v : V) :
    ∃ v' o, BuiltinAnswer js v (w.trim line) mss v' o ∧ builtinLine w nw js g fuel start line v = (o, v', .ok ()) := by
  obtain ⟨toks, groups, ⟨ps, h1, h2⟩, h3⟩ := h
  obtain ⟨l, h4, h5⟩ := extractWith_run h2 h3
  obtain ⟨rs, v', h6⟩ := replies_exist (js := js) mss.flatten v
  refine ⟨v', _, ⟨rs, h6, rfl⟩, ?_⟩
  rw [builtinLine, Act.bind_of (v' := v) (o := w.trim line ++ utf8 "\n") (a := ()) rfl, h1, need_ok h4,
    Act.bind_of (builtinTrees_run h5 h6)]
  simp [sayString, say, List.append_assoc]

end

theorem answers_run {V : Type} {A : V → Bytes → List (List String) → V → Bytes → Prop} {line : Bytes → Act V Unit} {t : Bytes → Bytes}
    {lms : List (Bytes × List (List String))}
    (h : ∀ x ∈ lms, ∀ v, ∃ v' o, A v (t (x.1 ++ [10])) x.2 v' o ∧ line (x.1 ++ [10]) v = (o, v', .ok ())) (v : V) :
    ∃ v' o, AnswersOf A v (lms.map fun x => (t (x.1 ++ [10]), x.2)) v' o ∧
      forEach line ((lms.map (·.1)).map (· ++ [10])) v = (o, v', .ok ()) := by
  induction lms generalizing v with
  | nil => exact ⟨v, [], .nil, rfl⟩
  | cons x lms ih =>
    obtain ⟨v₁, o, h1, h2⟩ := h x List.mem_cons_self v
    obtain ⟨v₂, o', h3, h4⟩ := ih (fun y hy => h y (List.mem_cons_of_mem _ hy)) v₁
    refine ⟨v₂, o ++ o', .cons h1 h3, ?_⟩
    rw [List.map_cons, List.map_cons, forEach, Act.bind_of h2, h4]

/-- The grammar file was loaded and is this grammar, and the script ran and left the engine in this state. -/
structure ProgStarted {V R : Type} (js : Js V R) (s : Start) (g : Gram) (v : V) : Prop where
  loaded : ∃ ld st, loadFile s.load s.loadFuel s.depth s.grammar s.registry = .ok (some ld, st) ∧ ld.gram = g
  script : ∃ script r, s.script = some script ∧ js.run js.new script = (v, some r)

theorem ProgStarted.program {V R : Type} {js : Js V R} {s : Start} {g : Gram} {v : V} (h : ProgStarted js s g v)
    (line : Gram → Bytes → Act V Unit) {inp : Bytes} {ls : List Bytes} {rest : Bytes} (hs : SplitLines inp ls rest) :
    Fmr.program js s line inp = finish (forEach (line g) (ls.map (· ++ [10])) v) := by
  obtain ⟨ld, st, hload, rfl⟩ := h.loaded
  obtain ⟨script, r, h1, h2⟩ := h.script
  have e : mainWith js (s.reading inp) (fun g inp => answerLoop (line g) (inp.length + 1) inp) js.new =
      answerLoop (line ld.gram) (inp.length + 1) inp v := by
    unfold mainWith Start.reading
    simp only [hload, h1, Out.ofErr, need, Act.pure_bind']
    rw [Act.bind_of (v' := v) (o := []) (a := some r) (by rw [Js.call, h2])]
    rfl
  rw [Fmr.program, outcome, e, answerLoop_eq _ hs (by omega)]

section
variable {V R : Type} (w : World) (nw : NodeWorld) {js : Js V R} (fuel : Nat) {s : Start} {g : Gram} {v : V} (hst : ProgStarted js s g v)
  (start : String) {inp : Bytes} {rest : Bytes} {lms : List (Bytes × List (List String))} (hs : SplitLines inp (lms.map (·.1)) rest)
  (hm : ∀ x ∈ lms, TextMeans w nw g fuel start (w.trim (x.1 ++ [10])) x.2)
include hst hs hm

/-- C94: examples/math with `-eval` answers every line with its parts, their readings, and the values of those that the engine
can run; `main` returns. -/
theorem C94_math (h0 : ∀ x ∈ lms, w.trim (x.1 ++ [10]) ≠ []) : ∃ v' out,
    AnswersOf (MathAnswer js) v (lms.map fun x => (w.trim (x.1 ++ [10]), x.2)) v' out ∧
    mathMain w nw js fuel (s.reading inp) true start = (out, none) := by
  obtain ⟨v', o, h1, h2⟩ := answers_run (fun x hx => mathLine_run js (h0 x hx) (hm x hx)) v
  exact ⟨v', o, h1, (hst.program (fun g => mathLine w nw js g fuel true start) hs).trans (by rw [h2]; rfl)⟩

/-- C94: without `-eval` it answers every line with its parts and their readings; the engine is not used. -/
theorem C94_plain (h0 : ∀ x ∈ lms, w.trim (x.1 ++ [10]) ≠ []) : ∃ v' out,
    AnswersOf PlainAnswer v (lms.map fun x => (w.trim (x.1 ++ [10]), x.2)) v' out ∧
    mathMain w nw js fuel (s.reading inp) false start = (out, none) := by
  obtain ⟨v', o, h1, h2⟩ := answers_run (fun x hx => plainLine_run js (h0 x hx) (hm x hx)) v
  exact ⟨v', o, h1, (hst.program (fun g => mathLine w nw js g fuel false start) hs).trans (by rw [h2]; rfl)⟩

/-- C94: examples/builtin answers every line with the readings of its parts and their values; `main` returns. -/
theorem C94_builtin : ∃ v' out,
    AnswersOf (BuiltinAnswer js) v (lms.map fun x => (w.trim (x.1 ++ [10]), x.2)) v' out ∧
    builtinMain w nw js fuel (s.reading inp) start = (out, none) := by
  obtain ⟨v', o, h1, h2⟩ := answers_run (fun x hx => builtinLine_run js (hm x hx)) v
  refine ⟨v', o, h1, ?_⟩
  have h3 : program js s (fun g => builtinLine w nw js g fuel start) inp = (o, none) :=
    (hst.program (fun g => builtinLine w nw js g fuel start) hs).trans (by rw [h2]; rfl)
  exact congrArg (fun r : Bytes × Option Halt => (r.1, r.2.map fun h => if h = .crash then .recovered else h)) h3

end

/-! ## with the grammars that are shipped -/

/-- The parts that are found, and their meanings. -/
theorem textMeans_of {w : World} {nw : NodeWorld} {g : Gram} {fuel : Nat} {text : Bytes} {toks : List Token} {ws : List String}
    {S : String} {D : String → Nat → Nat → Prop} {T : Nat → String → Nat → Node → Prop} {Reads : List String → Calc → Prop}
    {groups : List ((Nat × Nat) × List Node)} (hlen : ws.length = toks.length) (hpos : ∀ c, ¬ Reads [] c)
    (hD : ∀ i k, D S i k ↔ ∃ c, Reads ((ws.drop i).take k) c)
    (hT : ∀ i k n, T i S k n → ∃ c, Reads ((ws.drop i).take k) c ∧ MeansAt nw text toks i n c.js)
    (hg : GreedyMatches D T [S] toks.length groups) (hps : ParseGroups w g fuel "" text [S] toks groups) :
    ∃ fs, PartsOf Reads ws fs ∧ TextMeans w nw g fuel S text (partTexts fs) := by
  have key : ∀ groups : List ((Nat × Nat) × List Node),
      (∀ a ∈ groups, a.2 ≠ [] ∧ ∀ n ∈ a.2, ∃ c, Reads ((ws.drop a.1.1).take a.1.2) c ∧ MeansAt nw text toks a.1.1 n c.js) →
      ∃ fs : List FoundPart, fs.map (fun f => (f.first, f.len)) = groups.map (·.1) ∧
        (∀ f ∈ fs, f.readings ≠ [] ∧ ∀ c ∈ f.readings, Reads ((ws.drop f.first).take f.len) c) ∧
        Rel2 (fun a ms => a.2 ≠ [] ∧ Rel2 (MeansAt nw text toks a.1.1) a.2 ms) groups (partTexts fs) := by
    intro groups h
    induction groups with
    | nil => exact ⟨[], rfl, by simp, .nil⟩
    | cons a groups ih =>
      obtain ⟨fs, h1, h2, h3⟩ := ih fun b hb => h b (List.mem_cons_of_mem _ hb)
      obtain ⟨h4, h5⟩ := h a List.mem_cons_self
      have key2 : ∀ ns : List Node, (∀ n ∈ ns, ∃ c, Reads ((ws.drop a.1.1).take a.1.2) c ∧ MeansAt nw text toks a.1.1 n c.js) →
          ∃ cs : List Calc, cs.length = ns.length ∧ (∀ c ∈ cs, Reads ((ws.drop a.1.1).take a.1.2) c) ∧
            Rel2 (MeansAt nw text toks a.1.1) ns (cs.map Calc.js) := by
        intro ns hns
        induction ns with
        | nil => exact ⟨[], rfl, by simp, .nil⟩
        | cons n ns ih =>
          obtain ⟨cs, g1, g2, g3⟩ := ih fun b hb => hns b (List.mem_cons_of_mem _ hb)
          obtain ⟨c, g4, g5⟩ := hns n List.mem_cons_self
          refine ⟨c :: cs, by simp [g1], ?_, .cons g5 g3⟩
          intro c' hc'
          rcases List.mem_cons.1 hc' with rfl | hc'
          · exact g4
          · exact g2 c' hc'
      obtain ⟨cs, g1, g2, g3⟩ := key2 a.2 h5
      refine ⟨⟨a.1.1, a.1.2, cs⟩ :: fs, by simp [h1], ?_, .cons ⟨h4, g3⟩ h3⟩
      intro f hf
      rcases List.mem_cons.1 hf with rfl | hf
      · refine ⟨?_, g2⟩
        rintro rfl
        exact h4 (List.length_eq_zero_iff.1 g1.symm)
      · exact h2 f hf
  obtain ⟨fs, k1, k2, k3⟩ := key groups fun a ha => ⟨(hg.nonempty a ha).2, fun n hn => by
    obtain ⟨S', hS, h, -⟩ := hg.trees a ha n hn
    obtain rfl := List.mem_singleton.1 hS
    exact hT _ _ _ h⟩
  have hat : ∀ i k, PartAt Reads ws i k ↔ SpanMatch D [S] toks.length i k := by
    intro i k
    refine ⟨fun ⟨g1, c, g2⟩ => ⟨?_, by omega, _, List.mem_singleton.2 rfl, (hD i k).2 ⟨c, g2⟩⟩, fun ⟨_, g1, S', hS, g2⟩ => ⟨by omega, ?_⟩⟩
    · by_contra hi
      rw [List.drop_eq_nil_of_le (by omega), List.take_nil] at g2
      exact hpos c g2
    · obtain rfl := List.mem_singleton.1 hS
      exact (hD i k).1 g2
  have hmem : ∀ f ∈ fs, ∃ a ∈ groups, a.1 = (f.first, f.len) := by
    intro f hf
    have := List.mem_map_of_mem (f := fun f : FoundPart => (f.first, f.len)) hf
    rw [k1] at this
    exact List.mem_map.1 this
  have hmem' : ∀ a ∈ groups, ∃ f ∈ fs, (f.first, f.len) = a.1 := by
    intro a ha
    have := List.mem_map_of_mem (f := fun a : (Nat × Nat) × List Node => a.1) ha
    rw [← k1] at this
    exact List.mem_map.1 this
  refine ⟨fs, ⟨?_, fun f hf => ?_, fun i k hi hk => ?_, fun f hf => (k2 f hf).1, fun f hf => (k2 f hf).2⟩, toks, groups, hps, k3⟩
  · have := hg.disjoint
    rw [← k1, List.pairwise_map] at this
    exact this
  · obtain ⟨a, ha, e⟩ := hmem f hf
    obtain ⟨g1, g2⟩ := hg.longest a ha
    rw [e] at g1 g2
    exact ⟨(hat _ _).2 g1, fun k hk => g2 k ((hat _ _).1 hk)⟩
  · refine hg.rest i k (fun a ha hik => ?_) ((hat _ _).1 hk)
    obtain ⟨f, hf, e⟩ := hmem' a ha
    rw [← e] at hik
    exact hi f hf hik

theorem builtinReads_ne {c : Calc} : ¬ BuiltinReads [] c := by
  have hb : ∀ {l : List String} {c : Calc}, BiBase l c → l ≠ [] := by
    intro l c h
    cases h <;> simp
  have hs : ∀ {l : List String} {c : Calc}, BiSec l c → l ≠ [] := by
    intro l c h
    cases h with
    | mag h => cases h <;> simp
    | base h => exact hb h
  intro h
  have h' := builtinReads_iff.1 h
  generalize e : ([] : List String) = l at h'
  cases h' with
  | last h1 => exact hs h1 e.symm
  | more h1 _ _ => exact hs h1 (List.append_eq_nil_iff.1 e.symm).1

section
variable {lw : LoadWorld} {file : String} {fuel₀ depth : Nat} {reg : Registry} {ld : Loaded} {st : LoadSt}
  (hload : loadFile lw fuel₀ depth file reg = .ok (some ld, st)) (w : World) (ho : w.OrdOK) (nw : NodeWorld)
  (hc : CallsReturn nw) {ext : String → Option BF} (hm : HasCalc nw ext) {text : Bytes} {d : Doc} {ws : List String}
include hload ho hc hm

theorem calc_means (h : ArLoader lw file) (ht : HasWords w "" text d ws ["number"]) : ∃ N, ∀ fuel ≥ N, ∃ fs,
    PartsOf ReadsAs ws fs ∧ TextMeans w nw ld.gram fuel "number" text (partTexts fs) := by
  obtain ⟨N, hN⟩ := C84_calls_partial h hload w ho nw hc hm ht
  refine ⟨N, fun fuel hf => ?_⟩
  obtain ⟨-, -, -, groups, -, g1, g2⟩ := hN fuel hf
  refine textMeans_of (by simpa using (congrArg List.length ht.words).symm) (fun c hr => absurd (reads_pos hr) (by simp))
    (fun i k => Iff.rfl) (fun i k n ⟨_, c, g3, g4, _⟩ => ⟨c, g3, g4⟩) g1 g2

theorem builtin_means (h : BiLoader lw file) (ht : HasWords w "" text d ws biNames) : ∃ N, ∀ fuel ≥ N, ∃ fs,
    PartsOf BuiltinReads ws fs ∧ TextMeans w nw ld.gram fuel "number" text (partTexts fs) := by
  obtain ⟨N, hN⟩ := oneFile_calls bi_parts rfl bi_head bi_check h.file h.tokens hload w ho nw hc (calcEv_sound hm) ht
    (S := "number") (by decide) rfl rfl
  refine ⟨N, fun fuel hf => ?_⟩
  obtain ⟨-, -, -, g7⟩ := hN fuel hf
  obtain ⟨groups, -, g1, g2⟩ := g7 fun v hv => by
    obtain ⟨c, rfl, -⟩ := bi_number.1 hv
    exact builtinReads_ne hv
  refine textMeans_of (Reads := BuiltinReads) (by simpa using (congrArg List.length ht.words).symm) (fun c hr => builtinReads_ne hr)
    (fun i k => ⟨fun ⟨v, hv⟩ => ?_, fun ⟨c, hr⟩ => ⟨_, hr⟩⟩) (fun i k n ⟨_, v, hv, h3⟩ => ?_) g1 g2
  · obtain ⟨c, rfl, -⟩ := bi_number.1 hv
    exact ⟨c, hv⟩
  · obtain ⟨c, rfl, -⟩ := bi_number.1 hv
    obtain ⟨e, ⟨h6, -⟩, h8⟩ := h3 c rfl
    exact ⟨c, hv, fun p p1 p2 => by rw [(h8 p p1 p2).1, h6]⟩

end


/-! ### whole inputs -/

theorem lines_means {w : World} {nw : NodeWorld} {g : Gram} {start : String} {Reads : List String → Calc → Prop} {words : Bytes → List String}
    {ls : List Bytes} (h : ∀ l ∈ ls, ∃ N, ∀ fuel ≥ N, ∃ fs, PartsOf Reads (words l) fs ∧
      TextMeans w nw g fuel start (w.trim (l ++ [10])) (partTexts fs)) :
    ∃ N, ∀ fuel ≥ N, ∃ fss : List (List FoundPart), fss.length = ls.length ∧ ∀ x ∈ ls.zip fss, PartsOf Reads (words x.1) x.2 ∧
      TextMeans w nw g fuel start (w.trim (x.1 ++ [10])) (partTexts x.2) := by
  induction ls with
  | nil => exact ⟨0, fun _ _ => ⟨[], rfl, by simp⟩⟩
  | cons l ls ih =>
    obtain ⟨N, h1⟩ := h l List.mem_cons_self
    obtain ⟨M, h2⟩ := ih fun x hx => h x (List.mem_cons_of_mem _ hx)
    refine ⟨max N M, fun fuel hf => ?_⟩
    obtain ⟨fs, h3, h4⟩ := h1 fuel (by omega)
    obtain ⟨fss, h5, h6⟩ := h2 fuel (by omega)
    refine ⟨fs :: fss, by simp [h5], fun x hx => ?_⟩
    rw [List.zip_cons_cons] at hx
    rcases List.mem_cons.1 hx with rfl | hx
    · exact ⟨h3, h4⟩
    · exact h6 x hx

/-- the answers, from the meanings of the lines -/
theorem lineAnswers_of {V : Type} {A : V → Bytes → List (List String) → V → Bytes → Prop} {run : Nat → Bytes × Option Halt} {w : World}
    {nw : NodeWorld} {g : Gram} {start : String} {Reads : List String → Calc → Prop} {words : Bytes → List String} {ls : List Bytes} {v : V}
    (h : ∀ l ∈ ls, ∃ N, ∀ fuel ≥ N, ∃ fs, PartsOf Reads (words l) fs ∧
      TextMeans w nw g fuel start (w.trim (l ++ [10])) (partTexts fs))
    (hrun : ∀ fuel, ∀ lms : List (Bytes × List (List String)), lms.map (·.1) = ls →
      (∀ x ∈ lms, TextMeans w nw g fuel start (w.trim (x.1 ++ [10])) x.2) → ∃ v' out,
        AnswersOf A v (lms.map fun x => (w.trim (x.1 ++ [10]), x.2)) v' out ∧ run fuel = (out, none)) :
    ∃ N, ∀ fuel ≥ N, ∃ out, run fuel = (out, none) ∧
      LineAnswers A Reads v (ls.map fun l => (w.trim (l ++ [10]), words l)) out := by
  obtain ⟨N, hN⟩ := lines_means h
  refine ⟨N, fun fuel hf => ?_⟩
  obtain ⟨fss, h1, h2⟩ := hN fuel hf
  obtain ⟨v', out, h3, h4⟩ := hrun fuel ((ls.zip fss).map fun x => (x.1, partTexts x.2))
    (by rw [List.map_map]; exact List.map_fst_zip (by omega)) (by
      intro x hx
      obtain ⟨y, hy, rfl⟩ := List.mem_map.1 hx
      exact (h2 y hy).2)
  refine ⟨out, h4, fss, v', by simp [h1], ?_, ?_⟩
  · rw [List.zip_map_left]
    intro x hx
    obtain ⟨y, hy, rfl⟩ := List.mem_map.1 hx
    exact (h2 y hy).1
  · rw [List.zip_map_left, List.map_map]
    rw [List.map_map] at h3
    exact h3

/-- What is asked of a start with a grammar and an engine: the grammar was loaded, the script ran, and the functions that the
grammar calls are those of the library. -/
structure ShippedRuns {V R : Type} (w : World) (nw : NodeWorld) (ext : String → Option BF) (js : Js V R) (s : Start) (v : V) : Prop where
  loaded : ∃ ld st, loadFile s.load s.loadFuel s.depth s.grammar s.registry = .ok (some ld, st)
  script : ∃ script r, s.script = some script ∧ js.run js.new script = (v, some r)
  order : w.OrdOK
  calls : CallsReturn nw
  funcs : HasCalc nw ext

section
variable {V R : Type} {w : World} {nw : NodeWorld} {ext : String → Option BF} {js : Js V R} {s : Start} {v : V}
  (hr : ShippedRuns w nw ext js s v) {words : Bytes → List String} {inp : Bytes} {ls : List Bytes} {rest : Bytes}
  (hs : SplitLines inp ls rest)
include hr hs

/-- C94: examples/math with the grammar for arithmetic: for every line, the expressions in it with readings and, with `-eval`,
their values. -/
theorem C94_math_calc (hg : ArLoader s.load s.grammar) (h0 : ∀ l ∈ ls, w.trim (l ++ [10]) ≠ [])
    (hl : ∀ l ∈ ls, ∃ d, HasWords w "" (w.trim (l ++ [10])) d (words l) ["number"]) :
    (∃ N, ∀ fuel ≥ N, ∃ out, mathMain w nw js fuel (s.reading inp) true "number" = (out, none) ∧
      LineAnswers (MathAnswer js) ReadsAs v (ls.map fun l => (w.trim (l ++ [10]), words l)) out) ∧
    ∃ N, ∀ fuel ≥ N, ∃ out, mathMain w nw js fuel (s.reading inp) false "number" = (out, none) ∧
      LineAnswers PlainAnswer ReadsAs v (ls.map fun l => (w.trim (l ++ [10]), words l)) out := by
  obtain ⟨ld, st, hload⟩ := hr.loaded
  have hst : ProgStarted js s ld.gram v := ⟨⟨ld, st, hload, rfl⟩, hr.script⟩
  have hmean : ∀ l ∈ ls, ∃ N, ∀ fuel ≥ N, ∃ fs, PartsOf ReadsAs (words l) fs ∧
      TextMeans w nw ld.gram fuel "number" (w.trim (l ++ [10])) (partTexts fs) := fun l hm => by
    obtain ⟨d, hd⟩ := hl l hm
    exact calc_means hload w hr.order nw hr.calls hr.funcs hg hd
  constructor
  · refine lineAnswers_of (run := fun fuel => mathMain w nw js fuel (s.reading inp) true "number") hmean fun fuel lms e hm => ?_
    exact C94_math w nw fuel hst "number" (e ▸ hs) hm fun x hx => h0 _ (e ▸ List.mem_map_of_mem hx)
  · refine lineAnswers_of (run := fun fuel => mathMain w nw js fuel (s.reading inp) false "number") hmean fun fuel lms e hm => ?_
    exact C94_plain w nw fuel hst "number" (e ▸ hs) hm fun x hx => h0 _ (e ▸ List.mem_map_of_mem hx)

/-- C94: examples/builtin with its grammar: for every line, readings of the numbers in it, and their values. -/
theorem C94_builtin_numbers (hg : BiLoader s.load s.grammar)
    (hl : ∀ l ∈ ls, ∃ d, HasWords w "" (w.trim (l ++ [10])) d (words l) biNames) :
    ∃ N, ∀ fuel ≥ N, ∃ out, builtinMain w nw js fuel (s.reading inp) "number" = (out, none) ∧
      LineAnswers (BuiltinAnswer js) BuiltinReads v (ls.map fun l => (w.trim (l ++ [10]), words l)) out := by
  obtain ⟨ld, st, hload⟩ := hr.loaded
  have hst : ProgStarted js s ld.gram v := ⟨⟨ld, st, hload, rfl⟩, hr.script⟩
  refine lineAnswers_of (run := fun fuel => builtinMain w nw js fuel (s.reading inp) "number") (fun l hm => ?_) fun fuel lms e hm =>
    C94_builtin w nw fuel hst "number" (e ▸ hs) hm
  obtain ⟨d, hd⟩ := hl l hm
  exact builtin_means hload w hr.order nw hr.calls hr.funcs hg hd

end

/-! ### lines that are numerals -/

/-- The engine calculates, and `Export` shows the value. -/
def JsExports {V R : Type} (js : Js V R) (Ok : V → Prop) : Prop :=
  ∀ (v : V) (c : Calc), Ok v → c.Fits → ∃ v' r s, js.run v c.js = (v', some r) ∧ Ok v' ∧ js.exported r = utf8 s ∧ WritesInt s c.value

theorem parts_whole {Reads : List String → Calc → Prop} {ws : List String} {fs : List FoundPart} (h : PartsOf Reads ws fs)
    (hpos : ∀ c, ¬ Reads [] c) {c : Calc} (hc : Reads ws c) : ∃ f, fs = [f] ∧ f.first = 0 ∧ f.len = ws.length := by
  have h0 : 0 < ws.length := by
    rw [List.length_pos_iff]
    rintro rfl
    exact hpos c hc
  have hat : PartAt Reads ws 0 ws.length := ⟨by omega, c, by rw [List.drop_zero, List.take_length]; exact hc⟩
  have hlen : ∀ f ∈ fs, f.first + f.len ≤ ws.length ∧ 0 < f.len := by
    intro f hf
    obtain ⟨⟨h1, c', h2⟩, -⟩ := h.longest f hf
    refine ⟨h1, Nat.pos_of_ne_zero fun e => ?_⟩
    rw [e, List.take_zero] at h2
    exact hpos _ h2
  obtain ⟨f, hf, h1, h2⟩ : ∃ f ∈ fs, f.first ≤ 0 ∧ 0 < f.first + f.len := by
    by_contra hcon
    push Not at hcon
    exact h.rest 0 ws.length (fun f hf ⟨h1, h2⟩ => absurd (hcon f hf h1) (by omega)) hat
  have h3 : f.first = 0 := by omega
  have h4 := (h.longest f hf).2 ws.length (h3 ▸ hat)
  have h5 := hlen f hf
  obtain ⟨l, l', rfl⟩ := List.append_of_mem hf
  have h6 := h.disjoint
  rw [List.pairwise_append, List.pairwise_cons] at h6
  obtain ⟨-, ⟨h7, -⟩, h8⟩ := h6
  have e1 : l = [] := List.eq_nil_iff_forall_not_mem.2 fun a ha => by
    have := h8 a ha f List.mem_cons_self
    have := hlen a (by simp [ha])
    omega
  have e2 : l' = [] := List.eq_nil_iff_forall_not_mem.2 fun a ha => by
    have := h7 a ha
    have := hlen a (by simp [ha])
    omega
  subst e1 e2
  exact ⟨f, rfl, h3, by omega⟩

theorem replies_value {V R : Type} {js : Js V R} {Ok : V → Prop} (hjs : JsExports js Ok) {n : Nat} (hn : 0 < n) :
    ∀ {cs : List Calc} {v v' : V} {rs : List (Option R)}, (∀ c ∈ cs, c.Fits ∧ c.value = n) → Ok v → Replies js v (cs.map Calc.js) rs v' →
    Ok v' ∧ List.zipWith (builtinShown js) (cs.map Calc.js) rs = cs.map fun c => utf8 (c.js ++ " = " ++ toString n ++ "\n") := by
  intro cs
  induction cs with
  | nil =>
    intro v v' rs _ hv h
    cases h
    exact ⟨hv, rfl⟩
  | cons c cs ih =>
    intro v v' rs hc hv h
    cases h with
    | cons h1 h2 =>
      obtain ⟨g1, g2⟩ := hc c List.mem_cons_self
      obtain ⟨v₁, r, s, k1, k2, k3, k4⟩ := hjs v c hv g1
      rw [k1] at h1
      obtain ⟨rfl, rfl⟩ := Prod.mk.inj h1
      obtain ⟨q1, q2⟩ := ih (fun x hx => hc x (List.mem_cons_of_mem _ hx)) k2 h2
      refine ⟨q1, ?_⟩
      rw [List.map_cons, List.zipWith_cons_cons, q2, List.map_cons, builtinShown, k3]
      rcases k4 with rfl | ⟨k4, -⟩
      · rw [g2, show toString (n : Int) = toString n from rfl]
        simp only [utf8_append]
      · omega

/-- the answer to a line that says `n` -/
def NumeralAnswer (x : Bytes × Nat) (o : Bytes) : Prop :=
  ∃ ms : List String, ms ≠ [] ∧
    o = x.1 ++ utf8 "\n" ++ (ms.map fun m => utf8 (m ++ " = " ++ toString x.2 ++ "\n")).flatten ++ utf8 "\n"

/-- C94: if each line says a number below 10^10 in a way that the grammar can only read as that number (C89), then
examples/builtin answers each line with the number, once for each reading. -/
theorem C94_builtin_numerals {V R : Type} {w : World} {nw : NodeWorld} {ext : String → Option BF} {js : Js V R} {s : Start} {v : V}
    (hr : ShippedRuns w nw ext js s v) {words : Bytes → List String} {number : Bytes → Nat} {inp : Bytes} {ls : List Bytes} {rest : Bytes}
    (hs : SplitLines inp ls rest) (hg : BiLoader s.load s.grammar)
    (hl : ∀ l ∈ ls, ∃ d, HasWords w "" (w.trim (l ++ [10])) d (words l) biNames) {Ok : V → Prop} (hjs : JsExports js Ok) (hv : Ok v)
    (hn : ∀ l ∈ ls, number l < 10 ^ 10 ∧ ∃ cs, EnCounted 3 (number l) (words l) cs ∧ ∀ e ∈ cs, ¬ OpenCount e ∧ ¬ MixedCount e) :
    ∃ N, ∀ fuel ≥ N, ∃ os : List Bytes, builtinMain w nw js fuel (s.reading inp) "number" = (os.flatten, none) ∧
      Rel2 NumeralAnswer (ls.map fun l => (w.trim (l ++ [10]), number l)) os := by
  obtain ⟨N, hN⟩ := C94_builtin_numbers hr hs hg hl
  refine ⟨N, fun fuel hf => ?_⟩
  obtain ⟨out, h1, fss, v', h2, h3, h4⟩ := hN fuel hf
  suffices key : ∃ os : List Bytes, out = os.flatten ∧ Rel2 NumeralAnswer (ls.map fun l => (w.trim (l ++ [10]), number l)) os by
    obtain ⟨os, rfl, h5⟩ := key
    exact ⟨os, h1, h5⟩
  clear h1 hN hs hl hr
  induction ls generalizing fss v out with
  | nil =>
    cases h4
    exact ⟨[], rfl, .nil⟩
  | cons l ls ih =>
    cases fss with
    | nil => simp at h2
    | cons fs fss =>
      rw [List.map_cons, List.zip_cons_cons] at h3 h4
      rw [List.map_cons] at h4
      cases h4 with
      | @cons _ v₁ _ _ _ _ o o' g1 g2 =>
        obtain ⟨rs, g3, rfl⟩ := g1
        obtain ⟨k1, cs, k2, k3⟩ := hn l List.mem_cons_self
        obtain ⟨c, k4⟩ := (C89_below k2).1
        have hp := h3 _ List.mem_cons_self
        obtain ⟨f, rfl, k5, k6⟩ := parts_whole hp (fun c => builtinReads_ne) k4
        have k7 : ∀ c ∈ f.readings, c.Fits ∧ c.value = number l := by
          intro c hc
          have := hp.readings f (List.mem_singleton.2 rfl) c hc
          rw [k5, k6, List.drop_zero, List.take_length] at this
          have e := (C89_only k2).2 k3 c this
          exact ⟨(num_pos (builtinReads_iff.1 this) (counted_no_zero k2)).fits (by rw [e]; exact_mod_cast k1), e⟩
        have k8 : 0 < number l := by
          have := ((C89_below k2).2 c k4)
          omega
        rw [show (partTexts [f]).flatten = f.readings.map Calc.js by simp [partTexts]] at g3 ⊢
        obtain ⟨q1, q2⟩ := replies_value hjs k8 k7 hv g3
        have h2' : fss.length = (ls.map fun l => (w.trim (l ++ [10]), words l)).length := by simpa using h2
        obtain ⟨os, rfl, q3⟩ := ih (v := v₁) (fss := fss) (out := o') (hv := q1) (hn := fun x hx => hn x (List.mem_cons_of_mem _ hx))
          (h2 := h2') (h3 := fun x hx => h3 x (List.mem_cons_of_mem _ hx)) (h4 := g2)
        refine ⟨_ :: os, rfl, .cons ⟨f.readings.map Calc.js, ?_, ?_⟩ q3⟩
        · simpa using hp.answered f (List.mem_singleton.2 rfl)
        · rw [q2, List.map_map]
          rfl

/-! ### a setting in which all assumptions hold -/

theorem calcJs_exports : JsExports calcJs (fun _ => True) := by
  intro v c hv hf
  obtain ⟨v', r, s, h1, h2, h3, h4⟩ := calcJs_calc v c hv hf
  exact ⟨v', r, s, h1, h2, h3, h4⟩

/-- C94: all assumptions about examples/math hold together -/
example : ∃ s v, ArLoader s.load s.grammar ∧ ShippedRuns (lineWorld ["seven", "minus", "three"]) calcNode (fun _ => none) calcJs s v ∧
    ∃ N, ∀ fuel ≥ N, ∃ out,
      mathMain (lineWorld ["seven", "minus", "three"]) calcNode calcJs fuel (s.reading [65, 66, 67, 10, 66]) true "number" = (out, none) ∧
      LineAnswers (MathAnswer calcJs) ReadsAs v [([65, 66, 67], ["seven", "minus", "three"])] out := by
  obtain ⟨fuel, depth, h⟩ := calcStart_runs
  obtain ⟨Ok, -, script, v, r, h1, h2, -⟩ := (h ["seven", "minus", "three"]).engine
  have hr : ShippedRuns (lineWorld ["seven", "minus", "three"]) calcNode (fun _ => none) calcJs (calcStart fuel depth) v :=
    ⟨(h ["seven"]).loaded, ⟨script, r, h1, h2⟩, (h _).order, (h ["seven"]).calls, (h ["seven"]).funcs⟩
  refine ⟨_, v, (h ["seven"]).loader, hr, (C94_math_calc hr (ls := [[65, 66, 67]]) (rest := [66])
    (words := fun _ => ["seven", "minus", "three"]) ⟨rfl, by decide, by decide⟩ (h ["seven"]).loader ?_ ?_).1⟩
  · intro l hl
    obtain rfl := List.mem_singleton.1 hl
    decide
  · intro l hl
    obtain rfl := List.mem_singleton.1 hl
    exact ⟨_, lineWorld_ok (by decide) (by decide) (by decide)⟩

/-- C94: all assumptions about examples/builtin hold together: a line that says "twenty-one thousand" -/
example : ∃ s v, ∃ N, ∀ fuel ≥ N, ∃ os : List Bytes,
    builtinMain (lineWorld ["twenty", "-", "one", "thousand"]) calcNode calcJs fuel (s.reading [65, 66, 67, 68, 10, 66]) "number" = (os.flatten, none) ∧
      ShippedRuns (lineWorld ["twenty", "-", "one", "thousand"]) calcNode (fun _ => none) calcJs s v ∧
      Rel2 NumeralAnswer [([65, 66, 67, 68], 21000)] os := by
  obtain ⟨fuel, depth, ld, st, h⟩ := bi_loads
  have hn : EnCounted 3 21000 ["twenty", "-", "one", "thousand"] [["twenty", "-", "one"]] :=
    .less (.less (.block (k := 0) (m := 21) (l := ["twenty", "-", "one"])
      (.tens (.both (m := 20) (n := 1) (hyphen := ["-"]) (by decide) (by decide : ("one", 1) ∈ enDigits) (by decide)))))
  let s : Start := { load := biLoad, loadFuel := fuel, depth := depth, grammar := "builtin.grammar", registry := [], script := some "", input := none }
  obtain ⟨r, e⟩ : ∃ r, calcJs.run calcJs.new "" = ((), some r) := by
    by_cases h : ∃ c : Calc, c.js = ""
    · exact ⟨h.choose.value, by show ((), _) = _; rw [dif_pos h]⟩
    · exact ⟨0, by show ((), _) = _; rw [dif_neg h]⟩
  have hr : ShippedRuns (lineWorld ["twenty", "-", "one", "thousand"]) calcNode (fun _ => none) calcJs s () :=
    ⟨⟨ld, st, h⟩, ⟨"", r, rfl, e⟩, fun _ _ _ _ _ => .refl _, calcNode_calls, calcNode_calc⟩
  obtain ⟨N, hN⟩ := C94_builtin_numerals hr (ls := [[65, 66, 67, 68]]) (rest := [66]) (inp := [65, 66, 67, 68, 10, 66])
    (words := fun _ => ["twenty", "-", "one", "thousand"]) (number := fun _ => 21000) ⟨rfl, by decide, by decide⟩ (biLoad_ok _)
    (fun l hl => by
      obtain rfl := List.mem_singleton.1 hl
      exact ⟨_, lineWorld_ok (by decide) (by decide) (by decide)⟩) calcJs_exports trivial
    (fun l hl => ⟨by decide, _, hn, fun e he => by
      rw [List.mem_singleton.1 he]
      exact ⟨by unfold OpenCount; decide +kernel, by rintro ⟨s, x, r, e⟩; simp at e⟩⟩)
  refine ⟨s, (), N, fun fuel hf => ?_⟩
  obtain ⟨os, h1, h2⟩ := hN fuel hf
  exact ⟨os, h1, hr, h2⟩

end Fmr
