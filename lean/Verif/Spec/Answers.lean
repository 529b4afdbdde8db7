import Verif.Model.Main
import Verif.Spec.Program

/-!
# Specification: what examples/math and examples/builtin write for a line

A line comes with the meanings of its parts: one list for each part, with a text for each way to read it. From the model this
takes `Bytes`, `utf8` and the engine `Js`; nothing refers to grammars, trees or the loops of the programs.
-/

namespace Fmr

/-- Run one after the other, the texts give these values (`none`: an error), and the engine ends in the last state. -/
inductive Replies {V R : Type} (js : Js V R) : V → List String → List (Option R) → V → Prop
  | nil {v : V} : Replies js v [] [] v
  | cons {v v₁ v₂ : V} {m : String} {ms : List String} {r : Option R} {rs : List (Option R)} :
    js.run v m = (v₁, r) → Replies js v₁ ms rs v₂ → Replies js v (m :: ms) (r :: rs) v₂

/-- examples/math with `-eval`: a text and its value; nothing if there is none -/
def mathShown {V R : Type} (js : Js V R) (m : String) : Option R → Bytes
  | some r => utf8 (m ++ " => ") ++ js.exported r ++ utf8 "\n"
  | none => []

/-- examples/builtin: a text and its value; what stands for no value if there is none -/
def builtinShown {V R : Type} (js : Js V R) (m : String) : Option R → Bytes
  | some r => utf8 (m ++ " = ") ++ js.exported r ++ utf8 "\n"
  | none => utf8 (m ++ " = ") ++ js.failed ++ utf8 "\n"

/-- the first line for a part: its place and the number of its readings -/
def partHead (i : Nat) (ms : List String) : Bytes := utf8 ("p" ++ toString i ++ " tree number:" ++ toString ms.length ++ "\n")

/-- examples/math with `-eval`: the parts from the `i`-th on, and their readings with their values -/
inductive MathParts {V R : Type} (js : Js V R) : Nat → V → List (List String) → V → Bytes → Prop
  | nil {i : Nat} {v : V} : MathParts js i v [] v []
  | cons {i : Nat} {v v₁ v₂ : V} {ms : List String} {mss : List (List String)} {rs : List (Option R)} {o : Bytes} :
    Replies js v ms rs v₁ → MathParts js (i + 1) v₁ mss v₂ o →
    MathParts js i v (ms :: mss) v₂ (partHead i ms ++ (List.zipWith (mathShown js) ms rs).flatten ++ o)

/-- examples/math without `-eval`: the parts from the `i`-th on, and their readings -/
def plainParts : Nat → List (List String) → Bytes
  | _, [] => []
  | i, ms :: mss => partHead i ms ++ (ms.map fun m => utf8 (m ++ "\n")).flatten ++ plainParts (i + 1) mss

/-- The three ways to answer a line without space around it. `AnswerOf v t mss v' o`: in the state `v`, the answer to the line
`t` with these meanings is `o`, and the state after it is `v'`. -/
def MathAnswer {V R : Type} (js : Js V R) (v : V) (t : Bytes) (mss : List (List String)) (v' : V) (o : Bytes) : Prop :=
  ∃ b, MathParts js 0 v mss v' b ∧ o = t ++ utf8 "\n" ++ b ++ utf8 "\n"

def PlainAnswer {V : Type} (v : V) (t : Bytes) (mss : List (List String)) (v' : V) (o : Bytes) : Prop :=
  v' = v ∧ o = t ++ utf8 "\n" ++ plainParts 0 mss ++ utf8 "\n"

def BuiltinAnswer {V R : Type} (js : Js V R) (v : V) (t : Bytes) (mss : List (List String)) (v' : V) (o : Bytes) : Prop :=
  ∃ rs, Replies js v mss.flatten rs v' ∧ o = t ++ utf8 "\n" ++ (List.zipWith (builtinShown js) mss.flatten rs).flatten ++ utf8 "\n"

/-- the answers to lines, one after the other -/
inductive AnswersOf {V : Type} (A : V → Bytes → List (List String) → V → Bytes → Prop) : V → List (Bytes × List (List String)) → V → Bytes → Prop
  | nil {v : V} : AnswersOf A v [] v []
  | cons {v v₁ v₂ : V} {t : Bytes} {mss : List (List String)} {ls : List (Bytes × List (List String))} {o o' : Bytes} :
    A v t mss v₁ o → AnswersOf A v₁ ls v₂ o' → AnswersOf A v ((t, mss) :: ls) v₂ (o ++ o')

/-- A part of the words that was found: its first word, its number of words, and readings of it. -/
structure FoundPart where
  first : Nat
  len : Nat
  readings : List Calc

/-- Words `i` to `i + k` are in the text, and can be read. -/
def PartAt (Reads : List String → Calc → Prop) (ws : List String) (i k : Nat) : Prop :=
  i + k ≤ ws.length ∧ ∃ c, Reads ((ws.drop i).take k) c

/-- The parts are from left to right and do not overlap, each is a longest one where it begins, nothing that begins elsewhere
can be read, and each comes with a reading. -/
structure PartsOf (Reads : List String → Calc → Prop) (ws : List String) (fs : List FoundPart) : Prop where
  disjoint : fs.Pairwise fun a b => a.first + a.len ≤ b.first
  longest : ∀ f ∈ fs, PartAt Reads ws f.first f.len ∧ ∀ k, PartAt Reads ws f.first k → k ≤ f.len
  rest : ∀ i k, (∀ f ∈ fs, ¬ (f.first ≤ i ∧ i < f.first + f.len)) → ¬ PartAt Reads ws i k
  answered : ∀ f ∈ fs, f.readings ≠ []
  readings : ∀ f ∈ fs, ∀ c ∈ f.readings, Reads ((ws.drop f.first).take f.len) c

/-- the texts of the readings, by parts -/
def partTexts (fs : List FoundPart) : List (List String) := fs.map fun f => f.readings.map Calc.js

/-- the answers to lines: for each line its text without space around it, and its words -/
def LineAnswers {V : Type} (A : V → Bytes → List (List String) → V → Bytes → Prop) (Reads : List String → Calc → Prop)
    (v : V) (ls : List (Bytes × List String)) (out : Bytes) : Prop :=
  ∃ (fss : List (List FoundPart)) (v' : V), fss.length = ls.length ∧ (∀ x ∈ ls.zip fss, PartsOf Reads x.1.2 x.2) ∧
    AnswersOf A v ((ls.zip fss).map fun x => (x.1.1, partTexts x.2)) v' out

/-- two readings, the second without a value -/
example (js : Js Unit Nat) (h : ∀ v m, js.run v m = ((), if m = "a" then some 1 else none)) :
    MathAnswer js () (utf8 "x") [["a", "b"]] () (utf8 "x" ++ utf8 "\n" ++ (partHead 0 ["a", "b"] ++
      [utf8 ("a" ++ " => ") ++ js.exported 1 ++ utf8 "\n", []].flatten ++ []) ++ utf8 "\n") :=
  ⟨_, .cons (.cons (h _ _) (.cons (h _ _) .nil)) .nil, rfl⟩

end Fmr
