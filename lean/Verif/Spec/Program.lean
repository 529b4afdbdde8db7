import Verif.Spec.Calc
import Verif.Model.Node

/-!
# Specification: a program that answers lines

What examples/arithmetic is meant to print. Nothing here refers to grammars, trees or the loop of the program. (From the
model it takes only `Bytes` and `utf8`.)
-/

namespace Fmr

/-- The input is these lines, each with a newline after it, and then `rest`, which has no newline. -/
structure SplitLines (inp : Bytes) (ls : List Bytes) (rest : Bytes) : Prop where
  all : inp = (ls.map (· ++ [10])).flatten ++ rest
  lines : ∀ l ∈ ls, (10 : UInt8) ∉ l
  last : (10 : UInt8) ∉ rest

/-- lines as an input, without anything after them -/
def joinLines (ls : List Bytes) : Bytes := (ls.map (· ++ [10])).flatten

/-- An expression that was found: its first word, its number of words, and readings of it with what is shown as value. -/
structure FoundCalc where
  first : Nat
  len : Nat
  readings : List (Calc × String)

/-- the text for an expression that was found, the `i`-th of the line -/
def FoundCalc.text (i : Nat) (f : FoundCalc) : String :=
  "p" ++ toString i ++ " tree number:" ++ toString f.readings.length ++ "\n" ++
    String.join (f.readings.map fun r => r.1.js ++ " = " ++ r.2 ++ "\n")

/-- Words `i` to `i + k` are in the text, and are an expression. -/
def CalcAt (ws : List String) (i k : Nat) : Prop := i + k ≤ ws.length ∧ ∃ c, ReadsAs ((ws.drop i).take k) c

/-- The expressions are those of the words, from left to right: they do not overlap, each is a longest one where it begins,
no expression begins elsewhere, and each comes with a reading and its value. -/
structure FoundIn (ws : List String) (fs : List FoundCalc) : Prop where
  disjoint : fs.Pairwise fun a b => a.first + a.len ≤ b.first
  longest : ∀ f ∈ fs, CalcAt ws f.first f.len ∧ ∀ k, CalcAt ws f.first k → k ≤ f.len
  rest : ∀ i k, (∀ f ∈ fs, ¬ (f.first ≤ i ∧ i < f.first + f.len)) → ¬ CalcAt ws i k
  answered : ∀ f ∈ fs, f.readings ≠ []
  readings : ∀ f ∈ fs, ∀ r ∈ f.readings, ReadsAs ((ws.drop f.first).take f.len) r.1 ∧ WritesInt r.2 r.1.value

/-- the answer to a line with these words: the line, then the expressions in it, then an empty line -/
def CalcAnswer (ws : List String) (line out : Bytes) : Prop :=
  ∃ fs, FoundIn ws fs ∧
    out = line ++ utf8 ("\n" ++ String.join (fs.zipIdx.map fun f => f.1.text f.2) ++ "\n")

/-- the answers to lines, one after the other -/
inductive CalcAnswers (words : Bytes → List String) : List Bytes → Bytes → Prop
  | nil : CalcAnswers words [] []
  | cons {l o o' : Bytes} {ls : List Bytes} : CalcAnswer (words l) l o → CalcAnswers words ls o' → CalcAnswers words (l :: ls) (o ++ o')

/-- a line with the word "one" -/
example : CalcAnswer ["one"] (utf8 "one\n") (utf8 "one\n\np0 tree number:1\n1 = 1\n\n") := by
  have h : ReadsAs ["one"] (.num 1) := .num (by decide)
  refine ⟨[⟨0, 1, [(.num 1, "1")]⟩], ⟨by simp, ?_, ?_, by simp, ?_⟩, by decide +kernel⟩
  · intro f hf
    obtain rfl := List.mem_singleton.1 hf
    exact ⟨⟨by decide, _, h⟩, fun k hk => by simpa using hk.1⟩
  · rintro i k hi ⟨h1, c, h2⟩
    have := hi _ (List.mem_singleton.2 rfl)
    simp only [List.length_singleton] at h1 this
    have h3 : k = 0 := by omega
    subst h3
    generalize e : List.take 0 _ = l at h2
    rw [List.take_zero] at e
    have hne : ∀ {l c}, ReadsAs l c → l ≠ [] := by
      intro l c h
      induction h with
      | num => simp
      | add _ _ _ h1 => simp [h1]
      | sub _ _ _ h1 => simp [h1]
      | mul _ _ _ h1 => simp [h1]
      | neg _ _ h1 => simp [h1]
    exact hne h2 e.symm
  · intro f hf r hr
    obtain rfl := List.mem_singleton.1 hf
    obtain rfl := List.mem_singleton.1 hr
    exact ⟨h, .inl rfl⟩

end Fmr
