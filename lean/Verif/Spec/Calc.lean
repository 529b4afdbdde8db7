import Mathlib.Data.Int.Basic

/-!
# Specification: sums in words

What examples/arithmetic is meant to understand: the numbers from one to ten, sums, differences, products and negative
numbers, in English and in Chinese. Nothing here refers to grammars.
-/

namespace Fmr

/-- an expression, with all its brackets -/
inductive Calc where
  | num (n : Nat)
  | add (a b : Calc)
  | sub (a b : Calc)
  | mul (a b : Calc)
  | neg (a : Calc)

def Calc.value : Calc → Int
  | .num n => n
  | .add a b => a.value + b.value
  | .sub a b => a.value - b.value
  | .mul a b => a.value * b.value
  | .neg a => -a.value

/-- the expression as a text, in the notation of functions -/
def Calc.js : Calc → String
  | .num n => toString n
  | .add a b => "nf.math.sum(" ++ a.js ++ ", " ++ b.js ++ ")"
  | .sub a b => "nf.math.sub(" ++ a.js ++ ", " ++ b.js ++ ")"
  | .mul a b => "nf.math.mul(" ++ a.js ++ ", " ++ b.js ++ ")"
  | .neg a => "nf.math.neg(" ++ a.js ++ ")"

/-- no intermediate result has more than ten digits -/
def Calc.Fits : Calc → Prop
  | .num n => n < 10 ^ 10
  | .add a b => a.Fits ∧ b.Fits ∧ (a.value + b.value).natAbs < 10 ^ 10
  | .sub a b => a.Fits ∧ b.Fits ∧ (a.value - b.value).natAbs < 10 ^ 10
  | .mul a b => a.Fits ∧ b.Fits ∧ (a.value * b.value).natAbs < 10 ^ 10
  | .neg a => a.Fits

def numberNames : List (String × Nat) :=
  [("one", 1), ("two", 2), ("three", 3), ("four", 4), ("five", 5), ("six", 6), ("seven", 7), ("eight", 8), ("nine", 9), ("ten", 10),
    ("一", 1), ("二", 2), ("三", 3), ("四", 4), ("五", 5), ("六", 6), ("七", 7), ("八", 8), ("九", 9), ("十", 10)]

/-- The words can be bracketed as the expression. -/
inductive ReadsAs : List String → Calc → Prop
  | num {s : String} {n : Nat} : (s, n) ∈ numberNames → ReadsAs [s] (.num n)
  | add {l l' op : List String} {a b : Calc} : op ∈ [["plus"], ["add"], ["加"]] → ReadsAs l a → ReadsAs l' b →
      ReadsAs (l ++ op ++ l') (.add a b)
  | sub {l l' op : List String} {a b : Calc} : op ∈ [["minus"], ["减"]] → ReadsAs l a → ReadsAs l' b →
      ReadsAs (l ++ op ++ l') (.sub a b)
  | mul {l l' op : List String} {a b : Calc} : op ∈ [["times"], ["multiply", "by"], ["乘"]] → ReadsAs l a → ReadsAs l' b →
      ReadsAs (l ++ op ++ l') (.mul a b)
  | neg {l op : List String} {a : Calc} : op ∈ [["minus"], ["负"]] → ReadsAs l a → ReadsAs (op ++ l) (.neg a)

/-- The text writes the integer, in decimal notation; zero may have a sign. -/
def WritesInt (s : String) (x : Int) : Prop := s = toString x ∨ (x = 0 ∧ s = "-0")

/-- one minus two minus three has two values -/
example : ReadsAs ["one", "minus", "two", "minus", "three"] (.sub (.sub (.num 1) (.num 2)) (.num 3)) ∧
    ReadsAs ["one", "minus", "two", "minus", "three"] (.sub (.num 1) (.sub (.num 2) (.num 3))) ∧
    (Calc.sub (.sub (.num 1) (.num 2)) (.num 3)).value = -4 ∧ (Calc.sub (.num 1) (.sub (.num 2) (.num 3))).value = 2 := by
  have h1 : ReadsAs ["one"] (.num 1) := .num (by decide)
  have h2 : ReadsAs ["two"] (.num 2) := .num (by decide)
  have h3 : ReadsAs ["three"] (.num 3) := .num (by decide)
  exact ⟨.sub (l := ["one", "minus", "two"]) (op := ["minus"]) (by decide)
    (.sub (l := ["one"]) (op := ["minus"]) (by decide) h1 h2) h3,
    .sub (l := ["one"]) (op := ["minus"]) (by decide) h1 (.sub (l := ["two"]) (op := ["minus"]) (by decide) h2 h3), rfl, rfl⟩

end Fmr
