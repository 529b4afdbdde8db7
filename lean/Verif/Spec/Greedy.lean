import Verif.Spec.Api
import Mathlib.Logic.Relation

/-!
# Spec: the greedy scan of a text for matches
-/

namespace Fmr

/-- From a token at which nothing matches the scan goes to the next one; from a token at which something
matches it goes behind the longest match. -/
inductive ScanStep (env : Env) : Nat → Nat → Prop
  | skip {i : Nat} : i < env.tokens.length → (∀ k, ¬ MatchAt env i k) → ScanStep env i (i+1)
  | jump {i k : Nat} : i < env.tokens.length → MatchAt env i k → (∀ k', MatchAt env i k' → k' ≤ k) →
      ScanStep env i (i+k)

/-- the scan, started at the first token, comes to position `i` -/
def Scanned (env : Env) (i : Nat) : Prop := Relation.ReflTransGen (ScanStep env) 0 i

/-- at token `i` the empty sequence matches and nothing else does -/
def OnlyEmptyAt (env : Env) (i : Nat) : Prop :=
  i < env.tokens.length ∧ MatchAt env i 0 ∧ ∀ k, MatchAt env i k → k = 0

/-- the matches `(offset, length)` the scan finds from position `i` on, if it comes to the end -/
inductive ScanGives (env : Env) : Nat → List (Nat × Nat) → Prop
  | done {i : Nat} : env.tokens.length ≤ i → ScanGives env i []
  | skip {i : Nat} {ms} : i < env.tokens.length → (∀ k, ¬ MatchAt env i k) → ScanGives env (i+1) ms →
      ScanGives env i ms
  | jump {i k : Nat} {ms} : i < env.tokens.length → MatchAt env i k → (∀ k', MatchAt env i k' → k' ≤ k) →
      0 < k → ScanGives env (i+k) ms → ScanGives env i ((i, k) :: ms)

end Fmr
