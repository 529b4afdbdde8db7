import Verif.Spec.Trees

/-!
# What the parse calls have to return

`D S i k` says that start rule `S` matches the `k` tokens from token `i` on, `T i S k n` that the tree `n` spells such
a match. Nothing else is known about matches and trees here.
-/

namespace Fmr

section
variable (D : String → Nat → Nat → Prop) (T : Nat → String → Nat → Node → Prop) (starts : List String) (len : Nat)

/-- a start rule matches `k` of the `len` tokens from token `i` on -/
def SpanMatch (i k : Nat) : Prop := i < len ∧ i + k ≤ len ∧ ∃ S ∈ starts, D S i k

/-- `Parse`: there are trees iff there is a match at the first token; they all spell a longest one. -/
structure PrefixMatches (ns : List Node) : Prop where
  found : ns ≠ [] ↔ ∃ k, SpanMatch D starts len 0 k
  trees : ∀ n ∈ ns, ∃ S ∈ starts, ∃ k, T 0 S k n ∧ SpanMatch D starts len 0 k ∧ ∀ k', SpanMatch D starts len 0 k' → k' ≤ k

/-- `ParseAny`: there are trees iff there is a match; they all spell a longest match at the first token where one
begins. -/
structure FirstMatches (ns : List Node) : Prop where
  found : ns ≠ [] ↔ ∃ i k, SpanMatch D starts len i k
  trees : ∀ n ∈ ns, ∃ S ∈ starts, ∃ i k, T i S k n ∧ D S i k ∧ SpanMatch D starts len i k ∧
    ∀ i' k', SpanMatch D starts len i' k' → i ≤ i' ∧ (i' = i → k' ≤ k)

/-- `ExtractAll`: one group of trees for each token where a match begins, from left to right; every tree of a group
spells a match that begins there, and every match has a tree. -/
structure AllMatches (groups : List (Nat × List Node)) : Prop where
  ascending : (groups.map (·.1)).Pairwise (· < ·)
  nonempty : ∀ a ∈ groups, a.2 ≠ []
  trees : ∀ a ∈ groups, ∀ n ∈ a.2, ∃ S ∈ starts, ∃ k, T a.1 S k n ∧ D S a.1 k ∧ SpanMatch D starts len a.1 k
  complete : ∀ S ∈ starts, ∀ i k, i < len → i + k ≤ len → D S i k → ∃ a ∈ groups, a.1 = i ∧ ∃ n ∈ a.2, T i S k n

/-- `ExtractMaxAll`: one group of trees for each of the segments (first token, number of tokens), which do not overlap
and come from left to right; each is a longest match at its first token, and no match begins at a token outside of
them. -/
structure GreedyMatches (groups : List ((Nat × Nat) × List Node)) : Prop where
  disjoint : (groups.map (·.1)).Pairwise (fun a b => a.1 + a.2 ≤ b.1)
  nonempty : ∀ a ∈ groups, 0 < a.1.2 ∧ a.2 ≠ []
  longest : ∀ a ∈ groups, SpanMatch D starts len a.1.1 a.1.2 ∧ ∀ k, SpanMatch D starts len a.1.1 k → k ≤ a.1.2
  trees : ∀ a ∈ groups, ∀ n ∈ a.2, ∃ S ∈ starts, T a.1.1 S a.1.2 n ∧ D S a.1.1 a.1.2
  rest : ∀ i k, (∀ a ∈ groups, ¬ (a.1.1 ≤ i ∧ i < a.1.1 + a.1.2)) → ¬ SpanMatch D starts len i k

end

end Fmr
