import Verif.Props.Funcs
import Mathlib.Data.Nat.Prime.Basic

/-!
# C63: the primality test
-/

namespace Fmr

/-- What the documentation of `(*big.Int).ProbablyPrime` promises: primes are accepted, numbers that are not
positive are rejected, and the answer is right below `2^64`. -/
structure PrimeContract (pp : Int → Bool) : Prop where
  accepts : ∀ n : ℕ, n.Prime → pp n = true
  positive : ∀ z : Int, pp z = true → 0 < z
  exact : ∀ n : ℕ, n < 2 ^ 64 → pp n = true → n.Prime

/-- Full statement of C63: `prime` decides primality. -/
def C63_statement (pp : Int → Bool) : Prop :=
  ∀ z : Int, prime goScanInt pp (toString z) = "true" ↔ ∃ n : ℕ, z = n ∧ n.Prime

theorem prime_eq (scan : String → Option Int) (pp : Int → Bool) (x : String) :
    prime scan pp x = "true" ↔ ∃ z, scan x = some z ∧ pp z = true := by
  unfold prime
  split
  · rename_i xi h
    rw [h]
    split_ifs with hp
    · simp [hp]
    · simp [hp]
  · rename_i h; simp [h]

/-- **C63**, part that holds: every prime is recognised, and below `2^64` nothing else. Missing: from there on a
composite number may be accepted, with a small probability that the contract does not exclude. -/
theorem C63_partial {pp : Int → Bool} (hpp : PrimeContract pp) (z : Int) :
    ((∃ n : ℕ, z = n ∧ n.Prime) → prime goScanInt pp (toString z) = "true") ∧
    (z < 2 ^ 64 → prime goScanInt pp (toString z) = "true" → ∃ n : ℕ, z = n ∧ n.Prime) := by
  constructor
  · rintro ⟨n, rfl, hn⟩
    exact (prime_eq _ _ _).2 ⟨n, goScanInt_toString _, hpp.accepts n hn⟩
  · intro hz h
    obtain ⟨z', h1, h2⟩ := (prime_eq _ _ _).1 h
    rw [goScanInt_toString] at h1
    cases h1
    have hp := hpp.positive z h2
    obtain ⟨n, rfl⟩ : ∃ n : ℕ, z = n := ⟨z.toNat, by omega⟩
    exact ⟨n, rfl, hpp.exact n (by exact_mod_cast hz) h2⟩

/-- A number that is prime is even only if it is two: the tests agree. -/
theorem C63_even {pp : Int → Bool} (hpp : PrimeContract pp) {z : Int} (hz : z < 2 ^ 64)
    (hp : prime goScanInt pp (toString z) = "true") (he : even goScanInt (toString z) = "true") : z = 2 := by
  obtain ⟨n, rfl, hn⟩ := (C63_partial hpp z).2 hz hp
  have := ((C47_partial n).1).1 he
  rw [Int.even_coe_nat] at this
  exact_mod_cast (hn.even_iff.1 this)

open Classical in
/-- Non-vacuity: a test as the contract asks. -/
example : ∃ pp, PrimeContract pp :=
  ⟨fun z => decide (∃ n : ℕ, z = n ∧ n.Prime), fun n hn => decide_eq_true ⟨n, rfl, hn⟩, fun z h => by
    obtain ⟨n, rfl, hn⟩ := of_decide_eq_true h
    exact_mod_cast hn.pos, fun n _ h => by
    obtain ⟨m, e, hm⟩ := of_decide_eq_true h
    have : n = m := by exact_mod_cast e
    exact this ▸ hm⟩

end Fmr
