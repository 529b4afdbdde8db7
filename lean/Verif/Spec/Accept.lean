import Verif.Spec.Whole

/-!
# Specification: which grammar files can be loaded
-/

namespace Fmr

/-- The literals of the rules can be split into tokens. -/
def LiteralsRead (annot : String → Option (List Token)) (ds : List Def) : Prop :=
  ∀ A b t, Written ds false A b → t ∈ b.terms → t.type = .terminal → annot t.value ≠ none

/-- The text consists of include directives and definitions, every alternative has a hash, and the literals of the
rules can be split into tokens. -/
def TextLoads (w : LoadWorld) (t : List Char) : Prop :=
  ∃ ds ρ, FileSyn w.lex t ds ρ ∧ (∀ d ∈ ds, ∀ b ∈ d.bodies, w.lex.hash b ≠ none) ∧ LiteralsRead w.ref.annot ds

/-- This is so for the text, and for all files that it includes; and these can be read. -/
structure TextsLoad (w : LoadWorld) (dir : String) (text : List Char) : Prop where
  main : TextLoads w text
  included : ∀ p, Includes w dir text p → ∃ t, w.read p = some t ∧ w.dir p ≠ none ∧ TextLoads w t

/-- No two alternatives written in the text have the same hash. -/
def HashesApart (w : LexWorld) (t : List Char) : Prop :=
  ∀ ds ρ, FileSyn w t ds ρ → ∀ d ∈ ds, ∀ b ∈ d.bodies, ∀ d' ∈ ds, ∀ b' ∈ d'.bodies, w.hash b = w.hash b' → b = b'

/-- What is asked of the loader and the texts: the hash of terminals and the index never fail, finitely many files are
included, no text has the character U+FFFD, and no two alternatives of a text have the same hash. -/
structure LoadFit (w : LoadWorld) (dir : String) (text : List Char) : Prop where
  update : ∀ t s, w.idx.update t s = true
  hash : ∀ b, w.ref.hash b ≠ none
  finite : ∃ F : List String, ∀ p, Includes w dir text p → p ∈ F
  main : runeError ∉ text ∧ HashesApart w.lex text
  included : ∀ p t, Includes w dir text p → w.read p = some t → runeError ∉ t ∧ HashesApart w.lex t

end Fmr
