import Verif.Spec.Accept
import Verif.Model.ShippedMore

/-!
# Specification: what is expected of grammar files
-/

namespace Fmr

mutual
/-- The function refers only to the first `n` terms (or, with `$0`, to the whole), and `nf.I` has one argument. -/
inductive FmrFits (n : Nat) : FMR → Prop
  | mk {fn : String} {args : List Arg} : (fn = "nf.I" → args.length = 1) → ArgsFit n args → FmrFits n (.mk fn args)
inductive ArgsFit (n : Nat) : List Arg → Prop
  | nil : ArgsFit n []
  | cons {a : Arg} {as : List Arg} : ArgFits n a → ArgsFit n as → ArgsFit n (a :: as)
inductive ArgFits (n : Nat) : Arg → Prop
  | context {s : String} : ArgFits n (.mk "context" (.str s))
  | string {s : String} : ArgFits n (.mk "string" (.str s))
  | int {i : Int} : ArgFits n (.mk "int" (.bigInt i))
  | float {q : Rat} : ArgFits n (.mk "float" (.bigFloat q))
  | index {i : Nat} : i ≤ n → ArgFits n (.mk "index" (.int i))
  | func {f : FMR} : FmrFits n f → ArgFits n (.mk "func" (.fmr f))
end

/-- Each alternative uses only rules that are known, and its function fits. -/
def DefsFit (known : String → Prop) (ds : List Def) : Prop :=
  ∀ d ∈ ds, ∀ b ∈ d.bodies, b.terms ≠ [] ∧
    (∀ t ∈ b.terms, t.type = .nonterminal ∨ t.type = .list → known t.value) ∧
    ∀ f, b.f = some f → FmrFits b.terms.length f

/-- the text defines the rule -/
def Defines (w : LexWorld) (t : List Char) (x : String) : Prop :=
  ∃ ds ρ, FileSyn w t ds ρ ∧ ∃ d ∈ ds, d.frame = false ∧ d.name = x

/-- The rules that can be used in a text: those that it or a file that it includes defines, its regexps, and the classes
of tokens and spans. -/
inductive Usable (w : LoadWorld) (dir : String) (text : List Char) : String → Prop
  | own {x : String} : Defines w.lex text x → Usable w dir text x
  | included {p x : String} {t : List Char} : Includes w dir text p → w.read p = some t → Defines w.lex t x → Usable w dir text x
  | regexp {ds : List Def} {ρ : List (String × String)} {x : String} : FileSyn w.lex text ds ρ → x ∈ ρ.map (·.1) →
      Usable w dir text x
  | tagged {x : String} : x ∈ ["numeric", "digits", "letters"] → Usable w dir text x

/-- What is asked of the loader: with the folders of the repository at `place`, it reads the files of the repository, with
the white space and the numbers that occur in them, and neither hashing nor the annotator fails. -/
structure ReadsShipped (lw : LoadWorld) (place : String → String) : Prop where
  ok : lw.lex.OK
  capitals : ∀ c, 'A' ≤ c → c ≤ 'Z' → lw.lex.isLetter c = true
  ints : ∀ n : Nat, lw.lex.scanInt (String.ofList (Nat.toDigits 10 n)) = some (n : Int)
  half : lw.lex.scanFloat "0.5" = some (1 / 2)
  percent : lw.lex.scanFloat "0.01" = some (1 / 100)
  regexp : lw.lex.regexpOK ".(?:城|都)" = true
  spaces : ∀ f ∈ anyFile :: goodFiles, ∀ c ∈ f.text, lw.lex.isSpace c = true → c = ' ' ∨ c = '\n' ∨ c = '\t'
  read : ∀ f ∈ anyFile :: goodFiles, lw.read (lw.join (place f.dir) f.name) = some f.text
  dir : ∀ f ∈ anyFile :: goodFiles, lw.dir (lw.join (place f.dir) f.name) = some (place f.dir)
  hash : ∀ b, lw.lex.hash b ≠ none
  apart : ∀ f ∈ goodFiles, HashesApart lw.lex f.text
  annot : ∀ s, lw.ref.annot s ≠ none
  termHash : ∀ b, lw.ref.hash b ≠ none
  update : ∀ t s, lw.idx.update t s = true

end Fmr
