import Verif.Model.Lexer

/-!
# The concrete syntax of grammar files

The syntax as relations between a text and the thing it denotes, written after the README and the examples
only; nothing here refers to the parser. `mapSet` occurs for the table of regexps, a Go map.
-/

namespace Fmr

/-- What the syntax needs to know about the Unicode classes: they are pairwise disjoint, and the ASCII runes
used by the syntax are in the right ones. -/
structure LexWorld.OK (w : LexWorld) : Prop where
  letter_digit : ∀ c, w.isLetter c → w.isDigit c = false
  letter_space : ∀ c, w.isLetter c → w.isSpace c = false
  digit_space : ∀ c, w.isDigit c → w.isSpace c = false
  punct : ∀ c ∈ ['<', '>', '[', ']', '(', ')', '{', '}', '"', '`', '@', '$', ',', '.', '-', '=', ';', '|',
    '/', '#', '?', '*', '\\', '_'], w.isLetter c = false ∧ w.isDigit c = false ∧ w.isSpace c = false
  letters : ∀ c, 'a' ≤ c → c ≤ 'z' → w.isLetter c = true
  digits : ∀ c, '0' ≤ c → c ≤ '9' → w.isDigit c = true
  spaces : ∀ c ∈ [' ', '\t', '\n'], w.isSpace c = true
  unknown : w.isLetter runeError = false ∧ w.isDigit runeError = false ∧ w.isSpace runeError = false

section
variable (w : LexWorld)

/-- white space -/
def Spaces (l : List Char) : Prop := ∀ c ∈ l, w.isSpace c = true

/-- white space and comments -/
inductive Gap : List Char → Prop
  | spaces {s : List Char} : Spaces w s → Gap s
  | line {s b g : List Char} : Spaces w s → '\n' ∉ b → Gap g → Gap (s ++ '/' :: '/' :: (b ++ '\n' :: g))
  | block {s b g : List Char} : Spaces w s → ¬ ['*', '/'] <:+: b → Gap g →
      Gap (s ++ '/' :: '*' :: (b ++ '*' :: '/' :: g))

/-- identifiers -/
inductive Ident : List Char → Prop
  | mk {c : Char} {t : List Char} : (w.isLetter c = true ∨ c = '_') →
      (∀ d ∈ t, w.isLetter d = true ∨ d = '_' ∨ w.isDigit d = true) → Ident (c :: t)

/-- names of functions: identifiers with single dots inside -/
inductive FnName : List Char → Prop
  | mk {c : Char} {t : List Char} : (w.isLetter c = true ∨ c = '_') →
      (∀ d ∈ t, w.isLetter d = true ∨ d = '_' ∨ w.isDigit d = true ∨ d = '.') → ¬ ['.', '.'] <:+: t →
      FnName (c :: t)

/-- the text of a literal and its value -/
inductive LitText : List Char → List Char → Prop
  | nil : LitText [] []
  | plain {c : Char} {t v : List Char} : c ≠ '"' → c ≠ '\\' → LitText t v → LitText (c :: t) (c :: v)
  | esc {c x : Char} {t v : List Char} :
      (c, x) ∈ [('\\', '\\'), ('n', '\n'), ('t', '\t'), ('"', '"'), ('(', '(')] → LitText t v →
      LitText ('\\' :: c :: t) (x :: v)

/-- a literal: source, flags, value -/
inductive LitSyn : List Char → String → String → Prop
  | plain {s t v : List Char} : Spaces w s → LitText t v →
      (∀ c, t.head? = some c → w.isSpace c = false ∧ c ≠ '(') →
      LitSyn ('"' :: (s ++ (t ++ ['"']))) "" (String.ofList v)
  | flags {s s1 s2 f t v : List Char} : Spaces w s → Spaces w s1 → Spaces w s2 → Ident w f → LitText t v →
      LitSyn ('"' :: (s ++ '(' :: (s1 ++ '?' :: (s2 ++ (f ++ ')' :: (t ++ ['"']))))))
        (String.ofList f) (String.ofList v)

/-- the value of decimal digits as a 64-bit `int` -/
def intValue (ds : List Char) : Int := (Nat.ofDigitChars 10 ds 0 : Int).bmod (2 ^ 64)

/-- no shorter beginning of the digits has the value -1 -/
def NoRestart (ds : List Char) : Prop := ∀ p q, ds = p ++ q → p ≠ [] → q ≠ [] → intValue p ≠ -1

/-- The number that digits stand for. The value wraps around, and digits up to a value of -1 are dropped if there are
more; numbers below 2^63 are themselves (`num_small`). -/
inductive IntOf : List Char → Int → Prop
  | all {ds : List Char} : ds ≠ [] → NoRestart ds → IntOf ds (intValue ds)
  | rest {p q : List Char} {v : Int} : p ≠ [] → NoRestart p → intValue p = -1 → IntOf q v → IntOf (p ++ q) v

/-- a decimal number; a number cannot stand for -1 -/
def Num (ds : List Char) (v : Int) : Prop := (∀ c ∈ ds, '0' ≤ c ∧ c ≤ '9') ∧ IntOf ds v ∧ v ≠ -1

/-- an optional range -/
inductive RangeSyn : List Char → Meta → Prop
  | none {s : List Char} : Spaces w s → RangeSyn s .nil
  | some {s0 s1 s2 s3 s4 s5 d1 d2 : List Char} {a b : Int} : Spaces w s0 → Spaces w s1 → Spaces w s2 →
      Spaces w s3 → Spaces w s4 → Spaces w s5 → Num d1 a → Num d2 b → a ≤ b →
      RangeSyn (s0 ++ '{' :: (s1 ++ (d1 ++ (s2 ++ ',' :: (s3 ++ (d2 ++ (s4 ++ '}' :: s5)))))))
        (.range a b)

/-- terms; the last two arguments are the tables of regexps before and after -/
inductive TermSyn : List Char → Term → List (String × String) → List (String × String) → Prop
  | nonterminal {x : List Char} {ρ : List (String × String)} : Ident w x →
      TermSyn ('<' :: (x ++ ['>'])) ⟨String.ofList x, .nonterminal, .nil⟩ ρ ρ
  | literal {l : List Char} {v : String} {ρ : List (String × String)} : LitSyn w l "" v →
      TermSyn l ⟨v, .terminal, .nil⟩ ρ ρ
  | flagged {l : List Char} {f v : String} {ρ : List (String × String)} : LitSyn w l f v → f ≠ "" →
      TermSyn l ⟨v, .terminal, .flags f⟩ ρ ρ
  | any {s1 r : List Char} {m : Meta} {ρ : List (String × String)} : Spaces w s1 → RangeSyn w r m →
      TermSyn ('(' :: (s1 ++ 'a' :: 'n' :: 'y' :: (r ++ [')']))) ⟨"any", .any, m⟩ ρ ρ
  | list {s1 s2 x r : List Char} {m : Meta} {ρ : List (String × String)} : Spaces w s1 → Spaces w s2 →
      Ident w x → RangeSyn w r m →
      TermSyn ('(' :: (s1 ++ 'l' :: 'i' :: 's' :: 't' :: (s2 ++ '<' :: (x ++ '>' :: (r ++ [')'])))))
        ⟨String.ofList x, .list, m⟩ ρ ρ
  | regex {s r : List Char} {ρ : List (String × String)} : Spaces w s → r ≠ [] → '`' ∉ r →
      (∀ c, r.head? = some c → w.isSpace c = false) → w.regexpOK (String.ofList r) = true →
      TermSyn ('`' :: (s ++ (r ++ ['`']))) ⟨w.md5 (String.ofList r), .nonterminal, .nil⟩ ρ
        (mapSet ρ (w.md5 (String.ofList r)) (String.ofList r))

/-- digits with at most one dot; the flag tells whether there is a dot. Digits are all Unicode digits. -/
def NumTok (l : List Char) (dot : Bool) : Prop :=
  l ≠ [] ∧ (∀ c ∈ l, w.isDigit c = true ∨ c = '.') ∧ l.count '.' = if dot then 1 else 0

mutual
/-- function expressions with surrounding white space -/
inductive FmrSyn : List Char → FMR → Prop
  | mk {s1 x s2 a s3 : List Char} {args : List Arg} : Spaces w s1 → FnName w x → Spaces w s2 →
      ArgsSyn a args → Spaces w s3 →
      FmrSyn (s1 ++ (x ++ (s2 ++ '(' :: (a ++ s3)))) (.mk (String.ofList x) args)
/-- arguments up to and including the closing parenthesis -/
inductive ArgsSyn : List Char → List Arg → Prop
  | last {s t s' : List Char} {a : Arg} : Spaces w s → ArgSyn t a → Spaces w s' →
      ArgsSyn (s ++ (t ++ (s' ++ [')']))) [a]
  | more {s t s' r : List Char} {a : Arg} {as : List Arg} : Spaces w s → ArgSyn t a → Spaces w s' →
      ArgsSyn r as → ArgsSyn (s ++ (t ++ (s' ++ ',' :: r))) (a :: as)
/-- one argument -/
inductive ArgSyn : List Char → Arg → Prop
  | context : ArgSyn ['@'] (.mk "context" (.str "@"))
  | index {d : List Char} {n : Int} : Num d n → ArgSyn ('$' :: d) (.mk "index" (.int n))
  | string {l : List Char} {f v : String} : LitSyn w l f v → ArgSyn l (.mk "string" (.str v))
  | int {d : List Char} {i : Int} : NumTok w d false → d.head? ≠ some '.' →
      w.scanInt (String.ofList d) = some i →
      ArgSyn d (.mk "int" (.bigInt i))
  | negInt {d : List Char} {i : Int} : NumTok w d false → w.scanInt (String.ofList ('-' :: d)) = some i →
      ArgSyn ('-' :: d) (.mk "int" (.bigInt i))
  | float {d : List Char} {q : Rat} : NumTok w d true → d.head? ≠ some '.' →
      w.scanFloat (String.ofList d) = some q →
      ArgSyn d (.mk "float" (.bigFloat q))
  | negFloat {d : List Char} {q : Rat} : NumTok w d true →
      w.scanFloat (String.ofList ('-' :: d)) = some q →
      ArgSyn ('-' :: d) (.mk "float" (.bigFloat q))
  | func {l : List Char} {f : FMR} : FmrSyn l f → ArgSyn l (.mk "func" (.fmr f))
end

/-- one or more terms, each followed by a gap -/
inductive TermsSyn : List Char → List Term → List (String × String) → List (String × String) → Prop
  | one {l g : List Char} {t : Term} {ρ ρ' : List (String × String)} : TermSyn w l t ρ ρ' → Gap w g →
      TermsSyn (l ++ g) [t] ρ ρ'
  | more {l g r : List Char} {t : Term} {ts : List Term} {ρ ρ1 ρ2 : List (String × String)} :
      TermSyn w l t ρ ρ1 → Gap w g → TermsSyn r ts ρ1 ρ2 → TermsSyn (l ++ (g ++ r)) (t :: ts) ρ ρ2

/-- an alternative -/
inductive BodySyn : List Char → RuleBody → List (String × String) → List (String × String) → Prop
  | plain {l : List Char} {ts : List Term} {ρ ρ' : List (String × String)} : TermsSyn w l ts ρ ρ' →
      BodySyn l ⟨ts, none⟩ ρ ρ'
  | fn {l e g : List Char} {ts : List Term} {f : FMR} {ρ ρ' : List (String × String)} :
      TermsSyn w l ts ρ ρ' → FmrSyn w e f → Gap w g →
      BodySyn (l ++ '{' :: (e ++ '}' :: g)) ⟨ts, some f⟩ ρ ρ'

/-- alternatives separated by `|` -/
inductive BodiesSyn : List Char → List RuleBody → List (String × String) → List (String × String) → Prop
  | one {l : List Char} {b : RuleBody} {ρ ρ' : List (String × String)} : BodySyn w l b ρ ρ' →
      BodiesSyn l [b] ρ ρ'
  | more {l g r : List Char} {b : RuleBody} {bs : List RuleBody} {ρ ρ1 ρ2 : List (String × String)} :
      BodySyn w l b ρ ρ1 → Gap w g → BodiesSyn r bs ρ1 ρ2 →
      BodiesSyn (l ++ '|' :: (g ++ r)) (b :: bs) ρ ρ2

/-- A definition in a grammar file: is it a frame, its name, its alternatives in order. -/
structure Def where
  frame : Bool
  name : String
  bodies : List RuleBody

/-- a definition -/
inductive DefSyn : List Char → Def → List (String × String) → List (String × String) → Prop
  | rule {x g1 g2 l : List Char} {bs : List RuleBody} {ρ ρ' : List (String × String)} : Ident w x →
      Gap w g1 → Gap w g2 → BodiesSyn w l bs ρ ρ' →
      DefSyn ('<' :: (x ++ '>' :: (g1 ++ '=' :: (g2 ++ (l ++ [';']))))) ⟨false, String.ofList x, bs⟩ ρ ρ'
  | frame {x g1 g2 l : List Char} {bs : List RuleBody} {ρ ρ' : List (String × String)} : Ident w x →
      Gap w g1 → Gap w g2 → BodiesSyn w l bs ρ ρ' →
      DefSyn ('[' :: (x ++ ']' :: (g1 ++ '=' :: (g2 ++ (l ++ [';']))))) ⟨true, String.ofList x, bs⟩ ρ ρ'

/-- the definitions of a file, after its directives -/
inductive DefsSyn : List Char → List Def → List (String × String) → List (String × String) → Prop
  | nil {g : List Char} {ρ : List (String × String)} : Gap w g → DefsSyn g [] ρ ρ
  | cons {g l r : List Char} {d : Def} {ds : List Def} {ρ ρ1 ρ2 : List (String × String)} : Gap w g →
      DefSyn w l d ρ ρ1 → DefsSyn r ds ρ1 ρ2 → DefsSyn (g ++ (l ++ r)) (d :: ds) ρ ρ2

/-- an include directive with leading gap -/
inductive IncludeSyn : List Char → String → Prop
  | mk {g s1 s2 l : List Char} {f v : String} : Gap w g → Spaces w s1 → Spaces w s2 → LitSyn w l f v →
      IncludeSyn (g ++ '#' :: (s1 ++ ("include".toList ++ (s2 ++ l)))) v

/-- the text starts with an include directive for each of the files -/
inductive HeaderSyn : List Char → List String → Prop
  | nil {l : List Char} : HeaderSyn l []
  | cons {t l : List Char} {f : String} {fs : List String} : IncludeSyn w t f → HeaderSyn l fs → HeaderSyn (t ++ l) (f :: fs)

/-- the text has an include directive for `f` -/
def Target (l : List Char) (f : String) : Prop := ∃ fs, HeaderSyn w l fs ∧ f ∈ fs

/-- a text that can be written as a literal without flags: readable runes, and white space in front must be
one of the two that have an escape -/
def LitOK (v : List Char) : Prop :=
  runeError ∉ v ∧ ∀ c, v.head? = some c → w.isSpace c = true → c = '\n' ∨ c = '\t'

/-- a range that can be written -/
inductive RangeOK : Meta → Prop
  | none : RangeOK .nil
  | some {a b : Nat} : a ≤ b → b < 2 ^ 63 → RangeOK (.range a b)

/-- terms that can be written -/
inductive TermOK : Term → Prop
  | nonterminal {x : List Char} : Ident w x → TermOK ⟨String.ofList x, .nonterminal, .nil⟩
  | literal {v : List Char} : LitOK w v → TermOK ⟨String.ofList v, .terminal, .nil⟩
  | flagged {f v : List Char} : Ident w f → runeError ∉ v →
      TermOK ⟨String.ofList v, .terminal, .flags (String.ofList f)⟩
  | any {m : Meta} : RangeOK m → TermOK ⟨"any", .any, m⟩
  | list {x : List Char} {m : Meta} : Ident w x → RangeOK m → TermOK ⟨String.ofList x, .list, m⟩
  | regex {r : List Char} : runeError ∉ r → r ≠ [] → '`' ∉ r →
      (∀ c, r.head? = some c → w.isSpace c = false) → w.regexpOK (String.ofList r) = true →
      TermOK ⟨w.md5 (String.ofList r), .nonterminal, .nil⟩

/-- the numerals: an optional minus sign, then digits with or without a dot -/
def Numeral (dot : Bool) (s : String) : Prop :=
  ∃ d, (s = String.ofList d ∧ d.head? ≠ some '.' ∨ s = String.ofList ('-' :: d)) ∧ NumTok w d dot

mutual
/-- semantic functions that can be written: at least one argument -/
inductive FmrOK : FMR → Prop
  | mk {x : List Char} {a : Arg} {as : List Arg} : FnName w x → ArgOK a → ArgsOK as →
      FmrOK (.mk (String.ofList x) (a :: as))
inductive ArgsOK : List Arg → Prop
  | nil : ArgsOK []
  | cons {a : Arg} {as : List Arg} : ArgOK a → ArgsOK as → ArgsOK (a :: as)
inductive ArgOK : Arg → Prop
  | context : ArgOK (.mk "context" (.str "@"))
  | index {n : Nat} : n < 2 ^ 63 → ArgOK (.mk "index" (.int n))
  | string {v : List Char} : runeError ∉ v → ArgOK (.mk "string" (.str (String.ofList v)))
  | int {s : String} {i : Int} : Numeral w false s → w.scanInt s = some i → ArgOK (.mk "int" (.bigInt i))
  | float {s : String} {q : Rat} : Numeral w true s → w.scanFloat s = some q → ArgOK (.mk "float" (.bigFloat q))
  | func {f : FMR} : FmrOK f → ArgOK (.mk "func" (.fmr f))
end

/-- alternatives that can be written: at least one term -/
structure BodyOK (b : RuleBody) : Prop where
  ne : b.terms ≠ []
  terms : ∀ t ∈ b.terms, TermOK w t
  f : ∀ f, b.f = some f → FmrOK w f

/-- definitions that can be written: a name and at least one alternative -/
structure DefOK (d : Def) : Prop where
  name : ∃ x, d.name = String.ofList x ∧ Ident w x
  ne : d.bodies ≠ []
  bodies : ∀ b ∈ d.bodies, BodyOK w b

end

/-- the alternative `b` is written for the rule (frame) `x` in one of the definitions -/
def Written (ds : List Def) (fr : Bool) (x : String) (b : RuleBody) : Prop :=
  ∃ d ∈ ds, d.frame = fr ∧ d.name = x ∧ b ∈ d.bodies

/-- every alternative has a hash, and different alternatives have different ones -/
def NoCollision (hash : RuleBody → Option Nat) (ds : List Def) : Prop :=
  (∀ d ∈ ds, ∀ b ∈ d.bodies, hash b ≠ none) ∧
  ∀ d ∈ ds, ∀ b ∈ d.bodies, ∀ d' ∈ ds, ∀ b' ∈ d'.bodies, hash b = hash b' → b = b'

/-- The rule map holds exactly what is written: the defined names, and for each of them the set of its
alternatives, keyed by their hashes. -/
structure HoldsDefs (hash : RuleBody → Option Nat) (ds : List Def) (fr : Bool) (m : List (String × Rule)) :
    Prop where
  names : ∀ x, (∃ r, m.lookup x = some r) ↔ ∃ d ∈ ds, d.frame = fr ∧ d.name = x
  name : ∀ x r, m.lookup x = some r → r.name = x
  nodup : ∀ x r, m.lookup x = some r → (r.body.map Prod.fst).Nodup
  bodies : ∀ x r h b, m.lookup x = some r → ((h, b) ∈ r.body ↔ hash b = some h ∧ Written ds fr x b)

end Fmr
