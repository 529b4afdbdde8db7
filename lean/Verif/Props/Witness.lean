import Verif.Spec.Lang

/-!
# Small concrete grammars used in examples and counterexamples
-/

namespace Fmr

abbrev nt (s : String) : Term := ⟨s, .nonterminal, .nil⟩
abbrev tt (s : String) : Term := ⟨s, .terminal, .nil⟩
abbrev tk (s : String) : Token := { text := s }
abbrev rl (name : String) (bs : List (List Term)) : String × Rule :=
  (name, { name := name, body := bs.zipIdx.map (fun (b, i) => (i, { terms := b, f := none })) })
/-- terminal matching with an empty token registry -/
def plainMatch (t : Term) (a : Token) : Bool := terminalMatch id (fun _ => none) t a
def idOrd : Nat → Nat → Nat → List RuleBody → List RuleBody := fun _ _ _ l => l
def revOrd : Nat → Nat → Nat → List RuleBody → List RuleBody := fun _ _ _ l => l.reverse

theorem idOrd_ok (c r k l) : (idOrd c r k l).Perm l := List.Perm.refl _
theorem revOrd_ok (c r k l) : (revOrd c r k l).Perm l := List.reverse_perm l

/-- `<s> = (any{1,1}) <x> | (any{1,2}) <y>; <x> = "x"; <y> = "y"` on `a b x` -/
def wBounds : Env :=
  { grammars := [{ name := "g", rules := [
      rl "s" [[⟨"any", .any, .range 1 1⟩, nt "x"], [⟨"any", .any, .range 1 2⟩, nt "y"]],
      rl "x" [[tt "x"]], rl "y" [[tt "y"]]] }],
    tokens := [tk "a", tk "b", tk "x"], starts := ["s"], tmatch := plainMatch, ord := idOrd }

/-- `<s> = <a> <a> <x>; <a> = ""; <x> = "x"` on `x` -/
def wNull : Env :=
  { grammars := [{ name := "g", rules := [
      rl "s" [[nt "a", nt "a", nt "x"]], rl "a" [[]], rl "x" [[tt "x"]]] }],
    tokens := [tk "x"], starts := ["s"], tmatch := plainMatch, ord := idOrd }

/-- Optional parts in safe places: `<s> = <p> <o> <q> | "x" <o> | <m> "k" | <m> "j"; <o> = "" | "o";
<m> = "" | "x"; <p> = "x"; <q> = "q"` on `x q` -/
def wOpt : Env :=
  { grammars := [{ name := "g", rules := [
      rl "s" [[nt "p", nt "o", nt "q"], [tt "x", nt "o"], [nt "m", tt "k"], [nt "m", tt "j"]],
      rl "o" [[], [tt "o"]], rl "m" [[], [tt "x"]], rl "p" [[tt "x"]], rl "q" [[tt "q"]]] }],
    tokens := [tk "x", tk "q"], starts := ["s"], tmatch := plainMatch, ord := idOrd }

/-- `<s> = <b> <y> | <a> <b> <x>; <a> = ""; <b> = ""; <x> = "x"; <y> = "y"` on `x` -/
def wOrd : Env :=
  { grammars := [{ name := "g", rules := [
      rl "s" [[nt "b", nt "y"], [nt "a", nt "b", nt "x"]], rl "a" [[]], rl "b" [[]],
      rl "x" [[tt "x"]], rl "y" [[tt "y"]]] }],
    tokens := [tk "x"], starts := ["s"], tmatch := plainMatch, ord := idOrd }

/-- `<s> = <x> <ɣ>; <x> = "x"; <ɣ> = "y"` on `x y` -/
def wGamma : Env :=
  { grammars := [{ name := "g", rules := [
      rl "s" [[nt "x", nt "ɣ"]], rl "x" [[tt "x"]], rl "ɣ" [[tt "y"]]] }],
    tokens := [tk "x", tk "y"], starts := ["s"], tmatch := plainMatch, ord := idOrd }

/-- An ordinary grammar: `<s> = <s> <p> <s> | (list<n>{1,2}) | <q> (any{1,2}); <n> = "1" | "2";
<p> = "+"; <q> = "?"` on `1 + 2 2 ? z` -/
def wGood : Env :=
  { grammars := [{ name := "g", rules := [
      rl "s" [[nt "s", nt "p", nt "s"], [⟨"n", .list, .range 1 2⟩], [nt "q", ⟨"any", .any, .range 1 2⟩]],
      rl "n" [[tt "1"], [tt "2"]], rl "p" [[tt "+"]], rl "q" [[tt "?"]]] }],
    tokens := [tk "1", tk "+", tk "2", tk "2", tk "?", tk "z"], starts := ["s"],
    tmatch := plainMatch, ord := idOrd }

/-- `<s> = <y>; <y> = "a" | <z>; <z> = "a"` on `a`: two derivation trees -/
def wLost (ord : Nat → Nat → Nat → List RuleBody → List RuleBody) : Env :=
  { grammars := [{ name := "g", rules := [
      rl "s" [[nt "y"]], rl "y" [[tt "a"], [nt "z"]], rl "z" [[tt "a"]]] }],
    tokens := [tk "a"], starts := ["s"], tmatch := plainMatch, ord := ord }

/-- `<s> = <s> <s> | <a>; <a> = "a"` on `a a a` -/
def wAmb : Env :=
  { grammars := [{ name := "g", rules := [
      rl "s" [[nt "s", nt "s"], [nt "a"]], rl "a" [[tt "a"]]] }],
    tokens := [tk "a", tk "a", tk "a"], starts := ["s"], tmatch := plainMatch, ord := idOrd }

end Fmr
