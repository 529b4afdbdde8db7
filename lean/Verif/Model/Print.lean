import Verif.Model.Stringer
import Verif.Model.Trees

/-!
# Model of the printing functions

earley_stringer.go:11-98 and earley_nodeprint.go. Texts are lists of runes. The `String` method of
`ling.Token` (external) is a parameter, and so is the layout of package `treeprint` (external).
-/

namespace Fmr

/-- earley.go:14 `DOT`. -/
def dotChar : Char := '•'

section
variable (p : StrWorld)

/-- earley_stringer.go:104-147 `(*FMR).String` with the nil case (105-107); the verb `%s` calls it for a nil pointer
too. -/
def fString : Option FMR → List Char
  | none => "nf.I($0)".toList
  | some f => f.string p

/-- earley_stringer.go:20-29 one term of a rule body; other types print nothing. -/
def termText (t : Term) : List Char :=
  match t.type with
  | .nonterminal => '<' :: (t.value.toList ++ ['>', ' '])
  | .terminal => (quoteStr p.isPrint t.value).toList ++ [' ']
  | .any => "(any) ".toList
  | .list => "(list<".toList ++ (t.value.toList ++ ">) ".toList)
  | .eof => []

/-- earley_stringer.go:16-30 the loop over the terms of a body from number `i` on. -/
def bodyText (dot : Nat) : Nat → List Term → List Char
  | _, [] => []
  | i, t :: ts => (if i = dot then [dotChar, ' '] else []) ++ (termText p t ++ bodyText dot (i + 1) ts)

/-- `[%d-%d]` -/
def spanText (a b : Nat) : List Char :=
  '[' :: ((toString a).toList ++ '-' :: ((toString b).toList ++ [']']))

/-- earley_stringer.go:46-52 the loop of a list state, the function printed for it: `$1,$2,…`. `n` is `ts.Dot`. -/
def listArgs (n : Nat) : List Char :=
  joinComma ((List.range n).map fun i => '$' :: (toString (i + 1)).toList)

/-- earley_stringer.go:11-57 `(*TableState).String`. -/
def TState.string (s : TState) : List Char :=
  match s.term.type, s.rb with
  | .nonterminal, some rb =>
    '<' :: (s.term.value.toList ++ ("> -> ".toList ++
      ((bodyText p s.dot 0 rb.terms ++ if s.dot = rb.terms.length then [dotChar] else []) ++
        (' ' :: (spanText s.start s.stop ++ (" {".toList ++ (fString p rb.f ++ ['}'])))))))
  | .any, _ =>
    "(any) -> ".toList ++ ((List.replicate (s.stop - s.start) "# ".toList).flatten ++
      (dotChar :: (" * ".toList ++ (' ' :: spanText s.start s.stop))))
  | .list, _ =>
    "(list<".toList ++ (s.term.value.toList ++ (">) -> ".toList ++
      ((List.replicate s.dot ('<' :: (s.term.value.toList ++ ['>', ' ']))).flatten ++
        (dotChar :: (" * ".toList ++ (' ' :: (spanText s.start s.stop ++
          (" {fmr.list(".toList ++ (listArgs s.dot ++ ")}".toList)))))))))
  | _, _ => (quoteStr p.isPrint s.term.value).toList ++ ' ' :: spanText s.start s.stop

/-- earley_stringer.go:59-71 `(*TableColumn).String`. `tok` is `(*ling.Token).String`; the token of column 0 is not
printed. -/
def columnString (tok : Token → List Char) (i : Nat) (t : Option Token) (states : List TState) : List Char :=
  (match i, t with
    | 0, _ => "[0] ''\n".toList
    | _, none => []
    | i + 1, some t =>
      '[' :: ((toString (i + 1)).toList ++ ("] '".toList ++ (tok t ++ ("' position:".toList ++
        (spanText t.startByte t.endByte ++ ['\n'])))))) ++
  ("=======================================\n".toList ++ states.flatMap fun s => s.string p ++ ['\n'])

/-- earley_stringer.go:73-79 `(*Parse).String`, the loop from column `i` on. Column 0 has no token (api.go:170), the
tokens of the others are those of the text (171-174). -/
def columnsString (tok : Token → List Char) (tokens : List Token) : Nat → List (List TState) → List Char
  | _, [] => []
  | i, c :: cs =>
    columnString p tok i (if i = 0 then none else tokens[i - 1]?) c ++ ('\n' :: columnsString tok tokens (i + 1) cs)

def parseString (tok : Token → List Char) (tokens : List Token) (r : ParseResult) : List Char :=
  columnsString p tok tokens 0 r.chart

mutual
/-- earley_stringer.go:86-95 `printLevel`: what is written. `Print` (82-84) is level 0. -/
def Node.print (level : Nat) : Node → List Char
  | .mk v cs => (List.replicate level "  ".toList).flatten ++ (v.string p ++ '\n' :: printL (level + 1) cs)
termination_by structural n => n
/-- earley_stringer.go:92-94 the loop over the children. -/
def printL (level : Nat) : List Node → List Char
  | [] => []
  | c :: cs => Node.print level c ++ printL level cs
termination_by structural l => l
end

mutual
/-- earley_stringer.go:97-102 `(*Node).String`. The verb `%+v` prints a slice as its elements in brackets, separated by
blanks, and calls the method `String` of each of them. -/
def Node.string : Node → List Char
  | .mk v cs => v.string p ++ (if cs = [] then [] else " [".toList ++ (stringL cs ++ [']']))
termination_by structural n => n
/-- the elements of `n.Children` -/
def stringL : List Node → List Char
  | [] => []
  | c :: cs => c.string ++ (if cs = [] then [] else ' ' :: stringL cs)
termination_by structural l => l
end

/-- earley_nodeprint.go:10-17 `TreePrint`: what is written. `layout` is `tree.String()` of package `treeprint` for a
root and its leaves, `α` the type of texts. -/
def Node.treePrint {α : Type} (layout : List Char → List (List Char) → α) (n : Node) : α :=
  layout (n.value.string p) (n.children.map fun c => c.value.string p)

end

end Fmr
