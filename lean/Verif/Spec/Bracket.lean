import Verif.Model.Node

/-!
# Specification: bracket notation (C53)
-/

namespace Fmr

/-- labelled bracketings: a label with a text or with sub-bracketings -/
inductive BTree where
  | flat (label : String) (text : List GoRune)
  | node (label : String) (kids : List BTree)

/-- all children are literals (or the rules generated for literals) -/
def FlatKids (cs : List Node) : Prop :=
  ∀ c ∈ cs, c.value.term.type = .terminal ∨ "g_t_".toList <+: c.value.term.value.toList ∨
    "l_t_".toList <+: c.value.term.value.toList

mutual
/-- the bracketing of a tree; the internal start symbol is skipped -/
inductive BracketOf (w : NodeWorld) (p : Parsed) : Node → BTree → Prop
  | start {n c : Node} {b : BTree} : n.value.term.value = "ɣ" → n.children.head? = some c →
      BracketOf w p c b → BracketOf w p n b
  | flat {n : Node} {o : Bytes} : n.value.term.value ≠ "ɣ" → FlatKids n.children →
      p.originalText n = .ok o → BracketOf w p n (.flat n.value.term.value (w.decode o))
  | node {n : Node} {bs : List BTree} : n.value.term.value ≠ "ɣ" → ¬ FlatKids n.children →
      BracketsOf w p n.children bs → BracketOf w p n (.node n.value.term.value bs)
inductive BracketsOf (w : NodeWorld) (p : Parsed) : List Node → List BTree → Prop
  | nil : BracketsOf w p [] []
  | cons {n : Node} {ns : List Node} {b : BTree} {bs : List BTree} : BracketOf w p n b →
      BracketsOf w p ns bs → BracketsOf w p (n :: ns) (b :: bs)
end

mutual
/-- `[label "text"]` or `[label [..] [..]]` -/
def BTree.print (isPrint : Char → Bool) : BTree → List Char
  | .flat l t => '[' :: (l.toList ++ ' ' :: (quoteRunes isPrint t ++ [']']))
  | .node l ks => '[' :: (l.toList ++ ' ' :: (printKids isPrint ks ++ [']']))
def printKids (isPrint : Char → Bool) : List BTree → List Char
  | [] => []
  | [k] => k.print isPrint
  | k :: ks => k.print isPrint ++ ' ' :: printKids isPrint ks
end

mutual
/-- a condition on all labels -/
def BTree.Labels (P : String → Prop) : BTree → Prop
  | .flat l _ => P l
  | .node l ks => P l ∧ kidsLabels P ks
def kidsLabels (P : String → Prop) : List BTree → Prop
  | [] => True
  | k :: ks => k.Labels P ∧ kidsLabels P ks
end

/-- the body of a string literal: no quote that is not escaped -/
inductive QuotedBody : List Char → Prop
  | nil : QuotedBody []
  | plain {c : Char} {l : List Char} : c ≠ '"' → c ≠ '\\' → QuotedBody l → QuotedBody (c :: l)
  | esc {c : Char} {l : List Char} : QuotedBody l → QuotedBody ('\\' :: c :: l)

/-- texts in which brackets are balanced, not counting those inside string literals -/
inductive WellBracketed : List Char → Prop
  | nil : WellBracketed []
  | plain {c : Char} {l : List Char} : c ≠ '[' → c ≠ ']' → c ≠ '"' → WellBracketed l → WellBracketed (c :: l)
  | quoted {q l : List Char} : QuotedBody q → WellBracketed l → WellBracketed ('"' :: (q ++ '"' :: l))
  | bracket {a l : List Char} : WellBracketed a → WellBracketed l → WellBracketed ('[' :: (a ++ ']' :: l))

end Fmr
