import Verif.Spec.Shipped
import Verif.Spec.Refine

/-!
# Specification: words that are written alike
-/

namespace Fmr

/-- the literals of grammars/number.zh.grammar -/
def zhLits : List String := ["一", "二", "三", "四", "五", "六", "七", "八", "九", "壹", "贰", "叁", "肆", "伍", "陆", "柒", "捌", "玖", "两",
  "俩", "仨", "零", "〇", "十", "拾", "百", "佰", "千", "仟", "万", "亿", "万万", "点"]

/-- the literals of grammars/math.zh.grammar -/
def mathLits : List String := ["打", "加", "加上", "与", "的和", "减", "减去", "的差", "分之", "%", "乘", "乘以", "的积", "的", "倍", "的一半",
  "除", "除以", "次方", "次幂", "的平方", "的立方", "的平方根", "的立方根"]

/-- the literals of grammars/limit.grammar and grammars/time.grammar -/
def limitLits : List String := ["前", "个"]

def timeLits : List String := ["年", "月", "日", "号", "前", "之前", "及之前", "及其之前", "后", "之后", "及之后", "及其之后"]

/-- the rules of these files, and the tags that they use -/
def limitNames : List String := ["cn_unit", "cn_zero", "cn_digit", "numbers", "cn_e1", "cn_e2", "cn_e3", "cn_e4", "cn_e8", "cn_e1s",
  "cn_e2s", "cn_e3s", "cn_e4s", "cn_e8s", "cn_decimal", "number", "fraction", "limit_prefix", "limit_suffix", "limit", "year", "month",
  "day", "date", "time", "before", "after", "numeric", "digits"]

/-- the rules of grammars/number.zh.grammar and grammars/math.zh.grammar, and the tags that they use -/
def ownNames : List String := ["cn_unit", "cn_zero", "cn_digit", "numbers", "cn_e1", "cn_e2", "cn_e3", "cn_e4", "cn_e8", "cn_e1s",
  "cn_e2s", "cn_e3s", "cn_e4s", "cn_e8s", "cn_decimal", "number", "fraction", "numeric", "digits"]

/-- Every literal has a word. -/
def HaveWords (w : RefineWorld) (lits : List String) : Prop :=
  ∀ x ∈ lits, ∃ ts, w.annot x = some ts ∧ ∃ t ∈ ts, t.type ≠ .space

/-- The words 前 ("before", "the first"), 千 and 仟 ("thousand") are transcribed alike, as they are by unidecode, which gives
"Qian " for each; and no other literal is. -/
structure QianAlike (w : RefineWorld) (lits : List String) : Prop where
  word : ∀ x ∈ ["前", "千", "仟"], ∃ t, w.annot x = some [t] ∧ t.text = x ∧ t.type ≠ .space ∧ t.type ≠ .punct
  alike : w.ascii "千" = w.ascii "前" ∧ w.ascii "仟" = w.ascii "前"
  others : ∀ x ∈ lits, x ∉ ["前", "千", "仟"] → literalName w "g" x ≠ "g_t_" ++ w.ascii "前" ∧
    ∀ k : Nat, literalName w "g" x ++ "_" ++ toString k ≠ "g_t_" ++ w.ascii "前"

/-- 前 is not a word of a literal of the numbers, and the mark that the parser adds is not a word of any literal. -/
structure LitsWords (w : RefineWorld) (lits numberLits : List String) : Prop where
  words : ∀ x ∈ numberLits, ∀ ts, w.annot x = some ts → ∀ t ∈ ts, t.text ≠ "前"
  gamma : ∀ x ∈ lits, ∀ ts, w.annot x = some ts → ∀ t ∈ ts, t.text ≠ "ɣ"

/-- Different literals are transcribed differently. -/
def LitsApart (w : RefineWorld) (lits : List String) : Prop :=
  ∀ x ∈ lits, ∀ y ∈ lits, literalName w "g" x = literalName w "g" y → x = y

end Fmr
