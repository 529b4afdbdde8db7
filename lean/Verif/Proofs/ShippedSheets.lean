import Verif.Proofs.ShippedFiles

/-!
# The grammar files of the repository, one by one
-/

namespace Fmr

/-- The decimal fractions that occur. -/
def shippedFloats : List (String × Rat) := [("0.5", 1 / 2), ("0.01", 1 / 100)]

/-- A file, the files it includes, the rules it defines, and those it uses that are defined elsewhere. -/
structure Sheet where
  file : ShippedFile
  includes : List String
  names : List String
  known : List String

def zhRuleNames : List String := ["cn_unit", "cn_zero", "cn_digit", "numbers", "cn_e1", "cn_e2", "cn_e3", "cn_e4", "cn_e8", "cn_e1s",
  "cn_e2s", "cn_e3s", "cn_e4s", "cn_e8s", "cn_decimal", "number"]

def sheets : List Sheet := [
  ⟨⟨"grammars", "number.zh.grammar", numberZhParts⟩, [], zhRuleNames, ["digits", "numeric"]⟩,
  ⟨⟨"grammars", "math.zh.grammar", mathZhParts⟩, ["number.zh.grammar"], ["number", "fraction"], ["numeric"]⟩,
  ⟨⟨"grammars", "limit.grammar", limitParts⟩, ["math.zh.grammar"], ["limit_prefix", "limit_suffix", "limit"], ["number"]⟩,
  ⟨⟨"grammars", "order.grammar", orderParts⟩, [], ["asc", "desc", "order_prefix", "iorder"], []⟩,
  ⟨⟨"grammars", "sql.grammar", sqlParts⟩, ["order.grammar", "limit.grammar"], ["order"], ["iorder", "number", "limit"]⟩,
  ⟨⟨"grammars", "time.grammar", timeParts⟩, ["math.zh.grammar"], ["year", "month", "day", "date", "time", "before", "after"],
    ["number"]⟩,
  ⟨⟨".", "sf.grammar", sfParts⟩, [], ["flight", "departure", "arrival", "from", "to", "city", "city_ext", "cities"], []⟩,
  ⟨⟨"examples/arithmetic", "arithmetic.grammar", arithmeticParts⟩, [], ["number"], []⟩,
  ⟨⟨"examples/builtin", "builtin.grammar", builtinParts⟩, [], ["cardinal_unit", "cardinal_ten", "ordinal_unit", "ordinal_ten",
    "cardinal_tens", "ordinal_tens", "magnitude", "base_number", "magnitude_number", "section", "number"], []⟩,
  ⟨⟨"examples/builtin", "cn_num.grammar", cnNumParts⟩, [], ["cn_num_unit", "cn_zero", "cn_num_10", "cn_num_100", "cn_num_1000",
    "cn_num_10000", "cn_num_100000000", "cn_num_10s", "cn_num_100s", "cn_num_1000s", "cn_num_10000s", "cn_num_yi", "number"], []⟩,
  ⟨⟨"examples/math/grammars", "number.zh.grammar", exNumberZhParts⟩, [], zhRuleNames, ["digits"]⟩,
  ⟨⟨"examples/math/grammars", "math.zh.grammar", exMathZhParts⟩, ["number.zh.grammar"], ["number", "fraction"], ["numeric"]⟩,
  ⟨⟨"examples/math/grammars", "number.en.grammar", numberEnParts⟩, [], ["unit", "numbers", "ten", "tens", "e1", "e2", "e3", "e6",
    "e9", "e12", "e2s", "e3s", "e6s", "e9s", "e12s", "en_decimal", "en_number", "number"], []⟩,
  ⟨⟨"examples/math/grammars", "math.en.grammar", mathEnParts⟩, ["number.en.grammar"], ["number", "special_number", "equ"],
    ["numeric"]⟩,
  ⟨⟨"examples/math/grammars", "math.grammar", mathParts⟩, ["math.en.grammar", "math.zh.grammar"],
    ["Exp", "AddExp", "MulExp", "ExpExp", "PriExp"], ["number", "letters"]⟩,
  ⟨⟨"examples/math/grammars", "latex.math.grammar", latexParts⟩, [], ["Exp", "AddExp", "MulExp", "ExpExp", "SignExp", "PriExp",
    "VerbExp", "Func", "start"], ["numeric", "letters"]⟩]

theorem sheets_files : sheets.map (·.file) = goodFiles := rfl

/-- The texts of the file have been read as the sheet says. -/
def SheetRead (s : Sheet) : Prop :=
  ∃ ls, PartsAre s.file.parts ls ∧ fileOK shippedFloats s.includes s.names s.known ls = true ∧
    missingFuncs.lookup (s.file.dir, s.file.name) = some ((partsCalls shippedFloats ls).filter (!registered.contains ·)).eraseDups

set_option maxRecDepth 100000 in
theorem numberZhParts_read : SheetRead (sheets[0]'(by decide)) :=
  ⟨_, .cons rfl <| .cons rfl <| .cons rfl <| .cons rfl <| .cons rfl <| .cons rfl <| .cons rfl <| .cons rfl <| .cons rfl <| .cons rfl <| .cons rfl <| .cons rfl <| .cons rfl <| .cons rfl <| .cons rfl <| .cons rfl <| .cons rfl <| .nil, by decide +kernel, by decide +kernel⟩

set_option maxRecDepth 100000 in
theorem mathZhParts_read : SheetRead (sheets[1]'(by decide)) :=
  ⟨_, .cons rfl <| .cons rfl <| .cons rfl <| .cons rfl <| .cons rfl <| .cons rfl <| .cons rfl <| .cons rfl <| .nil, by decide +kernel, by decide +kernel⟩

set_option maxRecDepth 100000 in
theorem limitParts_read : SheetRead (sheets[2]'(by decide)) :=
  ⟨_, .cons rfl <| .cons rfl <| .cons rfl <| .nil, by decide +kernel, by decide +kernel⟩

set_option maxRecDepth 100000 in
theorem orderParts_read : SheetRead (sheets[3]'(by decide)) :=
  ⟨_, .cons rfl <| .cons rfl <| .cons rfl <| .cons rfl <| .nil, by decide +kernel, by decide +kernel⟩

set_option maxRecDepth 100000 in
theorem sqlParts_read : SheetRead (sheets[4]'(by decide)) :=
  ⟨_, .cons rfl <| .cons rfl <| .nil, by decide +kernel, by decide +kernel⟩

set_option maxRecDepth 100000 in
theorem timeParts_read : SheetRead (sheets[5]'(by decide)) :=
  ⟨_, .cons rfl <| .cons rfl <| .cons rfl <| .cons rfl <| .cons rfl <| .cons rfl <| .cons rfl <| .nil, by decide +kernel, by decide +kernel⟩

set_option maxRecDepth 100000 in
theorem sfParts_read : SheetRead (sheets[6]'(by decide)) :=
  ⟨_, .cons rfl <| .cons rfl <| .cons rfl <| .cons rfl <| .cons rfl <| .cons rfl <| .cons rfl <| .cons rfl <| .cons rfl <| .cons rfl <| .nil, by decide +kernel, by decide +kernel⟩

set_option maxRecDepth 100000 in
theorem arithmeticParts_read : SheetRead (sheets[7]'(by decide)) :=
  ⟨_, .cons rfl <| .nil, by decide +kernel, by decide +kernel⟩

set_option maxRecDepth 100000 in
theorem builtinParts_read : SheetRead (sheets[8]'(by decide)) :=
  ⟨_, .cons rfl <| .cons rfl <| .cons rfl <| .cons rfl <| .cons rfl <| .cons rfl <| .cons rfl <| .cons rfl <| .cons rfl <| .cons rfl <| .cons rfl <| .nil, by decide +kernel, by decide +kernel⟩

set_option maxRecDepth 100000 in
theorem cnNumParts_read : SheetRead (sheets[9]'(by decide)) :=
  ⟨_, .cons rfl <| .cons rfl <| .cons rfl <| .cons rfl <| .cons rfl <| .cons rfl <| .cons rfl <| .cons rfl <| .cons rfl <| .cons rfl <| .cons rfl <| .cons rfl <| .cons rfl <| .nil, by decide +kernel, by decide +kernel⟩

set_option maxRecDepth 100000 in
theorem exNumberZhParts_read : SheetRead (sheets[10]'(by decide)) :=
  ⟨_, .cons rfl <| .cons rfl <| .cons rfl <| .cons rfl <| .cons rfl <| .cons rfl <| .cons rfl <| .cons rfl <| .cons rfl <| .cons rfl <| .cons rfl <| .cons rfl <| .cons rfl <| .cons rfl <| .cons rfl <| .cons rfl <| .cons rfl <| .nil, by decide +kernel, by decide +kernel⟩

set_option maxRecDepth 100000 in
theorem exMathZhParts_read : SheetRead (sheets[11]'(by decide)) :=
  ⟨_, .cons rfl <| .cons rfl <| .cons rfl <| .cons rfl <| .cons rfl <| .cons rfl <| .cons rfl <| .cons rfl <| .nil, by decide +kernel, by decide +kernel⟩

set_option maxRecDepth 100000 in
theorem numberEnParts_read : SheetRead (sheets[12]'(by decide)) :=
  ⟨_, .cons rfl <| .cons rfl <| .cons rfl <| .cons rfl <| .cons rfl <| .cons rfl <| .cons rfl <| .cons rfl <| .cons rfl <| .cons rfl <| .cons rfl <| .cons rfl <| .cons rfl <| .cons rfl <| .cons rfl <| .cons rfl <| .cons rfl <| .cons rfl <| .nil, by decide +kernel, by decide +kernel⟩

set_option maxRecDepth 100000 in
theorem mathEnParts_read : SheetRead (sheets[13]'(by decide)) :=
  ⟨_, .cons rfl <| .cons rfl <| .cons rfl <| .cons rfl <| .cons rfl <| .cons rfl <| .cons rfl <| .cons rfl <| .cons rfl <| .nil, by decide +kernel, by decide +kernel⟩

set_option maxRecDepth 100000 in
theorem mathParts_read : SheetRead (sheets[14]'(by decide)) :=
  ⟨_, .cons rfl <| .cons rfl <| .cons rfl <| .cons rfl <| .cons rfl <| .nil, by decide +kernel, by decide +kernel⟩

set_option maxRecDepth 100000 in
theorem latexParts_read : SheetRead (sheets[15]'(by decide)) :=
  ⟨_, .cons rfl <| .cons rfl <| .cons rfl <| .cons rfl <| .cons rfl <| .cons rfl <| .cons rfl <| .cons rfl <| .cons rfl <| .cons rfl <| .nil, by decide +kernel, by decide +kernel⟩

theorem sheets_read : ∀ s ∈ sheets, SheetRead s := by
  have h : ∀ {s : Sheet} {ss : List Sheet}, SheetRead s → (∀ s ∈ ss, SheetRead s) → ∀ x ∈ s :: ss, SheetRead x := by
    intro s ss h1 h2 x hx
    rcases List.mem_cons.1 hx with rfl | hx
    · exact h1
    · exact h2 x hx
  exact h numberZhParts_read <| h mathZhParts_read <| h limitParts_read <| h orderParts_read <| h sqlParts_read <| h timeParts_read <| h sfParts_read <| h arithmeticParts_read <| h builtinParts_read <| h cnNumParts_read <| h exNumberZhParts_read <| h exMathZhParts_read <| h numberEnParts_read <| h mathEnParts_read <| h mathParts_read <| h latexParts_read <| fun _ h => by cases h

end Fmr
