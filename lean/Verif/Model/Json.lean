import Verif.Model.Api

/-!
# Model of the JSON form of a grammar (types.go struct tags)

`json.Unmarshal` of what `json.Marshal` returns, on the data. External contract (encoding/json): strings, booleans and
maps from strings or integers survive; a field tagged `-` and unexported fields are not written, and are zero when
read; a field tagged `omitempty` that is not written is empty when read; a number read into an `interface{}` is a
`float64`, an object is a `map[string]interface{}`, null is nil; a value with `MarshalText` is written as a string.
Strings are valid UTF-8 (others are changed by the encoder), and numbers are below 2^1024 (the decoder rejects
others).
-/

namespace Fmr

/-- types.go:94 `Term.Meta interface{}`: a `map[string]int` becomes a `map[string]interface{}`. -/
def Meta.json : Meta → Meta
  | .nil => .nil
  | .range _ _ => .other 0
  | .flags s => .flags s
  | .other t => .other t

/-- types.go:91-95 `Term`. The type is written and read by termtype_jsonenums.go:41-64, which gives it back
(`C48_roundtrip`). -/
def Term.json (t : Term) : Term := { value := t.value, type := t.type, «meta» := t.meta.json }

/-- types.go:109 `Arg.Value interface{}`. `ft` is `(*big.Float).MarshalText`; `*big.Int` and `int` are written as numbers
and read as `float64` (`other 0`), an `*FMR` is read as a map (`other 1`), a nil pointer as nil (`other 2`). -/
def Val.json (ft : Rat → String) : Val → Val
  | .str s => .str s
  | .bigInt _ => .other 0
  | .bigFloat q => .str (ft q)
  | .int _ => .other 0
  | .fmr _ => .other 1
  | .nilFmr => .other 2
  | .other t => .other t

/-- types.go:107-110 `Arg`. -/
def Arg.json (ft : Rat → String) (a : Arg) : Arg := .mk a.type (a.value.json ft)

/-- types.go:113-116 `FMR`. -/
def FMR.json (ft : Rat → String) (f : FMR) : FMR := .mk f.fn (f.args.map (Arg.json ft))

/-- types.go:71-74 `RuleBody`; a nil `F` is not written. -/
def RuleBody.json (ft : Rat → String) (b : RuleBody) : RuleBody :=
  { terms := b.terms.map Term.json, f := b.f.map (FMR.json ft) }

/-- types.go:65-68 `Rule`: `Name` is tagged `json:"-"`. -/
def Rule.json (ft : Rat → String) (r : Rule) : Rule :=
  { name := "", body := r.body.map (fun e => (e.1, e.2.json ft)) }

/-- types.go:16-22 the exported fields of `Grammar`. -/
def Grammar.json (ft : Rat → String) (g : Grammar) : Grammar :=
  { name := g.name, rules := g.rules.map (fun e => (e.1, e.2.json ft)),
    frames := g.frames.map (fun e => (e.1, e.2.json ft)), regexps := g.regexps, refined := g.refined }

/-- types.go:16-28 `Grammar`: `includes` (27) is not exported. -/
def Gram.json (ft : Rat → String) (g : Gram) : Gram := { main := g.main.json ft, includes := [] }

end Fmr
