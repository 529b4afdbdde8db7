import Verif.Model.Lexer
import Verif.Model.Refine
import Verif.Model.Index

/-!
# Model of the grammar loader: cfgrammar.go:37-86 and 339-419
-/

namespace Fmr

/-- The world outside the loader.
* `read` : `ioutil.ReadFile`, the bytes decoded to runes (see `Model/Lexer.lean`), `none` an error
* `dir`  : `filepath.Abs(filepath.Dir(file))`, `none` an error
* `join` : `filepath.Join` -/
structure LoadWorld where
  lex : LexWorld
  ref : RefineWorld
  idx : IndexWorld
  read : String → Option (List Char)
  dir : String → Option String
  join : String → String → String

/-- The shared state of a load: `files` (cfgrammar.go:46) and the global token registry; `log` is a ghost
variable for the statement of C33, the files read by `grammarFromFile` so far. -/
structure LoadSt where
  files : List (String × Nat) := []
  reg : Registry := []
  log : List String := []

/-- A loaded grammar with its index. -/
structure Loaded where
  gram : Gram
  index : GIndex

/-- `files[k]` of a `map[string]int`. -/
def LoadSt.count (st : LoadSt) (k : String) : Nat := (st.files.lookup k).getD 0

/-- `files[k]++` (cfgrammar.go:81,369). -/
def LoadSt.incr (st : LoadSt) (k : String) : LoadSt :=
  { st with files := mapSet st.files k (st.count k + 1) }

/-- cfgrammar.go:346-382 the loop over `#include` directives. `inc` is `grammarFromFile`; `gs` is
`g.includes`. -/
def directives (w : LoadWorld) (inc : String → LoadSt → Out (Option Loaded × LoadSt)) (inp : List Char)
    (dir : String) (fuel0 : Nat) :
    Nat → List Grammar → LoadSt → PSt → Out ((List Grammar × LoadSt) × PSt)
  | 0, _, _, _ => .div
  | fuel + 1, gs, st, ps =>
    match directive w.lex inp fuel0 ps with
    | .err => .err
    | .panic => .panic
    | .div => .div
    | .ok (none, ps) => .ok ((gs, st), ps)
    | .ok (some ifile, ps) =>
      let path := w.join dir ifile
      match inc path (st.incr path) with
      | .err => .err
      | .panic => .panic
      | .div => .div
      | .ok (none, st) => directives w inc inp dir fuel0 fuel gs st ps
      | .ok (some ig, st) =>
        directives w inc inp dir fuel0 fuel (gs ++ [ig.gram.main] ++ ig.gram.includes) st
          { ps with regexps := ig.gram.main.regexps.foldl (fun m e => mapSet m e.1 e.2) ps.regexps }

/-- cfgrammar.go:339-419 `grammar`. -/
def grammarText (w : LoadWorld) (inc : String → LoadSt → Out (Option Loaded × LoadSt)) (fuel : Nat)
    (inp : List Char) (name dir : String) (st : LoadSt) : Out (Loaded × LoadSt) := do
  let d ← directives w inc inp dir fuel fuel [] st { pos := 0, width := 0 }
  let g ← grammarRules w.lex inp fuel name d.2
  let gram : Gram := { main := g.1, includes := d.1.1 }
  let gi ← buildIndex w.idx gram
  let r ← refine w.ref "g" fuel d.1.2.reg g.1
  pure ({ gram := { main := r.2, includes := d.1.1 }, index := gi }, { d.1.2 with reg := r.1 })

/-- cfgrammar.go:69-86 `grammarFromString`; `none` is a nil grammar without error. `inc` is
`grammarFromFile`. -/
def fromString (w : LoadWorld) (inc : String → LoadSt → Out (Option Loaded × LoadSt)) (fuel : Nat)
    (d : List Char) (name dir : String) (st : LoadSt) : Out (Option Loaded × LoadSt) :=
  if 2 ≤ st.count name then .ok (none, st)
  else do
    let r ← grammarText w inc fuel d name dir st
    pure (some r.1, r.2.incr name)

/-- cfgrammar.go:49-62 `grammarFromFile`; the first argument bounds the depth of includes. -/
def fromFile (w : LoadWorld) (fuel : Nat) : Nat → String → LoadSt → Out (Option Loaded × LoadSt)
  | 0, _, _ => .div
  | depth + 1, ifile, st =>
    if 2 ≤ st.count ifile then .ok (none, st)
    else
      match w.read ifile with
      | none => .err
      | some b =>
        match w.dir ifile with
        | none => .err
        | some dir => fromString w (fromFile w fuel depth) fuel b ifile dir { st with log := st.log ++ [ifile] }

/-- cfgrammar.go:65-67 `GrammarFromString`. `reg` is the registry at the time of the call. -/
def loadString (w : LoadWorld) (fuel depth : Nat) (d : List Char) (name : String) (reg : Registry) :
    Out (Option Loaded × LoadSt) :=
  fromString w (fromFile w fuel depth) fuel d name "." { reg := reg }

/-- cfgrammar.go:37-47 `GrammarFromFile`. -/
def loadFile (w : LoadWorld) (fuel depth : Nat) (file : String) (reg : Registry) :
    Out (Option Loaded × LoadSt) :=
  match w.read file with
  | none => .err
  | some b =>
    match w.dir file with
    | none => .err
    | some dir => fromString w (fromFile w fuel depth) fuel b file dir { files := [(file, 1)], reg := reg }

end Fmr
