import Verif.Model.Api
import Verif.Model.Node
import Verif.Model.Load

/-!
# Model of the example programs: examples/arithmetic/main.go, examples/builtin/main.go, examples/math/main.go

The three programs load a grammar and a script, and answer the lines of their input one after the other. A program writes
bytes and changes the state of the JavaScript engine, until `main` returns or it ends in one of the ways of `Halt`.

Simplifications: the flags are given (`-debug` and `-cpuprofile` are off); standard output can be written; the input can be
read to its end; what glog writes to the log is left out; runs of the JavaScript engine end, without a panic.
-/

namespace Fmr

/-- How a program can end before `main` returns.
* `fatal`     : `glog.Fatal`, which ends the program with status 255
* `crash`     : a panic that nothing recovers
* `recovered` : builtin/main.go:27-31, a panic is recovered and printed (its text is not modelled)
* `running`   : not finished within the fuel -/
inductive Halt where
  | fatal
  | crash
  | recovered
  | running
  deriving DecidableEq, Repr

/-- A part of a program: from the state of the JavaScript engine to the bytes written, the state after it, and the result,
unless the program ends in it. -/
def Act (V α : Type) : Type := V → Bytes × V × Except Halt α

def Act.bind {V α β : Type} (x : Act V α) (f : α → Act V β) : Act V β := fun v =>
  match x v with
  | (o, v, .error s) => (o, v, .error s)
  | (o, v, .ok a) => (o ++ (f a v).1, (f a v).2)

instance {V : Type} : Monad (Act V) where
  pure a := fun v => ([], v, .ok a)
  bind := Act.bind

/-- writing to standard output -/
def say {V : Type} (b : Bytes) : Act V Unit := fun v => (b, v, .ok ())

/-- writing the bytes of a string -/
def sayString {V : Type} (s : String) : Act V Unit := say (utf8 s)

/-- the end of the program -/
def halt {V α : Type} (s : Halt) : Act V α := fun v => ([], v, .error s)

/-- a call, with `if err != nil { glog.Fatal(err) }` after it -/
def need {V α : Type} : Out α → Act V α
  | .ok a => pure a
  | .err => halt .fatal
  | .panic => halt .crash
  | .div => halt .running

/-- `for _, a := range l` -/
def forEach {V α : Type} (f : α → Act V Unit) : List α → Act V Unit
  | [] => pure ()
  | a :: l => do
    f a
    forEach f l

/-- github.com/robertkrimen/otto, as far as the programs use it.
* `new`    : `otto.New`
* `run`    : `vm.Run`, the value or `none` for an error
* `str`    : a value as `fmt.Printf` shows it with `%v`
* `exported` : the value of `Export`, as `fmt.Printf` shows it with `%+v`
* `failed` : the same for the value that comes with an error -/
structure Js (V R : Type) where
  new : V
  run : V → String → V × Option R
  str : R → Bytes
  exported : R → Bytes
  failed : Bytes

/-- `vm.Run` -/
def Js.call {V R : Type} (js : Js V R) (s : String) : Act V (Option R) := fun v => ([], (js.run v s).1, .ok (js.run v s).2)

/-- bufio `ReadString('\n')`: what is read, what is left, and whether the error is `io.EOF`. -/
def readString : Bytes → Bytes × Bytes × Bool
  | [] => ([], [], true)
  | b :: inp =>
    if b = 10 then ([b], inp, false)
    else
      let r := readString inp
      (b :: r.1, r.2)

/-- arithmetic/main.go:51-85, builtin/main.go:68-103, math/main.go:67-114: the loop over the lines of the input, which ends
when `ReadString` reports the end of the input. `line` is the rest of the body. -/
def answerLoop {V : Type} (line : Bytes → Act V Unit) : Nat → Bytes → Act V Unit
  | 0, _ => halt .running
  | n + 1, inp =>
    let r := readString inp
    if r.2.2 then pure ()
    else do
      line r.1
      answerLoop line n r.2.1

/-- The trees of one final state: earley_ast.go:42-52 `GetTrees`, for the final states of earley_ast.go:17-19 -/
def treesAt {V : Type} (fuel : Nat) (p : Parsed) (f : Nat × Nat) : Act V (List Node) :=
  need (Out.ofFuel (getTrees p.res.chart fuel f.1 f.2))

section
variable {V R : Type} (w : World) (nw : NodeWorld) (js : Js V R) (g : Gram) (fuel : Nat)

/-- arithmetic/main.go:70-81 one tree -/
def arithmeticTree (p : Parsed) (n : Node) : Act V Unit := do
  let sem ← need (n.semantic nw p)
  let r ← js.call sem
  match r with
  | none => halt .fatal
  | some r => say (utf8 sem ++ utf8 " = " ++ js.str r ++ utf8 "\n")

/-- arithmetic/main.go:65-83 one parse, with its index -/
def arithmeticParse (a : Parsed × Nat) : Act V Unit :=
  forEach (fun f => do
    let trees ← treesAt fuel a.1 f
    sayString ("p" ++ toString a.2 ++ " tree number:" ++ toString trees.length ++ "\n")
    forEach (arithmeticTree nw js a.1) trees) (finalPtrs true a.1.res.chart)

/-- arithmetic/main.go:59-84 one line -/
def arithmeticLine (line : Bytes) : Act V Unit := do
  say (line ++ utf8 "\n")
  let ps ← need (earleyParseMaxAll w g fuel "" line ["number"])
  forEach (arithmeticParse nw js fuel) ps.zipIdx
  sayString "\n"

/-- math/main.go:90-110 one tree. An error of the engine is logged, and the loop goes on. -/
def mathTree (eval : Bool) (p : Parsed) (n : Node) : Act V Unit := do
  let sem ← need (n.semantic nw p)
  if eval then do
    let r ← js.call sem
    match r with
    | none => pure ()
    | some r => say (utf8 sem ++ utf8 " => " ++ js.exported r ++ utf8 "\n")
  else sayString (sem ++ "\n")

/-- math/main.go:85-112 one parse, with its index -/
def mathParse (eval : Bool) (a : Parsed × Nat) : Act V Unit :=
  forEach (fun f => do
    let trees ← treesAt fuel a.1 f
    sayString ("p" ++ toString a.2 ++ " tree number:" ++ toString trees.length ++ "\n")
    forEach (mathTree nw js eval a.1) trees) (finalPtrs true a.1.res.chart)

/-- math/main.go:75-113 one line -/
def mathLine (eval : Bool) (start : String) (line : Bytes) : Act V Unit := do
  let line := w.trim line
  say (line ++ utf8 "\n")
  if line.length = 0 then pure ()
  else do
    let ps ← need (earleyParseMaxAll w g fuel "" line [start])
    forEach (mathParse nw js fuel eval) ps.zipIdx
    sayString "\n"

/-- `extract` (Model/Api.lean), where each tree comes with the parse that it points to (earley_ast.go:13) -/
def extractWith (fuel : Nat) (maxFlag : Bool) (ps : Out (List Parsed)) : Out (List (Parsed × Node)) := do
  let ps ← ps
  outFlat (fun p => do
    let ns ← treesOf fuel maxFlag p
    pure (ns.map fun n => (p, n))) ps

/-- builtin/main.go:83-101 one tree. An error of the engine is logged, and the value that comes with it is shown. -/
def builtinTree (a : Parsed × Node) : Act V Unit := do
  let sem ← need (a.2.semantic nw a.1)
  let r ← js.call sem
  say (utf8 sem ++ utf8 " = " ++ (match r with | none => js.failed | some r => js.exported r) ++ utf8 "\n")

/-- builtin/main.go:76-102 one line -/
def builtinLine (start : String) (line : Bytes) : Act V Unit := do
  let line := w.trim line
  say (line ++ utf8 "\n")
  let trees ← need (extractWith fuel true (earleyParseMaxAll w g fuel "" line [start]))
  forEach (builtinTree nw js) trees
  sayString "\n"

end

/-- What a program is started with: the grammar file (with what its loader needs), the contents of the script and of the
input (`none`: it cannot be read). -/
structure Start where
  load : LoadWorld
  loadFuel : Nat
  depth : Nat
  grammar : String
  registry : Registry
  script : Option String
  input : Option Bytes

/-- arithmetic/main.go:23-49, builtin/main.go:32-66, math/main.go:29-65 (without profiles): the beginning of `main`, then
`body` on the loaded grammar and the input. `GrammarFromFile` does not return a nil grammar without an error (see
`loadFile_some`); it would crash the program later. -/
def mainWith {V R : Type} (js : Js V R) (s : Start) (body : Gram → Bytes → Act V Unit) : Act V Unit := do
  let g ← need (loadFile s.load s.loadFuel s.depth s.grammar s.registry)
  let script ← need (Out.ofErr s.script)
  let r ← js.call script
  match r with
  | none => halt .fatal
  | some _ => do
    let inp ← need (Out.ofErr s.input)
    match g.1 with
    | none => halt .crash
    | some ld => body ld.gram inp

/-- what is written and how the program ends (`none`: `main` returns) -/
def finish {V : Type} : Bytes × V × Except Halt Unit → Bytes × Option Halt
  | (o, _, .ok _) => (o, none)
  | (o, _, .error s) => (o, some s)

/-- the program, from the start with a new engine -/
def outcome {V R : Type} (js : Js V R) (x : Act V Unit) : Bytes × Option Halt := finish (x js.new)

section
variable {V R : Type} (w : World) (nw : NodeWorld) (js : Js V R) (fuel : Nat) (s : Start)

/-- examples/arithmetic/main.go:22-86 `main` -/
def arithmeticMain : Bytes × Option Halt :=
  outcome js (mainWith js s fun g inp => answerLoop (arithmeticLine w nw js g fuel) (inp.length + 1) inp)

/-- examples/math/main.go:28-115 `main` -/
def mathMain (eval : Bool) (start : String) : Bytes × Option Halt :=
  outcome js (mainWith js s fun g inp => answerLoop (mathLine w nw js g fuel eval start) (inp.length + 1) inp)

/-- examples/builtin/main.go:26-104 `main`. A panic is recovered (27-31). -/
def builtinMain (start : String) : Bytes × Option Halt :=
  let r := outcome js (mainWith js s fun g inp => answerLoop (builtinLine w nw js g fuel start) (inp.length + 1) inp)
  (r.1, r.2.map fun h => if h = .crash then .recovered else h)

end

end Fmr
