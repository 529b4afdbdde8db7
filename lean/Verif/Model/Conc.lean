import Verif.Model.Refine

/-!
# Model of the shared state: grammar_tokens.go and `NLP` (api.go:18-48)

Goroutines are numbered; any number of them may run. A state of the system has a program counter for every
goroutine, and any goroutine that can take a step may take the next one (interleaving semantics, which is what
Go guarantees for programs without data races; absence of races is part of C49 and C50).

`sync.RWMutex` is modelled by its specification: `RLock` waits until there is no writer, `Lock` waits until there
is neither writer nor reader. The real one also holds back new readers while a writer waits; that removes
schedules, so what holds for all schedules here holds there. The lists of lock holders are
ghosts (the real lock only counts). `sync.Once` is modelled step by step from its published code: a flag
`done` read without the lock, then a mutex, `done` read again, the function, `done` set and the mutex released in
deferred calls, also when the function panics.
-/

namespace Fmr

/-! ## the token registry -/

/-- Program counter of a goroutine inside `cMap.get` or `cMap.put` (grammar_tokens.go:14-24). -/
inductive CMPC where
  /-- outside -/
  | idle
  /-- `get(k)` called, before `RLock` (line 15) -/
  | wantR (k : String)
  /-- `RLock` acquired -/
  | holdR (k : String)
  /-- during the map access of line 17 -/
  | reading (k : String)
  /-- line 17 done, before the deferred `RUnlock` -/
  | gotR (k : String) (v : Option Token)
  /-- `put(k, t)` called, before `Lock` (line 21) -/
  | wantW (k : String) (t : Token)
  /-- `Lock` acquired -/
  | holdW (k : String) (t : Token)
  /-- during the map access of line 23 -/
  | writing (k : String) (t : Token)
  /-- line 23 done, before the deferred `Unlock` -/
  | didW (k : String) (t : Token)

/-- What happens in a step; the first argument is the goroutine. `retGet` and `retPut` are the
deferred unlock together with the return. -/
inductive CMEv where
  | callGet (i : Nat) (k : String)
  | rlock (i : Nat)
  | beginRead (i : Nat)
  | endRead (i : Nat) (k : String) (v : Option Token)
  | retGet (i : Nat) (k : String) (v : Option Token)
  | callPut (i : Nat) (k : String) (t : Token)
  | lock (i : Nat)
  | beginWrite (i : Nat)
  | endWrite (i : Nat) (k : String) (t : Token)
  | retPut (i : Nat) (k : String) (t : Token)
deriving DecidableEq

/-- grammar_tokens.go:9-12 `cMap`, and the goroutines. -/
structure CMState where
  tokens : String → Option Token
  readers : List Nat
  writer : Option Nat
  pc : Nat → CMPC

/-- grammar_tokens.go:26 the registry at the start of the program. -/
def CMState.init : CMState :=
  { tokens := fun _ => none, readers := [], writer := none, pc := fun _ => .idle }

/-- goroutine `i` goes to `c` -/
def CMState.goto (s : CMState) (i : Nat) (c : CMPC) : CMState :=
  { s with pc := fun j => if j = i then c else s.pc j }

/-- one step of some goroutine in grammar_tokens.go:14-24 -/
inductive CMStep : CMState → CMEv → CMState → Prop
  | callGet {s i k} : s.pc i = .idle → CMStep s (.callGet i k) (s.goto i (.wantR k))
  | rlock {s i k} : s.pc i = .wantR k → s.writer = none →
      CMStep s (.rlock i) { s.goto i (.holdR k) with readers := i :: s.readers }
  | beginRead {s i k} : s.pc i = .holdR k → CMStep s (.beginRead i) (s.goto i (.reading k))
  | endRead {s i k} : s.pc i = .reading k →
      CMStep s (.endRead i k (s.tokens k)) (s.goto i (.gotR k (s.tokens k)))
  | retGet {s i k v} : s.pc i = .gotR k v →
      CMStep s (.retGet i k v) { s.goto i .idle with readers := s.readers.erase i }
  | callPut {s i k t} : s.pc i = .idle → CMStep s (.callPut i k t) (s.goto i (.wantW k t))
  | lock {s i k t} : s.pc i = .wantW k t → s.writer = none → s.readers = [] →
      CMStep s (.lock i) { s.goto i (.holdW k t) with writer := some i }
  | beginWrite {s i k t} : s.pc i = .holdW k t → CMStep s (.beginWrite i) (s.goto i (.writing k t))
  | endWrite {s i k t} : s.pc i = .writing k t →
      CMStep s (.endWrite i k t)
        { s.goto i (.didW k t) with tokens := fun k' => if k' = k then some t else s.tokens k' }
  | retPut {s i k t} : s.pc i = .didW k t →
      CMStep s (.retPut i k t) { s.goto i .idle with writer := none }

/-- `CMRun es s`: the events `es`, in this order, lead from the start to `s`. -/
inductive CMRun : List CMEv → CMState → Prop
  | init : CMRun [] CMState.init
  | step {es s e s'} : CMRun es s → CMStep s e s' → CMRun (es ++ [e]) s'

/-- what a goroutine sees of its own calls -/
inductive CMCall where
  | get (k : String)
  | got (k : String) (v : Option Token)
  | put (k : String) (t : Token)
  | done (k : String) (t : Token)

/-- the calls and returns of goroutine `i` -/
def callsOf (i : Nat) : List CMEv → List CMCall
  | [] => []
  | .callGet j k :: es => if j = i then .get k :: callsOf i es else callsOf i es
  | .retGet j k v :: es => if j = i then .got k v :: callsOf i es else callsOf i es
  | .callPut j k t :: es => if j = i then .put k t :: callsOf i es else callsOf i es
  | .retPut j k t :: es => if j = i then .done k t :: callsOf i es else callsOf i es
  | _ :: es => callsOf i es

/-- What a goroutine of this library does with the registry: `Ensures toks cs` says that the calls and
returns `cs` are those of code that runs grammar_refine.go:48-50 for the tokens `toks`, in this order, and
any number of lookups (earley_terminal_match.go:13). There are no other uses. -/
inductive Ensures : List Token → List CMCall → Prop
  | nil : Ensures [] []
  /-- earley_terminal_match.go:13 -/
  | lookup {k v toks cs} : Ensures toks cs → Ensures toks (.get k :: .got k v :: cs)
  /-- the condition of line 48 is false -/
  | present {t v toks cs} : Ensures toks cs →
      Ensures (t :: toks) (.get t.text :: .got t.text (some v) :: cs)
  /-- line 49 -/
  | missing {t toks cs} : Ensures toks cs →
      Ensures (t :: toks) (.get t.text :: .got t.text none :: .put t.text t :: .done t.text t :: cs)

/-! ## `NLP` -/

/-- The taggers that `NLP` adds (api.go:29,40). -/
inductive Tagger where
  | dict
  | api
deriving DecidableEq

/-- A pipeline object; `num` tells objects apart. -/
structure Pipe where
  num : Nat
  taggers : List Tagger
deriving DecidableEq

/-- Program counter of a goroutine inside `NLP` (api.go:22-48) and `(*sync.Once).Do`. -/
inductive OncePC where
  | idle
  /-- `Do` called, before the flag is read without the lock -/
  | fast
  /-- before the mutex is acquired -/
  | wantLock
  /-- mutex held, before the flag is read again -/
  | locked
  /-- api.go:26 `DefaultNLP` -/
  | construct
  /-- api.go:29 `NewDictTagger` -/
  | newDict
  /-- api.go:32 `AddTagger` -/
  | addDict
  /-- api.go:35 -/
  | checkApi
  /-- api.go:39 `NewAPITagger` -/
  | newApi
  /-- api.go:42 `AddTagger` -/
  | addApi
  /-- the function has returned or panicked; the flag is not set yet -/
  | setDone (panicking : Bool)
  /-- the flag is set, the mutex is held -/
  | unlock (panicking : Bool)
  /-- api.go:47 -/
  | readNlp
  /-- the goroutine is panicking, outside `NLP` -/
  | panicked

/-- What happens in a step. `construct` is the call of `DefaultNLP` with the number of the object made, `none` for
an error; `ext` is a call of another library function, with `true` for no error; `finish` is the normal end of the
function given to `Do`. -/
inductive OnceEv where
  | call (i : Nat)
  | tau (i : Nat)
  | construct (i : Nat) (num : Option Nat)
  | ext (i : Nat) (ok : Bool)
  | finish (i : Nat)
  | ret (i : Nat) (v : Option Pipe)
  | panic (i : Nat)
deriving DecidableEq

/-- api.go:18-19 the variables, and the goroutines. The flag of api.go:14 does not change (flags are parsed before
use) and is a parameter of the step relation. -/
structure OnceState where
  done : Bool
  mutex : Option Nat
  nlp : Option Pipe
  pc : Nat → OncePC

def OnceState.init : OnceState := { done := false, mutex := none, nlp := none, pc := fun _ => .idle }

def OnceState.goto (s : OnceState) (i : Nat) (c : OncePC) : OnceState :=
  { s with pc := fun j => if j = i then c else s.pc j }

/-- one step of some goroutine in api.go:22-48; `api` is `*apiTagger != ""`. `DefaultNLP`
yields nil with an error. -/
inductive OnceStep (api : Bool) : OnceState → OnceEv → OnceState → Prop
  | call {s i} : s.pc i = .idle → OnceStep api s (.call i) (s.goto i .fast)
  | fastDone {s i} : s.pc i = .fast → s.done = true → OnceStep api s (.tau i) (s.goto i .readNlp)
  | fastNot {s i} : s.pc i = .fast → s.done = false → OnceStep api s (.tau i) (s.goto i .wantLock)
  | lock {s i} : s.pc i = .wantLock → s.mutex = none →
      OnceStep api s (.tau i) { s.goto i .locked with mutex := some i }
  | slowDone {s i} : s.pc i = .locked → s.done = true → OnceStep api s (.tau i) (s.goto i (.unlock false))
  | slowNot {s i} : s.pc i = .locked → s.done = false → OnceStep api s (.tau i) (s.goto i .construct)
  | constructOk {s i} (num : Nat) : s.pc i = .construct →
      OnceStep api s (.construct i (some num)) { s.goto i .newDict with nlp := some { num := num, taggers := [] } }
  | constructErr {s i} : s.pc i = .construct →
      OnceStep api s (.construct i none) { s.goto i (.setDone true) with nlp := none }
  | newDictOk {s i} : s.pc i = .newDict → OnceStep api s (.ext i true) (s.goto i .addDict)
  | newDictErr {s i} : s.pc i = .newDict → OnceStep api s (.ext i false) (s.goto i (.setDone true))
  | addDictOk {s i} : s.pc i = .addDict →
      OnceStep api s (.ext i true)
        { s.goto i .checkApi with nlp := s.nlp.map (fun p => { p with taggers := p.taggers ++ [.dict] }) }
  | addDictErr {s i} : s.pc i = .addDict → OnceStep api s (.ext i false) (s.goto i (.setDone true))
  | noApi {s i} : s.pc i = .checkApi → api = false → OnceStep api s (.finish i) (s.goto i (.setDone false))
  | withApi {s i} : s.pc i = .checkApi → api = true → OnceStep api s (.tau i) (s.goto i .newApi)
  | newApiOk {s i} : s.pc i = .newApi → OnceStep api s (.ext i true) (s.goto i .addApi)
  | newApiErr {s i} : s.pc i = .newApi → OnceStep api s (.ext i false) (s.goto i (.setDone true))
  | addApiOk {s i} : s.pc i = .addApi →
      OnceStep api s (.finish i)
        { s.goto i (.setDone false) with nlp := s.nlp.map (fun p => { p with taggers := p.taggers ++ [.api] }) }
  | addApiErr {s i} : s.pc i = .addApi → OnceStep api s (.ext i false) (s.goto i (.setDone true))
  | setDone {s i b} : s.pc i = .setDone b →
      OnceStep api s (.tau i) { s.goto i (.unlock b) with done := true }
  | unlock {s i} : s.pc i = .unlock false →
      OnceStep api s (.tau i) { s.goto i .readNlp with mutex := none }
  | unlockPanic {s i} : s.pc i = .unlock true →
      OnceStep api s (.panic i) { s.goto i .panicked with mutex := none }
  | ret {s i} : s.pc i = .readNlp → OnceStep api s (.ret i s.nlp) (s.goto i .idle)

/-- the events `es`, in this order, lead from the start to `s` -/
inductive OnceRun (api : Bool) : List OnceEv → OnceState → Prop
  | init : OnceRun api [] OnceState.init
  | step {es s e s'} : OnceRun api es s → OnceStep api s e s' → OnceRun api (es ++ [e]) s'

end Fmr
