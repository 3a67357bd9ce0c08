import Verif.MultiInput
import Verif.JackSession

/-
The caching of the results in the output connectors of `sumpf.Merge`, `sumpf.Concatenate` and `sumpf.Jack`
(`/repo/sumpf/_blocks/_merge.py`, `/repo/sumpf/_blocks/_concatenate.py`, `/repo/sumpf/_blocks/_jack.py`).

The package `connectors` is not a part of the repository. What is assumed about it is its documented behaviour: a method with
the decorator `@connectors.Output()` stores its result and returns the stored one, until a method is called, whose decorator
`@connectors.Input(…)` or `@connectors.MultiInput(…)` mentions the output method; the methods, that are decorated with `remove`
and `replace` of a multi-input, mention the same output methods as the multi-input itself. Exceptions are not stored. The stored
result is also dropped, if the method raises an exception.

Connections between instances are not modelled, all methods are called directly.
-/

namespace Verif
namespace Caching

/-- calling a method with the decorator `@connectors.Output()`: the result and the stored result -/
def read {E V : Type} (compute : Except E V) : Option V → Except E V × Option V
  | some v => (.ok v, some v)
  | none => match compute with
    | .ok v => (.ok v, some v)
    | .error e => (.error e, none)

/-- the stored result of the output method `name`, after a method has been called, whose decorator mentions the methods
`outputs` -/
def announce {V : Type} (name : String) (outputs : List String) (cache : Option V) : Option V :=
  if name ∈ outputs then none else cache

/-! ### `Merge` and `Concatenate` -/

section Block

variable {Id D P V : Type} [DecidableEq Id]

/-- an instance of `Merge` or `Concatenate` (`_merge.py:52-55`, `_concatenate.py:45-47`) with the stored result of `output`;
`P` is the type of the mode. `Concatenate` does not have one, there `P` is `Unit`. -/
structure Block (Id D P V : Type) where
  data : MultiInput.Store Id D
  mode : P
  cache : Option V

/-- the methods; `set_mode` exists only in `Merge` -/
inductive BlockCall (Id D P : Type) where
  | modify (c : MultiInput.Call Id D)
  | setMode (p : P)
  | output

/-- what a method returns or raises -/
inductive Reply (Id V : Type) where
  | identifier (i : Id)
  | self
  | value (v : V)
  | error (e : PyExc)

/-- the output methods in the decorators (`_merge.py:133, 146, 157, 169`, `_concatenate.py:148, 159, 170`) -/
def BlockCall.outputs : BlockCall Id D P → List String
  | .modify _ => ["output"]
  | .setMode _ => ["output"]
  | .output => []

/-- the result of `add`, `remove` or `replace` (`_merge.py:144, 156, 167`, `_concatenate.py:158, 169, 179`) -/
def modifyReply (fresh : MultiInput.Store Id D → Id) (d : MultiInput.Store Id D) : MultiInput.Call Id D → Reply Id V
  | .add _ => .identifier (fresh d)
  | .remove _ => .self
  | .replace i _ => .identifier i

/-- a method call; `compute` is the body of `output` (`_merge.py:58-131`, `_concatenate.py:50-146`) -/
def Block.step (fresh : MultiInput.Store Id D → Id) (compute : P → List D → Py V) (b : Block Id D P V)
    (c : BlockCall Id D P) : Reply Id V × Block Id D P V :=
  let b := { b with cache := announce "output" c.outputs b.cache }
  match c with
  | .modify m => match MultiInput.step fresh b.data m with
    | .ok (d, _) => (modifyReply fresh b.data m, { b with data := d })
    | .error e => (.error e, b)
  | .setMode p => (.self, { b with mode := p })
  | .output => match read (compute b.mode (MultiInput.values b.data)) b.cache with
    | (.ok v, cache) => (.value v, { b with cache := cache })
    | (.error e, cache) => (.error e, { b with cache := cache })

/-- a sequence of method calls, after an exception the instance can still be used -/
def Block.run (fresh : MultiInput.Store Id D → Id) (compute : P → List D → Py V) :
    Block Id D P V → List (BlockCall Id D P) → List (Reply Id V)
  | _, [] => []
  | b, c :: l => (b.step fresh compute c).1 :: Block.run fresh compute (b.step fresh compute c).2 l

/-- the constructors (`_merge.py:46-55`, `_concatenate.py:41-47`) -/
def Block.new (fresh : MultiInput.Store Id D → Id) (data : List D) (mode : P) : Block Id D P V :=
  ⟨MultiInput.init fresh data, mode, none⟩

end Block

/-! ### `Jack` -/

section Client

variable {α R T : Type} [Zero α] [Mul T] [OfNat T 1000000]

/-- an instance of `Jack` with the stored results of `output` and `input_ports` -/
structure Client (α R T : Type) where
  session : Jack.Session α R T
  output : Option (Signal α R)
  inputPorts : Option (List String)

/-- the methods and the callbacks -/
inductive ClientCall (α R T : Type) where
  | start (mem : Nat → Nat → α)
  | input (signal : Signal α R)
  | output
  | connect (o i : Jack.PortSpec)
  | inputPorts
  | addInputPort (short : String)
  | removeInputPort (spec : Jack.PortSpec)
  | autoDeactivate (auto : Bool)
  | activate
  | deactivate
  | callback (e : Jack.Event α R T)

/-- what a method returns or raises. `waits`: it waits for the end of the recording; then, the call has no effect. -/
inductive ClientReply (α R : Type) where
  | done
  | signal (s : Signal α R)
  | names (l : List String)
  | error (e : Jack.Exc)
  | crash (e : PyExc)
  | waits

/-- the output methods in the decorators (`_jack.py:117, 140, 207, 221, 291, 311, 323`); the callbacks and `connect` are not
decorated -/
def ClientCall.outputs : ClientCall α R T → List String
  | .start _ => ["output"]
  | .addInputPort _ => ["input_ports"]
  | .removeInputPort _ => ["input_ports"]
  | _ => []

/-- the result of a method, that returns or raises something -/
def finish (s : Jack.Session α R T) : Except Jack.Exc (Jack.Session α R T) → ClientReply α R × Jack.Session α R T
  | .ok t => (.done, t)
  | .error e => (.error e, s)

/-- the result of a method, whose effects remain, if it raises an exception -/
def finishPartly : Jack.Session α R T × Option Jack.Exc → ClientReply α R × Jack.Session α R T
  | (t, none) => (.done, t)
  | (t, some e) => (.error e, t)

/-- the methods and callbacks without the caching (`_jack.py:118-331, 438-485`) -/
def call (s : Jack.Session α R T) : ClientCall α R T → ClientReply α R × Jack.Session α R T
  | .start mem => finishPartly (s.start mem)
  | .input signal => match s.setInput signal with
    | none => (.waits, s)
    | some r => finishPartly r
  | .output => match s.output with
    | none => (.waits, s)
    | some v => (.signal v, s)
  | .connect o i => match s.world.connect o i with
    | .ok w => (.done, { s with world := w })
    | .error e => (.error e, s)
  | .inputPorts => (.names s.inputPorts, s)
  | .addInputPort short => finish s (s.addInputPort short)
  | .removeInputPort spec => finish s (s.removeInputPort spec)
  | .autoDeactivate auto => match s.setAuto auto with
    | none => (.waits, s)
    | some t => (.done, t)
  | .activate => finishPartly ({ s with world := s.world.activate.1 }, s.world.activate.2)
  | .deactivate => (.done, { s with world := s.world.deactivate })
  | .callback e => match s.handle e with
    | .ok t => (.done, t)
    | .error e => (.crash e, s)

/-- a call of a method or callback -/
def Client.step (c : Client α R T) (m : ClientCall α R T) : ClientReply α R × Client α R T :=
  let c := { c with
    output := announce "output" m.outputs c.output
    inputPorts := announce "input_ports" m.outputs c.inputPorts }
  match m with
  | .output => match c.output with
    | some v => (.signal v, c)
    | none => match c.session.output with
      | some v => (.signal v, { c with output := some v })
      | none => (.waits, c)
  | .inputPorts => match c.inputPorts with
    | some l => (.names l, c)
    | none => (.names c.session.inputPorts, { c with inputPorts := some c.session.inputPorts })
  | m => ((call c.session m).1, { c with session := (call c.session m).2 })

/-- a sequence of calls: what the methods return and the instance afterwards -/
def Client.run : Client α R T → List (ClientCall α R T) → List (ClientReply α R) × Client α R T
  | c, [] => ([], c)
  | c, m :: l => ((c.step m).1 :: (Client.run (c.step m).2 l).1, (Client.run (c.step m).2 l).2)

end Client

end Caching
end Verif
