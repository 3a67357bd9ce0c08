import Verif.JackConnections

/-
`sumpf.Jack` (`/repo/sumpf/_blocks/_jack.py`): the life cycle of an instance, i.e. its construction, setting the signal, adding
and removing input ports, starting a recording, the callbacks of the JACK server and retrieving the recording.

In addition to the documented behaviour of JACK, that is listed in `JackConnections.lean`: registering a port raises a
`JackError`, if the client has a port with this name already.

The threads are not modelled here (see `JackThreads.lean`); a method, that waits for the event, while it is not set, has the
result `none`. The callbacks are executed one after the other. The connectors, that propagate changed values
(`connectors.Input`, …), are not modelled.
-/

namespace Verif
namespace Jack

variable {α R T : Type}

/-- the port of a client; the full name of a port in JACK consists of the name of the client and the short name -/
def clientPort (client short : String) : Port := ⟨short, client ++ ":" ++ short⟩

/-- the labels of the output ports for a signal (`_jack.py:360-373`); the limit for the number of iterations is never
exceeded, see `C55_port_names` -/
def outputNames (s : Signal α R) : List String := (portNames s.labels.length (s.labels.map some) s.count).getD []

namespace World

/-- `client.inports.register(short_name)` (`_jack.py:94, 218`) -/
def registerInput (client short : String) (w : World) : Except Exc World :=
  if short ∈ w.inports.map Port.shortname ∨ short ∈ w.outports.map Port.shortname then .error .jackError
  else .ok { w with inports := w.inports ++ [clientPort client short], inputs := w.inputs ++ [clientPort client short] }

/-- the creation of the ports in `__update_output_ports` (`_jack.py:374-386`) for the given labels. If an input port has one of
the labels, the registration of the port fails after those before it have been registered. -/
def setOutputs (client : String) (names : List String) (w : World) : World × Option Exc :=
  if w.outports.map Port.shortname ≠ names ∧ ∃ x ∈ names, x ∈ w.inports.map Port.shortname then
    (registerOutputs (storeConnections w)
      ((names.takeWhile fun x => decide (¬ x ∈ w.inports.map Port.shortname)).map (clientPort client)), some .jackError)
  else updateOutputs w (names.map (clientPort client))

/-- `remove_input_port` (`_jack.py:221-252`). Simplification: for an object of a port, that does not belong to this client, an
`AttributeError` (`port.unregister`) or an `UnboundLocalError` (`index`) is raised; here, these are not distinguished and the
stored connections are left alone. -/
def removeInput (w : World) (spec : PortSpec) : Except Exc World :=
  match findPort w.inports w.inports spec with
  | .error e => .error e
  | .ok port =>
    match w.inports.findIdx? fun p => decide (p = port) with
    | none => .error .attributeError
    | some index => .ok { w with
        stored := removeConnections port index w.stored
        inports := w.inports.eraseIdx index
        inputs := w.inputs.filter fun p => decide (p ≠ port)
        edges := w.edges.filter fun e => decide (e.2 ≠ port) }

end World

/-- the attributes of an instance (`_jack.py:84-97`) -/
structure Session (α R T : Type) where
  client : String
  world : World
  input : Signal α R
  state : State α
  auto : Bool
  rate : R
  blocksize : Nat
  xruns : Nat × Option (XRun T)

/-- the callbacks of the JACK server (`_jack.py:99-102`) and a change of `client.blocksize` -/
inductive Event (α R T : Type) where
  | process (b : Block α)
  | samplingRate (r : R)
  | shutdown
  | xrun (delay : T)
  | blocksize (n : Nat)

namespace Session

/-- the loop over the input ports in `__init__` (`_jack.py:93-94`) -/
def registerAll (client : String) : World → List String → Except Exc World
  | w, [] => .ok w
  | w, x :: l => do
    let w ← w.registerInput client x
    registerAll client w l

/-- `__init__` (`_jack.py:72-104`); `inputs` and `outputs` are the ports of the other clients, `edges` their connections, `rate`
and `blocksize` are those of the JACK server -/
def new (client : String) (inputs outputs : List Port) (edges : List (Port × Port)) (rate : R) (blocksize : Nat)
    (empty : Mat α) (signal : Signal α R) (ports : List String) (auto : Bool) : Except Exc (Session α R T) := do
  let w : World := ⟨inputs, outputs, [], [], edges, false, []⟩
  match w.setOutputs client (outputNames signal) with
  | (_, some e) => .error e
  | (w, none) =>
    let w ← registerAll client w ports
    return ⟨client, { w with active := !auto }, signal, ⟨empty, 0, true⟩, auto, rate, blocksize, (0, none)⟩

/-- `start` (`_jack.py:118-138`); the second element of the result is the exception -/
def start (mem : Nat → Nat → α) (s : Session α R T) : Session α R T × Option Exc :=
  match s.world.activate with
  | (w, none) => ({ s with world := w, state := Jack.start mem w.inports.length s.input }, none)
  | (w, some e) => ({ s with world := w }, some e)

/-- `input` (`_jack.py:141-150`); `none`: the method waits for the end of the recording -/
def setInput (s : Session α R T) (signal : Signal α R) : Option (Session α R T × Option Exc) :=
  if s.state.event then
    let r := s.world.setOutputs s.client (outputNames signal)
    some ({ s with input := signal, world := r.1 }, r.2)
  else none

/-- `input_ports` (`_jack.py:195-205`) -/
def inputPorts (s : Session α R T) : List String := s.world.inports.map Port.shortname

/-- `output` (`_jack.py:153-165`); `none`: the method waits for the end of the recording -/
def output (s : Session α R T) : Option (Signal α R) :=
  if s.state.event then some (Jack.output s.input s.rate s.inputPorts s.state) else none

/-- `add_input_port` (`_jack.py:208-219`) -/
def addInputPort (s : Session α R T) (short : String) : Except Exc (Session α R T) := do
  let w ← s.world.registerInput s.client short
  return { s with world := w }

/-- `remove_input_port` (`_jack.py:221-252`) -/
def removeInputPort (s : Session α R T) (spec : PortSpec) : Except Exc (Session α R T) := do
  let w ← s.world.removeInput spec
  return { s with world := w }

/-- `auto_deactivate` (`_jack.py:292-309`); `none`: the method waits for the end of the recording -/
def setAuto (s : Session α R T) (auto : Bool) : Option (Session α R T) :=
  if auto then
    if s.state.event then some { s with auto := auto, world := s.world.autoDeactivate auto } else none
  else some { s with auto := auto }

/-- `on_process`, `on_sampling_rate_change`, `on_shutdown` and `on_xrun` (`_jack.py:438-485`). The exception
`jack.CallbackExit`, that tells JACK not to call the function again, has no effect on the instance. -/
def handle [Zero α] [Mul T] [OfNat T 1000000] (s : Session α R T) : Event α R T → Py (Session α R T)
  | .process b => do
    let (st, _) ← onProcess s.input s.state b
    let finished := s.state.event = false ∧ st.event = true
    return { s with state := st, world := if finished ∧ s.auto then s.world.storeConnections else s.world }
  | .samplingRate r => .ok { s with rate := r }
  | .shutdown => .ok { s with state := { s.state with event := true } }
  | .xrun delay => .ok { s with xruns := onXrun s.xruns s.state.index s.blocksize delay }
  | .blocksize n => .ok { s with blocksize := n }

/-- a sequence of callbacks -/
def run [Zero α] [Mul T] [OfNat T 1000000] : Session α R T → List (Event α R T) → Py (Session α R T)
  | s, [] => .ok s
  | s, e :: l => do
    let s ← s.handle e
    run s l

end Session
end Jack
end Verif
