import Verif.Signal

/-
`sumpf.Jack` (`/repo/sumpf/_blocks/_jack.py`): the callback that exchanges samples with the JACK server, the names
of the output ports and the stored connections.

The JACK server and its python bindings are not a part of the repository. A call of the process callback is described
by the number of frames, the content of the buffers of the input ports and the (arbitrary) content of the buffers of
the output ports before the call. Here, the calls are executed one after the other, while the thread, that has started
the recording, waits for the event; the interleavings of the threads are modelled in `JackThreads.lean`.
-/

namespace Verif
namespace Jack

variable {α R : Type}

/-- the attributes `_channels`, `_index` and `_event` of the `Jack` instance (`_jack.py:87-90`); `event = true` means,
that the event is set, so no recording is in progress -/
structure State (α : Type) where
  channels : Mat α
  index : Int
  event : Bool

/-- one call of the process callback by the JACK server: the number of frames, the buffers of the input ports and the
buffers of the output ports -/
structure Block (α : Type) where
  frames : Nat
  input : Mat α
  output : Mat α

/-- the JACK server provides buffers with the length of the block -/
def Block.Valid (b : Block α) (inports outports : Nat) : Prop :=
  b.input.rows = inports ∧ b.input.cols = b.frames ∧ b.output.rows = outports ∧ b.output.cols = b.frames

/-- `start` (`_jack.py:134-138`) -/
def start (mem : Nat → Nat → α) (inports : Nat) (s : Signal α R) : State α :=
  ⟨alloc mem inports s.length, 0, false⟩

/-- `on_process` (`_jack.py:438-465`). The result consists of the new state and the buffers of the output ports. The
loops over `zip(ports, channels)` are assignments to the rows, which both have. In the last branch, the instance
might be deactivated by raising `jack.CallbackExit`; this does not have an effect on the state or the buffers. -/
def onProcess [Zero α] (s : Signal α R) (st : State α) (b : Block α) : Py (State α × Mat α) :=
  if st.event = false then
    let index := st.index
    let stop := index + b.frames
    let outs : PySlice := .range 0 (min b.output.rows s.count : Nat)
    let ins : PySlice := .range 0 (min b.input.rows st.channels.rows : Nat)
    if stop ≤ s.length then do
      let output ← b.output.assign outs .all (s.channels.slice outs (.range index stop))
      let channels ← st.channels.assign ins (.range index stop) (b.input.slice ins .all)
      return ({ st with channels := channels, index := stop }, output)
    else if index < s.length then do
      let stop := s.length - index
      let output ← b.output.assign outs (.range 0 stop) (s.channels.slice outs (.drop index))
      let output ← output.assign outs (.drop stop) (.scalar 0)
      let channels ← st.channels.assign ins (.drop index) (b.input.slice ins (.range 0 stop))
      return ({ st with channels := channels, index := stop }, output)
    else
      .ok ({ st with event := true }, b.output)
  else .ok (st, b.output)

/-- A sequence of calls of the callback; the result consists of the last state and the buffers of all calls. -/
def process [Zero α] (s : Signal α R) : State α → List (Block α) → Py (State α × List (Mat α))
  | st, [] => .ok (st, [])
  | st, b :: bs => do
    let (st, out) ← onProcess s st b
    let (st, outs) ← process s st bs
    return (st, out :: outs)

/-- `output` (`_jack.py:152-165`), after the event has been set -/
def output (s : Signal α R) (rate : R) (shortNames : List String) (st : State α) : Signal α R :=
  Signal.new st.channels rate s.offset (some shortNames)

/-! ### Output ports -/

/-- the loop `while new_label in checked_labels` (`_jack.py:366-367`), with a limit for the number of iterations -/
def unusedName (checked : List String) (name : String) : Nat → Option String
  | 0 => none
  | fuel + 1 => if name ∈ checked then unusedName checked (name ++ "_") fuel else some name

/-- one iteration of the loop over the labels (`_jack.py:363-371`); labels which are not strings are `none`. The result
is the label of the port, or `none` if the while-loop exceeded the limit. -/
def portName (checked : List String) (i : Nat) (label : Option String) (fuel : Nat) : Option String :=
  match label with
  | none => unusedName checked ("output_" ++ toString (i + 1)) fuel
  | some l =>
    if l = "" ∨ l ∈ checked then unusedName checked ("output_" ++ toString (i + 1)) fuel
    else some l

/-- the loop over the labels (`_jack.py:362-371`); `checked` is the set of the labels that have been used -/
def portNamesLoop (fuel : Nat) : List String → Nat → List (Option String) → Option (List String)
  | _, _, [] => some []
  | checked, i, label :: rest => do
    let name ← portName checked i label fuel
    let names ← portNamesLoop fuel (name :: checked) (i + 1) rest
    return name :: names

/-- the labels of the output ports in `__update_output_ports` (`_jack.py:360-373`) for a signal with the given labels
and the given number of channels -/
def portNames (fuel : Nat) (labels : List (Option String)) (count : Nat) : Option (List String) := do
  let labels ← portNamesLoop fuel [] 0 (labels.take count)
  if labels.length < count then
    return labels ++ (List.range (count - labels.length)).map fun i => "output_" ++ toString (labels.length + 1 + i)
  else
    return labels

/-! ### Stored connections -/

/-- a port of the JACK server -/
structure Port where
  shortname : String
  name : String
  deriving DecidableEq

/-- the specifier of an input port (see the documentation of `connect`, `_jack.py:171-190`) -/
inductive PortSpec where
  | index (i : Int)
  | str (s : String)
  | port (p : Port)
  deriving DecidableEq

/-- python's indexing of a list, with negative indices -/
def pyGet {β : Type} (l : List β) (i : Int) : Option β :=
  if 0 ≤ i then l[i.toNat]? else if 0 ≤ i + l.length then l[(i + l.length).toNat]? else none

/-- `__input_port` (`_jack.py:388-409`); `own` are the input ports of this client and `ports` are the ports, among
which names are looked up (the own ports or all input ports, depending on the parameter `own`). `none` stands for an
exception. -/
def inputPort (own ports : List Port) : PortSpec → Option Port
  | .port p => some p
  | .str s => ports.find? fun p => decide (s = p.shortname ∨ s = p.name)
  | .index i => pyGet own i

/-- one iteration of the loop over the stored connections (`_jack.py:241-249`); `none`: the connection is dropped -/
def keepConnection {O : Type} (port : Port) (index : Nat) (c : O × PortSpec) : Option (O × PortSpec) :=
  match c.2 with
  | .port p => if p = port then none else some c
  | .str s => if s = port.shortname ∨ s = port.name then none else some c
  | .index i => if i = index then none else some (c.1, .index (if i < index then i else i - 1))

/-- the stored connections after `remove_input_port` (`_jack.py:231-250`) for a port with the given index -/
def removeConnections {O : Type} (port : Port) (index : Nat) (connections : List (O × PortSpec)) :
    List (O × PortSpec) := connections.filterMap (keepConnection port index)

/-! ### Xruns -/

/-- `XRun` (`_jack.py:494-500`) -/
structure XRun (T : Type) where
  start : Int
  stop : Int
  delay : T

/-- `on_xrun` (`_jack.py:478-485`): the new value of the `xruns` connector; JACK passes the delay in microseconds -/
def onXrun {T : Type} [Mul T] [OfNat T 1000000] (old : Nat × Option (XRun T)) (index : Int) (blocksize : Nat)
    (delay : T) : Nat × Option (XRun T) :=
  (old.1 + 1, some ⟨index, index + blocksize, delay * 1000000⟩)

end Jack
end Verif
