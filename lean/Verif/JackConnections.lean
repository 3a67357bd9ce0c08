import Verif.Jack

/-
`sumpf.Jack` (`/repo/sumpf/_blocks/_jack.py`): connecting ports, activating and deactivating the client and changing the output
ports.

The JACK server and its python bindings are not a part of the repository. They are modelled by their documented behaviour:

* the ports of inactive clients have no connections. Deactivating a client removes the connections of its ports, connecting
  a port of an inactive client raises a `JackError`. The other clients are active.
* connecting ports, that are connected already, raises a `JackError`.
* activating an active client and deactivating an inactive one have no effect.
* unregistering a port removes its connections.

The threads are not modelled.
-/

namespace Verif
namespace Jack

/-- the exceptions, that are raised in these functions -/
inductive Exc where
  | jackError
  | valueError
  | indexError
  | attributeError
  deriving DecidableEq

/-- the ports and connections of the JACK server and the state of the instance -/
structure World where
  /-- `client.get_ports(is_input=True)` -/
  inputs : List Port
  /-- `client.get_ports(is_output=True)` -/
  outputs : List Port
  /-- `client.inports` -/
  inports : List Port
  /-- `client.outports` -/
  outports : List Port
  /-- the connections in the server, from an output port to an input port -/
  edges : List (Port × Port)
  /-- the client is activated -/
  active : Bool
  /-- the attribute `__connections` (`_jack.py:87`) -/
  stored : List (PortSpec × PortSpec)

/-- `__input_port` and `__output_port` (`_jack.py:388-430`) with the parameter `own=False`; `own` are the ports of the client,
`ports` are all ports of the direction. Specifiers of other types, which raise a `ValueError`, are not modelled. -/
def findPort (own ports : List Port) : PortSpec → Except Exc Port
  | .port p => .ok p
  | .str s => match ports.find? (fun p => decide (s = p.shortname ∨ s = p.name)) with
    | some p => .ok p
    | none => .error .valueError
  | .index i => match pyGet own i with
    | some p => .ok p
    | none => .error .indexError

namespace World

/-- `client.connect(o, i)`, see above -/
def clientConnect (w : World) (o i : Port) : Except Exc World :=
  if (o, i) ∈ w.edges then .error .jackError
  else if w.active = false ∧ (o ∈ w.outports ∨ i ∈ w.inports) then .error .jackError
  else .ok { w with edges := w.edges ++ [(o, i)] }

/-- `__connect` (`_jack.py:337-343`) -/
def connectPorts (w : World) (c : PortSpec × PortSpec) : Except Exc World := do
  let o ← findPort w.outports w.outputs c.1
  let i ← findPort w.inports w.inputs c.2
  if ¬ o ∈ w.outports ∨ ¬ (o, i) ∈ w.edges then
    if ¬ i ∈ w.inports ∨ ¬ (o, i) ∈ w.edges then
      clientConnect w o i
    else .ok w
  else .ok w

/-- `connect` (`_jack.py:171-195`) -/
def connect (w : World) (o i : PortSpec) : Except Exc World :=
  match connectPorts w (o, i) with
  | .ok w => .ok w
  | .error .jackError => .ok { w with stored := w.stored ++ [(o, i)] }
  | .error e => .error e

/-- `for c in connections: self.__connect(*c)`, where the connections, that have been established before an exception was
raised, remain -/
def connectAll : World → List (PortSpec × PortSpec) → World × Option Exc
  | w, [] => (w, none)
  | w, c :: l => match connectPorts w c with
    | .ok w => connectAll w l
    | .error e => (w, some e)

/-- `activate` (`_jack.py:312-321`); the second element of the result is the exception -/
def activate (w : World) : World × Option Exc :=
  let w := { w with active := true }
  match connectAll w w.stored with
  | (w, none) => ({ w with stored := [] }, none)
  | (w, some e) => (w, some e)

/-- `_store_connections` (`_jack.py:345-356`). The order of `port.connections` is that of `edges`. -/
def storeConnections (w : World) : World :=
  let outgoing := w.outports.zipIdx.flatMap fun c =>
    (w.edges.filter fun e => decide (e.1 = c.1 ∧ ¬ e.2 ∈ w.inports)).map fun e => (PortSpec.index c.2, PortSpec.port e.2)
  let incoming := w.inports.zipIdx.flatMap fun c =>
    (w.edges.filter fun e => decide (e.2 = c.1)).map fun e => (PortSpec.port e.1, PortSpec.index c.2)
  let connections := outgoing ++ incoming
  if connections ≠ [] then { w with stored := connections } else w

/-- `deactivate` (`_jack.py:323-331`) -/
def deactivate (w : World) : World :=
  let w := storeConnections w
  { w with active := false, edges := w.edges.filter fun e => decide (¬ e.1 ∈ w.outports ∧ ¬ e.2 ∈ w.inports) }

/-- `auto_deactivate` (`_jack.py:292-310`): the new state, after the event has been set -/
def autoDeactivate (w : World) (auto : Bool) : World := if auto then deactivate w else w

/-- `client.outports.clear()` and the registration of the new ports -/
def registerOutputs (w : World) (new : List Port) : World :=
  { w with
    outputs := (w.outputs.filter fun p => decide (¬ p ∈ w.outports)) ++ new
    outports := new
    edges := w.edges.filter fun e => decide (¬ e.1 ∈ w.outports) }

/-- the creation of the ports in `__update_output_ports` (`_jack.py:374-386`), where `new` are the ports with the labels of the
new signal. Simplification: connections between ports of this client are stored with a reference to the output port, that is
unregistered here; it depends on the implementation of JACK, to which port it refers afterwards. -/
def updateOutputs (w : World) (new : List Port) : World × Option Exc :=
  if (w.outports.map fun p => p.shortname) ≠ new.map fun p => p.shortname then
    let w := storeConnections w
    let w := registerOutputs w new
    match connectAll w w.stored with
    | (w, none) => ({ w with stored := [] }, none)
    | (w, some .jackError) => (w, none)
    | (w, some e) => (w, some e)
  else (w, none)

end World
end Jack
end Verif
