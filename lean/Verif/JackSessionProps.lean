import Verif.JackSession
import Verif.JackProps
import Verif.JackConnectionsProps
import Mathlib.Tactic.Common

/-
C124: The life cycle of a JACK client
-/

namespace Verif
namespace Jack
namespace Session

variable {α R T : Type}

/-! ### the specification -/

/-- the blocks of samples in a sequence of callbacks -/
def blocks : List (Event α R T) → List (Block α)
  | [] => []
  | .process b :: l => b :: blocks l
  | _ :: l => blocks l

/-- the number of xruns in a sequence of callbacks -/
def xrunCount : List (Event α R T) → Nat
  | [] => 0
  | .xrun _ :: l => xrunCount l + 1
  | _ :: l => xrunCount l

/-- the sampling rate after a sequence of callbacks -/
def lastRate : R → List (Event α R T) → R
  | r, [] => r
  | _, .samplingRate r :: l => lastRate r l
  | r, _ :: l => lastRate r l

/-- the server is not shut down -/
def NoShutdown (l : List (Event α R T)) : Prop := ∀ e ∈ l, e ≠ .shutdown

/-! ### the callbacks -/

variable [Zero α] [Mul T] [OfNat T 1000000]

theorem store_same (w : World) : w.storeConnections.inports = w.inports ∧ w.storeConnections.outports = w.outports ∧
    w.storeConnections.inputs = w.inputs ∧ w.storeConnections.outputs = w.outputs ∧ w.storeConnections.edges = w.edges ∧
    w.storeConnections.active = w.active := by
  unfold World.storeConnections
  dsimp only
  split <;> exact ⟨rfl, rfl, rfl, rfl, rfl, rfl⟩

theorem handle_process (s t : Session α R T) (b : Block α) (h : s.handle (.process b) = .ok t) :
    ∃ st out w, onProcess s.input s.state b = .ok (st, out) ∧ t = { s with state := st, world := w } ∧
      (w = s.world ∨ w = s.world.storeConnections) ∧ (s.state.event = true → w = s.world) := by
  unfold handle at h
  dsimp only at h
  cases hp : onProcess s.input s.state b with
  | error e => rw [hp] at h; cases h
  | ok r =>
    obtain ⟨st, out⟩ := r
    rw [hp] at h
    cases h
    refine ⟨st, out, _, rfl, rfl, ?_, ?_⟩
    · split
      · exact Or.inr rfl
      · exact Or.inl rfl
    · intro he
      rw [if_neg (by simp [he])]

/-- C124: The callbacks change neither the signal, that is played back, nor the ports, connections and the activation of the
client. The number of xruns is increased by one with each xrun, and the sampling rate is the latest one. -/
theorem C124_callbacks (l : List (Event α R T)) (s t : Session α R T) (h : run s l = .ok t) :
    t.input = s.input ∧ t.auto = s.auto ∧ t.world.inports = s.world.inports ∧ t.world.outports = s.world.outports ∧
    t.world.edges = s.world.edges ∧ t.world.active = s.world.active ∧ t.xruns.1 = s.xruns.1 + xrunCount l ∧
    t.rate = lastRate s.rate l := by
  induction l generalizing s with
  | nil => cases h; exact ⟨rfl, rfl, rfl, rfl, rfl, rfl, rfl, rfl⟩
  | cons e l ih =>
    cases e with
    | process b =>
      cases hh : s.handle (.process b) with
      | error x => simp only [run, hh] at h; cases h
      | ok u =>
        simp only [run, hh] at h
        obtain ⟨st, out, w, _, rfl, hw, _⟩ := handle_process s u b hh
        obtain ⟨i1, i2, i3, i4, i5, i6, i7, i8⟩ := ih _ h
        refine ⟨i1, i2, ?_, ?_, ?_, ?_, i7, i8⟩
        · rw [i3]; rcases hw with rfl | rfl
          · rfl
          · exact (store_same _).1
        · rw [i4]; rcases hw with rfl | rfl
          · rfl
          · exact (store_same _).2.1
        · rw [i5]; rcases hw with rfl | rfl
          · rfl
          · exact (store_same _).2.2.2.2.1
        · rw [i6]; rcases hw with rfl | rfl
          · rfl
          · exact (store_same _).2.2.2.2.2
    | samplingRate r => exact ih { s with rate := r } h
    | shutdown => exact ih { s with state := { s.state with event := true } } h
    | xrun d =>
      obtain ⟨i1, i2, i3, i4, i5, i6, i7, i8⟩ := ih { s with xruns := onXrun s.xruns s.state.index s.blocksize d } h
      refine ⟨i1, i2, i3, i4, i5, i6, ?_, i8⟩
      rw [i7]
      show s.xruns.1 + 1 + xrunCount l = s.xruns.1 + (xrunCount l + 1)
      omega
    | blocksize n => exact ih { s with blocksize := n } h

omit [Zero α] [Mul T] [OfNat T 1000000] in
/-- C124: A new instance plays back the given signal. It neither has recorded anything nor noticed an xrun and it is not
waiting for the end of a recording. Its client is active, unless it shall be deactivated automatically. -/
theorem C124_new (client : String) (inputs outputs : List Port) (edges : List (Port × Port)) (rate : R) (blocksize : Nat)
    (empty : Mat α) (signal : Signal α R) (ports : List String) (auto : Bool) (s : Session α R T)
    (h : Session.new client inputs outputs edges rate blocksize empty signal ports auto = .ok s) :
    s.input = signal ∧ s.state = ⟨empty, 0, true⟩ ∧ s.auto = auto ∧ s.rate = rate ∧ s.blocksize = blocksize ∧
    s.xruns.1 = 0 ∧ s.xruns.2.isNone ∧ s.world.active = !auto ∧ s.client = client := by
  unfold Session.new at h
  dsimp only at h
  split at h
  · cases h
  · rename_i w hw
    cases hr : registerAll client w ports with
    | error e => rw [hr] at h; cases h
    | ok v => rw [hr] at h; cases h; exact ⟨rfl, rfl, rfl, rfl, rfl, rfl, rfl, rfl, rfl⟩

/-- C124: The information about the latest xrun refers to the samples, that are being recorded at this time. -/
theorem C124_xrun (s : Session α R T) (delay : T) : ∃ t x, s.handle (.xrun delay) = .ok t ∧ t.xruns.2 = some x ∧
    x.start = s.state.index ∧ x.stop = s.state.index + s.blocksize ∧ t.state = s.state :=
  ⟨_, _, rfl, rfl, rfl, rfl, rfl⟩

/-- C124: When no recording is in progress, the callbacks do not change the recorded samples. -/
theorem C124_idle (l : List (Event α R T)) (s : Session α R T) (he : s.state.event = true) :
    ∃ t, run s l = .ok t ∧ t.state = s.state ∧ t.world = s.world := by
  induction l generalizing s with
  | nil => exact ⟨s, rfl, rfl, rfl⟩
  | cons e l ih =>
    cases e with
    | process b =>
      have hp : onProcess s.input s.state b = .ok (s.state, b.output) := by
        unfold onProcess
        rw [if_neg (by simp [he])]
      have hh : s.handle (.process b) = .ok s := by
        unfold handle
        dsimp only
        rw [hp]
        show Except.ok _ = _
        rw [if_neg (by simp [he])]
      obtain ⟨t, h1, h2⟩ := ih s he
      exact ⟨t, by simp only [run, hh]; exact h1, h2⟩
    | samplingRate r => exact ih { s with rate := r } he
    | shutdown =>
      obtain ⟨t, h1, h2, h3⟩ := ih { s with state := { s.state with event := true } } rfl
      refine ⟨t, h1, ?_, h3⟩
      rw [h2]
      show (⟨s.state.channels, s.state.index, true⟩ : State α) = s.state
      rw [← he]
    | xrun d => exact ih { s with xruns := onXrun s.xruns s.state.index s.blocksize d } he
    | blocksize n => exact ih { s with blocksize := n } he

/-- C124: A shutdown of the JACK server ends a recording: the samples, that have been recorded before, remain, the retrieval of
the recording does not wait any longer. -/
theorem C124_shutdown (s : Session α R T) (l : List (Event α R T)) : ∃ t r, run s (.shutdown :: l) = .ok t ∧
    t.state.channels = s.state.channels ∧ t.output = some r ∧ r.channels = s.state.channels ∧ r.offset = s.input.offset := by
  obtain ⟨t, h1, h2, _⟩ := C124_idle l { s with state := { s.state with event := true } } rfl
  obtain ⟨hi, _⟩ := C124_callbacks l _ t h1
  refine ⟨t, Jack.output t.input t.rate t.inputPorts t.state, h1, by rw [h2], ?_, ?_, ?_⟩
  · unfold output
    rw [if_pos (by rw [h2])]
  · show t.state.channels = _
    rw [h2]
  · show t.input.offset = _
    rw [hi]

theorem run_blocks (l : List (Event α R T)) (s : Session α R T) (hn : NoShutdown l) (st : State α) (outs : List (Mat α))
    (h : process s.input s.state (blocks l) = .ok (st, outs)) : ∃ t, run s l = .ok t ∧ t.state = st := by
  induction l generalizing s outs with
  | nil => cases h; exact ⟨s, rfl, rfl⟩
  | cons e l ih =>
    have hn' : NoShutdown l := fun x hx => hn x (List.mem_cons_of_mem _ hx)
    cases e with
    | process b =>
      simp only [blocks, process] at h
      cases hp : onProcess s.input s.state b with
      | error x => rw [hp] at h; cases h
      | ok r =>
        obtain ⟨st1, out⟩ := r
        rw [hp] at h
        change (process s.input st1 (blocks l) >>= fun p => pure (p.1, out :: p.2)) = _ at h
        cases hq : process s.input st1 (blocks l) with
        | error x => rw [hq] at h; cases h
        | ok q =>
          obtain ⟨st2, outs2⟩ := q
          rw [hq] at h
          cases h
          obtain ⟨t, t1, t2⟩ := ih { s with
            state := st1
            world := if (s.state.event = false ∧ st1.event = true) ∧ s.auto then s.world.storeConnections else s.world }
            hn' outs2 hq
          refine ⟨t, ?_, t2⟩
          rw [← t1]
          simp only [run, handle, hp]
          rfl
    | samplingRate r => exact ih { s with rate := r } hn' outs h
    | shutdown => exact absurd rfl (hn _ List.mem_cons_self)
    | xrun d => exact ih { s with xruns := onXrun s.xruns s.state.index s.blocksize d } hn' outs h
    | blocksize n => exact ih { s with blocksize := n } hn' outs h

/-! ### recordings -/

omit [Zero α] [Mul T] [OfNat T 1000000] in
/-- C124: During a recording, setting the signal, retrieving the recording and enabling the automatic deactivation wait. Otherwise
the new signal is the one, that is played back next. -/
theorem C124_wait (s : Session α R T) :
    (s.state.event = false → (∀ x, s.setInput x = none) ∧ s.output = none ∧ s.setAuto true = none) ∧
    (s.state.event = true → (∀ x, ∃ t e, s.setInput x = some (t, e) ∧ t.input = x ∧ t.state = s.state) ∧
      (∃ r, s.output = some r) ∧ ∃ t, s.setAuto true = some t ∧ t.auto = true ∧ t.world.active = false) := by
  refine ⟨fun h => ⟨fun x => ?_, ?_, ?_⟩, fun h => ⟨fun x => ?_, ?_, ?_⟩⟩
  · unfold setInput; rw [if_neg (by simp [h])]
  · unfold output; rw [if_neg (by simp [h])]
  · unfold setAuto; rw [if_pos rfl, if_neg (by simp [h])]
  · exact ⟨{ s with input := x, world := (s.world.setOutputs s.client (outputNames x)).1 },
      (s.world.setOutputs s.client (outputNames x)).2, by unfold setInput; rw [if_pos h], rfl, rfl⟩
  · exact ⟨_, by unfold output; rw [if_pos h]⟩
  · exact ⟨_, by unfold setAuto; rw [if_pos rfl, if_pos h], rfl, rfl⟩

/-- C124: A recording: if the stored connections can be established, the recording is started. Whatever callbacks occur in the
meantime, except for a shutdown of the server, the recording has been finished by the first block, that begins after the end of
the signal. Then, it has a channel for each input port with its name as label, the offset and the length of the signal, that has
been played back, and the latest sampling rate. Its samples are those, that have been read from the input ports.

`_partial`: the blocks do not contain the end of the signal in their middle, see `C25_replay_violated`. -/
theorem C124_recording_partial (mem : Nat → Nat → α) (s : Session α R T) (l : List (Event α R T))
    (hc : ∀ c ∈ s.world.stored, ∃ e, World.Resolves s.world c e ∧ World.Own s.world e) (hn : NoShutdown l)
    (hv : ∀ b ∈ blocks l, b.Valid s.inputPorts.length s.input.count) (hb : Clean s.input.length (blocks l)) :
    ∃ u t, s.start mem = (u, none) ∧ u.world.active = true ∧ run u l = .ok t ∧
      (t.output = none ↔ ∀ j b, (blocks l)[j]? = some b → s.input.length ≤ startOf (blocks l) j → b.frames = 0) ∧
      ∀ r, t.output = some r → r.labels = s.inputPorts ∧ r.count = s.inputPorts.length ∧ r.length = s.input.length ∧
        r.offset = s.input.offset ∧ r.rate = lastRate s.rate l ∧
        ∀ j b, (blocks l)[j]? = some b → ∀ k f, k < s.inputPorts.length → f < b.frames →
          startOf (blocks l) j + f < s.input.length → r.channels.get k (startOf (blocks l) j + f) = b.input.get k f := by
  obtain ⟨w, a1, a2, _, ⟨_, _, a3, _⟩, _⟩ := World.C95_activate s.world hc
  have hlen : w.inports.length = s.inputPorts.length := by rw [a3]; simp [inputPorts]
  have hstart : s.start mem = ({ s with world := w, state := Jack.start mem s.inputPorts.length s.input }, none) := by
    unfold start
    rw [a1]
    dsimp only
    rw [hlen]
  obtain ⟨st, outs, p1, _, _, _, p2, p3, p4, p5⟩ := C25_playback_partial mem s.input s.inputPorts.length (blocks l) hv hb
  obtain ⟨t, t1, t2⟩ := run_blocks l { s with world := w, state := Jack.start mem s.inputPorts.length s.input } hn st outs p1
  obtain ⟨c1, _, c3, _, _, _, _, c8⟩ := C124_callbacks l _ t t1
  have hports : t.inputPorts = s.inputPorts := by
    unfold inputPorts
    rw [c3]
    show w.inports.map _ = _
    rw [a3]
  refine ⟨_, t, hstart, a2, t1, ?_, ?_⟩
  · unfold output
    constructor
    · intro h j b hj hl
      by_contra hf
      have : t.state.event = true := by rw [t2]; exact p5.2 ⟨j, b, hj, hl, by omega⟩
      rw [if_pos this] at h
      cases h
    · intro h
      rw [if_neg]
      rw [t2, p5]
      rintro ⟨j, b, hj, hl, hf⟩
      have := h j b hj hl
      omega
  · intro r hr
    unfold output at hr
    by_cases he : t.state.event = true
    · rw [if_pos he] at hr
      cases hr
      obtain ⟨o1, o2, o3, o4⟩ := C25_output t.input t.rate t.inputPorts t.state (by rw [hports, t2, p2])
      refine ⟨by rw [o3, hports], ?_, ?_, by rw [o1, c1], by rw [o4, c8], ?_⟩
      · unfold Signal.count; rw [o2, t2, p2]
      · unfold Signal.length; rw [o2, t2, p3]; rfl
      · rw [o2, t2]; exact p4
    · rw [if_neg he] at hr
      cases hr

/-! ### ports -/

omit [Zero α] [Mul T] [OfNat T 1000000] in
/-- C124: A port can be added, if its name is not used, yet. It is the last one of the input ports. -/
theorem C124_add (s : Session α R T) (x : String) :
    (x ∈ s.inputPorts ∨ x ∈ s.world.outports.map Port.shortname → s.addInputPort x = .error .jackError) ∧
    (¬ x ∈ s.inputPorts → ¬ x ∈ s.world.outports.map Port.shortname → ∃ t, s.addInputPort x = .ok t ∧
      t.inputPorts = s.inputPorts ++ [x] ∧ t.world.edges = s.world.edges ∧ t.world.stored = s.world.stored ∧
      t.input = s.input ∧ t.state = s.state) := by
  constructor
  · intro h
    have : s.world.registerInput s.client x = .error .jackError := if_pos h
    unfold addInputPort
    rw [this]
    rfl
  · intro h1 h2
    have : s.world.registerInput s.client x = .ok { s.world with
        inports := s.world.inports ++ [clientPort s.client x]
        inputs := s.world.inputs ++ [clientPort s.client x] } := if_neg (not_or.2 ⟨h1, h2⟩)
    refine ⟨{ s with world := { s.world with
      inports := s.world.inports ++ [clientPort s.client x]
      inputs := s.world.inputs ++ [clientPort s.client x] } }, ?_, ?_, rfl, rfl, rfl, rfl⟩
    · unfold addInputPort
      rw [this]
      rfl
    · simp [inputPorts, clientPort]

theorem find_of (ports : List Port) (p : Port) (hp : p ∈ ports) (hu : Unambiguous ports) (x : String)
    (hx : x = p.shortname ∨ x = p.name) : findPort ports ports (.str x) = .ok p := by
  unfold findPort
  dsimp only
  have : ports.find? (fun q => decide (x = q.shortname ∨ x = q.name)) = some p := by
    cases hf : ports.find? (fun q => decide (x = q.shortname ∨ x = q.name)) with
    | none =>
      have := List.find?_eq_none.1 hf p hp
      simp [hx] at this
    | some q =>
      have hq := List.find?_some hf
      rw [hu q (List.mem_of_find?_eq_some hf) p hp x (by simpa using hq) hx]
  rw [this]

omit [Zero α] [Mul T] [OfNat T 1000000] in
/-- C124: Removing an input port by its short or its full name removes this port and its connections, and leaves all other ports
and connections in JACK alone. -/
theorem C124_remove (s : Session α R T) (i : Nat) (p : Port) (hi : s.world.inports[i]? = some p) (hn : s.world.inports.Nodup)
    (hu : Unambiguous s.world.inports) (x : String) (hx : x = p.shortname ∨ x = p.name) :
    ∃ t, s.removeInputPort (.str x) = .ok t ∧ t.inputPorts = s.inputPorts.eraseIdx i ∧
      (∀ e, e ∈ t.world.edges ↔ e ∈ s.world.edges ∧ e.2 ≠ p) ∧ t.world.outports = s.world.outports ∧
      t.world.stored = removeConnections p i s.world.stored ∧ t.input = s.input ∧ t.state = s.state := by
  have hf := find_of s.world.inports p (List.mem_of_getElem? hi) hu x hx
  obtain ⟨hlt, hget⟩ := List.getElem?_eq_some_iff.1 hi
  have hidx : s.world.inports.findIdx? (fun q => decide (q = p)) = some i := by
    rw [List.findIdx?_eq_some_iff_getElem]
    refine ⟨hlt, by simp [hget], ?_⟩
    intro j hj
    have : s.world.inports[j] ≠ p := by
      rw [← hget]
      intro hc
      have := (List.Nodup.getElem_inj_iff hn).1 hc
      omega
    simp [this]
  refine ⟨{ s with world := { s.world with
    stored := removeConnections p i s.world.stored
    inports := s.world.inports.eraseIdx i
    inputs := s.world.inputs.filter fun q => decide (q ≠ p)
    edges := s.world.edges.filter fun e => decide (e.2 ≠ p) } }, ?_, ?_, ?_, rfl, rfl, rfl, rfl⟩
  · unfold removeInputPort World.removeInput
    rw [hf]
    dsimp only
    rw [hidx]
    rfl
  · simp [inputPorts, List.eraseIdx_map]
  · intro e
    simp

omit [Zero α] [Mul T] [OfNat T 1000000] in
/-- C124: If none of the input ports has the name of a new channel, the output ports are those of the new signal.

`_partial`: the demand on the names, see `C124_names_violated`, and on the connections, see `C95_channels_violated`. -/
theorem C124_input_partial (s : Session α R T) (signal : Signal α R) (he : s.state.event = true) (ha : s.world.active = true)
    (hs : s.world.stored = []) (hown : ∀ e ∈ s.world.edges, ¬ (e.1 ∈ s.world.outports ∧ e.2 ∈ s.world.inports))
    (hn : s.world.outports.length ≤ (outputNames signal).length) (hd : ∀ x ∈ outputNames signal, ¬ x ∈ s.inputPorts) :
    ∃ t, s.setInput signal = some (t, none) ∧ t.input = signal ∧
      t.world.outports.map Port.shortname = outputNames signal ∧ t.inputPorts = s.inputPorts := by
  have hset : s.world.setOutputs s.client (outputNames signal) =
      World.updateOutputs s.world ((outputNames signal).map (clientPort s.client)) := by
    unfold World.setOutputs
    rw [if_neg]
    rintro ⟨_, x, hx1, hx2⟩
    exact hd x hx1 hx2
  have hmap : ((outputNames signal).map (clientPort s.client)).map (fun p => p.shortname) = outputNames signal := by
    simp [clientPort, Function.comp_def]
  unfold setInput
  rw [if_pos he, hset]
  by_cases hl : (s.world.outports.map fun p => p.shortname) = outputNames signal
  · refine ⟨{ s with input := signal }, ?_, rfl, hl, rfl⟩
    unfold World.updateOutputs
    rw [hmap, if_neg (by simp [hl])]
  · obtain ⟨v, v1, _, _, v2, v3, _⟩ := World.C95_outputs_partial s.world ((outputNames signal).map (clientPort s.client)) ha hs
      (by rw [hmap]; exact hl) hown (by simpa using hn)
    refine ⟨{ s with input := signal, world := v }, by rw [v1], rfl, ?_, ?_⟩
    · show v.outports.map Port.shortname = _
      rw [v2]
      exact hmap
    · show v.inports.map _ = _
      rw [v3]
      rfl

/-! ### examples and violations -/

/-- an instance with two input ports at a server with a sampling rate of 48000 and blocks of two samples -/
def demoSignal (label : String) : Signal Int Nat := ⟨Mat.ofRows 4 [[1, 2, 3, 4]], 48000, 7, [label]⟩

def demo (ports : List String) (label : String) : Except Exc (Session Int Nat Rat) :=
  Session.new "SuMPF" [World.system "speaker"] [World.system "microphone"] [] 48000 2 (Mat.ofRows 0 [[]])
    (demoSignal label) ports true

def demoBlock (a b : Int) : Event Int Nat Rat := .process ⟨2, Mat.ofRows 2 [[a, b], [-a, -b]], Mat.ofRows 2 [[0, 0]]⟩

def demoRun (f : Session Int Nat Rat → Except Exc (Session Int Nat Rat)) : Option (List Int × List String × Int × Nat) := do
  let s ← (demo ["left", "right"] "loudspeaker").toOption
  let t ← (run (s.start fun _ _ => 99).1 [demoBlock 5 6, .xrun 3, .samplingRate 44100, demoBlock 7 8, demoBlock 9 9]).toOption
  let t ← (f t).toOption
  let r ← t.output
  return (r.channels.flat, r.labels, r.offset, r.rate)

/-- the hypothesis of `C124_new` -/
example : (demo ["left", "right"] "loudspeaker").toOption.isSome := by decide +kernel

/-- the hypotheses of `C124_recording_partial` -/
example : demoRun .ok = some ([5, 6, 7, 8, -5, -6, -7, -8], ["left", "right"], 7, 44100) := by decide +kernel

/-- C124 is violated: when an input port is removed after a recording, the recording of the removed port is not removed from the
output signal, as the documentation says. Instead, it is labelled with the name of the next port. -/
theorem C124_remove_violated : demoRun (fun s => s.removeInputPort (.str "left")) =
    some ([5, 6, 7, 8, -5, -6, -7, -8], ["right", ""], 7, 44100) := by decide +kernel

/-- C124 is violated: when a channel of the signal has the name of an input port, setting the signal raises an undocumented
`JackError`, after the output ports have been removed. -/
theorem C124_names_violated : ((demo ["left", "right"] "loudspeaker").toOption.bind fun s =>
      (s.setInput (demoSignal "left")).map fun r => (r.1.world.outports.map Port.shortname, r.2)) =
    some ([], some .jackError) := by decide +kernel

/-- the construction fails for the same reason -/
example : (demo ["left"] "left").toOption.isSome = false ∧ (demo ["right"] "left").toOption.isSome = true := by decide +kernel

/-- `C124_add`, `C124_remove` -/
example : ((demo ["left", "right"] "loudspeaker").toOption.bind fun s => do
      let t ← (s.addInputPort "x").toOption
      let u ← (t.removeInputPort (.str "SuMPF:left")).toOption
      return (t.inputPorts, u.inputPorts, u.world.inputs.map Port.name)) =
    some (["left", "right", "x"], ["right", "x"], ["system:speaker", "SuMPF:right", "SuMPF:x"]) := by decide +kernel

/-- `C124_input_partial` -/
example : ((demo ["left", "right"] "loudspeaker").toOption.bind fun s => do
      let t ← (run (s.start fun _ _ => 99).1 [demoBlock 5 6, .shutdown]).toOption
      let u ← t.setInput (demoSignal "headphones")
      return (t.state.event, t.world.active, t.world.stored.length, t.world.edges.length, u.1.world.outports.map Port.name)) =
    some (true, true, 0, 0, ["SuMPF:headphones"]) := by decide +kernel

/-- `C124_wait`, `C124_shutdown` -/
example : ((demo ["left", "right"] "loudspeaker").toOption.bind fun s => do
      let t ← (run (s.start fun _ _ => 99).1 [demoBlock 5 6]).toOption
      let u ← (run t [.shutdown, demoBlock 7 8]).toOption
      return (t.output.isSome, u.output.map fun r => r.channels.flat)) =
    some (false, some [5, 6, 99, 99, -5, -6, 99, 99]) := by decide +kernel

end Session
end Jack
end Verif
