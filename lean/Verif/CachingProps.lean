import Verif.Caching
import Verif.JackSessionProps
import Mathlib.Tactic.Common

/-
C150: The stored results of output connectors
-/

namespace Verif
namespace Caching

/-! ### `Merge` and `Concatenate` -/

section Block

variable {Id D P V : Type} [DecidableEq Id]

/-- the specification: a method call, where `output` is always computed -/
def plainStep (fresh : MultiInput.Store Id D → Id) (compute : P → List D → Py V) (s : MultiInput.Store Id D × P) :
    BlockCall Id D P → Reply Id V × (MultiInput.Store Id D × P)
  | .modify (.add x) => (.identifier (fresh s.1), s.1 ++ [(fresh s.1, x)], s.2)
  | .modify (.remove i) => match MultiInput.delItem s.1 i with
    | .ok d => (.self, d, s.2)
    | .error e => (.error e, s)
  | .modify (.replace i x) => (.identifier i, MultiInput.setItem s.1 i x, s.2)
  | .setMode p => (.self, s.1, p)
  | .output => (match compute s.2 (s.1.map Prod.snd) with
    | .ok v => .value v
    | .error e => .error e, s)

/-- the specification: a sequence of method calls -/
def plainRun (fresh : MultiInput.Store Id D → Id) (compute : P → List D → Py V) :
    MultiInput.Store Id D × P → List (BlockCall Id D P) → List (Reply Id V)
  | _, [] => []
  | s, c :: l => (plainStep fresh compute s c).1 :: plainRun fresh compute (plainStep fresh compute s c).2 l

/-- the stored result is the one, that would be computed -/
def Valid (compute : P → List D → Py V) (b : Block Id D P V) : Prop :=
  ∀ v, b.cache = some v → compute b.mode (MultiInput.values b.data) = .ok v

theorem step_plain (fresh : MultiInput.Store Id D → Id) (compute : P → List D → Py V) (b : Block Id D P V)
    (hb : Valid compute b) (c : BlockCall Id D P) :
    (b.step fresh compute c).1 = (plainStep fresh compute (b.data, b.mode) c).1 ∧
    ((b.step fresh compute c).2.data, (b.step fresh compute c).2.mode) = (plainStep fresh compute (b.data, b.mode) c).2 ∧
    Valid compute (b.step fresh compute c).2 := by
  obtain ⟨d, p, cache⟩ := b
  cases c with
  | modify m =>
    cases m with
    | add x => exact ⟨rfl, rfl, fun v h => by cases h⟩
    | remove i =>
      cases hd : MultiInput.delItem d i with
      | error e =>
        have hs : MultiInput.step fresh d (.remove i) = .error e := by
          simp only [MultiInput.step, hd]
          rfl
        simp only [Block.step, plainStep, hs, hd]
        exact ⟨trivial, trivial, fun v h => by cases h⟩
      | ok t =>
        have hs : MultiInput.step fresh d (.remove i) = .ok (t, .removed i) := by
          simp only [MultiInput.step, hd]
          rfl
        simp only [Block.step, plainStep, hs, hd]
        exact ⟨rfl, trivial, fun v h => by cases h⟩
    | replace i x => exact ⟨rfl, rfl, fun v h => by cases h⟩
  | setMode q => exact ⟨rfl, rfl, fun v h => by cases h⟩
  | output =>
    cases cache with
    | some v =>
      have hv : compute p (d.map Prod.snd) = .ok v := hb v rfl
      refine ⟨?_, rfl, hb⟩
      simp only [plainStep, hv]
      rfl
    | none =>
      cases hv : compute p (d.map Prod.snd) with
      | ok v =>
        have hv' : compute p (MultiInput.values d) = .ok v := hv
        simp only [Block.step, plainStep, hv, hv', announce, read, BlockCall.outputs]
        refine ⟨rfl, rfl, fun w h => ?_⟩
        cases h
        exact hv
      | error e =>
        have hv' : compute p (MultiInput.values d) = .error e := hv
        simp only [Block.step, plainStep, hv, hv', announce, read, BlockCall.outputs]
        exact ⟨rfl, rfl, fun v h => by cases h⟩

theorem run_plain (fresh : MultiInput.Store Id D → Id) (compute : P → List D → Py V) (l : List (BlockCall Id D P)) :
    ∀ (b : Block Id D P V), Valid compute b → b.run fresh compute l = plainRun fresh compute (b.data, b.mode) l := by
  induction l with
  | nil => intro b _; rfl
  | cons c l ih =>
    intro b hb
    obtain ⟨h1, h2, h3⟩ := step_plain fresh compute b hb c
    simp only [Block.run, plainRun]
    rw [h1, ih _ h3, h2]

/-- C150: After any sequence of method calls, every method of a `Merge` or `Concatenate` instance returns the same as if the
results were not stored. -/
theorem C150_blocks (fresh : MultiInput.Store Id D → Id) (compute : P → List D → Py V) (data : List D) (mode : P)
    (l : List (BlockCall Id D P)) :
    (Block.new fresh data mode).run fresh compute l = plainRun fresh compute (MultiInput.init fresh data, mode) l :=
  run_plain fresh compute l _ fun v h => by cases h

/-- C150: The merging of signals, spectrums, spectrograms and filters never returns an outdated data set. -/
theorem C150_merge {α R F : Type} [Zero α] (mem : Nat → Nat → α) (mem3 : Nat → Nat → Nat → α) (mode : MergeMode) :
    (∀ (fresh : MultiInput.Store Id (Signal α R) → Id) data l, (Block.new fresh data mode).run fresh (Merge.signals mem) l =
      plainRun fresh (Merge.signals mem) (MultiInput.init fresh data, mode) l) ∧
    (∀ (fresh : MultiInput.Store Id (Spectrum α R) → Id) data l,
      (Block.new fresh data mode).run fresh (Merge.spectrums mem) l =
      plainRun fresh (Merge.spectrums mem) (MultiInput.init fresh data, mode) l) ∧
    (∀ (fresh : MultiInput.Store Id (Spectrogram α R) → Id) data l,
      (Block.new fresh data mode).run fresh (Merge.spectrograms mem3) l =
      plainRun fresh (Merge.spectrograms mem3) (MultiInput.init fresh data, mode) l) ∧
    (∀ (fresh : MultiInput.Store Id (FilterData F) → Id) data l, (Block.new fresh data mode).run fresh Merge.filters l =
      plainRun fresh Merge.filters (MultiInput.init fresh data, mode) l) :=
  ⟨fun fresh data l => C150_blocks fresh _ data mode l, fun fresh data l => C150_blocks fresh _ data mode l,
    fun fresh data l => C150_blocks fresh _ data mode l, fun fresh data l => C150_blocks fresh _ data mode l⟩

/-- C150: The concatenation of signals and spectrograms never returns an outdated data set. -/
theorem C150_concatenate {α R : Type} [Zero α] [Add α] (mem : Nat → Nat → α) (mem3 : Nat → Nat → Nat → α) :
    (∀ (fresh : MultiInput.Store Id (Signal α R) → Id) data l,
      (Block.new fresh data ()).run fresh (fun _ => Concatenate.signals mem) l =
      plainRun fresh (fun _ => Concatenate.signals mem) (MultiInput.init fresh data, ()) l) ∧
    (∀ (fresh : MultiInput.Store Id (Spectrogram α R) → Id) data l,
      (Block.new fresh data ()).run fresh (fun _ => Concatenate.spectrograms mem3) l =
      plainRun fresh (fun _ => Concatenate.spectrograms mem3) (MultiInput.init fresh data, ()) l) :=
  ⟨fun fresh data l => C150_blocks fresh _ data () l, fun fresh data l => C150_blocks fresh _ data () l⟩

/-- C150: As long as nothing is modified, the data set, that has been returned by `output`, is not computed again: another
`compute` would not be noticed. -/
theorem C150_once (fresh : MultiInput.Store Id D → Id) (compute other : P → List D → Py V) (b : Block Id D P V) (v : V)
    (h : (b.step fresh compute .output).1 = .value v) :
    ((b.step fresh compute .output).2.step fresh other .output).1 = .value v := by
  obtain ⟨d, p, cache⟩ := b
  cases cache with
  | some w => exact h
  | none =>
    cases hv : compute p (MultiInput.values d) with
    | ok w =>
      simp only [Block.step, hv, announce, read, BlockCall.outputs] at h ⊢
      exact h
    | error e =>
      simp only [Block.step, hv, announce, read, BlockCall.outputs] at h
      cases h

end Block

/-! ### `Jack` -/

section Client

variable {α R T : Type} [Zero α] [Mul T] [OfNat T 1000000]

/-- the specification: a sequence of calls, where `output` and `input_ports` are always computed -/
def plainCalls : Jack.Session α R T → List (ClientCall α R T) → List (ClientReply α R) × Jack.Session α R T
  | s, [] => ([], s)
  | s, m :: l => ((call s m).1 :: (plainCalls (call s m).2 l).1, (plainCalls (call s m).2 l).2)

/-- the calls, that change the meta data of the output signal -/
def Changes : ClientCall α R T → Prop
  | .input _ => True
  | .addInputPort _ => True
  | .removeInputPort _ => True
  | .callback (.samplingRate _) => True
  | _ => False

/-- after `output` has been called, the meta data of the output signal is not changed before the next `start` -/
def Disciplined : Bool → List (ClientCall α R T) → Prop
  | _, [] => True
  | _, .start _ :: l => Disciplined false l
  | _, .output :: l => Disciplined true l
  | called, m :: l => (called = true → ¬ Changes m) ∧ Disciplined called l

section World
open Jack Jack.World

omit [Zero α] [Mul T] [OfNat T 1000000] in
theorem connectPorts_inports (w v : World) (c : PortSpec × PortSpec) (h : w.connectPorts c = .ok v) :
    v.inports = w.inports := by
  unfold connectPorts at h
  cases ho : findPort w.outports w.outputs c.1 with
  | error e => rw [ho] at h; cases h
  | ok o =>
    cases hi : findPort w.inports w.inputs c.2 with
    | error e => rw [ho, hi] at h; cases h
    | ok i =>
      rw [ho, hi] at h
      change (if ¬ o ∈ w.outports ∨ ¬ (o, i) ∈ w.edges then
        if ¬ i ∈ w.inports ∨ ¬ (o, i) ∈ w.edges then clientConnect w o i else .ok w else .ok w) = _ at h
      have hc : clientConnect w o i = .ok v → v.inports = w.inports := by
        intro h
        unfold clientConnect at h
        split at h
        · cases h
        · split at h
          · cases h
          · cases h; rfl
      split at h
      · split at h
        · exact hc h
        · cases h; rfl
      · cases h; rfl

theorem connectAll_inports (l : List (PortSpec × PortSpec)) : ∀ (w : World), (w.connectAll l).1.inports = w.inports := by
  induction l with
  | nil => intro w; rfl
  | cons c l ih =>
    intro w
    unfold connectAll
    cases h : w.connectPorts c with
    | error e => rfl
    | ok v => exact (ih v).trans (connectPorts_inports w v c h)

theorem activate_inports (w : World) : w.activate.1.inports = w.inports := by
  unfold activate
  have h := connectAll_inports w.stored { w with active := true }
  cases hc : connectAll { w with active := true } w.stored with
  | mk v e =>
    rw [hc] at h
    cases e with
    | none => simpa only [hc] using h
    | some e => simpa only [hc] using h

theorem connect_inports (w v : World) (o i : PortSpec) (h : w.connect o i = .ok v) : v.inports = w.inports := by
  unfold World.connect at h
  cases hc : w.connectPorts (o, i) with
  | ok u =>
    rw [hc] at h
    cases h
    exact connectPorts_inports w _ _ hc
  | error e =>
    rw [hc] at h
    cases e <;> cases h
    rfl

theorem deactivate_inports (w : World) : w.deactivate.inports = w.inports := (Jack.Session.store_same w).1

theorem updateOutputs_inports (w : World) (new : List Port) : (w.updateOutputs new).1.inports = w.inports := by
  unfold updateOutputs
  split
  · have h := connectAll_inports (w.storeConnections.registerOutputs new).stored (w.storeConnections.registerOutputs new)
    have h2 : (w.storeConnections.registerOutputs new).inports = w.inports := (Jack.Session.store_same w).1
    rw [h2] at h
    dsimp only
    generalize connectAll (w.storeConnections.registerOutputs new) (w.storeConnections.registerOutputs new).stored = r at h ⊢
    obtain ⟨v, e⟩ := r
    cases e with
    | none => exact h
    | some e => cases e <;> exact h
  · rfl

theorem setOutputs_inports (w : World) (client : String) (names : List String) :
    (w.setOutputs client names).1.inports = w.inports := by
  unfold setOutputs
  split
  · exact (Jack.Session.store_same w).1
  · exact updateOutputs_inports w _

end World

/-- the methods and callbacks, that do not change the input ports -/
def KeepsPorts : ClientCall α R T → Prop
  | .addInputPort _ => False
  | .removeInputPort _ => False
  | _ => True

theorem handle_ports (s t : Jack.Session α R T) (e : Jack.Event α R T) (h : s.handle e = .ok t) :
    t.world.inports = s.world.inports := by
  cases e with
  | process b =>
    obtain ⟨st, out, w, _, rfl, hw, _⟩ := Jack.Session.handle_process s t b h
    rcases hw with rfl | rfl
    · rfl
    · exact (Jack.Session.store_same _).1
  | samplingRate r => cases h; rfl
  | shutdown => cases h; rfl
  | xrun d => cases h; rfl
  | blocksize n => cases h; rfl

omit [Zero α] [Mul T] [OfNat T 1000000] in
theorem finishPartly_snd (r : Jack.Session α R T × Option Jack.Exc) : (finishPartly r).2 = r.1 := by
  obtain ⟨t, e⟩ := r
  cases e <;> rfl

theorem call_ports (s : Jack.Session α R T) (m : ClientCall α R T) (hm : KeepsPorts m) :
    (call s m).2.world.inports = s.world.inports := by
  cases m with
  | start mem =>
    show (finishPartly (s.start mem)).2.world.inports = _
    rw [finishPartly_snd]
    have h := activate_inports s.world
    unfold Jack.Session.start
    generalize s.world.activate = r at h ⊢
    obtain ⟨w, e⟩ := r
    cases e <;> exact h
  | input signal =>
    unfold call Jack.Session.setInput
    by_cases he : s.state.event = true
    · simp only [he, if_true]
      rw [finishPartly_snd]
      exact setOutputs_inports s.world _ _
    · simp only [he]
      rfl
  | output =>
    unfold call
    cases s.output <;> rfl
  | connect o i =>
    simp only [call]
    cases h : s.world.connect o i with
    | ok w => exact connect_inports _ _ _ _ h
    | error e => rfl
  | inputPorts => rfl
  | addInputPort x => exact hm.elim
  | removeInputPort x => exact hm.elim
  | autoDeactivate auto =>
    unfold call Jack.Session.setAuto
    cases auto with
    | false => rfl
    | true =>
      by_cases he : s.state.event = true
      · simp only [he, if_true]
        exact deactivate_inports s.world
      · simp only [he]
        rfl
  | activate =>
    show (finishPartly _).2.world.inports = _
    rw [finishPartly_snd]
    exact activate_inports s.world
  | deactivate => exact deactivate_inports s.world
  | callback e =>
    simp only [call]
    cases h : s.handle e with
    | ok t => exact handle_ports s t e h
    | error x => rfl

/-- the stored list of the input ports is the current one -/
def PortsValid (c : Client α R T) : Prop := ∀ l, c.inputPorts = some l → l = c.session.inputPorts

/-- the stored output signal is the current one -/
def OutputValid (c : Client α R T) : Prop := ∀ v, c.output = some v → c.session.output = some v

theorem step_session (c : Client α R T) (m : ClientCall α R T) : (c.step m).2.session = (call c.session m).2 := by
  cases m with
  | output =>
    obtain ⟨s, o, p⟩ := c
    unfold call
    cases o with
    | some v =>
      show s = _
      cases s.output <;> rfl
    | none =>
      cases h : s.output with
      | some v => simp [Client.step, announce, ClientCall.outputs, h]
      | none => simp [Client.step, announce, ClientCall.outputs, h]
  | inputPorts =>
    obtain ⟨s, o, p⟩ := c
    cases p <;> rfl
  | _ => rfl

theorem step_ports (c : Client α R T) (hc : PortsValid c) (m : ClientCall α R T) : PortsValid (c.step m).2 := by
  have hk : KeepsPorts m → ∀ (p : Option (List String)), (∀ l, p = some l → l = c.session.inputPorts) →
      ∀ l, p = some l → l = (call c.session m).2.inputPorts := by
    intro hm p hp l hl
    rw [hp l hl]
    unfold Jack.Session.inputPorts
    rw [call_ports c.session m hm]
  cases m with
  | addInputPort x => intro l h; cases h
  | removeInputPort x => intro l h; cases h
  | output =>
    intro l hl
    rw [step_session]
    refine hk trivial c.inputPorts hc l ?_
    obtain ⟨s, o, p⟩ := c
    cases o with
    | some v => exact hl
    | none =>
      cases h : s.output with
      | some v => simpa [Client.step, announce, ClientCall.outputs, h] using hl
      | none => simpa [Client.step, announce, ClientCall.outputs, h] using hl
  | inputPorts =>
    obtain ⟨s, o, p⟩ := c
    cases p with
    | some l => exact hc
    | none => intro l hl; cases hl; rfl
  | start mem => exact hk trivial c.inputPorts hc
  | input s => exact hk trivial c.inputPorts hc
  | connect o i => exact hk trivial c.inputPorts hc
  | autoDeactivate a => exact hk trivial c.inputPorts hc
  | activate => exact hk trivial c.inputPorts hc
  | deactivate => exact hk trivial c.inputPorts hc
  | callback e => exact hk trivial c.inputPorts hc

theorem run_session (l : List (ClientCall α R T)) : ∀ (c : Client α R T), PortsValid c →
    (c.run l).2.session = (plainCalls c.session l).2 ∧ PortsValid (c.run l).2 := by
  induction l with
  | nil => intro c hc; exact ⟨rfl, hc⟩
  | cons m l ih =>
    intro c hc
    obtain ⟨h1, h2⟩ := ih _ (step_ports c hc m)
    refine ⟨?_, h2⟩
    show (Client.run (c.step m).2 l).2.session = _
    rw [h1, step_session]
    rfl

/-- C150: The replies of the methods: setting the signal waits exactly during a recording, as does `output`; the other calls
return, unless they raise an exception. -/
theorem C150_replies (s : Jack.Session α R T) (signal : Signal α R) :
    ((call s (.input signal)).1 = .waits ↔ s.state.event = false) ∧ ((call s .output).1 = .waits ↔ s.state.event = false) ∧
    (∀ mem, (s.start mem).2 = none → (call s (.start mem)).1 = .done) ∧
    (s.world.activate.2 = none → (call s .activate).1 = .done) ∧ (call s .deactivate).1 = .done := by
  have hf : ∀ r : Jack.Session α R T × Option Jack.Exc, (finishPartly r).1 ≠ .waits := by
    rintro ⟨t, e⟩ h
    cases e <;> cases h
  have hd : ∀ r : Jack.Session α R T × Option Jack.Exc, r.2 = none → (finishPartly r).1 = .done := by
    rintro ⟨t, e⟩ h
    cases h
    rfl
  refine ⟨?_, ?_, fun mem h => hd _ h, fun h => hd _ h, rfl⟩
  · unfold call Jack.Session.setInput
    cases he : s.state.event
    · simp
    · simpa using hf _
  · unfold call Jack.Session.output
    cases he : s.state.event
    · simp
    · simp

/-- C150: After any sequence of method calls and callbacks, `input_ports` returns the names of the current input ports. -/
theorem C150_input_ports (s : Jack.Session α R T) (l : List (ClientCall α R T)) :
    (((⟨s, none, none⟩ : Client α R T).run l).2.step .inputPorts).1 =
      .names ((plainCalls s l).2.world.inports.map Jack.Port.shortname) := by
  obtain ⟨h1, h2⟩ := run_session l (⟨s, none, none⟩ : Client α R T) fun l h => by cases h
  generalize ((⟨s, none, none⟩ : Client α R T).run l).2 = c at h1 h2 ⊢
  obtain ⟨t, o, p⟩ := c
  obtain rfl : t = (plainCalls s l).2 := h1
  cases p with
  | none => rfl
  | some q =>
    have hq : q = (plainCalls s l).2.inputPorts := h2 q rfl
    rw [hq]
    rfl

theorem handle_output (s t : Jack.Session α R T) (e : Jack.Event α R T) (v : Signal α R) (hs : s.output = some v)
    (hc : ¬ Changes (.callback e : ClientCall α R T)) (h : s.handle e = .ok t) : t.output = some v := by
  have he : s.state.event = true := by
    by_contra hn
    unfold Jack.Session.output at hs
    rw [if_neg hn] at hs
    cases hs
  cases e with
  | samplingRate r => exact (hc trivial).elim
  | process b =>
    obtain ⟨u, h1, h2, h3⟩ := Jack.Session.C124_idle [.process b] s he
    obtain ⟨st, out, w, _, ht, _⟩ := Jack.Session.handle_process s t b h
    have hu : t = u := by
      simp only [Jack.Session.run, h] at h1
      cases h1
      rfl
    rw [← hu] at h2 h3
    rw [ht] at h2 h3 ⊢
    dsimp only at h2 h3
    subst h2 h3
    exact hs
  | shutdown =>
    cases h
    unfold Jack.Session.output at hs ⊢
    rw [if_pos he] at hs
    exact hs
  | xrun d => cases h; exact hs
  | blocksize n => cases h; exact hs

theorem call_output (s : Jack.Session α R T) (m : ClientCall α R T) (v : Signal α R) (hs : s.output = some v)
    (hc : ¬ Changes m) (hn : ∀ mem, m ≠ .start mem) : (call s m).2.output = some v := by
  have he : s.state.event = true := by
    by_contra hn
    unfold Jack.Session.output at hs
    rw [if_neg hn] at hs
    cases hs
  have hw : ∀ (w : Jack.World) (a : Bool), w.inports = s.world.inports →
      ({ s with world := w, auto := a } : Jack.Session α R T).output = some v := by
    intro w a h
    rw [← hs]
    unfold Jack.Session.output Jack.Session.inputPorts
    dsimp only
    rw [h]
  cases m with
  | start mem => exact (hn mem rfl).elim
  | input x => exact (hc trivial).elim
  | addInputPort x => exact (hc trivial).elim
  | removeInputPort x => exact (hc trivial).elim
  | output =>
    unfold call
    rw [hs]
    exact hs
  | connect o i =>
    simp only [call]
    cases h : s.world.connect o i with
    | ok w => exact hw w s.auto (connect_inports _ _ _ _ h)
    | error e => exact hs
  | inputPorts => exact hs
  | autoDeactivate auto =>
    unfold call Jack.Session.setAuto
    cases auto with
    | false => exact hw s.world false rfl
    | true =>
      simp only [he, if_true]
      exact hw s.world.deactivate true (deactivate_inports s.world)
  | activate =>
    show (finishPartly _).2.output = _
    rw [finishPartly_snd]
    exact hw s.world.activate.1 s.auto (activate_inports s.world)
  | deactivate => exact hw s.world.deactivate s.auto (deactivate_inports s.world)
  | callback e =>
    simp only [call]
    cases h : s.handle e with
    | ok t => exact handle_output s t e v hs hc h
    | error x => exact hs

/-- one call: it returns the same as without the storing, and the stored signal remains valid -/
theorem step_output (c : Client α R T) (hp : PortsValid c) (ho : OutputValid c) (m : ClientCall α R T) :
    (c.step m).1 = (call c.session m).1 ∧
    ((c.output.isSome = true → ¬ Changes m) → OutputValid (c.step m).2) := by
  have hk : (∀ mem, m ≠ .start mem) → (c.output.isSome = true → ¬ Changes m) →
      ∀ v, c.output = some v → (call c.session m).2.output = some v := by
    intro hn hc v hv
    exact call_output c.session m v (ho v hv) (hc (by rw [hv]; rfl)) hn
  cases m with
  | start mem => exact ⟨rfl, fun _ v h => by cases h⟩
  | output =>
    obtain ⟨s, o, p⟩ := c
    unfold call
    cases o with
    | some v =>
      have hv : s.output = some v := ho v rfl
      simp only [hv]
      exact ⟨rfl, fun _ => ho⟩
    | none =>
      cases h : s.output with
      | some v =>
        simp only [Client.step, announce, ClientCall.outputs, h, List.not_mem_nil, if_false]
        exact ⟨trivial, fun _ w hw => by cases hw; exact h⟩
      | none =>
        simp only [Client.step, announce, ClientCall.outputs, h, List.not_mem_nil, if_false]
        exact ⟨trivial, fun _ w hw => by cases hw⟩
  | inputPorts =>
    obtain ⟨s, o, p⟩ := c
    cases p with
    | none => exact ⟨rfl, fun _ => ho⟩
    | some q =>
      have hq : q = s.inputPorts := hp q rfl
      refine ⟨?_, fun _ => ho⟩
      show ClientReply.names q = _
      rw [hq]
      rfl
  | input s => exact ⟨rfl, hk (fun mem h => by cases h)⟩
  | connect o i => exact ⟨rfl, hk (fun mem h => by cases h)⟩
  | addInputPort x => exact ⟨rfl, hk (fun mem h => by cases h)⟩
  | removeInputPort x => exact ⟨rfl, hk (fun mem h => by cases h)⟩
  | autoDeactivate a => exact ⟨rfl, hk (fun mem h => by cases h)⟩
  | activate => exact ⟨rfl, hk (fun mem h => by cases h)⟩
  | deactivate => exact ⟨rfl, hk (fun mem h => by cases h)⟩
  | callback e => exact ⟨rfl, hk (fun mem h => by cases h)⟩

theorem step_isSome (c : Client α R T) (m : ClientCall α R T) (hm : m ≠ .output) (h : (c.step m).2.output.isSome = true) :
    c.output.isSome = true ∧ ∀ mem, m ≠ .start mem := by
  obtain ⟨s, o, p⟩ := c
  cases m with
  | start mem => cases h
  | output => exact (hm rfl).elim
  | inputPorts => cases p <;> exact ⟨h, fun mem h => by cases h⟩
  | _ => exact ⟨h, fun mem h => by cases h⟩

theorem run_disciplined (l : List (ClientCall α R T)) : ∀ (c : Client α R T) (called : Bool), PortsValid c →
    OutputValid c → (c.output.isSome = true → called = true) → Disciplined called l → (c.run l).1 = (plainCalls c.session l).1 := by
  induction l with
  | nil => intro c called _ _ _ _; rfl
  | cons m l ih =>
    intro c called hp ho hcalled hd
    obtain ⟨h1, h2⟩ := step_output c hp ho m
    show (c.step m).1 :: (Client.run (c.step m).2 l).1 = _
    have key : ∀ b : Bool, (c.output.isSome = true → ¬ Changes m) → ((c.step m).2.output.isSome = true → b = true) →
        Disciplined b l → (c.step m).1 :: (Client.run (c.step m).2 l).1 = (plainCalls c.session (m :: l)).1 := by
      intro b hc hb hdl
      rw [h1, ih _ b (step_ports c hp m) (h2 hc) hb hdl, step_session]
      rfl
    have other : m ≠ .output → (called = true → ¬ Changes m) → Disciplined called l →
        (c.step m).1 :: (Client.run (c.step m).2 l).1 = (plainCalls c.session (m :: l)).1 := fun hm hc hdl =>
      key called (fun h => hc (hcalled h)) (fun h => hcalled (step_isSome c m hm h).1) hdl
    cases m with
    | start mem => exact key false (fun _ h => h) (fun h => by cases h) hd
    | output => exact key true (fun _ h => h) (fun _ => rfl) hd
    | input s => exact other (fun h => by cases h) hd.1 hd.2
    | connect o i => exact other (fun h => by cases h) hd.1 hd.2
    | inputPorts => exact other (fun h => by cases h) hd.1 hd.2
    | addInputPort x => exact other (fun h => by cases h) hd.1 hd.2
    | removeInputPort x => exact other (fun h => by cases h) hd.1 hd.2
    | autoDeactivate a => exact other (fun h => by cases h) hd.1 hd.2
    | activate => exact other (fun h => by cases h) hd.1 hd.2
    | deactivate => exact other (fun h => by cases h) hd.1 hd.2
    | callback e => exact other (fun h => by cases h) hd.1 hd.2

/-- C150: Every method of a `Jack` instance returns the same as if the results were not stored.

`_partial`: the signal, the input ports and the sampling rate must not be changed between a call of `output` and the next call of
`start`, see `C150_offset_violated`, `C150_labels_violated` and `C150_rate_violated`. -/
theorem C150_jack_partial (s : Jack.Session α R T) (l : List (ClientCall α R T)) (hl : Disciplined false l) :
    ((⟨s, none, none⟩ : Client α R T).run l).1 = (plainCalls s l).1 :=
  run_disciplined l _ false (fun l h => by cases h) (fun v h => by cases h) (fun h => by cases h) hl

/-- C150: A recording, that has been retrieved, is returned by `output` until the next recording is started, whatever is called
in the meantime. -/
theorem C150_kept (c : Client α R T) (v : Signal α R) (hv : (c.step .output).1 = .signal v) (l : List (ClientCall α R T))
    (hl : ∀ m ∈ l, ∀ mem, m ≠ .start mem) : (((c.step .output).2.run l).2.step .output).1 = .signal v := by
  have h0 : (c.step .output).2.output = some v := by
    obtain ⟨s, o, p⟩ := c
    cases o with
    | some w => cases hv; rfl
    | none =>
      cases h : s.output with
      | some w =>
        simp only [Client.step, announce, ClientCall.outputs, h, List.not_mem_nil, if_false] at hv ⊢
        cases hv
        rfl
      | none =>
        simp only [Client.step, announce, ClientCall.outputs, h, List.not_mem_nil, if_false] at hv
        cases hv
  generalize (c.step .output).2 = d at h0
  have h1 : (d.run l).2.output = some v := by
    induction l generalizing d with
    | nil => exact h0
    | cons m l ih =>
      refine ih (fun m' h => hl m' (List.mem_cons_of_mem _ h)) (d.step m).2 ?_
      have hm := hl m List.mem_cons_self
      obtain ⟨s, o, p⟩ := d
      obtain rfl : o = some v := h0
      cases m with
      | start mem => exact (hm mem rfl).elim
      | inputPorts => cases p <;> rfl
      | _ => rfl
  generalize (d.run l).2 = e at h1
  obtain ⟨s, o, p⟩ := e
  obtain rfl : o = some v := h1
  rfl

/-- C150: While a recording is in progress, `output` waits for it; it does not return a previous recording. -/
theorem C150_new (mem : Nat → Nat → α) (c : Client α R T) (l : List (ClientCall α R T))
    (hs : (c.step (.start mem)).1 = .done) (hl : ∀ m ∈ l, (∀ m2, m ≠ .start m2) ∧ ∀ e, m ≠ .callback e) :
    (((c.step (.start mem)).2.run l).2.step .output).1 = .waits := by
  have h0 : (c.step (.start mem)).2.output = none ∧ (c.step (.start mem)).2.session.state.event = false := by
    refine ⟨rfl, ?_⟩
    change (finishPartly (c.session.start mem)).1 = _ at hs
    show (finishPartly (c.session.start mem)).2.state.event = false
    rw [finishPartly_snd]
    unfold Jack.Session.start at hs ⊢
    generalize c.session.world.activate = r at hs ⊢
    obtain ⟨w, e⟩ := r
    cases e with
    | none => rfl
    | some e => cases hs
  generalize (c.step (.start mem)).2 = d at h0
  have h1 : (d.run l).2.output = none ∧ (d.run l).2.session.state.event = false := by
    induction l generalizing d with
    | nil => exact h0
    | cons m l ih =>
      refine ih (fun m' h => hl m' (List.mem_cons_of_mem _ h)) (d.step m).2 ?_
      have hm := hl m List.mem_cons_self
      obtain ⟨s, o, p⟩ := d
      obtain ⟨rfl, he⟩ : o = none ∧ s.state.event = false := h0
      cases m with
      | start mem => exact (hm.1 mem rfl).elim
      | callback e => exact (hm.2 e rfl).elim
      | output =>
        have ho : s.output = none := by
          unfold Jack.Session.output
          rw [he]
          rfl
        simp only [Client.step, announce, ClientCall.outputs, ho, List.not_mem_nil, if_false]
        exact ⟨trivial, he⟩
      | inputPorts => cases p <;> exact ⟨rfl, he⟩
      | input x =>
        refine ⟨rfl, ?_⟩
        show (call s (.input x)).2.state.event = false
        unfold call Jack.Session.setInput
        simp only [he]
        exact he
      | connect o i =>
        refine ⟨rfl, ?_⟩
        show (call s (.connect o i)).2.state.event = false
        simp only [call]
        cases s.world.connect o i <;> exact he
      | addInputPort x =>
        refine ⟨rfl, ?_⟩
        show (finish s (s.addInputPort x)).2.state.event = false
        unfold Jack.Session.addInputPort
        cases s.world.registerInput s.client x <;> exact he
      | removeInputPort x =>
        refine ⟨rfl, ?_⟩
        show (finish s (s.removeInputPort x)).2.state.event = false
        unfold Jack.Session.removeInputPort
        cases s.world.removeInput x <;> exact he
      | autoDeactivate a =>
        refine ⟨rfl, ?_⟩
        show (call s (.autoDeactivate a)).2.state.event = false
        unfold call Jack.Session.setAuto
        cases a with
        | false => exact he
        | true =>
          simp only [he]
          exact he
      | activate =>
        refine ⟨rfl, ?_⟩
        show (finishPartly _).2.state.event = false
        rw [finishPartly_snd]
        exact he
      | deactivate => exact ⟨rfl, he⟩
  generalize (d.run l).2 = e at h1
  obtain ⟨s, o, p⟩ := e
  obtain ⟨rfl, he⟩ : o = none ∧ s.state.event = false := h1
  have ho : s.output = none := by
    unfold Jack.Session.output
    rw [he]
    rfl
  simp only [Client.step, announce, ClientCall.outputs, ho, List.not_mem_nil, if_false]

end Client

/-! ### examples and violations -/

/-- the identifiers in the examples -/
def demoFresh {D : Type} (d : MultiInput.Store Nat D) : Nat := d.foldl (fun m e => max m (e.1 + 1)) 0

def demoData (x : Int) : Signal Int Nat := ⟨Mat.ofRows 2 [[x, x + 1]], 48000, 0, ["x"]⟩

def Reply.show : Reply Nat (Signal Int Nat) → Option (List Int × List String)
  | .value v => some (v.channels.flat, v.labels)
  | _ => none

/-- `C150_merge` and `C150_concatenate`: the results change with the data sets -/
example : (((Block.new demoFresh [demoData 1, demoData 5] .firstDatasetFirst).run demoFresh (Merge.signals fun _ _ => 99)
      [.output, .modify (.add (demoData 8)), .output, .modify (.remove 0), .output, .modify (.remove 7), .output,
        .modify (.replace 1 (demoData 3)), .output]).map Reply.show).reduceOption =
    [([1, 2, 5, 6], ["x", "x"]), ([1, 2, 5, 6, 8, 9], ["x", "x", "x"]), ([5, 6, 8, 9], ["x", "x"]), ([5, 6, 8, 9], ["x", "x"]),
      ([3, 4, 8, 9], ["x", "x"])] := by decide +kernel

example : (((Block.new demoFresh [demoData 1, demoData 5] ()).run demoFresh (fun _ => Concatenate.signals fun _ _ => 99)
      [.output, .modify (.remove 0), .output]).map Reply.show).reduceOption =
    [([1, 2, 5, 6], ["Concatenation 1"]), ([5, 6], ["x"])] := by decide +kernel

open Jack Jack.Session

def ClientReply.show : ClientReply Int Nat → Option (List Int × List String × Int × Nat)
  | .signal v => some (v.channels.flat, v.labels, v.offset, v.rate)
  | _ => none

/-- the signals, that are returned by the calls of `output` after a recording -/
def demoCalls (l : List (ClientCall Int Nat Rat)) : Option (List (List Int × List String × Int × Nat)) := do
  let s ← (demo ["left", "right"] "loudspeaker").toOption
  return ((((⟨s, none, none⟩ : Client Int Nat Rat).run ([.start fun _ _ => 99, .callback (demoBlock 5 6),
    .callback (demoBlock 7 8), .callback (demoBlock 9 9)] ++ l)).1.map ClientReply.show)).reduceOption

/-- `C150_replies`: a recording can be started -/
example : ((demo ["left", "right"] "loudspeaker").toOption.map fun s => (s.start fun _ _ => 99).2.isNone) = some true := by
  decide +kernel

def otherSignal : Signal Int Nat := ⟨Mat.ofRows 4 [[1, 2, 3, 4]], 48000, -3, ["loudspeaker"]⟩

/-- C150 is violated: when another signal is set after a recording, the offset of the output signal depends on whether `output`
has been called before. If it has not, the recording gets the offset of a signal, that has not been played back. -/
theorem C150_offset_violated :
    demoCalls [.input otherSignal, .output] = some [([5, 6, 7, 8, -5, -6, -7, -8], ["left", "right"], -3, 48000)] ∧
    demoCalls [.output, .input otherSignal, .output] =
      some (List.replicate 2 ([5, 6, 7, 8, -5, -6, -7, -8], ["left", "right"], 7, 48000)) :=
  ⟨by decide +kernel, by decide +kernel⟩

/-- C150 is violated: when an input port is removed, the labels of the output signal depend on whether `output` has been called
before. -/
theorem C150_labels_violated :
    demoCalls [.removeInputPort (.str "left"), .output] =
      some [([5, 6, 7, 8, -5, -6, -7, -8], ["right", ""], 7, 48000)] ∧
    demoCalls [.output, .removeInputPort (.str "left"), .output] =
      some (List.replicate 2 ([5, 6, 7, 8, -5, -6, -7, -8], ["left", "right"], 7, 48000)) :=
  ⟨by decide +kernel, by decide +kernel⟩

/-- C150 is violated: when the sampling rate of the JACK server changes, the sampling rate of the output signal depends on whether
`output` has been called before. -/
theorem C150_rate_violated :
    demoCalls [.callback (.samplingRate 44100), .output] =
      some [([5, 6, 7, 8, -5, -6, -7, -8], ["left", "right"], 7, 44100)] ∧
    demoCalls [.output, .callback (.samplingRate 44100), .output] =
      some (List.replicate 2 ([5, 6, 7, 8, -5, -6, -7, -8], ["left", "right"], 7, 48000)) :=
  ⟨by decide +kernel, by decide +kernel⟩

/-- `C150_jack_partial`, `C150_kept`: the hypothesis for a sequence with two recordings -/
example : Disciplined false ([.start fun _ _ => 99, .callback (demoBlock 5 6), .callback (demoBlock 7 8),
    .callback (demoBlock 9 9), .output, .inputPorts,
    .output, .start fun _ _ => 99, .callback (.samplingRate 44100), .callback (demoBlock 1 1), .callback (demoBlock 2 2),
    .callback (demoBlock 9 9), .input otherSignal, .output] : List (ClientCall Int Nat Rat)) ∧
    demoCalls [.output, .inputPorts, .output, .start fun _ _ => 99, .callback (.samplingRate 44100), .callback (demoBlock 1 1),
      .callback (demoBlock 2 2), .callback (demoBlock 9 9), .input otherSignal, .output] =
    some (List.replicate 2 ([5, 6, 7, 8, -5, -6, -7, -8], ["left", "right"], 7, 48000) ++
      [([1, 1, 2, 2, -1, -1, -2, -2], ["left", "right"], -3, 44100)]) := by
  refine ⟨?_, by decide +kernel⟩
  simp [Disciplined, Changes]

def ClientReply.names? : ClientReply Int Nat → Option (List String)
  | .names l => some l
  | _ => none

/-- `C150_input_ports` -/
example : ((demo ["left", "right"] "loudspeaker").toOption.map fun s => ((((⟨s, none, none⟩ : Client Int Nat Rat).run
      [.inputPorts, .addInputPort "x", .inputPorts, .removeInputPort (.index 0), .inputPorts]).1.map
        ClientReply.names?)).reduceOption) =
    some [["left", "right"], ["left", "right", "x"], ["right", "x"]] := by decide +kernel

/-- `C150_new`: the second recording has been started, but not finished -/
example : ((demo ["left", "right"] "loudspeaker").toOption.map fun s => (((⟨s, none, none⟩ : Client Int Nat Rat).run
      [.output, .start fun _ _ => 99, .inputPorts, .output]).1.map ClientReply.show).map Option.isSome) =
    some [true, false, false, false] := by decide +kernel

end Caching
end Verif
