import Verif.Jack

/-
`sumpf.Jack` (`/repo/sumpf/_blocks/_jack.py`): the threads. The program calls `start`, `input` and `output` in one thread, while
the JACK server calls the process callback in another thread. Both access the attributes `_input`, `_channels`, `_index` and
`_event` without a lock. Here, the two threads are interleaved at the granularity of single accesses to these attributes.

The global interpreter lock makes the access to one attribute, or to the flag of the event, atomic. The assignment to a row of
the recorded array is one step as well; that is a simplification, because numpy may release the lock while copying.

Assumptions about the JACK server (which is not a part of the repository): it does not call the process callback, before its last
call has returned; it calls it only for an active client; a callback, that raises `jack.CallbackExit`, deactivates the client;
activating an active client has no effect.

Not modelled here: the ports, so the number of the input ports does not change (see `JackSession.lean`), the sampling rate and
the methods `activate` and `deactivate` being called by the program. `instance()` (line 441) always returns the instance.
-/

namespace Verif
namespace Jack
namespace Threads

variable {α R : Type}

/-- a call of a method by the program: `start` (`_jack.py:117-139`), `input` (`_jack.py:141-150`) or `output`
(`_jack.py:152-165`) -/
inductive Op (α R : Type) where
  | start
  | input (s : Signal α R)
  | output

/-- where the thread of the program is -/
inductive Main (α R : Type) where
  /-- between the calls of the methods -/
  | ready
  /-- in `start`, before line 135: `self._channels = …` -/
  | activated
  /-- in `start`, before line 136: `self._index = 0` -/
  | allocated
  /-- in `start`, before line 137: `self._event.clear()` -/
  | reset
  /-- in `input`, before line 148: `self._input = signal` -/
  | inputWaited (s : Signal α R)
  /-- in `output`, before the sleep in the lines 160-161 -/
  | outputWaited
  /-- in `output`, before line 162: reading `self._channels` -/
  | slept
  /-- in `output`, before line 164: `self._input.offset()`, with the array, that has been read -/
  | gotChannels (array : Nat)

/-- where the process callback is, with its local variables -/
inductive Callback (α : Type) where
  /-- not running -/
  | idle
  /-- before line 442: `instance._event.is_set()` -/
  | entered (b : Block α)
  /-- before line 443: `index = instance._index` -/
  | checked (b : Block α)
  /-- before line 445: `channels = instance._input.channels()` -/
  | indexed (b : Block α) (index : Int)
  /-- before line 446: `stop_index <= instance._input.length()` -/
  | fetched (b : Block α) (index : Int) (channels : Mat α)
  /-- before line 451: `index < instance._input.length()` -/
  | beyond (b : Block α) (index : Int) (channels : Mat α)
  /-- before line 452: `stop_index = instance._input.length() - index` -/
  | last (b : Block α) (index : Int) (channels : Mat α)
  /-- before the lines 449 or 456: reading `instance._channels`. The buffers of the output ports have been written. `target` are the
  indices of the recorded samples in the array and `source` those in the buffers -/
  | played (b : Block α) (stop : Int) (out : Mat α) (target source : PySlice)
  /-- in the loop over the input ports (lines 449-450 or 456-457), before the iteration for the given row of the array -/
  | recording (b : Block α) (stop : Int) (out : Mat α) (target source : PySlice) (array row : Nat)
  /-- before line 465: `instance._index = stop_index` -/
  | recorded (b : Block α) (stop : Int) (out : Mat α)
  /-- before line 459: `instance._event.set()` -/
  | ending (b : Block α)
  /-- after line 459, before returning or raising `jack.CallbackExit` (lines 460-464) -/
  | ended
  /-- an exception has been raised -/
  | failed

/-- The state of the instance and of the threads. The arrays, that have been assigned to `_channels`, are listed in `arrays`; an
array is referred to by its position in this list. `results` are the signals, that have been returned by `output`: their
`channels` (the array itself is passed to the signal, not a copy) and their offset. `log` and `mark` are a history, which the
code does not store: `log` are the blocks with the buffers of the output ports, in the order, in which the callbacks have
accessed an attribute or a buffer for the last time, and `mark` is the length of the log, when the event was cleared. -/
structure System (α R : Type) where
  input : Signal α R
  arrays : List (Mat α)
  channels : Nat
  index : Int
  event : Bool
  active : Bool
  callback : Callback α
  main : Main α R
  ops : List (Op α R)
  results : List (Nat × Int)
  log : List (Block α × Mat α)
  mark : Nat

/-- which thread does the next step -/
inductive Choice (α : Type) where
  /-- the JACK server calls the process callback -/
  | server (b : Block α)
  /-- the process callback continues -/
  | callback
  /-- the program continues; `mem` is the content of the memory, if an array is allocated -/
  | main (mem : Nat → Nat → α)
  /-- the JACK server is shut down -/
  | shutdown

/-- the state after the constructor (`_jack.py:84-97`), with the calls of the methods, that the program is going to make -/
def System.initial (empty : Mat α) (s : Signal α R) (ops : List (Op α R)) : System α R :=
  { input := s, arrays := [empty], channels := 0, index := 0, event := true, active := false, callback := .idle, main := .ready,
    ops := ops, results := [], log := [], mark := 0 }

/-- the buffers of the output ports after the loop in the lines 447-448 -/
def fullBlock (b : Block α) (index stop : Int) (channels : Mat α) : Py (Mat α) :=
  let outs : PySlice := .range 0 (min b.output.rows channels.rows : Nat)
  b.output.assign outs .all (channels.slice outs (.range index stop))

/-- the buffers of the output ports after the loop in the lines 453-455 -/
def lastBlock [Zero α] (b : Block α) (index stop : Int) (channels : Mat α) : Py (Mat α) := do
  let outs : PySlice := .range 0 (min b.output.rows channels.rows : Nat)
  let output ← b.output.assign outs (.range 0 stop) (channels.slice outs (.drop index))
  output.assign outs (.drop stop) (.scalar 0)

/-- one step of the process callback (`_jack.py:438-465`); there is none, if it is not running -/
def System.callbackStep [Zero α] (auto : Bool) (w : System α R) : Option (System α R) :=
  match w.callback with
  | .idle => none
  | .failed => none
  | .entered b =>
    if w.event = false then some { w with callback := .checked b }
    else some { w with callback := .idle, log := w.log ++ [(b, b.output)] }
  | .checked b => some { w with callback := .indexed b w.index }
  | .indexed b index => some { w with callback := .fetched b index w.input.channels }
  | .fetched b index channels =>
    if index + b.frames ≤ w.input.length then
      match fullBlock b index (index + b.frames) channels with
      | .ok out => some { w with callback := .played b (index + b.frames) out (.range index (index + b.frames)) .all }
      | .error _ => some { w with callback := .failed }
    else some { w with callback := .beyond b index channels }
  | .beyond b index channels =>
    if index < w.input.length then some { w with callback := .last b index channels }
    else some { w with callback := .ending b }
  | .last b index channels =>
    match lastBlock b index (w.input.length - index) channels with
    | .ok out => some { w with
        callback := .played b (w.input.length - index) out (.drop index) (.range 0 (w.input.length - index)) }
    | .error _ => some { w with callback := .failed }
  | .played b stop out target source => some { w with callback := .recording b stop out target source w.channels 0 }
  | .recording b stop out target source array row =>
    match w.arrays[array]? with
    | none => some { w with callback := .failed }
    | some A =>
      if row < min b.input.rows A.rows then
        match A.assign (.range row (row + 1)) target (b.input.slice (.range row (row + 1)) source) with
        | .ok A' => some { w with arrays := w.arrays.set array A', callback := .recording b stop out target source array (row + 1) }
        | .error _ => some { w with callback := .failed }
      else some { w with callback := .recorded b stop out }
  | .recorded b stop out => some { w with index := stop, callback := .idle, log := w.log ++ [(b, out)] }
  | .ending b => some { w with event := true, callback := .ended, log := w.log ++ [(b, b.output)] }
  | .ended => some { w with active := w.active && !auto, callback := .idle }

/-- The sleep in `output` is over (`_jack.py:160-161`). It is longer than a block, so the callback, that has set the event, has
returned by then, because otherwise, it would not have been finished in time for the next block. -/
def awake (auto : Bool) (c : Callback α) : Bool :=
  match auto, c with
  | true, .ended => false
  | _, _ => true

/-- one step of the program; there is none, if it is blocked by waiting for the event or if it has finished -/
def System.mainStep (inports : Nat) (auto : Bool) (mem : Nat → Nat → α) (w : System α R) : Option (System α R) :=
  match w.main, w.ops with
  | .ready, [] => none
  | .ready, .start :: ops => some { w with main := .activated, active := true, ops := ops }
  | .ready, .input s :: ops => if w.event = true then some { w with main := .inputWaited s, ops := ops } else none
  | .ready, .output :: ops => if w.event = true then some { w with main := .outputWaited, ops := ops } else none
  | .activated, _ => some { w with
      main := .allocated, arrays := w.arrays ++ [alloc mem inports w.input.length], channels := w.arrays.length }
  | .allocated, _ => some { w with main := .reset, index := 0 }
  | .reset, _ => some { w with main := .ready, event := false, mark := w.log.length }
  | .inputWaited s, _ => some { w with main := .ready, input := s }
  | .outputWaited, _ => if awake auto w.callback = true then some { w with main := .slept } else none
  | .slept, _ => some { w with main := .gotChannels w.channels }
  | .gotChannels array, _ => some { w with main := .ready, results := w.results ++ [(array, w.input.offset)] }

/-- whether the callback is not running -/
def Callback.isIdle : Callback α → Bool
  | .idle => true
  | _ => false

/-- the next step, or `none`, if the chosen thread cannot do a step (`on_shutdown`: `_jack.py:473-475`) -/
def System.step [Zero α] (inports : Nat) (auto : Bool) (w : System α R) : Choice α → Option (System α R)
  | .server b => if w.active = true ∧ w.callback.isIdle = true then some { w with callback := .entered b } else none
  | .callback => w.callbackStep auto
  | .main mem => w.mainStep inports auto mem
  | .shutdown => some { w with event := true, active := false }

/-- an interleaving of the threads -/
def System.run [Zero α] (inports : Nat) (auto : Bool) : System α R → List (Choice α) → Option (System α R)
  | w, [] => some w
  | w, c :: cs => (w.step inports auto c).bind fun w => w.run inports auto cs

end Threads
end Jack
end Verif
