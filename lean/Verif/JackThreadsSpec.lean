import Verif.JackThreads

/-
The sequential behaviour, with which the interleavings of the threads of `sumpf.Jack` are compared.
-/

namespace Verif
namespace Jack
namespace Threads

variable {α R : Type}

/-- Between two calls of `start`, the program calls a method, that waits for the event; `waited` tells, if no recording is in
progress. -/
def Waits : Bool → List (Op α R) → Prop
  | _, [] => True
  | waited, .start :: ops => waited = true ∧ Waits false ops
  | _, .input _ :: ops => Waits true ops
  | _, .output :: ops => Waits true ops

/-- Between two calls of `start`, the program retrieves the recording with `output`. -/
def Retrieves : Bool → List (Op α R) → Prop
  | _, [] => True
  | retrieved, .start :: ops => retrieved = true ∧ Retrieves false ops
  | retrieved, .input _ :: ops => Retrieves retrieved ops
  | _, .output :: ops => Retrieves true ops

/-- For each call of `output`: the signal, that was played back, when the returned channels have been recorded (`none`: there has
not been a recording), and the signal, whose offset is returned. -/
def expected : Option (Signal α R) → Signal α R → List (Op α R) → List (Option (Signal α R) × Signal α R)
  | _, _, [] => []
  | _, s, .start :: ops => expected (some s) s ops
  | r, _, .input s :: ops => expected r s ops
  | r, s, .output :: ops => (r, s) :: expected r s ops

/-- the JACK server provides buffers with the length of the block for each port -/
def ValidBlock (inports : Nat) (b : Block α) : Prop :=
  b.input.rows = inports ∧ b.input.cols = b.frames ∧ b.output.cols = b.frames

/-- the buffers are valid and the JACK server is not shut down -/
def ValidChoice (inports : Nat) : Choice α → Prop
  | .server b => ValidBlock inports b
  | .callback => True
  | .main _ => True
  | .shutdown => False

/-- The array contains a complete recording of the signal, as it results from executing `start` and then the process callback for
consecutive blocks one after the other (`Jack.process`); these have also been the contents of the output ports' buffers. -/
def Recording [Zero α] (inports : Nat) (log : List (Block α × Mat α)) (s : Signal α R) (A : Mat α) : Prop :=
  ∃ mem before during after index, log = before ++ during ++ after ∧
    process s (start mem inports s) (during.map Prod.fst) = .ok (⟨A, index, true⟩, during.map Prod.snd)

/-- the content of the array with the given position; if there has not been a recording, it is the initial one -/
def Holds [Zero α] (inports : Nat) (empty : Mat α) (arrays : List (Mat α)) (log : List (Block α × Mat α))
    (r : Option (Signal α R)) (array : Nat) : Prop :=
  match r with
  | none => array = 0 ∧ arrays[array]? = some empty
  | some s => ∃ A, arrays[array]? = some A ∧ Recording inports log s A

end Threads
end Jack
end Verif
