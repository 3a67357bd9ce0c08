import Verif.JackThreadsInv
import Verif.JackProps

/-
C148: the threads of `sumpf.Jack`: recordings are not corrupted by the interleaving of the program's thread and the callback.
-/

namespace Verif
namespace Jack
namespace Threads

variable {α R : Type}

/-! ### The results -/

/-- C148: Whatever the interleaving of the program with the process callback is: if the program waits between two calls of
`start`, the signals, that have been returned by `output`, are those of the sequential execution. Each one contains the complete
recording of the signal, that was set, when `start` was called before, and the offset of the signal, that is set now.

`_partial`: the demand on the program, see `C148_restart_violated`, and the JACK server must not be shut down, see
`C148_shutdown_violated` (`ValidChoice`). -/
theorem C148_results_partial [Zero α] (inports : Nat) (auto : Bool) (empty : Mat α) (s : Signal α R) (ops : List (Op α R))
    (cs : List (Choice α)) (w : System α R) (hw : Waits true ops) (hv : ∀ c ∈ cs, ValidChoice inports c)
    (h : (System.initial empty s ops).run inports auto cs = some w) :
    ∃ now later, expected none s ops = now ++ later ∧
      List.Forall₂ (fun r e => Holds inports empty w.arrays w.log e.1 r.1 ∧ r.2 = e.2.offset) w.results now := by
  obtain ⟨_, ⟨rs, rest, g2, _, g4⟩, _⟩ := (Inv.initial inports empty s ops hw).run hv h
  exact ⟨rs, rest, g2, g4⟩

/-- C148: when the program has finished, all its calls of `output` have returned their results -/
theorem C148_finished [Zero α] (inports : Nat) (auto : Bool) (empty : Mat α) (s : Signal α R) (ops : List (Op α R))
    (cs : List (Choice α)) (w : System α R) (hw : Waits true ops) (hv : ∀ c ∈ cs, ValidChoice inports c)
    (h : (System.initial empty s ops).run inports auto cs = some w) (hm : w.main = .ready) (ho : w.ops = []) :
    w.results.length = (expected none s ops).length := by
  obtain ⟨_, ⟨rs, rest, g2, g3, g4⟩, _⟩ := (Inv.initial inports empty s ops hw).run hv h
  unfold MainInv at g3
  rw [hm] at g3
  obtain ⟨k, r, _, m2, _⟩ := g3
  rw [ho] at m2
  rw [g2, m2, g4.length_eq]
  simp [expected]

/-- C148: no assignment in the callback fails -/
theorem C148_no_exception [Zero α] (inports : Nat) (auto : Bool) (empty : Mat α) (s : Signal α R) (ops : List (Op α R))
    (cs : List (Choice α)) (w : System α R) (hw : Waits true ops) (hv : ∀ c ∈ cs, ValidChoice inports c)
    (h : (System.initial empty s ops).run inports auto cs = some w) : w.callback ≠ .failed := by
  have hi := (Inv.initial inports empty s ops hw).run hv h
  intro hf
  cases he : w.event with
  | true => exact absurd (hi.quiet he) (by rw [hf]; exact not_false)
  | false =>
    obtain ⟨_, _, _, _, _, _, _, _, k⟩ := hi.progress he
    rw [hf] at k
    exact k

/-- the program `start`, `input`, `output`, `start`, `output` waits between the calls of `start` -/
example (s : Signal α R) : Waits true [.start, .input s, .output, .start, .output] := ⟨rfl, rfl, trivial⟩

/-! ### Returned signals are not changed -/

theorem callbackStep_arrays [Zero α] {auto : Bool} {w w' : System α R} (h : w.callbackStep auto = some w') :
    w'.results = w.results ∧ (w'.arrays = w.arrays ∨
      ∃ b stop out t f a k A, w.callback = .recording b stop out t f a k ∧ w'.arrays = w.arrays.set a A) := by
  unfold System.callbackStep at h
  split at h
  · cases h
  · cases h
  · split at h <;> cases h <;> exact ⟨rfl, Or.inl rfl⟩
  · cases h; exact ⟨rfl, Or.inl rfl⟩
  · cases h; exact ⟨rfl, Or.inl rfl⟩
  · split at h
    · split at h <;> cases h <;> exact ⟨rfl, Or.inl rfl⟩
    · cases h; exact ⟨rfl, Or.inl rfl⟩
  · split at h <;> cases h <;> exact ⟨rfl, Or.inl rfl⟩
  · split at h <;> cases h <;> exact ⟨rfl, Or.inl rfl⟩
  · cases h; exact ⟨rfl, Or.inl rfl⟩
  · next b stop out t f a k hc =>
    split at h
    · cases h; exact ⟨rfl, Or.inl rfl⟩
    · split at h
      · split at h
        · next A _ _ A' _ =>
          cases h
          exact ⟨rfl, Or.inr ⟨b, stop, out, t, f, a, k, A', hc, rfl⟩⟩
        · cases h; exact ⟨rfl, Or.inl rfl⟩
      · cases h; exact ⟨rfl, Or.inl rfl⟩
  · cases h; exact ⟨rfl, Or.inl rfl⟩
  · cases h; exact ⟨rfl, Or.inl rfl⟩
  · cases h; exact ⟨rfl, Or.inl rfl⟩

theorem mainStep_arrays {inports : Nat} {auto : Bool} {mem : Nat → Nat → α} {w w' : System α R}
    (h : w.mainStep inports auto mem = some w') :
    w.results <+: w'.results ∧ w.arrays <+: w'.arrays := by
  unfold System.mainStep at h
  split at h
  · cases h
  · cases h; exact ⟨List.prefix_refl _, List.prefix_refl _⟩
  · split at h <;> cases h; exact ⟨List.prefix_refl _, List.prefix_refl _⟩
  · split at h <;> cases h; exact ⟨List.prefix_refl _, List.prefix_refl _⟩
  · cases h; exact ⟨List.prefix_refl _, List.prefix_append _ _⟩
  · cases h; exact ⟨List.prefix_refl _, List.prefix_refl _⟩
  · cases h; exact ⟨List.prefix_refl _, List.prefix_refl _⟩
  · cases h; exact ⟨List.prefix_refl _, List.prefix_refl _⟩
  · split at h <;> cases h; exact ⟨List.prefix_refl _, List.prefix_refl _⟩
  · cases h; exact ⟨List.prefix_refl _, List.prefix_refl _⟩
  · cases h; exact ⟨List.prefix_append _ _, List.prefix_refl _⟩

theorem step_unchanged [Zero α] {inports : Nat} {auto : Bool} {empty : Mat α} {all : List (Option (Signal α R) × Signal α R)}
    {w w' : System α R} (hi : Inv inports empty all w) {c : Choice α} (h : w.step inports auto c = some w') :
    w.results <+: w'.results ∧ ∀ r ∈ w.results, w'.arrays[r.1]? = w.arrays[r.1]? := by
  cases c with
  | server b =>
    simp only [System.step] at h
    split at h
    · cases h; exact ⟨List.prefix_refl _, fun _ _ => rfl⟩
    · cases h
  | shutdown => cases h; exact ⟨List.prefix_refl _, fun _ _ => rfl⟩
  | main mem =>
    obtain ⟨g1, g2⟩ := mainStep_arrays h
    refine ⟨g1, fun r hr => ?_⟩
    have := (hi.older r hr).1
    have := hi.position
    obtain ⟨l, hl⟩ := g2
    rw [← hl, List.getElem?_append_left (by omega)]
  | callback =>
    obtain ⟨g1, g2⟩ := callbackStep_arrays h
    rw [g1]
    refine ⟨List.prefix_refl _, fun r hr => ?_⟩
    rcases g2 with g2 | ⟨b, stop, out, t, f, a, k, A, hc, g2⟩
    · rw [g2]
    · have he : w.event = false := by
        cases he : w.event with
        | false => rfl
        | true => exact absurd (hi.quiet he) (by rw [hc]; exact not_false)
      obtain ⟨k1, _, _, _, _, _, _, _, k6⟩ := hi.progress he
      rw [hc] at k6
      have hf : Fresh w := by
        unfold Fresh
        rw [k1]
        exact he
      have h1 := (hi.older r hr).2 hf
      have h2 := k6.2.1
      rw [g2, List.getElem?_set_ne (by omega)]

/-- C148: The signal, that `output` returns, refers to the recorded array. Neither a callback, that is still running, nor a later
recording changes this array. -/
theorem C148_unchanged_partial [Zero α] (inports : Nat) (auto : Bool) (empty : Mat α) (s : Signal α R) (ops : List (Op α R))
    (cs : List (Choice α)) (w : System α R) (hw : Waits true ops) (hv : ∀ c ∈ cs, ValidChoice inports c)
    (h : (System.initial empty s ops).run inports auto cs = some w) :
    ∀ (cs' : List (Choice α)) (w' : System α R), (∀ c ∈ cs', ValidChoice inports c) → w.run inports auto cs' = some w' →
      w.results <+: w'.results ∧ ∀ r ∈ w.results, w'.arrays[r.1]? = w.arrays[r.1]? := by
  have hi := (Inv.initial inports empty s ops hw).run hv h
  clear h hv
  intro cs'
  induction cs' generalizing w with
  | nil => intro w' _ h; cases h; exact ⟨List.prefix_refl _, fun _ _ => rfl⟩
  | cons c cs' ih =>
    intro w' hv h
    simp only [System.run] at h
    cases h1 : w.step inports auto c with
    | none => rw [h1] at h; cases h
    | some w₁ =>
      rw [h1] at h
      obtain ⟨g1, g2⟩ := step_unchanged hi h1
      obtain ⟨g3, g4⟩ := ih w₁ (hi.step (hv c List.mem_cons_self) h1) w' (fun c hc => hv c (List.mem_cons_of_mem _ hc)) h
      exact ⟨g1.trans g3, fun r hr => (g4 r (g1.subset hr)).trans (g2 r hr)⟩

/-! ### The samples -/

theorem startOf_const (n : Nat) (bs : List (Block α)) (hb : ∀ b ∈ bs, b.frames = n) (j : Nat) (hj : j ≤ bs.length) :
    startOf bs j = j * n := by
  unfold startOf
  have : (bs.take j).map (fun b => b.frames) = List.replicate j n := by
    rw [List.eq_replicate_iff]
    refine ⟨by simp; omega, ?_⟩
    intro x hx
    obtain ⟨b, hb1, rfl⟩ := List.mem_map.1 hx
    exact hb b (List.mem_of_mem_take hb1)
  rw [this]
  simp

/-- C148: The samples of a recording (see `C148_results_partial`), if the JACK server uses the same size for all blocks: there is
a sequence of consecutive blocks, in which the samples of the signal were written to the buffers of the output ports, while
those from the buffers of the input ports have been stored at the same indices, and this sequence comprises the whole signal.

`_partial`: the size of the blocks must divide the length of the signal or exceed it, see `C25_replay_violated`. -/
theorem C148_samples_partial [Zero α] (inports n : Nat) (log : List (Block α × Mat α)) (s : Signal α R) (A : Mat α)
    (hr : Recording inports log s A) (hb : ∀ x ∈ log, x.1.Valid inports s.count ∧ x.1.frames = n)
    (hl : n ∣ s.length ∨ s.length ≤ n) :
    A.rows = inports ∧ A.cols = s.length ∧
    ∃ before during after, log = before ++ during ++ after ∧ s.length ≤ during.length * n ∧
      ∀ (j : Nat) (x : Block α × Mat α), during[j]? = some x → ∀ f, f < n → j * n + f < s.length →
        (∀ k, k < inports → A.get k (j * n + f) = x.1.input.get k f) ∧
        (∀ k, k < s.count → x.2.get k f = s.channels.get k (j * n + f)) := by
  obtain ⟨mem, before, during, after, index, h1, h2⟩ := hr
  have hmem : ∀ x ∈ during, x ∈ log := fun x hx => by rw [h1]; simp [hx]
  have hv : ∀ b ∈ during.map Prod.fst, b.Valid inports s.count ∧ b.frames = n := by
    intro b hb'
    obtain ⟨x, hx, rfl⟩ := List.mem_map.1 hb'
    exact hb x (hmem x hx)
  obtain ⟨st, outs, g1, g2, g3, _, g5, g6, g7, g8⟩ := C25_playback_partial mem s inports (during.map Prod.fst)
    (fun b h => (hv b h).1) (C25_constant_blocks s.length n _ (fun b h => (hv b h).2) hl)
  rw [h2] at g1
  cases g1
  obtain ⟨j₀, b₀, e1, e2, e3⟩ := g8.1 rfl
  have hlt : ∀ (j : Nat) (b : Block α), (during.map Prod.fst)[j]? = some b →
      j < during.length ∧ startOf (during.map Prod.fst) j = j * n := by
    intro j b hj
    obtain ⟨hlt, _⟩ := List.getElem?_eq_some_iff.1 hj
    exact ⟨by simpa using hlt, startOf_const n _ (fun b h => (hv b h).2) j (by omega)⟩
  refine ⟨g5, g6, before, during, after, h1, ?_, ?_⟩
  · obtain ⟨q1, q2⟩ := hlt j₀ b₀ e1
    rw [q2] at e2
    exact e2.trans (Nat.mul_le_mul_right _ (by omega))
  · intro j x hj f hf hjf
    have hj' : (during.map Prod.fst)[j]? = some x.1 := by rw [List.getElem?_map, hj]; rfl
    have hjo : (during.map Prod.snd)[j]? = some x.2 := by rw [List.getElem?_map, hj]; rfl
    obtain ⟨_, q2⟩ := hlt j x.1 hj'
    have hfr := (hv x.1 (List.mem_of_getElem? hj')).2
    constructor
    · intro k hk
      have := g7 j x.1 hj' k f hk (by omega) (by omega)
      rw [q2] at this
      exact this
    · intro k hk
      obtain ⟨out, o1, _, _, o4⟩ := g3 j x.1 hj' (by omega)
      rw [hjo] at o1
      cases o1
      have := o4 k f hk (by omega)
      rw [q2, if_pos hjf] at this
      exact this

/-! ### Waiting for the recording -/

/-- whether the program retrieves its recordings; this is demanded only, if the client deactivates itself -/
def Retr (auto retrieved : Bool) (ops : List (Op α R)) : Prop := auto = true → Retrieves retrieved ops

/-- The client is active, while a recording is being started or in progress. -/
def Active (auto : Bool) (w : System α R) : Prop :=
  match w.main with
  | .ready => (∃ q, Retr auto q w.ops ∧ (q = true → w.event = true ∧ awake auto w.callback = true)) ∧
      (w.event = false → w.active = true ∧ awake auto w.callback = true)
  | .activated => w.active = true ∧ awake auto w.callback = true ∧ Retr auto false w.ops
  | .allocated => w.active = true ∧ awake auto w.callback = true ∧ Retr auto false w.ops
  | .reset => w.active = true ∧ awake auto w.callback = true ∧ Retr auto false w.ops
  | .inputWaited _ => ∃ q, Retr auto q w.ops ∧ (q = true → awake auto w.callback = true)
  | .outputWaited => Retr auto true w.ops
  | .slept => awake auto w.callback = true ∧ Retr auto true w.ops
  | .gotChannels _ => awake auto w.callback = true ∧ Retr auto true w.ops

theorem awake_false (c : Callback α) : awake false c = true := by
  unfold awake
  split <;> first | rfl | simp_all

theorem awake_ended {auto : Bool} (h : awake auto (.ended : Callback α) = true) : auto = false := by
  cases auto with
  | false => rfl
  | true => cases h

/-- a step, that changes neither the event nor the thread of the program, and by which the callback is not ended -/
theorem Active.local {auto : Bool} {w w' : System α R} (h : Active auto w) (h1 : w'.main = w.main) (h2 : w'.ops = w.ops)
    (h3 : w'.event = w.event) (h4 : awake auto w.callback = true → w.active = true → w'.active = true)
    (h5 : awake auto w'.callback = true) : Active auto w' := by
  unfold Active at h ⊢
  rw [h1, h2, h3]
  cases hm : w.main <;> rw [hm] at h <;> simp only at h ⊢
  · obtain ⟨⟨q, g1, g2⟩, g3⟩ := h
    exact ⟨⟨q, g1, fun hq => ⟨(g2 hq).1, h5⟩⟩, fun he => ⟨h4 (g3 he).2 (g3 he).1, h5⟩⟩
  · exact ⟨h4 h.2.1 h.1, h5, h.2.2⟩
  · exact ⟨h4 h.2.1 h.1, h5, h.2.2⟩
  · exact ⟨h4 h.2.1 h.1, h5, h.2.2⟩
  · obtain ⟨q, g1, g2⟩ := h
    exact ⟨q, g1, fun _ => h5⟩
  · exact h
  · exact ⟨h5, h.2⟩
  · exact ⟨h5, h.2⟩

theorem awake_of_ne {auto : Bool} {c : Callback α} (h : c ≠ .ended) : awake auto c = true := by
  unfold awake
  split
  · exact absurd rfl h
  · rfl

theorem Active.callback [Zero α] {inports : Nat} {auto : Bool} {empty : Mat α} {all : List (Option (Signal α R) × Signal α R)}
    {w w' : System α R} (hi : Inv inports empty all w) (h : Active auto w) (hs : w.callbackStep auto = some w') :
    Active auto w' := by
  unfold System.callbackStep at hs
  split at hs
  · cases hs
  · cases hs
  · split at hs <;> cases hs <;> exact h.local rfl rfl rfl (fun _ h => h) (awake_of_ne (by simp))
  · cases hs; exact h.local rfl rfl rfl (fun _ h => h) (awake_of_ne (by simp))
  · cases hs; exact h.local rfl rfl rfl (fun _ h => h) (awake_of_ne (by simp))
  · split at hs
    · split at hs <;> cases hs <;> exact h.local rfl rfl rfl (fun _ h => h) (awake_of_ne (by simp))
    · cases hs; exact h.local rfl rfl rfl (fun _ h => h) (awake_of_ne (by simp))
  · split at hs <;> cases hs <;> exact h.local rfl rfl rfl (fun _ h => h) (awake_of_ne (by simp))
  · split at hs <;> cases hs <;> exact h.local rfl rfl rfl (fun _ h => h) (awake_of_ne (by simp))
  · cases hs; exact h.local rfl rfl rfl (fun _ h => h) (awake_of_ne (by simp))
  · split at hs
    · cases hs; exact h.local rfl rfl rfl (fun _ h => h) (awake_of_ne (by simp))
    · split at hs
      · split at hs <;> cases hs <;> exact h.local rfl rfl rfl (fun _ h => h) (awake_of_ne (by simp))
      · cases hs; exact h.local rfl rfl rfl (fun _ h => h) (awake_of_ne (by simp))
  · cases hs; exact h.local rfl rfl rfl (fun _ h => h) (awake_of_ne (by simp))
  · next b hc =>
    cases hs
    have he : w.event = false := by
      cases he : w.event with
      | false => rfl
      | true => exact absurd (hi.quiet he) (by rw [hc]; exact not_false)
    have hm := (hi.progress he).1
    unfold Active at h ⊢
    simp only [hm] at h ⊢
    obtain ⟨⟨q, g1, g2⟩, g3⟩ := h
    refine ⟨⟨q, g1, fun hq => ?_⟩, fun h => (by cases h)⟩
    exact absurd (he.symm.trans (g2 hq).1) (by simp)
  · next hc =>
    cases hs
    refine h.local rfl rfl rfl (fun h1 h2 => ?_) (awake_of_ne (by simp))
    rw [hc] at h1
    rw [awake_ended h1, h2]
    rfl

theorem Active.mainStep [Zero α] {inports : Nat} {auto : Bool} {mem : Nat → Nat → α} {empty : Mat α}
    {all : List (Option (Signal α R) × Signal α R)} {w w' : System α R} (hi : Inv inports empty all w) (h : Active auto w)
    (hs : w.mainStep inports auto mem = some w') : Active auto w' := by
  have hready : w.main ≠ .ready → w.event = true := by
    intro hm
    cases he : w.event with
    | true => rfl
    | false => exact absurd (hi.progress he).1 hm
  unfold System.mainStep at hs
  unfold Active at h
  split at hs
  · cases hs
  · next ops hm ho =>
    rw [hm, ho] at h
    cases hs
    obtain ⟨⟨q, g1, g2⟩, g3⟩ := h
    refine ⟨rfl, ?_, fun ha => (g1 ha).2⟩
    cases hauto : auto with
    | false => exact awake_false _
    | true => have := (g2 (g1 hauto).1).2; rwa [hauto] at this
  · next s ops hm ho =>
    split at hs
    · rw [hm, ho] at h
      cases hs
      obtain ⟨⟨q, g1, g2⟩, g3⟩ := h
      exact ⟨q, g1, fun hq => (g2 hq).2⟩
    · cases hs
  · next ops hm ho =>
    split at hs
    · rw [hm, ho] at h
      cases hs
      obtain ⟨⟨q, g1, g2⟩, g3⟩ := h
      exact g1
    · cases hs
  · next hm =>
    rw [hm] at h
    cases hs
    exact h
  · next hm =>
    rw [hm] at h
    cases hs
    exact h
  · next hm =>
    rw [hm] at h
    cases hs
    exact ⟨⟨false, h.2.2, fun h => (by cases h)⟩, fun _ => ⟨h.1, h.2.1⟩⟩
  · next s hm =>
    rw [hm] at h
    cases hs
    obtain ⟨q, g1, g2⟩ := h
    have he := hready (by rw [hm]; intro h; cases h)
    exact ⟨⟨q, g1, fun hq => ⟨he, g2 hq⟩⟩, fun he' => absurd (he.symm.trans he') (by simp)⟩
  · next hm =>
    rw [hm] at h
    split at hs
    · next ha =>
      cases hs
      exact ⟨ha, h⟩
    · cases hs
  · next hm =>
    rw [hm] at h
    cases hs
    exact h
  · next a hm =>
    rw [hm] at h
    cases hs
    have he := hready (by rw [hm]; intro h; cases h)
    exact ⟨⟨true, h.2, fun _ => ⟨he, h.1⟩⟩, fun he' => absurd (he.symm.trans he') (by simp)⟩

theorem Active.run [Zero α] {inports : Nat} {auto : Bool} {empty : Mat α} {all : List (Option (Signal α R) × Signal α R)} :
    ∀ {cs : List (Choice α)} {w w' : System α R}, Inv inports empty all w → Active auto w → (∀ c ∈ cs, ValidChoice inports c) →
    w.run inports auto cs = some w' → Active auto w'
  | [], w, w', _, h, _, hs => by cases hs; exact h
  | c :: cs, w, w', hi, h, hv, hs => by
    simp only [System.run] at hs
    cases h1 : w.step inports auto c with
    | none => rw [h1] at hs; cases hs
    | some w₁ =>
      rw [h1] at hs
      have hc := hv c List.mem_cons_self
      refine Active.run (hi.step hc h1) ?_ (fun c hc => hv c (List.mem_cons_of_mem _ hc)) hs
      cases c with
      | server b =>
        simp only [System.step] at h1
        split at h1
        · cases h1
          exact h.local rfl rfl rfl (fun _ h => h) (awake_of_ne (by simp))
        · cases h1
      | callback => exact h.callback hi h1
      | main mem => exact h.mainStep hi h1
      | shutdown => exact hc.elim

theorem Retrieves.waits : ∀ {q : Bool} {ops : List (Op α R)} {q' : Bool}, Retrieves q ops → (q = true → q' = true) → Waits q' ops
  | _, [], _, _, _ => trivial
  | _, .start :: _, _, h, hq => ⟨hq h.1, Retrieves.waits h.2 (fun h => h)⟩
  | _, .input _ :: ops, _, h, _ => Retrieves.waits (ops := ops) (q' := true) h (fun _ => rfl)
  | _, .output :: ops, _, h, _ => Retrieves.waits (ops := ops) (q' := true) h (fun _ => rfl)

/-- the demand on the program, under which a recording is always finished -/
def Finishing (auto : Bool) (ops : List (Op α R)) : Prop := Waits true ops ∧ (auto = true → Retrieves true ops)

/-- C148: While a recording is in progress, the client is active, so the JACK server continues to call the callback. For this,
a client, that deactivates itself, must retrieve the recording with `output`, before it starts the next one.

`_partial`: the latter; see `C148_lost_start_violated`. -/
theorem C148_active_partial [Zero α] (inports : Nat) (auto : Bool) (empty : Mat α) (s : Signal α R) (ops : List (Op α R))
    (cs : List (Choice α)) (w : System α R) (hw : Finishing auto ops) (hv : ∀ c ∈ cs, ValidChoice inports c)
    (h : (System.initial empty s ops).run inports auto cs = some w) (he : w.event = false) : w.active = true := by
  have h0 := Inv.initial inports empty s ops hw.1
  have hi := h0.run hv h
  have ha : Active auto w := Active.run h0 ⟨⟨true, hw.2, fun _ => ⟨rfl, awake_of_ne (by simp [System.initial])⟩⟩,
    fun h => (by cases h)⟩ hv h
  unfold Active at ha
  rw [(hi.progress he).1] at ha
  exact (ha.2 he).1

/-- C148: Under the same demand, there is no deadlock: unless the program has finished, the program or the callback can continue,
or the JACK server can call the callback. -/
theorem C148_no_deadlock_partial [Zero α] (inports : Nat) (auto : Bool) (empty : Mat α) (s : Signal α R) (ops : List (Op α R))
    (cs : List (Choice α)) (w : System α R) (hw : Finishing auto ops) (hv : ∀ c ∈ cs, ValidChoice inports c)
    (h : (System.initial empty s ops).run inports auto cs = some w)
    (hf : (w.main = .ready → w.ops ≠ [])) (mem : Nat → Nat → α) (b : Block α) :
    (w.step inports auto (.main mem)).isSome ∨ (w.step inports auto .callback).isSome ∨
      (w.step inports auto (.server b)).isSome := by
  have hact := C148_active_partial inports auto empty s ops cs w hw hv h
  have hfail := C148_no_exception inports auto empty s ops cs w hw.1 hv h
  have hcb : w.callback ≠ .idle → (w.step inports auto .callback).isSome := by
    intro hne
    simp only [System.step]
    unfold System.callbackStep
    split
    · next hc => exact absurd hc hne
    · next hc => exact absurd hc hfail
    all_goals first | rfl | (split <;> first | rfl | (split <;> first | rfl | (split <;> rfl)))
  by_cases hc : w.callback = .idle
  · cases he : w.event with
    | false =>
      right; right
      simp only [System.step]
      rw [if_pos ⟨hact he, by rw [hc]; rfl⟩]
      rfl
    | true =>
      left
      simp only [System.step]
      unfold System.mainStep
      split
      · next hm ho => exact absurd ho (hf hm)
      all_goals first | rfl | (rw [if_pos he]; rfl) | (rw [hc]; rw [if_pos (awake_of_ne (by simp))]; rfl)
  · exact Or.inr (Or.inl (hcb hc))

/-- C148: A recording takes a bounded number of callbacks: with blocks of `n` frames, the event is set by the first one, which
begins after the end of the signal.

`_partial`: the size of the blocks must divide the length of the signal or exceed it, see `C25_replay_violated`. -/
theorem C148_bounded_partial [Zero α] (inports : Nat) (auto : Bool) (empty : Mat α) (s : Signal α R) (ops : List (Op α R))
    (cs : List (Choice α)) (w : System α R) (n : Nat) (hw : Waits true ops) (hv : ∀ c ∈ cs, ValidChoice inports c)
    (h : (System.initial empty s ops).run inports auto cs = some w) (he : w.event = false)
    (hb : ∀ x ∈ w.log.drop w.mark, x.1.Valid inports w.input.count ∧ x.1.frames = n) (hn : 0 < n)
    (hl : n ∣ w.input.length ∨ w.input.length ≤ n) :
    (w.log.drop w.mark).length * n < w.input.length + n := by
  obtain ⟨_, mem, st, A, _, _, k4, k5, _⟩ := ((Inv.initial inports empty s ops hw).run hv h).progress he
  obtain ⟨l, hl'⟩ : ∃ l, w.log.drop w.mark = l := ⟨_, rfl⟩
  rw [hl'] at hb k4 ⊢
  have hv' : ∀ b ∈ l.map Prod.fst, b.Valid inports w.input.count ∧ b.frames = n := by
    intro b hb'
    obtain ⟨x, hx, rfl⟩ := List.mem_map.1 hb'
    exact hb x hx
  obtain ⟨st', outs, g1, _, _, _, _, _, _, g8⟩ := C25_playback_partial mem w.input inports (l.map Prod.fst)
    (fun b h => (hv' b h).1) (C25_constant_blocks w.input.length n _ (fun b h => (hv' b h).2) hl)
  rw [k4] at g1
  cases g1
  by_contra hge
  have hpos : 0 < l.length := by
    rcases Nat.eq_zero_or_pos l.length with h0 | h0
    · rw [h0] at hge; omega
    · exact h0
  obtain ⟨m, hm⟩ : ∃ m, l.length = m + 1 := ⟨l.length - 1, by omega⟩
  have hlt : m < (l.map Prod.fst).length := by simp; omega
  have hlast : (l.map Prod.fst)[m]? = some (l.map Prod.fst)[m] := List.getElem?_eq_getElem hlt
  have : st.event = true := by
    refine g8.2 ⟨m, _, hlast, ?_, ?_⟩
    · rw [startOf_const n _ (fun b h => (hv' b h).2) m (by simp; omega)]
      rw [hm, Nat.add_mul] at hge
      omega
    · rw [(hv' _ (List.getElem_mem _)).2]; exact hn
  rw [k5.1] at this
  cases this

/-! ### Examples and violations -/

/-- a signal with one channel -/
def exampleSignal (l : List Int) : Signal Int Nat := ⟨Mat.ofRows l.length [l], 48000, 0, ["a"]⟩

/-- a block with one input port and one output port, whose buffer contains zeros before the call -/
def exampleBlock (l : List Int) : Block Int := ⟨l.length, Mat.ofRows l.length [l], Mat.ofRows l.length [l.map fun _ => 0]⟩

/-- `n` steps of the program; allocated memory contains the value `99` -/
def program (n : Nat) : List (Choice Int) := List.replicate n (.main fun _ _ => 99)

/-- the callback is called for the given block and does `n` steps -/
def called (l : List Int) (n : Nat) : List (Choice Int) := .server (exampleBlock l) :: List.replicate n .callback

/-- An example for `C148_results_partial`: the first callback is running, when the recording is started, and the event is cleared
before it checks it; the last one is still running, when the recording is retrieved and when the second recording has been
started. The second recording is retrieved, too. -/
example :
    ((System.initial (Mat.ofRows 0 []) (exampleSignal [1, 2]) [.start, .output, .input (exampleSignal [3, 4]), .start, .output]).run
        1 false
      (program 1 ++ called [5, 6] 0 ++ program 3 ++ List.replicate 8 .callback ++ called [7, 8] 6 ++ program 10 ++ [.callback] ++
        called [9, 10] 8 ++ called [11, 12] 7 ++ program 4)).map
      (fun w => (w.results, w.arrays.map Mat.flat, w.log.map (fun x => x.2.flat), w.event)) =
    some ([(1, 0), (2, 0)], [[], [5, 6], [9, 10]], [[1, 2], [0, 0], [3, 4], [0, 0]], true) := by decide +kernel

/-- Violation of C148: If `start` is called, while a recording is in progress, a callback can store its index after the index has
been reset. The new recording is then continued from there: The callback sets the event and `output` returns a signal, whose
first samples have never been written. -/
theorem C148_restart_violated :
    ((System.initial (Mat.ofRows 0 []) (exampleSignal [1, 2, 3, 4]) [.start, .start, .output]).run 1 false
      (program 4 ++ called [5, 6] 7 ++ program 4 ++ [.callback] ++ called [7, 8] 8 ++ called [9, 10] 7 ++ program 4)).map
      (fun w => (w.results, w.arrays[2]?.map Mat.flat, w.event)) =
    some ([(2, 0)], some [99, 99, 7, 8], true) := by decide +kernel

/-- the interleaving of `C148_lost_start_violated` -/
def lostStart : List (Choice Int) :=
  program 4 ++ called [5, 6] 8 ++ called [7, 8] 6 ++ program 6 ++ [.callback]

/-- Violation of C148: `input` waits for the event, but in contrast to `output`, it does not wait for the end of the callback. If
the client deactivates itself, this can happen after the next call of `start`. The recording is in progress then, but the client
is not active, so the program waits for it forever: No thread can do a step, and the last call, `output`, has not been made. -/
theorem C148_lost_start_violated :
    ∃ w, (System.initial (Mat.ofRows 0 []) (exampleSignal [1, 2]) [.start, .input (exampleSignal [3, 4]), .start, .output]).run
        1 true lostStart = some w ∧
      Waits true [.start, .input (exampleSignal [3, 4]), .start, .output] ∧ (∀ c ∈ lostStart, c = .shutdown → False) ∧
      w.event = false ∧ w.active = false ∧ w.results = [] ∧
      ∀ c, ValidChoice 1 c → w.step 1 true c = none := by
  refine ⟨_, rfl, ⟨rfl, rfl, trivial⟩, ?_, rfl, rfl, rfl, ?_⟩
  · intro c hc h
    subst h
    simp [lostStart, program, called] at hc
  · intro c hc
    cases c with
    | server b => rfl
    | callback => rfl
    | main mem => rfl
    | shutdown => exact hc.elim

/-- Violation of C148: When the JACK server is shut down, the event is set, while a callback might still be writing the recorded
samples. `output` returns an incomplete recording and its samples change afterwards. -/
theorem C148_shutdown_violated :
    ((System.initial (Mat.ofRows 0 []) (exampleSignal [1, 2]) [.start, .output]).run 1 false
      (program 4 ++ called [5, 6] 5 ++ [.shutdown] ++ program 4)).map (fun w => (w.results, w.arrays[1]?.map Mat.flat)) =
        some ([(1, 0)], some [99, 99]) ∧
    ((System.initial (Mat.ofRows 0 []) (exampleSignal [1, 2]) [.start, .output]).run 1 false
      (program 4 ++ called [5, 6] 5 ++ [.shutdown] ++ program 4 ++ [.callback])).map
      (fun w => (w.results, w.arrays[1]?.map Mat.flat)) = some ([(1, 0)], some [5, 6]) := by
  constructor <;> decide +kernel

/-- the program of the first example meets the demand of `C148_active_partial`, that of the violation does not -/
example : Finishing true [.start, .output, .input (exampleSignal [3, 4]), .start, .output] ∧
    ¬ Finishing true [.start, .input (exampleSignal [3, 4]), .start, .output] :=
  ⟨⟨⟨rfl, rfl, trivial⟩, fun _ => ⟨rfl, rfl, trivial⟩⟩, fun h => by cases (h.2 rfl).2.1⟩

/-- an example for `C148_bounded_partial`: during the recording, one callback has been executed and the next one begins -/
example :
    ((System.initial (Mat.ofRows 0 []) (exampleSignal [1, 2]) [.start, .output]).run 1 false
      (program 4 ++ called [5, 6] 8 ++ called [7, 8] 5)).map (fun w => ((w.log.drop w.mark).length, w.event)) =
    some (1, false) := by decide +kernel

/-- an example for `C148_samples_partial` -/
example : ∃ out A, Recording 1 [(exampleBlock [5, 6], out), (exampleBlock [7, 8], (exampleBlock [7, 8]).output)]
      (exampleSignal [1, 2]) A ∧ A.flat = [5, 6] := by
  obtain ⟨out, _, _, h⟩ := full_block (start_proper (fun _ _ => (99 : Int)) 1 (exampleSignal [1, 2]))
    (b := exampleBlock [5, 6]) ⟨rfl, rfl, rfl⟩ (by decide)
  exact ⟨out, _, ⟨_, [], [(exampleBlock [5, 6], out), (exampleBlock [7, 8], (exampleBlock [7, 8]).output)], [], _, rfl,
    process_snoc (bs := [exampleBlock [5, 6]]) (process_snoc (bs := []) rfl h) (no_block rfl (by decide) (by decide))⟩,
    by decide +kernel⟩

end Threads
end Jack
end Verif
