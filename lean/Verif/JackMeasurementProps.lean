import Verif.JackProps
import Verif.ConvolutionProps
import Mathlib.Algebra.BigOperators.Ring.Finset

/-
C131: the recording of the response of a linear and time invariant system, that is connected to the ports of a JACK
client.
-/

namespace Verif
namespace Jack

open Finset

variable {α R : Type}

/-! ### Specification -/

/-- `p` is the stream of samples, that leaves the output ports: the samples of the buffers one after another -/
def Stream (bs : List (Block α)) (outs : List (Mat α)) (p : Nat → Nat → α) : Prop :=
  ∀ j b out f, bs[j]? = some b → outs[j]? = some out → f < b.frames → ∀ m, p m (startOf bs j + f) = out.get m f

/-- the samples, that arrive at the port `k` at the time `t`, when the samples `p` have been sent to the ports `m < M`
since the time zero through systems with the impulse responses `h k m` -/
def response [NonUnitalNonAssocSemiring α] (h : Nat → Nat → Nat → α) (M : Nat) (p : Nat → Nat → α) (k t : Nat) : α :=
  ∑ m ∈ range M, ∑ u ∈ range (t + 1), h k m (t - u) * p m u

/-- the buffers of the input ports contain the response of the systems to the stream, that leaves the output ports -/
def Connected [NonUnitalNonAssocSemiring α] (h : Nat → Nat → Nat → α) (M : Nat) (p : Nat → Nat → α)
    (bs : List (Block α)) (inports : Nat) : Prop :=
  ∀ j b, bs[j]? = some b → ∀ k f, k < inports → f < b.frames → b.input.get k f = response h M p k (startOf bs j + f)

/-- the number of frames, that have been processed in all blocks -/
def total (bs : List (Block α)) : Nat := startOf bs bs.length

/-! ### Blocks -/

theorem startOf_succ {bs : List (Block α)} {j : Nat} {b : Block α} (h : bs[j]? = some b) :
    startOf bs (j + 1) = startOf bs j + b.frames := by
  unfold startOf
  rw [List.take_add_one, h]
  simp

/-- every time before the end is in one of the blocks -/
theorem block_of (bs : List (Block α)) (t : Nat) : ∀ n, n ≤ bs.length → t < startOf bs n →
    ∃ j b f, bs[j]? = some b ∧ f < b.frames ∧ startOf bs j + f = t := by
  intro n
  induction n with
  | zero =>
    intro _ h
    simp [startOf] at h
  | succ n ih =>
    intro hn h
    by_cases h' : t < startOf bs n
    · exact ih (by omega) h'
    · have hb : bs[n]? = some bs[n] := List.getElem?_eq_getElem (by omega)
      rw [startOf_succ hb] at h
      exact ⟨n, bs[n], t - startOf bs n, hb, by omega, by omega⟩

theorem response_congr [NonUnitalNonAssocSemiring α] (h : Nat → Nat → Nat → α) (M : Nat) (p q : Nat → Nat → α) (k t : Nat)
    (e : ∀ m u, m < M → u ≤ t → p m u = q m u) : response h M p k t = response h M q k t := by
  unfold response
  refine sum_congr rfl fun m hm => sum_congr rfl fun u hu => ?_
  rw [e m u (mem_range.mp hm) (by have := mem_range.mp hu; omega)]

/-- The stream, that leaves the output ports, consists of the samples of the signal. -/
theorem stream_signal [Zero α] (mem : Nat → Nat → α) (s : Signal α R) (inports : Nat) (bs : List (Block α))
    (hv : ∀ b ∈ bs, b.Valid inports s.count) (hc : Clean s.length bs) (p : Nat → Nat → α) (st : State α)
    (outs : List (Mat α)) (h : process s (start mem inports s) bs = .ok (st, outs)) (hp : Stream bs outs p)
    (m u : Nat) (hm : m < s.count) (hu : u < s.length) (ht : u < total bs) : p m u = s.channels.get m u := by
  obtain ⟨st', outs', h1, h2, h3, -⟩ := C25_playback_partial mem s inports bs hv hc
  obtain ⟨rfl, rfl⟩ : st' = st ∧ outs' = outs := by
    rw [h] at h1
    cases h1
    exact ⟨rfl, rfl⟩
  obtain ⟨j, b, f, hj, hf, rfl⟩ := block_of bs u bs.length le_rfl ht
  obtain ⟨out, ho, -, -, e⟩ := h3 j b hj (by omega)
  rw [hp j b out f hj ho hf, e m f hm hf, if_pos hu]

/-! ### C131 -/

/-- C131: If linear and time invariant systems are connected to the ports, then the recording consists of their responses
to the samples of the signal, as long as the signal. It does not depend on the content of the memory, on the sizes of
the blocks or on the buffers after the end of the signal. Missing: blocks, that contain the end of the signal and samples
before it (see `C25_replay_violated`). -/
theorem C131_response_partial [NonUnitalNonAssocSemiring α] (mem : Nat → Nat → α) (s : Signal α R) (inports : Nat)
    (bs : List (Block α)) (hv : ∀ b ∈ bs, b.Valid inports s.count) (hc : Clean s.length bs) (hL : s.length ≤ total bs)
    (h : Nat → Nat → Nat → α) (p : Nat → Nat → α) (st : State α) (outs : List (Mat α))
    (hrun : process s (start mem inports s) bs = .ok (st, outs)) (hp : Stream bs outs p)
    (hin : Connected h s.count p bs inports) :
    st.channels.rows = inports ∧ st.channels.cols = s.length ∧
      ∀ k t, k < inports → t < s.length → st.channels.get k t = response h s.count s.channels.get k t := by
  obtain ⟨st', outs', h1, h2, h3, h4, h5, h6, h7, -⟩ := C25_playback_partial mem s inports bs hv hc
  obtain ⟨rfl, rfl⟩ : st' = st ∧ outs' = outs := by
    rw [hrun] at h1
    cases h1
    exact ⟨rfl, rfl⟩
  refine ⟨h5, h6, ?_⟩
  intro k t hk ht
  obtain ⟨j, b, f, hj, hf, rfl⟩ := block_of bs t bs.length le_rfl (by unfold total at hL; omega)
  rw [h7 j b hj k f hk hf ht, hin j b hj k f hk hf]
  refine response_congr h _ _ _ _ _ fun m u hm hu => ?_
  exact stream_signal mem s inports bs hv hc p st' outs' hrun hp m u hm (by omega) (by omega)

/-- C131: If output ports are connected with input ports, so that the samples arrive after a latency of `d` samples, then
each channel of the recording is the delayed sum of the connected channels of the signal. -/
theorem C131_loopback_partial [NonAssocSemiring α] (mem : Nat → Nat → α) (s : Signal α R) (inports : Nat)
    (bs : List (Block α)) (hv : ∀ b ∈ bs, b.Valid inports s.count) (hc : Clean s.length bs) (hL : s.length ≤ total bs)
    (connected : Nat → Nat → Bool) (d : Nat) (p : Nat → Nat → α) (st : State α) (outs : List (Mat α))
    (hrun : process s (start mem inports s) bs = .ok (st, outs)) (hp : Stream bs outs p)
    (hin : Connected (fun k m i => if i = d ∧ connected k m then 1 else 0) s.count p bs inports) :
    ∀ k t, k < inports → t < s.length → st.channels.get k t =
      if d ≤ t then ∑ m ∈ (range s.count).filter (fun m => connected k m), s.channels.get m (t - d) else 0 := by
  intro k t hk ht
  rw [(C131_response_partial mem s inports bs hv hc hL _ p st outs hrun hp hin).2.2 k t hk ht]
  unfold response
  have inner : ∀ m, (∑ u ∈ range (t + 1), (if t - u = d ∧ connected k m = true then (1 : α) else 0) *
      s.channels.get m u) = if connected k m then (if d ≤ t then s.channels.get m (t - d) else 0) else 0 := by
    intro m
    by_cases hk : connected k m = true
    · rw [if_pos hk]
      split
      · next hd =>
        rw [sum_eq_single (t - d)]
        · rw [if_pos ⟨by omega, hk⟩, one_mul]
        · intro u hu hne
          have := mem_range.mp hu
          rw [if_neg (by omega), zero_mul]
        · intro hn
          exact absurd (mem_range.mpr (by omega)) hn
      · next hd =>
        refine sum_eq_zero fun u hu => ?_
        rw [if_neg (by omega), zero_mul]
    · rw [if_neg hk]
      refine sum_eq_zero fun u hu => ?_
      rw [if_neg (fun h => hk h.2), zero_mul]
  rw [sum_congr rfl fun m _ => inner m]
  split
  · rw [sum_filter]
  · refine sum_eq_zero fun m _ => ?_
    split <;> rfl

/-- C131: A measurement of a single channel is the beginning of the convolution of the signal with the impulse response
of the system. -/
theorem C131_convolution_partial [CommSemiring α] (mem cmem : Nat → Nat → α) (s o : Signal α R) (bs : List (Block α))
    (hs : s.count = 1) (ho : o.count = 1) (ho0 : o.offset = 0) (hsL : 0 < s.length) (hoL : 0 < o.length)
    (hv : ∀ b ∈ bs, b.Valid 1 s.count) (hc : Clean s.length bs) (hL : s.length ≤ total bs)
    (p : Nat → Nat → α) (st : State α) (outs : List (Mat α))
    (hrun : process s (start mem 1 s) bs = .ok (st, outs)) (hp : Stream bs outs p)
    (hin : Connected (fun _ _ i => if i < o.length then o.channels.get 0 i else 0) s.count p bs 1)
    (name label : String) :
    ∃ r, Signal.convolve (fullConvolution cmem) label s o = .ok r ∧
      ∀ t, (output s s.rate [name] st).Covers t → (output s s.rate [name] st).at_ 0 t = r.at_ 0 t := by
  obtain ⟨r, r1, r2, r3, ⟨r4, r5, r6⟩, -⟩ := Signal.C17_full cmem label s o hsL hoL
  obtain ⟨q1, q2, q3⟩ := C131_response_partial mem s 1 bs hv hc hL _ p st outs hrun hp hin
  refine ⟨r, r1, ?_⟩
  intro t ht
  have hlen : (output s s.rate [name] st).length = s.length := q2
  have hcount : (output s s.rate [name] st).count = 1 := q1
  have hoff : (output s s.rate [name] st).offset = s.offset := rfl
  have hcc : Signal.convCount s o = 1 := by
    unfold Signal.convCount
    rw [if_pos ho, hs]
  unfold Signal.Covers at ht
  rw [hlen, hoff] at ht
  rw [r6 0 t (by omega) ⟨by omega, by omega⟩, Signal.convAt_eq s o (by omega), ho0, if_pos (by omega), Signal.at_eq_some]
  refine ⟨by omega, by omega, by omega, ?_⟩
  show st.channels.get 0 (t - s.offset).toNat = _
  obtain ⟨i, hi⟩ : ∃ i : Nat, t - s.offset = i := ⟨(t - s.offset).toNat, by omega⟩
  rw [hi, Int.sub_zero, Int.toNat_natCast, q3 0 i (by omega) (by omega)]
  have c1 : s.chan 0 = 0 := by unfold Signal.chan; rw [if_pos hs]
  have c2 : o.chan 0 = 0 := by unfold Signal.chan; rw [if_pos ho]
  rw [c1, c2]
  unfold response npFull
  rw [hs, sum_range_one]
  symm
  rw [← sum_subset (s₁ := range (i + 1)) (s₂ := range s.length) (by
    intro u hu
    have := mem_range.mp hu
    exact mem_range.mpr (by omega))]
  · refine sum_congr rfl fun u hu => ?_
    have := mem_range.mp hu
    dsimp only
    by_cases h : i - u < o.length
    · rw [if_pos ⟨by omega, h⟩, if_pos h, mul_comm]
    · rw [if_neg (fun h' => h h'.2), if_neg h, zero_mul]
  · intro u _ hu
    have := mt mem_range.mpr hu
    rw [if_neg (by omega)]

/-- C131: For all systems, signals and sizes of the blocks, which divide the length of the signal, there is a sequence of
calls of the callback, in which the systems are connected to the ports and at whose end the recording is finished. So the
hypotheses of the other theorems are satisfiable. -/
theorem C131_realizable [NonUnitalNonAssocSemiring α] (mem : Nat → Nat → α) (s : Signal α R) (inports n : Nat)
    (hn : 0 < n) (hd : n ∣ s.length ∨ s.length ≤ n) (h : Nat → Nat → Nat → α) :
    ∃ bs p st outs, (∀ b ∈ bs, b.Valid inports s.count ∧ b.frames = n) ∧ Clean s.length bs ∧ s.length ≤ total bs ∧
      process s (start mem inports s) bs = .ok (st, outs) ∧ Stream bs outs p ∧ Connected h s.count p bs inports ∧
      st.event = true := by
  set p : Nat → Nat → α := fun m u => if u < s.length then (if m < s.count then s.channels.get m u else 0) else 0 with hp
  set bs : List (Block α) := (List.range (s.length + 1)).map fun j =>
    ⟨n, ⟨inports, n, fun k f => response h s.count p k (j * n + f)⟩, ⟨s.count, n, fun _ _ => 0⟩⟩ with hbs
  have hlen : bs.length = s.length + 1 := by simp [hbs]
  have hframes : ∀ b ∈ bs, b.frames = n := by
    intro b hb
    obtain ⟨j, -, rfl⟩ := List.mem_map.mp hb
    rfl
  have hv : ∀ b ∈ bs, b.Valid inports s.count := by
    intro b hb
    obtain ⟨j, -, rfl⟩ := List.mem_map.mp hb
    exact ⟨rfl, rfl, rfl, rfl⟩
  have hstart : ∀ j, j ≤ bs.length → startOf bs j = j * n := by
    intro j hj
    unfold startOf
    have : (bs.take j).map (fun b => b.frames) = List.replicate j n := by
      rw [List.eq_replicate_iff]
      refine ⟨by simp; omega, ?_⟩
      intro x hx
      obtain ⟨b, hb1, rfl⟩ := List.mem_map.1 hx
      exact hframes b (List.mem_of_mem_take hb1)
    rw [this]
    simp
  have hget : ∀ j b, bs[j]? = some b → j < bs.length ∧
      b = ⟨n, ⟨inports, n, fun k f => response h s.count p k (j * n + f)⟩, ⟨s.count, n, fun _ _ => 0⟩⟩ := by
    intro j b hj
    obtain ⟨hlt, e⟩ := List.getElem?_eq_some_iff.mp hj
    refine ⟨hlt, ?_⟩
    rw [← e]
    simp [hbs]
  have hc : Clean s.length bs := C25_constant_blocks s.length n bs hframes hd
  have htotal : s.length ≤ total bs := by
    unfold total
    rw [hstart _ le_rfl, hlen]
    exact le_trans (by omega) (Nat.le_mul_of_pos_right (s.length + 1) hn)
  obtain ⟨st, outs, h1, h2, h3, h4, h5, h6, h7, h8⟩ := C25_playback_partial mem s inports bs hv hc
  refine ⟨bs, fun m u => if m < s.count then p m u else
      (match outs[u / n]? with | some out => out.get m (u % n) | none => 0), st, outs,
    fun b hb => ⟨hv b hb, hframes b hb⟩, hc, htotal, h1, ?_, ?_, ?_⟩
  · intro j b out f hj ho hf m
    obtain ⟨hlt, rfl⟩ := hget j b hj
    have hst := hstart j (by omega)
    have hf : f < n := hf
    dsimp only
    split
    · next hm =>
      by_cases hL : startOf bs j < s.length
      · obtain ⟨out', ho', -, -, e⟩ := h3 j _ hj hL
        obtain rfl : out' = out := by
          rw [ho] at ho'
          cases ho'
          rfl
        rw [e m f hm hf]
        simp only [hp]
        rw [if_pos hm]
      · obtain ⟨out', ho', e⟩ := h4 j _ hj (by omega)
        obtain rfl : out' = out := by
          rw [ho] at ho'
          cases ho'
          rfl
        rw [e m f hm hf]
        simp only [hp]
        rw [if_neg (by omega)]
    · rw [hst]
      have e1 : (j * n + f) / n = j := by
        rw [Nat.mul_comm, Nat.mul_add_div hn, Nat.div_eq_of_lt hf, Nat.add_zero]
      have e2 : (j * n + f) % n = f := by
        rw [Nat.mul_comm, Nat.mul_add_mod, Nat.mod_eq_of_lt hf]
      rw [e1, e2, ho]
  · intro j b hj k f hk hf
    obtain ⟨hlt, rfl⟩ := hget j b hj
    rw [hstart j (by omega)]
    show response h s.count p k (j * n + f) = _
    refine response_congr h _ _ _ _ _ fun m u hm _ => ?_
    rw [if_pos hm]
  · rw [h8]
    have hl : s.length < bs.length := by omega
    refine ⟨s.length, bs[s.length], List.getElem?_eq_getElem hl, ?_, ?_⟩
    · rw [hstart _ (by omega)]
      exact Nat.le_mul_of_pos_right _ hn
    · rw [hframes _ (List.getElem_mem hl)]
      exact hn

/-- C131 is violated, when the length of the signal is not a multiple of the size of the blocks: the signal with the
samples 1, 2 and 3 is played back in blocks of two samples and each input buffer contains the previous output buffer. The
recording has the samples 0, 3 and 0 instead of 0, 0 and 1. -/
theorem C131_loopback_violated :
    ((process ⟨Mat.ofRows 3 [[1, 2, 3]], (1 : Nat), 0, ["a"]⟩
      (start (fun _ _ => (99 : Int)) 1 ⟨Mat.ofRows 3 [[1, 2, 3]], (1 : Nat), 0, ["a"]⟩)
      [⟨2, Mat.ofRows 2 [[0, 0]], Mat.ofRows 2 [[0, 0]]⟩, ⟨2, Mat.ofRows 2 [[1, 2]], Mat.ofRows 2 [[0, 0]]⟩,
       ⟨2, Mat.ofRows 2 [[3, 0]], Mat.ofRows 2 [[0, 0]]⟩, ⟨2, Mat.ofRows 2 [[2, 3]], Mat.ofRows 2 [[0, 0]]⟩]).map
      fun r => (r.1.channels.flat, r.1.event, r.2.map Mat.flat)) =
    .ok ([0, 3, 0], true, [[1, 2], [3, 0], [2, 3], [0, 0]]) := by decide +kernel

-- the hypotheses of the theorems are satisfiable: a loopback with a latency of one block of two samples
example : ∃ bs p st outs, Clean 4 bs ∧ process (⟨Mat.ofRows 4 [[1, 2, 3, 4]], (1 : Nat), 0, ["a"]⟩ : Signal Int Nat)
      (start (fun _ _ => 99) 1 ⟨Mat.ofRows 4 [[1, 2, 3, 4]], (1 : Nat), 0, ["a"]⟩) bs = .ok (st, outs) ∧
    Stream bs outs p ∧ Connected (fun _ _ i => if i = 2 ∧ true then 1 else 0) 1 p bs 1 ∧ st.event = true := by
  obtain ⟨bs, p, st, outs, -, h2, -, h4, h5, h6, h7⟩ := C131_realizable (fun _ _ => (99 : Int))
    (⟨Mat.ofRows 4 [[1, 2, 3, 4]], (1 : Nat), 0, ["a"]⟩ : Signal Int Nat) 1 2 (by decide) (Or.inl (by decide))
    (fun _ _ i => if i = 2 ∧ true then 1 else 0)
  exact ⟨bs, p, st, outs, h2, h4, h5, h6, h7⟩

end Jack
end Verif
