import Verif.Jack
import Verif.NumpyLemmas
import Verif.SignalProps
import Mathlib.Data.List.Nodup
import Mathlib.Algebra.Field.Rat

/-
C25: playback and recording through JACK. C55: names of the output ports. C56: stored connections. C57: xruns.
-/

namespace Verif
namespace Jack

variable {α R : Type}

/-! ### Playback and recording -/

/-- the time (in samples since the start) at which the call `j` of the callback begins -/
def startOf (bs : List (Block α)) (j : Nat) : Nat := ((bs.take j).map fun b => b.frames).sum

/-- No block contains the end of the signal and samples before it, except for the first one. -/
def Clean (L : Nat) (bs : List (Block α)) : Prop :=
  ∀ j b, bs[j]? = some b → startOf bs j + b.frames ≤ L ∨ startOf bs j = 0 ∨ L ≤ startOf bs j

/-- one call of the callback -/
theorem onProcess_ok [Zero α] (s : Signal α R) (st : State α) (b : Block α) (c : Nat)
    (hb : b.Valid st.channels.rows s.count) (hc : st.channels.cols = s.length) (he : st.event = false)
    (hi : st.index = (min c s.length : Nat))
    (hclean : c + b.frames ≤ s.length ∨ c = 0 ∨ s.length ≤ c) :
    ∃ st' out, onProcess s st b = .ok (st', out) ∧
      (st'.event = false → st'.index = (min (c + b.frames) s.length : Nat)) ∧
      (st'.event = true ↔ s.length ≤ c ∧ 0 < b.frames) ∧
      st'.channels.rows = st.channels.rows ∧ st'.channels.cols = s.length ∧
      out.rows = s.count ∧ out.cols = b.frames ∧
      (∀ k f, k < s.count → f < b.frames →
        out.get k f = if c + f < s.length then s.channels.get k (c + f)
          else if c < s.length then 0 else b.output.get k f) ∧
      (∀ k t, k < st.channels.rows → t < s.length →
        st'.channels.get k t = if c ≤ t ∧ t < c + b.frames then b.input.get k (t - c) else st.channels.get k t) := by
  obtain ⟨h1, h2, h3, h4⟩ := hb
  have hcount : s.channels.rows = s.count := rfl
  have hlen : s.channels.cols = s.length := rfl
  unfold onProcess
  rw [if_pos he]
  dsimp only
  have hmin1 : min b.output.rows s.count = s.count := by omega
  have hmin2 : min b.input.rows st.channels.rows = st.channels.rows := by omega
  rw [hmin1, hmin2, hi]
  obtain ⟨m, hm⟩ : ∃ m, min c s.length = m := ⟨_, rfl⟩
  have hm' : m ≤ s.length ∧ (c ≤ s.length → m = c) ∧ (s.length ≤ c → m = s.length) := by omega
  rw [hm]
  by_cases hA : (m : Int) + b.frames ≤ s.length
  · -- a complete block
    rw [if_pos hA]
    obtain ⟨e, hme⟩ : ∃ e, m + b.frames = e := ⟨_, rfl⟩
    have hstop : (m : Int) + b.frames = (e : Nat) := by omega
    rw [hstop]
    obtain ⟨out, e1, e2, e3, e4, _⟩ := Mat.assign_ok (A := b.output)
      (S := s.channels.slice (.range 0 (s.count : Nat)) (.range (m : Nat) (e : Nat)))
      (r := .range 0 (s.count : Nat)) (c := .all) 0 s.count 0 b.frames (by simp) (by simp; omega) rfl (by simp; omega)
      (by simp [hcount]) (by simp [hlen]; omega)
    obtain ⟨ch, g1, g2, g3, g4, g5⟩ := Mat.assign_ok (A := st.channels)
      (S := b.input.slice (.range 0 (st.channels.rows : Nat)) .all)
      (r := .range 0 (st.channels.rows : Nat)) (c := .range (m : Nat) (e : Nat))
      0 st.channels.rows m e (by simp) (by simp) (by simp; omega)
      (by simp; omega) (by simp; omega) (by simp; omega)
    rw [e1]
    show ∃ st' out', (st.channels.assign _ _ _ >>= _) = _ ∧ _
    rw [g1]
    refine ⟨_, out, rfl, ?_, ?_, g2, g3.trans hc, e2.trans h3, e3.trans h4, ?_, ?_⟩
    · intro _
      show ((e : Nat) : Int) = _
      omega
    · show st.event = true ↔ _
      rw [he]
      constructor
      · intro h; cases h
      · rintro ⟨k1, k2⟩; omega
    · intro k f hk hf
      rw [e4 k f (by omega) hk (by omega) hf, Mat.slice_get]
      simp only [PySlice.lo_range, clampBound_zero, clampBound_nat, Nat.sub_zero, Nat.zero_add]
      rw [if_pos (by omega)]
      congr 1; omega
    · intro k t hk ht
      by_cases hin : c ≤ t ∧ t < c + b.frames
      · rw [if_pos hin]
        show ch.get k t = _
        rw [g4 k t (by omega) hk (by omega) (by omega), Mat.slice_get]
        simp only [PySlice.lo_range, clampBound_zero, PySlice.lo_all, Nat.zero_add, Nat.sub_zero]
        congr 1; omega
      · rw [if_neg hin]
        exact g5 k t (by omega)
  · rw [if_neg hA]
    by_cases hB : (m : Int) < s.length
    · -- the signal ends in this block
      rw [if_pos hB]
      have hc0 : c = 0 := by omega
      subst hc0
      have e0 : m = 0 := by omega
      subst e0
      rw [show ((0 : Nat) : Int) = 0 by rfl]
      have hstop : (s.length : Int) - 0 = (s.length : Nat) := by omega
      rw [hstop]
      obtain ⟨o1, e1, e2, e3, e4, e5⟩ := Mat.assign_ok (A := b.output)
        (S := s.channels.slice (.range 0 (s.count : Nat)) (.drop 0))
        (r := .range 0 (s.count : Nat)) (c := .range 0 (s.length : Nat)) 0 s.count 0 s.length
        (by simp) (by simp; omega) (by simp) (by simp; omega) (by simp [hcount]) (by simp [hlen])
      obtain ⟨o2, d1, d2, d3, d4, d5⟩ := Mat.assign_scalar (A := o1) (r := .range 0 (s.count : Nat))
        (c := .drop (s.length : Nat)) (0 : α) 0 s.count s.length b.frames (by simp) (by simp; omega) (by simp; omega)
        (by simp; omega)
      obtain ⟨ch, g1, g2, g3, g4, g5⟩ := Mat.assign_ok (A := st.channels)
        (S := b.input.slice (.range 0 (st.channels.rows : Nat)) (.range 0 (s.length : Nat)))
        (r := .range 0 (st.channels.rows : Nat)) (c := .drop 0) 0 st.channels.rows 0 s.length
        (by simp) (by simp) (by simp) (by simp; omega) (by simp; omega) (by simp; omega)
      rw [e1]
      show ∃ st' out', (o1.assign _ _ _ >>= _) = _ ∧ _
      rw [d1]
      show ∃ st' out', (st.channels.assign _ _ _ >>= _) = _ ∧ _
      rw [g1]
      refine ⟨_, o2, rfl, ?_, ?_, g2, g3.trans hc, by omega, by omega, ?_, ?_⟩
      · intro _
        show ((s.length : Nat) : Int) = _
        omega
      · show st.event = true ↔ _
        rw [he]
        constructor
        · intro h; cases h
        · rintro ⟨k1, k2⟩; omega
      · intro k f hk hf
        by_cases hf2 : f < s.length
        · rw [d5 k f (by omega), e4 k f (by omega) hk (by omega) hf2, Mat.slice_get, if_pos (by omega)]
          simp
        · rw [d4 k f (by omega) hk (by omega) hf, if_neg (by omega), if_pos (by omega)]
      · intro k t hk ht
        rw [if_pos (by omega)]
        show ch.get k t = _
        rw [g4 k t (by omega) hk (by omega) ht, Mat.slice_get]
        simp
    · -- the end
      rw [if_neg hB]
      refine ⟨_, _, rfl, ?_, ?_, rfl, hc, h3, h4, ?_, ?_⟩
      · intro h; cases h
      · constructor
        · intro _; omega
        · intro _; rfl
      · intro k f hk hf
        rw [if_neg (by omega), if_neg (by omega)]
      · intro k t hk ht
        show st.channels.get k t = _
        rw [if_neg (by omega)]

/-- after the end, nothing happens -/
theorem process_done [Zero α] (s : Signal α R) (st : State α) (he : st.event = true) :
    ∀ bs : List (Block α), process s st bs = .ok (st, bs.map fun b => b.output) := by
  intro bs
  induction bs with
  | nil => rfl
  | cons b bs ih =>
    unfold process
    have : onProcess s st b = .ok (st, b.output) := by
      unfold onProcess
      rw [if_neg (by rw [he]; simp)]
    rw [this]
    show (process s st bs >>= _) = _
    rw [ih]
    rfl

theorem startOf_cons (b : Block α) (bs : List (Block α)) (j : Nat) :
    startOf (b :: bs) (j + 1) = b.frames + startOf bs j := by
  unfold startOf; simp

/-- the sequence of calls, starting at the time `c` -/
theorem process_ok [Zero α] (s : Signal α R) : ∀ (bs : List (Block α)) (st : State α) (c : Nat),
    (∀ b ∈ bs, b.Valid st.channels.rows s.count) → st.channels.cols = s.length → st.event = false →
    st.index = (min c s.length : Nat) →
    (∀ j b, bs[j]? = some b →
      c + startOf bs j + b.frames ≤ s.length ∨ c + startOf bs j = 0 ∨ s.length ≤ c + startOf bs j) →
    ∃ st' outs, process s st bs = .ok (st', outs) ∧ outs.length = bs.length ∧
      st'.channels.rows = st.channels.rows ∧ st'.channels.cols = s.length ∧
      (st'.event = true ↔ ∃ j b, bs[j]? = some b ∧ s.length ≤ c + startOf bs j ∧ 0 < b.frames) ∧
      (∀ j b, bs[j]? = some b → ∃ out, outs[j]? = some out ∧ out.rows = s.count ∧ out.cols = b.frames ∧
        ∀ k f, k < s.count → f < b.frames →
          out.get k f = if c + startOf bs j + f < s.length then s.channels.get k (c + startOf bs j + f)
            else if c + startOf bs j < s.length then 0 else b.output.get k f) ∧
      (∀ j b, bs[j]? = some b → ∀ k f, k < st.channels.rows → f < b.frames → c + startOf bs j + f < s.length →
        st'.channels.get k (c + startOf bs j + f) = b.input.get k f) ∧
      (∀ k t, k < st.channels.rows → t < c → t < s.length → st'.channels.get k t = st.channels.get k t) := by
  intro bs
  induction bs with
  | nil =>
    intro st c _ h2 h3 h4 _
    exact ⟨st, [], rfl, rfl, rfl, h2, by simp [h3], by simp, by simp, fun _ _ _ _ _ => rfl⟩
  | cons b bs ih =>
    intro st c h1 h2 h3 h4 h5
    have hcl := h5 0 b rfl
    have hs0 : startOf (b :: bs) 0 = 0 := rfl
    rw [hs0] at hcl
    obtain ⟨st1, out, e1, e2, e3, e4, e5, e6, e7, e8, e9⟩ := onProcess_ok s st b c (h1 b (by simp)) h2 h3 h4
      (by omega)
    unfold process
    rw [e1]
    have hrec1 : ∀ k f, k < st.channels.rows → f < b.frames → c + f < s.length →
        st1.channels.get k (c + f) = b.input.get k f := by
      intro k f hk hf hcf
      rw [e9 k (c + f) hk hcf, if_pos (by omega)]
      congr 1; omega
    by_cases hend : st1.event = true
    · have hc := e3.1 hend
      show ∃ st' outs, (process s st1 bs >>= _) = _ ∧ _
      rw [process_done s st1 hend]
      refine ⟨st1, _, rfl, by simp, e4, e5, ?_, ?_, ?_, ?_⟩
      · constructor
        · intro _; exact ⟨0, b, rfl, by rw [hs0]; omega, hc.2⟩
        · intro _; exact hend
      · intro j b' hj
        cases j with
        | zero =>
          simp only [List.getElem?_cons_zero, Option.some.injEq] at hj
          subst hj
          refine ⟨out, rfl, e6, e7, ?_⟩
          intro k f hk hf
          rw [e8 k f hk hf, hs0]
          rfl
        | succ j =>
          simp only [List.getElem?_cons_succ] at hj
          have hv := h1 b' (List.mem_cons_of_mem _ (List.mem_of_getElem? hj))
          refine ⟨b'.output, by simp [hj], hv.2.2.1, hv.2.2.2, ?_⟩
          intro k f hk hf
          rw [if_neg (by omega), if_neg (by omega)]
      · intro j b' hj k f hk hf hl
        omega
      · intro k t hk ht htl
        rw [e9 k t hk htl, if_neg (by omega)]
    · have hend' : st1.event = false := by simpa using hend
      have hrows := e4
      obtain ⟨st2, outs, f1, f2, f3, f4, f5, f6, f7, f8⟩ := ih st1 (c + b.frames)
        (by rw [e4]; exact fun b' hb' => h1 b' (List.mem_cons_of_mem _ hb')) e5 hend' (e2 hend')
        (by
          intro j b' hj
          have := h5 (j + 1) b' (by simpa using hj)
          rw [startOf_cons] at this
          omega)
      show ∃ st' outs', (process s st1 bs >>= _) = _ ∧ _
      rw [f1]
      refine ⟨st2, out :: outs, rfl, by simp [f2], f3.trans e4, f4, ?_, ?_, ?_, ?_⟩
      · rw [f5]
        constructor
        · rintro ⟨j, b', k1, k2, k3⟩
          exact ⟨j + 1, b', by simpa using k1, by rw [startOf_cons]; omega, k3⟩
        · rintro ⟨j, b', k1, k2, k3⟩
          cases j with
          | zero =>
            simp only [List.getElem?_cons_zero, Option.some.injEq] at k1
            subst k1
            rw [hs0] at k2
            exact absurd (e3.2 ⟨by omega, k3⟩) hend
          | succ j => exact ⟨j, b', by simpa using k1, by rw [startOf_cons] at k2; omega, k3⟩
      · intro j b' hj
        cases j with
        | zero =>
          simp only [List.getElem?_cons_zero, Option.some.injEq] at hj
          subst hj
          refine ⟨out, rfl, e6, e7, ?_⟩
          intro k f hk hf
          rw [e8 k f hk hf, hs0]
          rfl
        | succ j =>
          obtain ⟨o, g1, g2, g3, g4⟩ := f6 j b' (by simpa using hj)
          refine ⟨o, by simpa using g1, g2, g3, ?_⟩
          intro k f hk hf
          rw [g4 k f hk hf, startOf_cons, ← Nat.add_assoc]
      · intro j b' hj k f hk hf hl
        cases j with
        | zero =>
          simp only [List.getElem?_cons_zero, Option.some.injEq] at hj
          subst hj
          rw [hs0] at hl ⊢
          rw [f8 k _ (by omega) (by omega) (by omega)]
          exact hrec1 k f hk hf hl
        | succ j =>
          rw [startOf_cons] at hl ⊢
          rw [← Nat.add_assoc]
          exact f7 j b' (by simpa using hj) k f (by omega) hf (by omega)
      · intro k t hk ht htl
        rw [f8 k t (by omega) (by omega) htl, e9 k t hk htl, if_neg (by omega)]

/-- C25: if the blocks do not contain the end of the signal in their middle, except for the first one: in each block
`j`, which begins before the end of the signal, the output ports play the samples of the signal, that are due at the
time of the block (followed by zeros in a first block, which is longer than the signal), and the samples, which are
read from the input ports, are stored at the indices of the samples, which are played in the meantime. After the end of
the signal, the output ports are left alone, and the event is set by the first block, that begins after the end.

`_partial`: the demand on the blocks; see `C25_replay_violated`. -/
theorem C25_playback_partial [Zero α] (mem : Nat → Nat → α) (s : Signal α R) (inports : Nat) (bs : List (Block α))
    (hv : ∀ b ∈ bs, b.Valid inports s.count) (hc : Clean s.length bs) :
    ∃ st outs, process s (start mem inports s) bs = .ok (st, outs) ∧ outs.length = bs.length ∧
      (∀ j b, bs[j]? = some b → startOf bs j < s.length → ∃ out, outs[j]? = some out ∧
        out.rows = s.count ∧ out.cols = b.frames ∧
        ∀ k f, k < s.count → f < b.frames →
          out.get k f = if startOf bs j + f < s.length then s.channels.get k (startOf bs j + f) else 0) ∧
      (∀ j b, bs[j]? = some b → s.length ≤ startOf bs j → ∃ out, outs[j]? = some out ∧
        ∀ k f, k < s.count → f < b.frames → out.get k f = b.output.get k f) ∧
      st.channels.rows = inports ∧ st.channels.cols = s.length ∧
      (∀ j b, bs[j]? = some b → ∀ k f, k < inports → f < b.frames → startOf bs j + f < s.length →
        st.channels.get k (startOf bs j + f) = b.input.get k f) ∧
      (st.event = true ↔ ∃ j b, bs[j]? = some b ∧ s.length ≤ startOf bs j ∧ 0 < b.frames) := by
  obtain ⟨st, outs, h1, h2, h3, h4, h5, h6, h7, _⟩ := process_ok s bs (start mem inports s) 0 hv rfl rfl
    (by show (0 : Int) = _; omega)
    (by
      intro j b hj
      have := hc j b hj
      omega)
  simp only [Nat.zero_add] at h5 h6 h7
  refine ⟨st, outs, h1, h2, ?_, ?_, h3, h4, h7, h5⟩
  · intro j b hj hl
    obtain ⟨out, g1, g2, g3, g4⟩ := h6 j b hj
    refine ⟨out, g1, g2, g3, ?_⟩
    intro k f hk hf
    rw [g4 k f hk hf, if_pos hl]
  · intro j b hj hl
    obtain ⟨out, g1, g2, g3, g4⟩ := h6 j b hj
    refine ⟨out, g1, ?_⟩
    intro k f hk hf
    rw [g4 k f hk hf, if_neg (by omega), if_neg (by omega)]

/-- C25: the demand of `C25_playback_partial` is met, when all blocks have the same size, and this size either divides
the length of the signal, or is not smaller than the length. -/
theorem C25_constant_blocks (L n : Nat) (bs : List (Block α)) (hb : ∀ b ∈ bs, b.frames = n)
    (h : n ∣ L ∨ L ≤ n) : Clean L bs := by
  have hs : ∀ j, j ≤ bs.length → startOf bs j = j * n := by
    intro j hj
    unfold startOf
    have : (bs.take j).map (fun b => b.frames) = List.replicate j n := by
      rw [List.eq_replicate_iff]
      refine ⟨by simp; omega, ?_⟩
      intro x hx
      obtain ⟨b, hb1, rfl⟩ := List.mem_map.1 hx
      exact hb b (List.mem_of_mem_take hb1)
    rw [this]
    simp
  intro j b hj
  obtain ⟨hlt, _⟩ := List.getElem?_eq_some_iff.1 hj
  rw [hs j (by omega), hb b (List.mem_of_getElem? hj)]
  rcases h with ⟨q, rfl⟩ | h
  · by_cases hq : j < q
    · left
      have : (j + 1) * n ≤ q * n := Nat.mul_le_mul_right n hq
      rw [Nat.add_mul, Nat.one_mul] at this
      rw [Nat.mul_comm n q]; exact this
    · right; right
      rw [Nat.mul_comm n q]
      exact Nat.mul_le_mul_right n (by omega)
  · cases j with
    | zero => right; left; simp
    | succ j =>
      right; right
      rw [Nat.add_mul, Nat.one_mul]; omega

/-- C25: the recorded signal has the offset of the played one and a channel for each input port. -/
theorem C25_output (s : Signal α R) (rate : R) (names : List String) (st : State α)
    (h : names.length = st.channels.rows) :
    (output s rate names st).offset = s.offset ∧ (output s rate names st).channels = st.channels ∧
    (output s rate names st).labels = names ∧ (output s rate names st).rate = rate :=
  ⟨rfl, rfl, Signal.sanitize_self h, rfl⟩

/-- an example with two blocks of two frames for a signal with four samples and an additional block -/
example : ((process ⟨Mat.ofRows 4 [[1, 2, 3, 4]], (1 : Nat), 0, ["a"]⟩
      (start (fun _ _ => (99 : Int)) 1 ⟨Mat.ofRows 4 [[1, 2, 3, 4]], (1 : Nat), 0, ["a"]⟩)
      [⟨2, Mat.ofRows 2 [[5, 6]], Mat.ofRows 2 [[0, 0]]⟩, ⟨2, Mat.ofRows 2 [[7, 8]], Mat.ofRows 2 [[0, 0]]⟩,
       ⟨2, Mat.ofRows 2 [[9, 9]], Mat.ofRows 2 [[0, 0]]⟩]).map
      fun r => (r.1.channels.flat, r.1.event, r.2.map Mat.flat)) =
    .ok ([5, 6, 7, 8], true, [[1, 2], [3, 4], [0, 0]]) := by decide +kernel

/-- C25 is violated, when the length of the signal is not a multiple of the size of the blocks: the signal with the
samples 1, 2, 3 is played in blocks of two frames. After its end, the samples 2 and 3 are played again, and the
samples, that have been recorded, are overwritten. -/
theorem C25_replay_violated :
    ((process ⟨Mat.ofRows 3 [[1, 2, 3]], (1 : Nat), 0, ["a"]⟩
      (start (fun _ _ => (99 : Int)) 1 ⟨Mat.ofRows 3 [[1, 2, 3]], (1 : Nat), 0, ["a"]⟩)
      [⟨2, Mat.ofRows 2 [[5, 6]], Mat.ofRows 2 [[0, 0]]⟩, ⟨2, Mat.ofRows 2 [[7, 8]], Mat.ofRows 2 [[0, 0]]⟩,
       ⟨2, Mat.ofRows 2 [[9, 10]], Mat.ofRows 2 [[0, 0]]⟩]).map
      fun r => (r.1.channels.flat, r.1.event, r.2.map Mat.flat)) =
    .ok ([5, 9, 10], false, [[1, 2], [3, 0], [2, 3]]) := by decide +kernel

theorem onProcess_partial_index [Zero α] (s : Signal α R) (st : State α) (b : Block α) (i : Nat)
    (hb : b.Valid st.channels.rows s.count) (hc : st.channels.cols = s.length) (he : st.event = false)
    (hi : st.index = i) (h1 : i < s.length) (h2 : s.length < i + b.frames) :
    ∃ st' out, onProcess s st b = .ok (st', out) ∧ st'.event = false ∧ st'.index = (s.length - i : Nat) := by
  obtain ⟨g1, g2, g3, g4⟩ := hb
  have hcount : s.channels.rows = s.count := rfl
  have hlen : s.channels.cols = s.length := rfl
  unfold onProcess
  rw [if_pos he]
  dsimp only
  have hmin1 : min b.output.rows s.count = s.count := by omega
  have hmin2 : min b.input.rows st.channels.rows = st.channels.rows := by omega
  rw [hmin1, hmin2, hi, if_neg (by omega), if_pos (by omega)]
  obtain ⟨e, hle⟩ : ∃ e, s.length - i = e := ⟨_, rfl⟩
  rw [hle]
  have hstop : (s.length : Int) - i = (e : Nat) := by omega
  rw [hstop]
  obtain ⟨o1, e1, e2, e3, e4, e5⟩ := Mat.assign_ok (A := b.output)
    (S := s.channels.slice (.range 0 (s.count : Nat)) (.drop i))
    (r := .range 0 (s.count : Nat)) (c := .range 0 (e : Nat)) 0 s.count 0 e
    (by simp) (by simp; omega) (by simp) (by simp; omega) (by simp [hcount]) (by simp [hlen]; omega)
  obtain ⟨o2, d1, _⟩ := Mat.assign_scalar (A := o1) (r := .range 0 (s.count : Nat))
    (c := .drop (e : Nat)) (0 : α) _ _ _ _ rfl rfl rfl rfl
  obtain ⟨ch, k1, _⟩ := Mat.assign_ok (A := st.channels)
    (S := b.input.slice (.range 0 (st.channels.rows : Nat)) (.range 0 (e : Nat)))
    (r := .range 0 (st.channels.rows : Nat)) (c := .drop i) 0 st.channels.rows i s.length
    (by simp) (by simp) (by simp; omega) (by simp; omega) (by simp; omega) (by simp; omega)
  rw [e1]
  show ∃ st' out', (o1.assign _ _ _ >>= _) = _ ∧ _
  rw [d1]
  show ∃ st' out', (st.channels.assign _ _ _ >>= _) = _ ∧ _
  rw [k1]
  exact ⟨_, _, rfl, he, rfl⟩

/-- C25: the exact extent of the violation: whenever a block, which is not the first one, contains the end of the
signal in its middle, the playback continues at the number of the samples, which have been left for this block, instead
of ending. -/
theorem C25_continues_violated [Zero α] (s : Signal α R) (st : State α) (b : Block α) (i : Nat)
    (hb : b.Valid st.channels.rows s.count) (hc : st.channels.cols = s.length) (he : st.event = false)
    (hi : st.index = i) (h0 : 0 < i) (h1 : i < s.length) (h2 : s.length < i + b.frames) :
    ∃ st' out, onProcess s st b = .ok (st', out) ∧ st'.event = false ∧ st'.index = (s.length - i : Nat) ∧
      s.length - i < s.length := by
  obtain ⟨st', out, g1, g2, g3⟩ := onProcess_partial_index s st b i hb hc he hi h1 h2
  exact ⟨st', out, g1, g2, g3, by omega⟩

/-! ### Names of the output ports -/

theorem unusedName_spec (checked : List String) : ∀ (fuel : Nat) (name r : String),
    unusedName checked name fuel = some r → r ∉ checked ∧ name.length ≤ r.length := by
  intro fuel
  induction fuel with
  | zero => intro name r h; cases h
  | succ fuel ih =>
    intro name r h
    unfold unusedName at h
    split at h
    · obtain ⟨h1, h2⟩ := ih _ _ h
      rw [String.length_append] at h2
      exact ⟨h1, by omega⟩
    · cases h
      exact ⟨by assumption, Nat.le_refl _⟩

/-- the while-loop ends after at most as many iterations as there are used names -/
theorem unusedName_terminates (checked : List String) : ∀ (fuel : Nat) (name : String),
    (checked.filter fun c => decide (name.length ≤ c.length)).length < fuel →
    (unusedName checked name fuel).isSome := by
  intro fuel
  induction fuel with
  | zero => intro name h; omega
  | succ fuel ih =>
    intro name h
    unfold unusedName
    split
    · apply ih
      rename_i hm
      have hlt : (checked.filter fun c => decide ((name ++ "_").length ≤ c.length)).length <
          (checked.filter fun c => decide (name.length ≤ c.length)).length := by
        have hsub : (checked.filter fun c => decide ((name ++ "_").length ≤ c.length)) =
            (checked.filter fun c => decide (name.length ≤ c.length)).filter
              fun c => decide ((name ++ "_").length ≤ c.length) := by
          rw [List.filter_filter]
          apply List.filter_congr
          intro c _
          rw [String.length_append]
          simp only [← Bool.decide_and]
          congr 1
          apply propext
          constructor
          · intro h; exact ⟨h, by omega⟩
          · exact fun h => h.1
        rw [hsub]
        apply List.length_filter_lt_length_iff_exists.2
        refine ⟨name, List.mem_filter.2 ⟨hm, by simp⟩, ?_⟩
        rw [String.length_append]
        simp
      omega
    · rfl

theorem unusedName_mono (checked : List String) : ∀ (fuel : Nat) (name r : String) (extra : Nat),
    unusedName checked name fuel = some r → unusedName checked name (fuel + extra) = some r := by
  intro fuel
  induction fuel with
  | zero => intro name r extra h; cases h
  | succ fuel ih =>
    intro name r extra h
    rw [show fuel + 1 + extra = (fuel + extra) + 1 by omega]
    unfold unusedName at h ⊢
    split at h
    · rename_i hm; rw [if_pos hm]; exact ih _ _ _ h
    · rename_i hm; rw [if_neg hm]; exact h

theorem portName_some {checked : List String} {i : Nat} {label : Option String} {fuel : Nat}
    (h : checked.length < fuel) : ∃ r, portName checked i label fuel = some r ∧ r ∉ checked ∧ r ≠ "" ∧
      ∀ l, label = some l → l ≠ "" → l ∉ checked → r = l := by
  have key : ∃ r, unusedName checked ("output_" ++ toString (i + 1)) fuel = some r ∧ r ∉ checked ∧ r ≠ "" := by
    have ht := unusedName_terminates checked fuel ("output_" ++ toString (i + 1))
      (Nat.lt_of_le_of_lt (List.length_filter_le _ _) h)
    obtain ⟨r, hr⟩ := Option.isSome_iff_exists.1 ht
    obtain ⟨h1, h2⟩ := unusedName_spec _ _ _ _ hr
    refine ⟨r, hr, h1, ?_⟩
    rintro rfl
    rw [String.length_append] at h2
    have : "output_".length = 7 := rfl
    have : "".length = 0 := rfl
    omega
  unfold portName
  cases label with
  | none =>
    obtain ⟨r, h1, h2, h3⟩ := key
    exact ⟨r, h1, h2, h3, by simp⟩
  | some l =>
    dsimp only
    by_cases hl : l = "" ∨ l ∈ checked
    · rw [if_pos hl]
      obtain ⟨r, h1, h2, h3⟩ := key
      refine ⟨r, h1, h2, h3, ?_⟩
      rintro l' h k1 k2
      cases h
      rcases hl with hl | hl
      · exact absurd hl k1
      · exact absurd hl k2
    · rw [if_neg hl]
      refine ⟨l, rfl, fun h => hl (Or.inr h), fun h => hl (Or.inl h), ?_⟩
      rintro l' h _ _
      cases h; rfl

theorem portNamesLoop_spec (fuel : Nat) : ∀ (labels : List (Option String)) (checked : List String) (i : Nat),
    checked.length + labels.length ≤ fuel →
    ∃ names, portNamesLoop fuel checked i labels = some names ∧ names.length = labels.length ∧ names.Nodup ∧
      (∀ x ∈ names, x ∉ checked ∧ x ≠ "") ∧
      ∀ (j : Nat) (l : String), labels[j]? = some (some l) → l ≠ "" → l ∉ checked → l ∉ names.take j →
        names[j]? = some l := by
  intro labels
  induction labels with
  | nil => intro checked i _; exact ⟨[], rfl, rfl, by simp, by simp, by simp⟩
  | cons label labels ih =>
    intro checked i h
    rw [List.length_cons] at h
    obtain ⟨r, h1, h2, h3, h4⟩ := portName_some (i := i) (label := label) (show checked.length < fuel by omega)
    obtain ⟨names, k1, k2, k3, k4, k5⟩ := ih (r :: checked) (i + 1) (by rw [List.length_cons]; omega)
    refine ⟨r :: names, ?_, by simp [k2], ?_, ?_, ?_⟩
    · unfold portNamesLoop
      rw [h1]
      show (portNamesLoop fuel (r :: checked) (i + 1) labels >>= _) = _
      rw [k1]
      rfl
    · rw [List.nodup_cons]
      exact ⟨fun hm => (k4 r hm).1 (by simp), k3⟩
    · intro x hx
      rcases List.mem_cons.1 hx with rfl | hx
      · exact ⟨h2, h3⟩
      · obtain ⟨a, b⟩ := k4 x hx
        exact ⟨fun hc => a (List.mem_cons_of_mem _ hc), b⟩
    · intro j l hj g1 g2 g3
      cases j with
      | zero =>
        simp only [List.getElem?_cons_zero, Option.some.injEq] at hj ⊢
        exact h4 l hj g1 g2
      | succ j =>
        simp only [List.getElem?_cons_succ] at hj ⊢
        rw [List.take_succ_cons, List.mem_cons, not_or] at g3
        apply k5 j l hj g1 _ g3.2
        rw [List.mem_cons, not_or]
        exact ⟨g3.1, g2⟩

/-- C55: there is one output port for each channel; the names are distinct and not empty; a label, which is not empty
and not the name of a previous port, is used as it is. (A signal has one label for each channel, see C01. The limit for
the while-loop is never reached.) -/
theorem C55_port_names (labels : List (Option String)) (fuel : Nat) (hf : labels.length ≤ fuel) :
    ∃ names, portNames fuel labels labels.length = some names ∧ names.length = labels.length ∧ names.Nodup ∧
      (∀ x ∈ names, x ≠ "") ∧
      ∀ (j : Nat) (l : String), labels[j]? = some (some l) → l ≠ "" → l ∉ names.take j → names[j]? = some l := by
  obtain ⟨names, h1, h2, h3, h4, h5⟩ := portNamesLoop_spec fuel labels [] 0 (by simpa using hf)
  refine ⟨names, ?_, h2, h3, fun x hx => (h4 x hx).2, fun j l hj g1 g2 => h5 j l hj g1 (by simp) g2⟩
  unfold portNames
  rw [List.take_length, h1]
  show (if names.length < labels.length then _ else _) = _
  rw [if_neg (by omega)]
  rfl

example : portNames 9 [some "output_3", some "", none, some "a", some "a", some "output_2"] 6 =
    some ["output_3", "output_2", "output_3_", "a", "output_5", "output_6"] := by decide +kernel

/-- C55: for a signal with fewer labels than channels, the remaining ports are numbered; so there is one port for each
channel here, too. -/
theorem C55_port_names_short (labels : List (Option String)) (count fuel : Nat) (hf : labels.length ≤ fuel)
    (hc : labels.length ≤ count) :
    ∃ first names, portNames fuel labels labels.length = some first ∧ portNames fuel labels count = some names ∧
      names.length = count ∧ names.take labels.length = first ∧
      ∀ j, labels.length ≤ j → j < count → names[j]? = some ("output_" ++ toString (j + 1)) := by
  obtain ⟨first, h1, h2, -⟩ := portNamesLoop_spec fuel labels [] 0 (by simpa using hf)
  have e1 : portNames fuel labels labels.length = some first := by
    unfold portNames
    rw [List.take_length, h1]
    show (if first.length < labels.length then _ else _) = _
    rw [if_neg (by omega)]
    rfl
  have e2 : portNames fuel labels count = if first.length < count then
      some (first ++ (List.range (count - first.length)).map fun i => "output_" ++ toString (first.length + 1 + i))
      else some first := by
    unfold portNames
    rw [List.take_of_length_le hc, h1]
    rfl
  by_cases h : first.length < count
  · rw [if_pos h] at e2
    refine ⟨first, _, e1, e2, by simp; omega, by rw [← h2, List.take_left], ?_⟩
    intro j hj hj'
    rw [List.getElem?_append_right (by omega), List.getElem?_map, List.getElem?_range (by omega), Option.map_some,
      show first.length + 1 + (j - first.length) = j + 1 by omega]
  · rw [if_neg h] at e2
    refine ⟨first, first, e1, e2, by omega, by rw [← h2, List.take_length], ?_⟩
    intro j hj hj'
    omega

example : portNames 2 [some "a", none] 4 = some ["a", "output_2", "output_3", "output_4"] := by decide +kernel

/-! ### Stored connections -/

theorem pyGet_nat {β : Type} (l : List β) (i : Nat) : pyGet l (i : Int) = l[i]? := by
  unfold pyGet; rw [if_pos (by omega)]; rfl

/-- no string refers to two different ports (in JACK, the full names are unique) -/
def Unambiguous (ports : List Port) : Prop :=
  ∀ p ∈ ports, ∀ q ∈ ports, ∀ s : String, (s = p.shortname ∨ s = p.name) → (s = q.shortname ∨ s = q.name) → p = q

/-- C56: a stored connection to the port, that is removed, is dropped.
`_partial`: the connection is not specified by a negative index; see `C56_negative_index_violated`. -/
theorem C56_dropped_partial {O : Type} (own ports : List Port) (index : Nat) (port : Port) (o : O) (spec : PortSpec)
    (hp : own[index]? = some port) (hn : own.Nodup) (hspec : ∀ i, spec = .index i → 0 ≤ i)
    (h : inputPort own ports spec = some port) : keepConnection port index (o, spec) = none := by
  cases spec with
  | port p =>
    cases h
    simp [keepConnection]
  | str s =>
    have := List.find?_some h
    unfold keepConnection
    dsimp only
    rw [if_pos (by simpa using this)]
  | index i =>
    obtain ⟨k, rfl⟩ : ∃ k : Nat, i = k := ⟨i.toNat, by have := hspec i rfl; omega⟩
    change pyGet own k = some port at h
    rw [pyGet_nat] at h
    obtain ⟨h1, h2⟩ := List.getElem?_eq_some_iff.1 h
    obtain ⟨h3, h4⟩ := List.getElem?_eq_some_iff.1 hp
    have : k = index := (List.Nodup.getElem_inj_iff hn).1 (h2.trans h4.symm)
    subst this
    simp [keepConnection]

/-- C56: a stored connection to any other port is kept, and still refers to that port after the removal.
`_partial`: as above, and the names of the ports are unambiguous; see `C56_ambiguous_name_violated`. -/
theorem C56_kept_partial {O : Type} (own ports : List Port) (index : Nat) (port other : Port) (o : O)
    (spec : PortSpec) (hp : own[index]? = some port) (hn : own.Nodup) (hin : ∀ p ∈ own, p ∈ ports)
    (hu : Unambiguous ports) (hspec : ∀ i, spec = .index i → 0 ≤ i)
    (h : inputPort own ports spec = some other) (hne : other ≠ port) :
    ∃ spec', keepConnection port index (o, spec) = some (o, spec') ∧
      inputPort (own.eraseIdx index) (ports.filter fun p => decide (p ≠ port)) spec' = some other := by
  cases spec with
  | port p =>
    cases h
    refine ⟨.port other, ?_, rfl⟩
    unfold keepConnection
    dsimp only
    rw [if_neg hne]
  | str s =>
    have hs : s = other.shortname ∨ s = other.name := by simpa using List.find?_some h
    have hmem : other ∈ ports := List.mem_of_find?_eq_some h
    have hport : port ∈ ports := hin _ (List.mem_of_getElem? hp)
    refine ⟨.str s, ?_, ?_⟩
    · unfold keepConnection
      dsimp only
      rw [if_neg]
      intro hc
      exact hne (hu other hmem port hport s hs hc)
    · show ((ports.filter fun p => decide (p ≠ port)).find? fun p => decide (s = p.shortname ∨ s = p.name)) = _
      have hmem' : other ∈ ports.filter fun p => decide (p ≠ port) := List.mem_filter.2 ⟨hmem, by simpa using hne⟩
      match hf : (ports.filter fun p => decide (p ≠ port)).find? fun p => decide (s = p.shortname ∨ s = p.name) with
      | none =>
        have := List.find?_eq_none.1 hf other hmem'
        exact absurd (by simpa using hs) this
      | some q =>
        have hq : s = q.shortname ∨ s = q.name := by simpa using List.find?_some hf
        have hqm := List.mem_of_mem_filter (List.mem_of_find?_eq_some hf)
        rw [hf, hu q hqm other hmem s hq hs]
  | index i =>
    obtain ⟨k, rfl⟩ : ∃ k : Nat, i = k := ⟨i.toNat, by have := hspec i rfl; omega⟩
    change pyGet own k = some other at h
    rw [pyGet_nat] at h
    have hk : k ≠ index := by
      rintro rfl
      rw [hp] at h
      exact hne (Option.some.inj h).symm
    by_cases hlt : k < index
    · refine ⟨.index k, ?_, ?_⟩
      · unfold keepConnection
        dsimp only
        rw [if_neg (by omega), if_pos (by omega)]
      · show pyGet (own.eraseIdx index) k = _
        rw [pyGet_nat, List.getElem?_eraseIdx, if_pos hlt, h]
    · refine ⟨.index ((k - 1 : Nat) : Int), ?_, ?_⟩
      · unfold keepConnection
        dsimp only
        rw [if_neg (by omega), if_neg (by omega)]
        congr 3
        omega
      · show pyGet (own.eraseIdx index) ((k - 1 : Nat) : Int) = _
        rw [pyGet_nat, List.getElem?_eraseIdx, if_neg (by omega), show k - 1 + 1 = k by omega, h]

/-- C56 is violated by negative indices: the connection to the last port is kept, when this port is removed, and then
refers to another port. -/
theorem C56_negative_index_violated :
    inputPort [⟨"a", "x:a"⟩, ⟨"b", "x:b"⟩] [] (.index (-1)) = some ⟨"b", "x:b"⟩ ∧
    removeConnections ⟨"b", "x:b"⟩ 1 [("o", .index (-1))] = [("o", .index (-1))] ∧
    inputPort [⟨"a", "x:a"⟩] [] (.index (-1)) = some ⟨"a", "x:a"⟩ := by decide +kernel

/-- C56 is violated by the short name of a port of another client: the connection to the port `y:a` is dropped, when
the port `x:a` is removed. -/
theorem C56_ambiguous_name_violated :
    inputPort [⟨"a", "x:a"⟩] [⟨"a", "y:a"⟩, ⟨"a", "x:a"⟩] (.str "a") = some ⟨"a", "y:a"⟩ ∧
    removeConnections ⟨"a", "x:a"⟩ 0 [("o", .str "a")] = [] := by decide +kernel

/-- `C56_kept_partial` with three ports -/
example : removeConnections ⟨"b", "x:b"⟩ 1 [("o", .index 0), ("o", .index 1), ("o", .index 2), ("o", .str "x:b"),
      ("o", .str "c"), ("o", .port ⟨"c", "x:c"⟩)] =
    [("o", .index 0), ("o", .index 1), ("o", .str "c"), ("o", .port ⟨"c", "x:c"⟩)] := by decide +kernel
example : Unambiguous [⟨"a", "x:a"⟩, ⟨"b", "x:b"⟩, ⟨"c", "x:c"⟩] := by
  intro p hp q hq s h1 h2
  simp only [List.mem_cons, List.not_mem_nil, or_false] at hp hq
  rcases hp with rfl | rfl | rfl <;> rcases hq with rfl | rfl | rfl <;>
    first
    | rfl
    | (exfalso; rcases h1 with rfl | rfl <;> revert h2 <;> decide)

/-! ### Xruns -/

/-- C57: every xrun is counted, and the reported range begins at the current index and has the length of a block.
`_partial`: the delay is not in seconds. -/
theorem C57_xrun_partial (old : Nat × Option (XRun Rat)) (index : Int) (blocksize : Nat) (delay : Rat) :
    ∃ x, onXrun old index blocksize delay = (old.1 + 1, some x) ∧ x.start = index ∧ x.stop = index + blocksize :=
  ⟨_, rfl, rfl, rfl⟩

/-- C57 is violated: the delay is not converted to seconds. -/
theorem C57_delay_violated (old : Nat × Option (XRun Rat)) (index : Int) (blocksize : Nat) (delay : Rat)
    (h : delay ≠ 0) : ∃ x, (onXrun old index blocksize delay).2 = some x ∧ x.delay ≠ delay / 1000000 := by
  refine ⟨_, rfl, ?_⟩
  intro hc
  change delay * 1000000 = delay / 1000000 at hc
  rw [Rat.div_def] at hc
  have h2 : delay * ((1000000 : Rat) - (1000000 : Rat)⁻¹) = 0 := by
    rw [mul_sub, hc, sub_self]
  rcases Rat.mul_eq_zero.1 h2 with h3 | h3
  · exact h h3
  · revert h3; decide +kernel

end Jack
end Verif
