import Verif.ConvolutionLawsProps
import Verif.JoinProps
import Verif.LevelProps

/-
C161: Reversing signals commutes with processing them
-/

namespace Verif
namespace Signal

variable {α R : Type}

theorem reversed_value' [Zero α] (s : Signal α R) (c : Nat) (t : Int) :
    s.reversed.value c t = s.value c (2 * ((s.length : Int) - 1) - t) := by
  unfold value
  rw [C09_time_shifted, show -(t - 2 * ((s.length : Int) - 1)) = 2 * ((s.length : Int) - 1) - t by omega]

/-- C161: Functions of the samples can be applied before or after reversing a signal. -/
theorem C161_functions (f : α → α) (s : Signal α R) :
    Same (s.reversed.mapSamples f) (s.mapSamples f).reversed :=
  ⟨rfl, rfl, rfl, rfl, rfl, fun _ _ _ _ => rfl⟩

/-- C161: Signals over the same period of time can be combined by an operator before or after reversing them. Missing: signals
over different periods of time, see `C161_operators_violated`. -/
theorem C161_operators_partial [Zero α] (mem mem' : Nat → Nat → α) (f : α → α → α) (pivot : Option α) (label : String)
    (s o : Signal α R) (hso : Compatible s o) (h1 : s.offset = o.offset) (h2 : s.length = o.length) :
    ∃ r q, algebra mem f pivot label s o = .ok r ∧ algebra mem' f pivot label s.reversed o.reversed = .ok q ∧
      Same q r.reversed := by
  obtain ⟨r, hr, r1, r2, r3, r4, r5, r6⟩ := C10_pointwise_partial mem f pivot s o label hso
  obtain ⟨q, hq, q1, q2, q3, q4, q5, q6⟩ := C10_pointwise_partial mem' f pivot s.reversed o.reversed label hso
  have k1 : r.reversed.count = r.count := rfl
  have k2 : r.reversed.length = r.length := rfl
  have k3 : r.reversed.offset = (r.length : Int) - r.offset - 1 := rfl
  change q.count = max s.count o.count at q1
  change q.offset = min ((s.length : Int) - s.offset - 1) ((o.length : Int) - o.offset - 1) at q3
  change q.offset + q.length = max ((s.length : Int) - s.offset - 1 + s.length) ((o.length : Int) - o.offset - 1 + o.length) at q4
  have hss : SameSamples q r.reversed := by
    refine sameSamples_of_at (q2.trans r2.symm) (by omega) (by omega) (by omega) ?_
    intro c t hc t1 t2
    rw [C09_time_shifted, q6 c t hc t1 t2, r6 c _ (by omega) (by omega) (by omega)]
    unfold bcast
    rw [C09_time_shifted, C09_time_shifted, show s.reversed.count = s.count from rfl,
      show o.reversed.count = o.count from rfl, show o.length = r.length by omega, show s.length = r.length by omega]
  have hw : r.WF := by
    show r.labels.length = r.count
    rw [r5, List.length_replicate]
  exact ⟨r, q, hr, hq, same_of_samples hss (by
    rw [show r.reversed.labels = r.labels from sanitize_self hw, r5, q5, q1, r1])⟩

/-- C161 is violated for signals with different lengths: because the offset of a reversed signal depends on its length (see C09),
the sum of the reversed signals has three samples, while the reversed sum has two. -/
theorem C161_operators_violated : ∃ s o r q : Signal Int Nat, s.WF ∧ o.WF ∧ s.rate = o.rate ∧ s.offset = o.offset ∧
    algebra (fun _ _ => 99) (· + ·) none "Sum" s o = .ok r ∧
    algebra (fun _ _ => 99) (· + ·) none "Sum" s.reversed o.reversed = .ok q ∧
    r.reversed.channels.flat = [2, 11] ∧ q.channels.flat = [10, 2, 1] := by
  refine ⟨⟨Mat.ofRows 2 [[1, 2]], 48000, 0, ["a"]⟩, ⟨Mat.ofRows 1 [[10]], 48000, 0, ["b"]⟩, _, _, rfl, rfl, rfl, rfl, rfl, rfl,
    ?_, ?_⟩ <;> decide +kernel

section
variable [NonUnitalNonAssocCommSemiring α]

/-- C161: The convolution of reversed signals is the reversed convolution of the signals. -/
theorem C161_convolution (mem mem' : Nat → Nat → α) (label : String) (s o : Signal α R) (hs : 0 < s.length)
    (ho : 0 < o.length) :
    ∃ r q, convolve (fullConvolution mem) label s o = .ok r ∧
      convolve (fullConvolution mem') label s.reversed o.reversed = .ok q ∧ SameSamples q r.reversed := by
  obtain ⟨r, x1, y1⟩ := isConv mem label s o hs ho
  obtain ⟨q, x2, y2⟩ := isConv mem' label s.reversed o.reversed hs ho
  have n1 := y1.count
  have n2 := y2.count
  have l1 := y1.length
  have l2 := y2.length
  have o1 := y1.offset
  have o2 := y2.offset
  change q.offset = ((s.length : Int) - s.offset - 1) + ((o.length : Int) - o.offset - 1) at o2
  change q.length + 1 = s.length + o.length at l2
  change q.count = cnt s.count o.count at n2
  have k1 : r.reversed.count = r.count := rfl
  have k2 : r.reversed.length = r.length := rfl
  have k3 : r.reversed.offset = (r.length : Int) - r.offset - 1 := rfl
  refine ⟨r, q, x1, x2, sameSamples_of_value (by rw [y2.rate]; exact y1.rate.symm) (by omega) (by omega) (by omega) ?_⟩
  intro c t hc _ _
  rw [reversed_value', y2.value c t (by show c < cnt s.count o.count; omega), y1.value c _ (by omega)]
  unfold convAt
  rw [← finsum_comp_equiv (Equiv.subLeft (2 * ((s.length : Int) - 1)))]
  refine finsum_congr fun u => ?_
  rw [Equiv.subLeft_apply, val_eq_value, val_eq_value, val_eq_value, val_eq_value, reversed_value', reversed_value',
    show s.reversed.chan c = s.chan c from rfl, show o.reversed.chan c = o.chan c from rfl,
    show 2 * ((s.length : Int) - 1) - (2 * ((s.length : Int) - 1) - u) = u by omega,
    show 2 * ((o.length : Int) - 1) - (t - (2 * ((s.length : Int) - 1) - u)) = 2 * ((r.length : Int) - 1) - t - u by omega]

/-- C161: The correlation of reversed signals contains the reversed samples of the correlation of the signals. The distance
between the offsets is a consequence of the offsets of reversed signals (see C09). -/
theorem C161_correlation (mem mem' : Nat → Nat → α) (label : String) (s o : Signal α R) (hs : 0 < s.length)
    (ho : 0 < o.length) :
    ∃ r q, convolve (fullCorrelation mem) label s o = .ok r ∧
      convolve (fullCorrelation mem') label s.reversed o.reversed = .ok q ∧ q.rate = r.reversed.rate ∧
      q.channels.Eqv r.reversed.channels ∧ r.reversed.offset = q.offset + 4 * ((s.length : Int) - 1) := by
  obtain ⟨r, x1, y1⟩ := isCorr mem label s o hs ho
  obtain ⟨q, x2, y2⟩ := isCorr mem' label s.reversed o.reversed hs ho
  have n1 := y1.count
  have n2 := y2.count
  have l1 := y1.length
  have l2 := y2.length
  have o1 := y1.offset
  have o2 := y2.offset
  change q.offset = ((o.length : Int) - o.offset - 1) - ((s.length : Int) - s.offset - 1 + s.length - 1) at o2
  change q.length + 1 = s.length + o.length at l2
  change q.count = cnt s.count o.count at n2
  have k3 : r.reversed.offset = (r.length : Int) - r.offset - 1 := rfl
  refine ⟨r, q, x1, x2, by rw [y2.rate]; exact y1.rate.symm, ⟨by show q.count = r.count; omega,
    by show q.length = r.length; omega, ?_⟩, by omega⟩
  intro c i hc hi
  change c < q.count at hc
  change i < q.length at hi
  show q.channels.get c i = r.channels.get c (r.length - 1 - i)
  have e1 : q.at_ c (q.offset + i) = some (q.channels.get c i) :=
    at_eq_some.mpr ⟨hc, by omega, by omega, by congr 1; omega⟩
  have e2 : r.at_ c (r.offset + (r.length - 1 - i : Nat)) = some (r.channels.get c (r.length - 1 - i)) :=
    at_eq_some.mpr ⟨by omega, by omega, by omega, by congr 1; omega⟩
  have e3 : q.value c (q.offset + i) = r.value c (r.offset + (r.length - 1 - i : Nat)) := by
    rw [y1.value c _ (by omega), y2.value c _ (by show c < cnt s.count o.count; omega)]
    unfold corrAt
    rw [← finsum_comp_equiv (Equiv.subLeft (2 * ((s.length : Int) - 1)))]
    refine finsum_congr fun u => ?_
    rw [Equiv.subLeft_apply, val_eq_value, val_eq_value, val_eq_value, val_eq_value, reversed_value', reversed_value',
      show s.reversed.chan c = s.chan c from rfl, show o.reversed.chan c = o.chan c from rfl,
      show 2 * ((s.length : Int) - 1) - (2 * ((s.length : Int) - 1) - u) = u by omega,
      show 2 * ((o.length : Int) - 1) - (2 * ((s.length : Int) - 1) - u + (q.offset + i)) =
        u + (r.offset + (r.length - 1 - i : Nat)) by omega]
  unfold value at e3
  rw [e1, e2] at e3
  simpa using e3

end

/-- C161: A slice of a reversed signal contains the reversed samples of the slice from the other end of the signal. -/
theorem C161_slice (s : Signal α R) (hs : s.WF) (a n b : Nat) (h : a + n + b = s.length) :
    ∃ r q, s.reversed.getItem whole (fromTo a (a + n : Nat)) = some r ∧ s.getItem whole (fromTo b (b + n : Nat)) = some q ∧
      r.rate = q.reversed.rate ∧ r.labels = q.reversed.labels ∧ r.channels.Eqv q.reversed.channels ∧
      r.offset = q.reversed.offset + (2 * (a + b : Nat) : Int) := by
  have hl : s.reversed.length = s.length := rfl
  have hw : s.reversed.WF := new_wf _ _ _ _
  obtain ⟨r, hr, cr⟩ := getItem_cut hw (selection_whole s.reversed.count) (selection_fromTo a n (by omega))
  obtain ⟨q, hq, cq⟩ := getItem_cut hs (selection_whole s.count) (selection_fromTo b n (by omega))
  have k1 : s.reversed.count = s.count := rfl
  have k2 : s.reversed.offset = (s.length : Int) - s.offset - 1 := rfl
  have k3 : q.reversed.offset = (q.length : Int) - q.offset - 1 := rfl
  have c1 := cr.offset
  have c2 := cq.offset
  have c3 := cq.length
  refine ⟨r, q, hr, hq, cr.rate.trans cq.rate.symm, ?_, ⟨cr.count.trans cq.count.symm, cr.length.trans cq.length.symm, ?_⟩,
    by omega⟩
  · rw [show q.reversed.labels = q.labels from sanitize_self cq.wf, cr.labels, cq.labels,
      show s.reversed.labels = s.labels from sanitize_self hs, k1]
  · intro c i _ hi
    change i < r.length at hi
    have c4 := cr.length
    rw [cr.get]
    show s.channels.get (0 + c) (s.length - 1 - (a + i)) = q.channels.get c (q.length - 1 - i)
    rw [cq.get]
    congr 1
    omega

/-- C161: Rotating a reversed signal is the same as reversing the signal, that has been rotated in the other direction. -/
theorem C161_rotation [Zero α] (mem mem' : Nat → Nat → α) (s : Signal α R) (hs : s.WF) (n : Int) (hn : n.natAbs ≤ s.length) :
    ∃ r q, s.shift mem (some n) .cycle = .ok r ∧ s.reversed.shift mem' (some (-n)) .cycle = .ok q ∧ Same q r.reversed := by
  obtain ⟨r, hr, r1, r2, r3, r4, r5, r6⟩ := C08_cycle_partial mem s hs n hn
  have hw : s.reversed.WF := new_wf _ _ _ _
  obtain ⟨q, hq, q1, q2, q3, q4, q5, q6⟩ := C08_cycle_partial mem' s.reversed hw (-n)
    (by show (-n).natAbs ≤ s.length; omega)
  change q.count = s.count at q1
  change q.length = s.length at q2
  change q.offset = (s.length : Int) - s.offset - 1 at q4
  have hrw : r.WF := by
    show r.labels.length = r.count
    rw [r5, r1]
    exact hs
  refine ⟨r, q, hr, hq, q3.trans r3.symm, ?_, ?_, by show q.count = r.count; omega, by show q.length = r.length; omega, ?_⟩
  · show q.offset = (r.length : Int) - r.offset - 1
    omega
  · rw [q5, show s.reversed.labels = s.labels from sanitize_self hs, show r.reversed.labels = r.labels from sanitize_self hrw,
      r5]
  · intro c i hc hi
    change c < q.count at hc
    change i < q.length at hi
    have hL : 0 < (s.length : Int) := by omega
    have h0 := Int.emod_nonneg ((i : Int) + n) hL.ne'
    have h1 := Int.emod_lt_of_pos ((i : Int) + n) hL
    have ej := q6 c (((i : Int) + n) % s.length).toNat (by show c < s.count; omega) (by show _ < s.length; omega)
    change q.sample c (((((((i : Int) + n) % s.length).toNat : Nat) : Int) + -n) % (s.length : Int)).toNat = _ at ej
    rw [Int.toNat_of_nonneg h0, Int.emod_add_emod, add_neg_cancel_right, Int.emod_eq_of_lt (by omega) (by omega),
      Int.toNat_natCast, C09_reversed_samples s c _ (by omega) (by omega)] at ej
    have ei := r6 c (s.length - 1 - (((i : Int) + n) % s.length).toNat) (by omega) (by omega)
    have e : ((((s.length - 1 - (((i : Int) + n) % s.length).toNat : Nat) : Int) + n) % s.length).toNat = s.length - 1 - i := by
      have e1 : ((s.length - 1 - (((i : Int) + n) % s.length).toNat : Nat) : Int) + n =
          (s.length - 1 - i : Int) + s.length * (((i : Int) + n) / s.length) := by
        have := Int.emod_add_mul_ediv ((i : Int) + n) s.length
        omega
      rw [e1, Int.add_mul_emod_self_left, Int.emod_eq_of_lt (by omega) (by omega)]
      omega
    rw [e] at ei
    rw [← ei, sample_of_lt hc hi, sample_of_lt (by omega) (by omega)] at ej
    rw [Option.some.inj ej]
    show r.channels.get c (s.length - 1 - i) = r.channels.get c (r.length - 1 - i)
    rw [r2]

/-- the hypotheses are satisfiable: two signals with three samples over the same period of time, and a slice of one of them -/
example : ∃ s o : Signal ℚ ℚ, s.WF ∧ Compatible s o ∧ s.offset = o.offset ∧ s.length = o.length ∧ 0 < s.length ∧
    1 + 2 + 0 = s.length ∧ (-2 : Int).natAbs ≤ s.length ∧ s.reversed.channels.get 1 0 ≠ s.channels.get 1 0 := by
  refine ⟨⟨⟨2, 3, fun c i => c + i⟩, 48000, -4, ["a", "b"]⟩, ⟨⟨1, 3, fun c i => i * i⟩, 48000, -4, ["c"]⟩, rfl,
    ⟨by decide, by decide⟩, rfl, rfl, by decide, rfl, by decide, ?_⟩
  decide +kernel

end Signal

namespace Level

theorem levelAt_reflect (x : Nat → ℝ) (L : Nat) (w : ℝ) (pad : Bool) (i : Nat) (hi : i < L) :
    levelAt (fun k => x (L - 1 - k)) L w pad i = levelAt x L w pad (L - 1 - i) := by
  have key : ∀ g : Nat → ℝ, ∑ k ∈ Finset.range L, g (L - 1 - k) * weight w ((k : Int) - i) =
      ∑ k ∈ Finset.range L, g k * weight w ((k : Int) - (L - 1 - i : Nat)) := by
    intro g
    rw [← Finset.sum_range_reflect]
    refine Finset.sum_congr rfl fun k hk => ?_
    rw [Finset.mem_range] at hk
    rw [← weight_neg]
    congr 2
    · omega
    · omega
  have h1 := key fun k => x k ^ 2
  have h2 : covered w L i = covered w L (L - 1 - i) := by
    have := key fun _ => 1
    simpa [covered] using this
  unfold levelAt
  rw [h1, h2]

/-- C161: For integration times, that are an integer number of sampling periods, the level over time of the reversed signal is
the reversed level over time of the signal. (The remaining hypotheses are those of C54.) -/
theorem C161_level (mem mem' empty : Nat → Nat → ℝ) (s : Signal ℝ ℝ) (hs : s.WF) (T : ℝ) (pad : Bool) (m : Nat)
    (hw : T * s.rate = m) (hm : 1 < m) (h1 : m % 2 = 1 ∨ s.length ≠ 1 + m / 2) (h2 : pad = true ∨ s.length ≠ 1 + 2 * (m / 2)) :
    ∃ r q, levelVsTime mem empty s T pad = .ok r ∧ levelVsTime mem' empty s.reversed T pad = .ok q ∧
      Signal.Same q r.reversed := by
  obtain ⟨r, hr, r1, r2, r3, r4, r5, r6⟩ := C54_integer_partial mem empty s T pad m hw hm h1 h2 hs
  have hwf : s.reversed.WF := Signal.new_wf _ _ _ _
  obtain ⟨q, hq, q1, q2, q3, q4, q5, q6⟩ := C54_integer_partial mem' empty s.reversed T pad m hw hm h1 h2 hwf
  have k1 : s.reversed.channels.rows = s.channels.rows := rfl
  have k2 : s.reversed.channels.cols = s.channels.cols := rfl
  refine ⟨r, q, hr, hq, q3.trans r3.symm, ?_, ?_, q1.trans r1.symm, q2.trans r2.symm, ?_⟩
  · rw [q4]
    show (s.length : Int) - s.offset - 1 = (r.length : Int) - r.offset - 1
    rw [r4, show r.length = s.length from r2]
  · have hrw : r.WF := by
      show r.labels.length = r.channels.rows
      rw [r5, r1]
      exact hs
    rw [q5, show s.reversed.labels = s.labels from Signal.sanitize_self hs,
      show r.reversed.labels = r.labels from Signal.sanitize_self hrw, r5]
  · intro c i hc hi
    rw [q6 c i (by omega) (by omega), k2]
    show levelAt (fun k => s.channels.get c (s.length - 1 - k)) s.length m pad i = r.channels.get c (r.length - 1 - i)
    have hi' : i < s.length := by rw [q2] at hi; exact hi
    rw [levelAt_reflect _ _ _ _ _ hi', show r.length = s.length from r2,
      r6 c _ (by omega) (show s.length - 1 - i < s.length by omega)]
    rfl

/-- the hypotheses are satisfiable: five samples and an interval of two samples -/
example : ∃ (s : Signal ℝ ℝ) (T : ℝ), s.WF ∧ T * s.rate = (2 : Nat) ∧ s.length ≠ 1 + 2 / 2 ∧ s.length ≠ 1 + 2 * (2 / 2) :=
  ⟨⟨⟨1, 5, fun _ i => i⟩, 4, 3, ["a"]⟩, 1 / 2, rfl, by norm_num, by decide, by decide⟩

end Level
end Verif
