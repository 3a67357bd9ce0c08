import Verif.WindowsProps
import Verif.Dft
import Mathlib.Algebra.BigOperators.Intervals
import Mathlib.Algebra.Order.BigOperators.Ring.Finset
import Mathlib.Algebra.CharZero.Defs
import Mathlib.Data.Nat.ModEq

/-
C43: overlapping windows.
-/

namespace Verif
namespace Windows

open Indexing Finset

variable {α R : Type}

/-! ### Specification -/

/-- The sum of all overlapping repetitions of a window with the length `L` at the time `t`, where a repetition starts
every `step` samples: these are all samples of the window, whose distance to `t` is a multiple of the `step`. -/
def overlapSum [AddCommMonoid α] (w : Nat → α) (L step t : Nat) : α :=
  ∑ j ∈ (range L).filter fun j => j % step = t % step, w j

/-! ### Sums -/

theorem pyRange_steps (L s : Nat) (hs : 0 < s) :
    pyRange (s : Int) (L : Int) (s : Int) = (List.range ((L - 1) / s)).map fun k => (((k + 1) * s : Nat) : Int) := by
  unfold pyRange
  rw [if_pos (by omega)]
  have : (((L : Int) - s + s - 1) / (s : Int)).toNat = (L - 1) / s := by
    by_cases hL : L = 0
    · subst hL
      have : (((0 : Nat) : Int) - s + s - 1) / (s : Int) < 0 := Int.ediv_neg_of_neg_of_pos (by omega) (by omega)
      simp at *
      omega
    · rw [show ((L : Int) - s + s - 1) = ((L - 1 : Nat) : Int) by omega]
      exact Int.toNat_natCast _
  rw [this]
  apply List.map_congr_left
  intro k _
  push_cast
  rw [Int.add_mul, Int.one_mul, Int.add_comm]

theorem succ_mul_lt {L s k : Nat} (hs : 0 < s) (hk : k < (L - 1) / s) : (k + 1) * s < L := by
  have := (Nat.le_div_iff_mul_le hs).mp hk
  have h2 : 0 < (k + 1) * s := Nat.mul_pos (by omega) hs
  simp only [Nat.succ_eq_add_one] at this
  omega

/-- the samples, that the code adds for the time `t` -/
def added [AddCommMonoid α] (w : Nat → α) (L s m t : Nat) : α :=
  w t + ∑ k ∈ range m, ((if t + (k + 1) * s < L then w (t + (k + 1) * s) else 0) +
    if (k + 1) * s ≤ t then w (t - (k + 1) * s) else 0)

theorem sum_after [AddCommMonoid α] (w : Nat → α) (L s t : Nat) (hs : 0 < s) :
    (∑ k ∈ range ((L - 1) / s), if t + (k + 1) * s < L then w (t + (k + 1) * s) else 0) =
      ∑ j ∈ (range L).filter fun j => t < j ∧ j % s = t % s, w j := by
  rw [← Finset.sum_filter]
  apply Finset.sum_nbij' (fun k => t + (k + 1) * s) (fun j => (j - t) / s - 1)
  · intro k hk
    simp only [mem_filter, mem_range] at hk ⊢
    have : 0 < (k + 1) * s := Nat.mul_pos (by omega) hs
    exact ⟨hk.2, by omega, by rw [Nat.add_mul_mod_self_right]⟩
  · intro j hj
    simp only [mem_filter, mem_range] at hj ⊢
    obtain ⟨h1, h2, h3⟩ := hj
    have hd : s ∣ j - t := (Nat.modEq_iff_dvd' h2.le).mp h3.symm
    obtain ⟨q, hq⟩ := hd
    have hq0 : 0 < q := by
      rcases Nat.eq_zero_or_pos q with rfl | h
      · simp at hq; omega
      · exact h
    have : (j - t) / s = q := by rw [hq]; exact Nat.mul_div_cancel_left _ hs
    rw [this, show q - 1 + 1 = q by omega, Nat.mul_comm q s, ← hq]
    refine ⟨?_, by omega⟩
    have : q ≤ (L - 1) / s := by
      rw [Nat.le_div_iff_mul_le hs, Nat.mul_comm, ← hq]
      omega
    omega
  · intro k hk
    simp only [Nat.add_sub_cancel_left]
    rw [Nat.mul_div_cancel _ hs]
    omega
  · intro j hj
    simp only [mem_filter, mem_range] at hj ⊢
    obtain ⟨h1, h2, h3⟩ := hj
    have hd : s ∣ j - t := (Nat.modEq_iff_dvd' h2.le).mp h3.symm
    obtain ⟨q, hq⟩ := hd
    have hq0 : 0 < q := by
      rcases Nat.eq_zero_or_pos q with rfl | h
      · simp at hq; omega
      · exact h
    have : (j - t) / s = q := by rw [hq]; exact Nat.mul_div_cancel_left _ hs
    rw [this, show q - 1 + 1 = q by omega, Nat.mul_comm q s, ← hq]
    omega
  · intro k hk
    rfl

theorem sum_before [AddCommMonoid α] (w : Nat → α) (L s t : Nat) (hs : 0 < s) (ht : t < L) :
    (∑ k ∈ range ((L - 1) / s), if (k + 1) * s ≤ t then w (t - (k + 1) * s) else 0) =
      ∑ j ∈ (range L).filter fun j => j < t ∧ j % s = t % s, w j := by
  rw [← Finset.sum_filter]
  apply Finset.sum_nbij' (fun k => t - (k + 1) * s) (fun j => (t - j) / s - 1)
  · intro k hk
    simp only [mem_filter, mem_range] at hk ⊢
    have : 0 < (k + 1) * s := Nat.mul_pos (by omega) hs
    refine ⟨by omega, by omega, ?_⟩
    conv_rhs => rw [show t = t - (k + 1) * s + (k + 1) * s by omega]
    rw [Nat.add_mul_mod_self_right]
  · intro j hj
    simp only [mem_filter, mem_range] at hj ⊢
    obtain ⟨h1, h2, h3⟩ := hj
    have hd : s ∣ t - j := (Nat.modEq_iff_dvd' h2.le).mp h3
    obtain ⟨q, hq⟩ := hd
    have hq0 : 0 < q := by
      rcases Nat.eq_zero_or_pos q with rfl | h
      · simp at hq; omega
      · exact h
    have : (t - j) / s = q := by rw [hq]; exact Nat.mul_div_cancel_left _ hs
    rw [this, show q - 1 + 1 = q by omega, Nat.mul_comm q s, ← hq]
    refine ⟨?_, by omega⟩
    have : q ≤ (L - 1) / s := by
      rw [Nat.le_div_iff_mul_le hs, Nat.mul_comm, ← hq]
      omega
    omega
  · intro k hk
    simp only [mem_filter, mem_range] at hk
    have : t - (t - (k + 1) * s) = (k + 1) * s := by omega
    simp only [this]
    rw [Nat.mul_div_cancel _ hs]
    omega
  · intro j hj
    simp only [mem_filter, mem_range] at hj ⊢
    obtain ⟨h1, h2, h3⟩ := hj
    have hd : s ∣ t - j := (Nat.modEq_iff_dvd' h2.le).mp h3
    obtain ⟨q, hq⟩ := hd
    have hq0 : 0 < q := by
      rcases Nat.eq_zero_or_pos q with rfl | h
      · simp at hq; omega
      · exact h
    have : (t - j) / s = q := by rw [hq]; exact Nat.mul_div_cancel_left _ hs
    rw [this, show q - 1 + 1 = q by omega, Nat.mul_comm q s, ← hq]
    omega
  · intro k hk
    rfl

theorem added_eq [AddCommMonoid α] (w : Nat → α) (L s t : Nat) (hs : 0 < s) (ht : t < L) :
    added w L s ((L - 1) / s) t = overlapSum w L s t := by
  unfold added overlapSum
  rw [Finset.sum_add_distrib, sum_after w L s t hs, sum_before w L s t hs ht]
  rw [Finset.sum_filter, Finset.sum_filter, Finset.sum_filter]
  have hone : w t = ∑ j ∈ range L, if j = t then w j else 0 := by
    rw [Finset.sum_ite_eq']
    rw [if_pos (mem_range.mpr ht)]
  rw [hone, ← Finset.sum_add_distrib, ← Finset.sum_add_distrib]
  apply Finset.sum_congr rfl
  intro j _
  rcases Nat.lt_trichotomy j t with h | h | h
  · rw [if_neg (by omega), if_neg (show ¬ (t < j ∧ _) by omega)]
    by_cases hm : j % s = t % s
    · rw [if_pos ⟨h, hm⟩, if_pos hm, zero_add, zero_add]
    · rw [if_neg (by omega), if_neg hm, zero_add, zero_add]
  · subst h
    rw [if_pos rfl, if_neg (show ¬ (j < j ∧ _) by omega), if_pos rfl, add_zero, add_zero]
  · rw [if_neg (by omega), if_neg (show ¬ (j < t ∧ _) by omega)]
    by_cases hm : j % s = t % s
    · rw [if_pos ⟨h, hm⟩, if_pos hm, zero_add, add_zero]
    · rw [if_neg (by omega), if_neg hm, zero_add, zero_add]

theorem sum_shift_right [AddCommMonoid α] (w : Nat → α) (L c : Nat) (h : c ≤ L) :
    (∑ t ∈ range L, if c ≤ t then w (t - c) else 0) = ∑ t ∈ range (L - c), w t := by
  obtain ⟨d, rfl⟩ := Nat.exists_eq_add_of_le h
  rw [Finset.sum_range_add, show c + d - c = d by omega]
  have : (∑ t ∈ range c, if c ≤ t then w (t - c) else 0) = 0 := by
    apply Finset.sum_eq_zero
    intro t ht
    rw [if_neg (by simp at ht; omega)]
  rw [this, zero_add]
  apply Finset.sum_congr rfl
  intro t _
  rw [if_pos (by omega), show c + t - c = t by omega]

theorem sum_shift_left [AddCommMonoid α] (w : Nat → α) (L c : Nat) (h : c ≤ L) :
    (∑ t ∈ range L, if t + c < L then w (t + c) else 0) = ∑ t ∈ range (L - c), w (c + t) := by
  obtain ⟨d, rfl⟩ := Nat.exists_eq_add_of_le h
  rw [Nat.add_comm c d, Finset.sum_range_add, show d + c - c = d by omega]
  have : (∑ t ∈ range c, if d + t + c < d + c then w (d + t + c) else 0) = 0 := by
    apply Finset.sum_eq_zero
    intro t ht
    rw [if_neg (by omega)]
  rw [this, add_zero]
  apply Finset.sum_congr rfl
  intro t ht
  rw [if_pos (by simp at ht; omega), Nat.add_comm t c]

theorem foldl_sum [AddCommMonoid α] (g : Nat → α) (v : α) (m : Nat) :
    ((List.range m).foldl (fun a k => a + g k) v) = v + ∑ k ∈ range m, g k := by
  induction m with
  | zero => simp
  | succ m ih => rw [List.range_succ, List.foldl_append, ih, Finset.sum_range_succ, ← add_assoc]; rfl

/-- the sum of the code's loop -/
theorem total [AddCommMonoid α] (w : Nat → α) (L s : Nat) (hs : 0 < s) :
    (∑ t ∈ range L, w t) + ∑ k ∈ range ((L - 1) / s),
      ((∑ t ∈ range (L - (k + 1) * s), w t) + ∑ t ∈ range (L - (k + 1) * s), w ((k + 1) * s + t)) =
    ∑ t ∈ range L, overlapSum w L s t := by
  have : ∑ t ∈ range L, overlapSum w L s t = ∑ t ∈ range L, added w L s ((L - 1) / s) t := by
    apply Finset.sum_congr rfl
    intro t ht
    rw [added_eq w L s t hs (mem_range.mp ht)]
  rw [this]
  unfold added
  rw [Finset.sum_add_distrib (s := range L), Finset.sum_comm (s := range L)]
  congr 1
  apply Finset.sum_congr rfl
  intro k hk
  have := succ_mul_lt hs (mem_range.mp hk)
  rw [Finset.sum_add_distrib, sum_shift_left w L _ this.le, sum_shift_right w L _ this.le, add_comm]

/-! ### C43 -/

/-- C43: The scaling factor is the inverse of the average of the sum of the overlapping windows. -/
theorem C43_scaling_factor [Field α] (w : Mat α) (r : Nat) (overlap : Idx) (o : Nat)
    (hi : index w.cols overlap = some (o : Int)) (ho : o < w.cols) :
    scalingFactor w r overlap =
      some (w.cols / ∑ t ∈ range w.cols, overlapSum (w.get r) w.cols (w.cols - o) t) := by
  unfold scalingFactor
  rw [hi]
  show (if (w.cols : Int) - (o : Nat) = 0 then _ else _) = _
  rw [if_neg (by omega)]
  obtain ⟨s, hs⟩ : ∃ s, w.cols - o = s := ⟨_, rfl⟩
  rw [show (w.cols : Int) - (o : Nat) = (s : Nat) by omega, hs]
  have hs0 : 0 < s := by omega
  rw [← total (w.get r) w.cols s hs0, pyRange_steps w.cols s hs0, List.foldl_map]
  show some ((w.cols : α) / _) = _
  congr 2
  have key : ∀ (l : List Nat), (∀ k ∈ l, (k + 1) * s < w.cols) → ∀ v : α,
      l.foldl (fun added k => added + rowSum (w.slice .all (.range 0 ((w.cols : Int) - ((k + 1) * s : Nat)))) r
        + rowSum (w.slice .all (.drop ((k + 1) * s : Nat))) r) v =
      l.foldl (fun added k => added + ((∑ t ∈ range (w.cols - (k + 1) * s), w.get r t) +
        ∑ t ∈ range (w.cols - (k + 1) * s), w.get r ((k + 1) * s + t))) v := by
    intro l
    induction l with
    | nil => intro _ v; rfl
    | cons k l ih =>
      intro hl v
      have hk := hl k List.mem_cons_self
      obtain ⟨c, hc⟩ : ∃ c, (k + 1) * s = c := ⟨_, rfl⟩
      rw [List.foldl_cons, List.foldl_cons, ih fun k hk => hl k (List.mem_cons_of_mem _ hk)]
      rw [hc] at hk ⊢
      congr 1
      rw [add_assoc]
      congr 2
      · unfold rowSum
        rw [show ((w.cols : Int) - (c : Nat)) = ((w.cols - c : Nat) : Int) by omega]
        have : (w.slice .all (.range 0 ((w.cols - c : Nat) : Int))).cols = w.cols - c := by
          rw [Mat.slice_cols, PySlice.count_range, clampBound_nat, clampBound_zero]
          omega
        rw [this]
        apply Finset.sum_congr rfl
        intro t _
        rw [Mat.slice_all_get, PySlice.lo_range, clampBound_zero, Nat.zero_add]
      · unfold rowSum
        have : (w.slice .all (.drop (c : Nat))).cols = w.cols - c := by
          rw [Mat.slice_cols, PySlice.count_drop, clampBound_nat]
          omega
        rw [this]
        apply Finset.sum_congr rfl
        intro t _
        rw [Mat.slice_all_get, PySlice.lo_drop, clampBound_nat, Nat.min_eq_left (by omega)]
  rw [key _ (fun k hk => succ_mul_lt hs0 (by simpa using hk)), foldl_sum]
  rfl

/-- C43: If the overlapping windows add up to a constant, the scaling factor is the inverse of this constant. -/
theorem C43_constant [Field α] [CharZero α] (w : Mat α) (r : Nat) (overlap : Idx) (o : Nat) (c : α)
    (hi : index w.cols overlap = some (o : Int)) (ho : o < w.cols)
    (hc : ∀ t, t < w.cols → overlapSum (w.get r) w.cols (w.cols - o) t = c) :
    scalingFactor w r overlap = some (1 / c) := by
  rw [C43_scaling_factor w r overlap o hi ho, Finset.sum_congr rfl fun t ht => hc t (mem_range.mp ht)]
  rw [Finset.sum_const, card_range, nsmul_eq_mul]
  have : (w.cols : α) ≠ 0 := by exact_mod_cast (by omega : w.cols ≠ 0)
  congr 1
  rw [div_mul_eq_div_div, div_self this]

/-- C43: If there is no step between the windows, the scaling factor is zero. -/
theorem C43_full_overlap [Field α] (w : Mat α) (r : Nat) (overlap : Idx)
    (hi : index w.cols overlap = some (w.cols : Int)) : scalingFactor w r overlap = some 0 := by
  unfold scalingFactor
  rw [hi]
  show (if (w.cols : Int) - w.cols = 0 then _ else _) = _
  rw [if_pos (by omega)]
  rfl

/-! ### The Hann window -/

/-- a periodic Hann window, which is created with `symmetric=False`, without the notation for the model -/
theorem hanning_periodic (L i : Nat) (hL : 0 < L) :
    hanning (L + 1) i = 1 / 2 - 1 / 2 * Real.cos (2 * Real.pi * i / L) := by
  unfold hanning
  rw [if_neg (by omega)]
  have : (L : ℝ) ≠ 0 := by exact_mod_cast (by omega : L ≠ 0)
  have h : Real.pi * (1 - ((L + 1 : Nat) : ℝ) + 2 * i) / (((L + 1 : Nat) : ℝ) - 1) = 2 * Real.pi * i / L - Real.pi := by
    rw [show ((L + 1 : Nat) : ℝ) - 1 = L by push_cast; ring]
    push_cast
    field_simp
    ring
  rw [h, Real.cos_sub_pi]
  ring

theorem filter_half (m t : Nat) (hm : 0 < m) :
    (range (2 * m)).filter (fun j => j % m = t % m) = {t % m, t % m + m} := by
  have ht := Nat.mod_lt t hm
  ext j
  simp only [mem_filter, mem_range, mem_insert, mem_singleton]
  constructor
  · rintro ⟨h1, h2⟩
    by_cases hj : j < m
    · left
      rwa [Nat.mod_eq_of_lt hj] at h2
    · right
      rw [Nat.mod_eq_sub_mod (by omega), Nat.mod_eq_of_lt (by omega)] at h2
      omega
  · rintro (rfl | rfl)
    · exact ⟨by omega, Nat.mod_mod _ _⟩
    · exact ⟨by omega, by rw [Nat.add_mod_right, Nat.mod_mod]⟩

/-- C43: Periodic Hann windows with an even length, that overlap by one half, add up to one. -/
theorem C43_hann_overlap (mem : Nat → Nat → ℝ) (m : Nat) (hm : 0 < m) (rate : R) :
    ∃ s : Signal ℝ R, new mem hanning "Hann window" (.int 0) rate (2 * m) false = some (.ok (s, 0)) ∧
      s.channels.cols = 2 * m ∧ ∀ t, overlapSum (s.channels.get 0) (2 * m) m t = 1 := by
  obtain ⟨s, h1, _, _, _, _, h2, h3⟩ := C42_samples mem hanning "Hann window" (.int 0) rate 0 (2 * m) false rfl
    (by omega)
  refine ⟨s, h1, h2, ?_⟩
  intro t
  have ht := Nat.mod_lt t hm
  unfold overlapSum
  rw [filter_half m t hm, Finset.sum_pair (by omega), h3 _ (by omega), h3 _ (by omega)]
  unfold expected
  dsimp only
  rw [if_pos rfl, if_pos rfl]
  simp only [Bool.false_eq_true, if_false]
  rw [hanning_periodic _ _ (by omega), hanning_periodic _ _ (by omega)]
  have hm' : (m : ℝ) ≠ 0 := by exact_mod_cast (by omega : m ≠ 0)
  have : 2 * Real.pi * ((t % m + m : Nat) : ℝ) / ((2 * m : Nat) : ℝ) =
      2 * Real.pi * ((t % m : Nat) : ℝ) / ((2 * m : Nat) : ℝ) + Real.pi := by
    push_cast
    field_simp
  rw [this, Real.cos_add_pi]
  ring

/-- C43: The scaling factor of a periodic Hann window with an even length and an overlap of one half is one. -/
theorem C43_hann_scaling (mem : Nat → Nat → ℝ) (m : Nat) (hm : 0 < m) (rate : R) :
    ∃ s : Signal ℝ R, new mem hanning "Hann window" (.int 0) rate (2 * m) false = some (.ok (s, 0)) ∧
      scalingFactor s.channels 0 (.int m) = some 1 ∧ scalingFactor s.channels 0 (.float (1 / 2)) = some 1 := by
  obtain ⟨s, h1, h2, h3⟩ := C43_hann_overlap mem m hm rate
  have hr : pyRound (1 / 2 * ((s.channels.cols : Int) : ℚ)) = (m : Int) := by
    rw [h2]
    have : (1 / 2 * (((2 * m : Nat) : Int) : ℚ)) = ((m : Int) : ℚ) := by
      push_cast
      ring
    rw [this]
    unfold pyRound
    simp
  refine ⟨s, h1, ?_, ?_⟩
  · rw [C43_constant s.channels 0 (.int m) m 1 ?_ (by omega)]
    · norm_num
    · intro t ht
      rw [h2, show 2 * m - m = m by omega]
      exact h3 t
    · unfold index Idx.start
      dsimp only
      rw [if_pos (by omega)]
  · rw [C43_constant s.channels 0 (.float (1 / 2)) m 1 ?_ (by omega)]
    · norm_num
    · intro t ht
      rw [h2, show 2 * m - m = m by omega]
      exact h3 t
    · unfold index Idx.start
      dsimp only
      rw [hr, if_pos (by omega)]

/-! ### Hann windows with other overlaps -/

theorem filter_step (N s t : Nat) (hs : 0 < s) :
    (range (N * s)).filter (fun j => j % s = t % s) = (range N).image fun k => t % s + k * s := by
  have ht := Nat.mod_lt t hs
  ext j
  simp only [mem_filter, mem_range, mem_image]
  constructor
  · rintro ⟨h1, h2⟩
    refine ⟨j / s, ?_, ?_⟩
    · rwa [Nat.div_lt_iff_lt_mul hs]
    · rw [← h2, Nat.mul_comm]
      exact Nat.mod_add_div j s
  · rintro ⟨k, hk, rfl⟩
    refine ⟨?_, by rw [Nat.add_mul_mod_self_right, Nat.mod_mod]⟩
    have : (k + 1) * s ≤ N * s := Nat.mul_le_mul_right s hk
    rw [Nat.add_mul] at this
    omega

theorem sum_cos (N s r : Nat) (hN : 2 ≤ N) (hs : 0 < s) :
    ∑ k ∈ range N, Real.cos (2 * Real.pi * ((r + k * s : Nat) : ℝ) / ((N * s : Nat) : ℝ)) = 0 := by
  have hN' : (N : ℂ) ≠ 0 := by exact_mod_cast (by omega : N ≠ 0)
  have hs' : (s : ℂ) ≠ 0 := by exact_mod_cast (by omega : s ≠ 0)
  have h1 : ∀ k : Nat, ((Real.cos (2 * Real.pi * ((r + k * s : Nat) : ℝ) / ((N * s : Nat) : ℝ)) : ℝ)) =
      (Complex.exp (2 * Real.pi * Complex.I * r / (N * s)) * Dft.omega N ^ ((k : ℤ) * 1)).re := by
    intro k
    have : Complex.exp (2 * Real.pi * Complex.I * r / (N * s)) * Dft.omega N ^ ((k : ℤ) * 1) =
        Complex.exp (((2 * Real.pi * ((r + k * s : Nat) : ℝ) / ((N * s : Nat) : ℝ) : ℝ) : ℂ) * Complex.I) := by
      unfold Dft.omega
      rw [mul_one, zpow_natCast, ← Complex.exp_nat_mul, ← Complex.exp_add]
      congr 1
      push_cast
      field_simp
      try ring
    rw [this, Complex.exp_ofReal_mul_I_re]
  rw [Finset.sum_congr rfl fun k _ => h1 k, ← Complex.re_sum, ← Finset.mul_sum]
  have := Dft.sum_omega (N := N) (by omega) 1
  rw [this, if_neg]
  · simp
  · intro h
    have := Int.le_of_dvd (by omega) h
    omega

/-- C43: Periodic Hann windows, of which `N ≥ 2` overlap at every time, add up to `N / 2`. -/
theorem C43_hann_multiple (mem : Nat → Nat → ℝ) (N m : Nat) (hN : 2 ≤ N) (hm : 0 < m) (rate : R) :
    ∃ s : Signal ℝ R, new mem hanning "Hann window" (.int 0) rate (N * m) false = some (.ok (s, 0)) ∧
      s.channels.cols = N * m ∧ (∀ t, overlapSum (s.channels.get 0) (N * m) m t = N / 2) ∧
      scalingFactor s.channels 0 (.int (N * m - m : Nat)) = some (2 / (N : ℝ)) := by
  obtain ⟨s, h1, _, _, _, _, h2, h3⟩ := C42_samples mem hanning "Hann window" (.int 0) rate 0 (N * m) false rfl
    (by omega)
  have hpos : 0 < N * m := Nat.mul_pos (by omega) hm
  have key : ∀ t, overlapSum (s.channels.get 0) (N * m) m t = N / 2 := by
    intro t
    have ht := Nat.mod_lt t hm
    unfold overlapSum
    rw [filter_step N m t hm, Finset.sum_image]
    · have : ∀ k ∈ range N, s.channels.get 0 (t % m + k * m) =
          1 / 2 - 1 / 2 * Real.cos (2 * Real.pi * ((t % m + k * m : Nat) : ℝ) / ((N * m : Nat) : ℝ)) := by
        intro k hk
        have : (k + 1) * m ≤ N * m := Nat.mul_le_mul_right m (mem_range.mp hk)
        rw [Nat.add_mul] at this
        rw [h3 _ (by omega)]
        unfold expected
        dsimp only
        rw [if_pos rfl]
        simp only [Bool.false_eq_true, if_false]
        exact hanning_periodic _ _ hpos
      rw [Finset.sum_congr rfl this, Finset.sum_sub_distrib, ← Finset.mul_sum, sum_cos N m (t % m) hN hm]
      simp
      ring
    · intro a _ b _ h
      dsimp only at h
      exact Nat.eq_of_mul_eq_mul_right hm (by omega)
  refine ⟨s, h1, h2, key, ?_⟩
  have hle : m ≤ N * m := Nat.le_mul_of_pos_left m (by omega)
  rw [C43_constant s.channels 0 (.int (N * m - m : Nat)) (N * m - m) (N / 2) ?_ (by omega)]
  · rw [one_div_div]
  · intro t ht
    rw [h2, show N * m - (N * m - m) = m by omega]
    exact key t
  · unfold index Idx.start
    dsimp only
    rw [if_pos (by omega)]

example : index 8 (.float (1/2)) = some ((4 : Nat) : Int) := by decide +kernel
example : (List.range 4).map (overlapSum (fun i => [0, 1, 2, 1].getD i 0) 4 2) = [2, 2, 2, 2] := by decide
example : scalingFactor (⟨1, 4, fun _ i => [0, mkRat 1 2, 1, mkRat 1 2].getD i 0⟩ : Mat ℚ) 0 (.int 2) = some 1 := by
  rw [C43_constant _ 0 (.int 2) 2 1 (by decide) (by decide)]
  · norm_num
  · decide +kernel

end Windows
end Verif
