import Verif.StftLawsProps

/-
C154: The inverse short time Fourier transform of a spectrogram, which does not have to be the transform of a signal (e.g.
because it has been modified), is the signal, whose transform is closest to the spectrogram.
-/

namespace Verif
namespace Stft

open Indexing Finset Dft

/-! ### Specification -/

/-- the weight of a bin: the bins between 0 Hz and half of the sampling rate represent two frequencies, a positive and a
negative one -/
noncomputable def binWeight (W k : Nat) : ℝ := if k = 0 ∨ 2 * k = W then 1 else 2

/-- the squared distance between the values of one channel of two spectrograms with `F` segments for a window length of `W`
samples -/
noncomputable def distance (W F : Nat) (X Y : Nat → Nat → ℂ) : ℝ :=
  ∑ m ∈ range F, ∑ k ∈ range (W / 2 + 1), binWeight W k * ‖X k m - Y k m‖ ^ 2

/-! ### One segment -/

/-- the sum over the bins up to half of the sampling rate as a sum over all bins -/
theorem sum_binWeight {W : Nat} (hW : 0 < W) (h : Nat → ℝ) (hs : ∀ k, 0 < k → 2 * k < W → h (W - k) = h k) :
    ∑ k ∈ range (W / 2 + 1), binWeight W k * h k = ∑ k ∈ range W, h k := by
  have e1 : ∀ k ∈ range (W / 2 + 1), binWeight W k * h k = h k + if 0 < k ∧ 2 * k < W then h k else 0 := by
    intro k hk
    rw [mem_range] at hk
    unfold binWeight
    by_cases h1 : k = 0 ∨ 2 * k = W
    · rw [if_pos h1, if_neg (by omega)]
      ring
    · rw [if_neg h1, if_pos (by omega)]
      ring
  rw [Finset.sum_congr rfl e1, Finset.sum_add_distrib, ← Finset.sum_filter]
  have e2 : range W = range (W / 2 + 1) ∪ (range W).filter fun k => W < 2 * k := by
    ext k
    simp only [mem_union, mem_range, mem_filter]
    omega
  rw [e2, Finset.sum_union (by
    rw [Finset.disjoint_left]
    intro k h1 h2
    rw [mem_filter, mem_range] at h2
    rw [mem_range] at h1
    omega)]
  congr 1
  refine Finset.sum_nbij' (fun k => W - k) (fun k => W - k) ?_ ?_ ?_ ?_ ?_
  · intro k hk
    simp only [mem_filter, mem_range] at hk ⊢
    omega
  · intro k hk
    simp only [mem_filter, mem_range] at hk ⊢
    omega
  · intro k hk
    simp only [mem_filter, mem_range] at hk
    omega
  · intro k hk
    simp only [mem_filter, mem_range] at hk
    omega
  · intro k hk
    simp only [mem_filter, mem_range] at hk
    exact (hs k hk.2.1 hk.2.2).symm

theorem dft_mirror {W : Nat} (hW : 0 < W) (a : Nat → ℝ) (k : Nat) (hk : k ≤ W) :
    dft W a ((W - k : Nat) : ℤ) = (starRingEnd ℂ) (dft W a k) := by
  rw [show ((W - k : Nat) : ℤ) = -(k : ℤ) + (W : Nat) by omega, dft_period (by omega), conj_dft]

/-- the inverse transform is the adjoint of the transform -/
theorem adjoint {W : Nat} (hW : 0 < W) (Y : Nat → ℂ) (a : Nat → ℝ) :
    ∑ k ∈ range (W / 2 + 1), binWeight W k * ((starRingEnd ℂ) (Y k) * dft W a k).re =
      W * ∑ j ∈ range W, a j * irfftAt W Y j := by
  have hW0 : (W : ℂ) ≠ 0 := by exact_mod_cast hW.ne'
  have h1 : ∀ k ∈ range (W / 2 + 1), binWeight W k * ((starRingEnd ℂ) (Y k) * dft W a k).re =
      binWeight W k * ((starRingEnd ℂ) (symmetric W Y k) * dft W a k).re := by
    intro k hk
    rw [mem_range] at hk
    congr 1
    unfold symmetric
    by_cases h : k = 0 ∨ 2 * k = W
    · rw [if_pos h]
      have hr : (dft W a k).im = 0 := by
        have : (starRingEnd ℂ) (dft W a k) = dft W a k := by
          rcases h with rfl | h
          · rw [conj_dft]
            simp
          · rw [← dft_mirror hW a k (by omega)]
            congr 2
            omega
        exact Complex.conj_eq_iff_im.mp this
      simp [Complex.mul_re, hr]
    · rw [if_neg h, if_pos (by omega)]
  rw [Finset.sum_congr rfl h1, sum_binWeight hW]
  · have h2 : ∀ j ∈ range W, a j * irfftAt W Y j =
        (1 / (W : ℝ)) * (∑ k ∈ range W, (starRingEnd ℂ) (symmetric W Y k) * ((a j : ℂ) * omega W ^ (-((k : ℤ) * j)))).re := by
      intro j _
      have h3 : (∑ k ∈ range W, (starRingEnd ℂ) (symmetric W Y k) * ((a j : ℂ) * omega W ^ (-((k : ℤ) * j)))) =
          (a j : ℂ) * (starRingEnd ℂ) (∑ k ∈ range W, symmetric W Y k * omega W ^ ((k : ℤ) * j)) := by
        rw [map_sum, Finset.mul_sum]
        refine Finset.sum_congr rfl fun k _ => ?_
        rw [map_mul, conj_omega_zpow]
        ring
      rw [h3, Complex.re_ofReal_mul, Complex.conj_re]
      unfold irfftAt
      rw [show (1 / (W : ℂ)) = ((1 / (W : ℝ) : ℝ) : ℂ) by push_cast; rfl, Complex.re_ofReal_mul]
      ring
    rw [Finset.sum_congr rfl h2, ← Finset.mul_sum, ← mul_assoc, mul_one_div, div_self (by exact_mod_cast hW.ne'), one_mul,
      ← Complex.re_sum, ← Complex.re_sum, Finset.sum_comm]
    congr 1
    refine Finset.sum_congr rfl fun k _ => ?_
    unfold dft
    rw [Finset.mul_sum]
  · intro k h0 h2
    rw [dft_mirror hW a k (by omega)]
    have : symmetric W Y (W - k) = (starRingEnd ℂ) (symmetric W Y k) := by
      unfold symmetric
      rw [if_neg (by omega), if_neg (by omega), if_neg (by omega), if_pos h2, show W - (W - k) = k by omega]
    rw [this, ← map_mul, Complex.conj_re]

/-- the squared distance between the bins of a segment and the transform of a real sequence -/
theorem segment_distance {W : Nat} (hW : 0 < W) (Y : Nat → ℂ) (a : Nat → ℝ) :
    ∑ k ∈ range (W / 2 + 1), binWeight W k * ‖Y k - dft W a k‖ ^ 2 =
      ∑ k ∈ range (W / 2 + 1), binWeight W k * ‖Y k‖ ^ 2 +
        W * (∑ j ∈ range W, (a j ^ 2 - 2 * (a j * irfftAt W Y j))) := by
  have e : ∀ k ∈ range (W / 2 + 1), binWeight W k * ‖Y k - dft W a k‖ ^ 2 = binWeight W k * ‖Y k‖ ^ 2 +
      (binWeight W k * ‖dft W a k‖ ^ 2 - 2 * (binWeight W k * ((starRingEnd ℂ) (Y k) * dft W a k).re)) := by
    intro k _
    rw [← Complex.normSq_eq_norm_sq, ← Complex.normSq_eq_norm_sq, ← Complex.normSq_eq_norm_sq, Complex.normSq_sub]
    have : (Y k * (starRingEnd ℂ) (dft W a k)).re = ((starRingEnd ℂ) (Y k) * dft W a k).re := by
      simp [Complex.mul_re]
    rw [this]
    ring
  rw [Finset.sum_congr rfl e, Finset.sum_add_distrib, Finset.sum_sub_distrib, ← Finset.mul_sum, adjoint hW,
    sum_binWeight hW (fun k => ‖dft W a k‖ ^ 2), Level.parseval hW.ne', Finset.sum_sub_distrib, ← Finset.mul_sum]
  · ring
  · intro k _ h2
    show ‖dft W a ((W - k : Nat) : ℤ)‖ ^ 2 = _
    rw [dft_mirror hW a k (by omega), Complex.norm_conj]

/-! ### All segments -/

/-- the samples of the segments, counted along the time -/
theorem sum_along (x : Mat ℝ) (f : Nat → Nat → ℝ) (c W st F B : Nat) :
    ∑ m ∈ range F, ∑ j ∈ range W, extended x c (((m * st : Nat) : Int) - (B : Nat) + j) * f m j =
      ∑ n ∈ range x.cols, x.get c n * overlapAdd f W st F (n + B) := by
  have e : ∀ n, x.get c n * overlapAdd f W st F (n + B) =
      ∑ m ∈ range F, if m * st ≤ n + B ∧ n + B < m * st + W then x.get c n * f m (n + B - m * st) else 0 := by
    intro n
    unfold overlapAdd
    rw [Finset.mul_sum]
    refine Finset.sum_congr rfl fun m _ => ?_
    split
    · rfl
    · rw [mul_zero]
  simp only [e]
  rw [Finset.sum_comm (s := range x.cols)]
  refine Finset.sum_congr rfl fun m _ => ?_
  have e2 : ∀ j ∈ range W, extended x c (((m * st : Nat) : Int) - (B : Nat) + j) * f m j =
      if B ≤ m * st + j ∧ m * st + j < x.cols + B then x.get c (m * st + j - B) * f m j else 0 := by
    intro j _
    unfold extended
    by_cases h : B ≤ m * st + j ∧ m * st + j < x.cols + B
    · rw [if_pos (by omega), if_pos h]
      congr 2
      omega
    · rw [if_neg (by omega), if_neg h, zero_mul]
  rw [Finset.sum_congr rfl e2, ← Finset.sum_filter, ← Finset.sum_filter]
  refine Finset.sum_nbij' (fun j => m * st + j - B) (fun n => n + B - m * st) ?_ ?_ ?_ ?_ ?_
  · intro j hj
    rw [Finset.mem_filter, Finset.mem_range] at hj ⊢
    omega
  · intro n hn
    rw [Finset.mem_filter, Finset.mem_range] at hn ⊢
    omega
  · intro j hj
    rw [Finset.mem_filter, Finset.mem_range] at hj
    omega
  · intro n hn
    rw [Finset.mem_filter, Finset.mem_range] at hn
    omega
  · intro j hj
    rw [Finset.mem_filter, Finset.mem_range] at hj
    rw [show m * st + j - B + B - m * st = j by omega]

/-- the overlapping sum of the inverse transforms of the segments, that are weighted with the window -/
noncomputable def numerator (X : Nat → Nat → ℂ) (w : Nat → ℝ) (W st F n : Nat) : ℝ :=
  overlapAdd (fun m j => irfftAt W (fun k => X k m) j * windowSum w W * w j) W st F n

/-- the overlapping sum of the squared windows -/
noncomputable def denominator (w : Nat → ℝ) (W st F n : Nat) : ℝ := overlapAdd (fun _ j => w j * w j) W st F n

/-- the distance between a spectrogram and the transform of a signal is a quadratic function of each sample -/
theorem distance_eq (X : Nat → Nat → ℂ) (x : Mat ℝ) (w : Nat → ℝ) (c W st F B : Nat) (hW : 0 < W)
    (hS : 0 < windowSum w W) :
    distance W F X (fun k m => ((1 / |windowSum w W| : ℝ) : ℂ) *
        dft W (fun j => extended x c (((m * st : Nat) : Int) - (B : Nat) + j) * w j) k) =
      distance W F X (fun _ _ => 0) + W / windowSum w W ^ 2 * ∑ n ∈ range x.cols,
        (x.get c n ^ 2 * denominator w W st F (n + B) - 2 * (x.get c n * numerator X w W st F (n + B))) := by
  obtain ⟨S, hSd⟩ : ∃ S, S = windowSum w W := ⟨_, rfl⟩
  have hS0 : S ≠ 0 := by rw [hSd]; exact hS.ne'
  have e : ∀ m ∈ range F, (∑ k ∈ range (W / 2 + 1), binWeight W k * ‖X k m - ((1 / |windowSum w W| : ℝ) : ℂ) *
        dft W (fun j => extended x c (((m * st : Nat) : Int) - (B : Nat) + j) * w j) k‖ ^ 2) =
      (∑ k ∈ range (W / 2 + 1), binWeight W k * ‖X k m - 0‖ ^ 2) + W / S ^ 2 *
        (∑ j ∈ range W, (extended x c (((m * st : Nat) : Int) - (B : Nat) + j) * w j) ^ 2 -
          2 * ∑ j ∈ range W, extended x c (((m * st : Nat) : Int) - (B : Nat) + j) *
            (irfftAt W (fun k => X k m) j * S * w j)) := by
    intro m _
    have h := segment_distance hW (fun k => X k m)
      (fun j => 1 / S * (extended x c (((m * st : Nat) : Int) - (B : Nat) + j) * w j))
    have hd : ∀ k : Nat, ((1 / |windowSum w W| : ℝ) : ℂ) *
        dft W (fun j => extended x c (((m * st : Nat) : Int) - (B : Nat) + j) * w j) k =
        dft W (fun j => 1 / S * (extended x c (((m * st : Nat) : Int) - (B : Nat) + j) * w j)) k := by
      intro k
      rw [abs_of_pos hS, ← hSd]
      unfold dft
      rw [Finset.mul_sum]
      refine Finset.sum_congr rfl fun l _ => ?_
      push_cast
      ring
    simp only [hd, sub_zero]
    rw [h]
    congr 1
    rw [Finset.mul_sum, mul_sub, Finset.mul_sum, ← mul_assoc, Finset.mul_sum, ← Finset.sum_sub_distrib]
    refine Finset.sum_congr rfl fun j _ => ?_
    field_simp
  unfold distance
  rw [Finset.sum_congr rfl e, Finset.sum_add_distrib, ← Finset.mul_sum, Finset.sum_sub_distrib, ← Finset.mul_sum,
    sum_segments, sum_along x (fun m j => irfftAt W (fun k => X k m) j * S * w j), ← hSd]
  congr 2
  rw [Finset.mul_sum, ← Finset.sum_sub_distrib]
  unfold denominator numerator
  rw [← hSd]

/-- the best samples -/
theorem quadratic (L : Nat) (x d p q : Nat → ℝ)
    (hd : ∀ n, n < L → (0 < p n ∧ d n = q n / p n) ∨ (p n = 0 ∧ q n = 0)) :
    ∑ n ∈ range L, (x n ^ 2 * p n - 2 * (x n * q n)) =
      ∑ n ∈ range L, (d n ^ 2 * p n - 2 * (d n * q n)) + ∑ n ∈ range L, p n * (x n - d n) ^ 2 := by
  rw [← Finset.sum_add_distrib]
  refine Finset.sum_congr rfl fun n hn => ?_
  rw [mem_range] at hn
  have h2 : q n = d n * p n := by
    rcases hd n hn with ⟨h1, h2⟩ | ⟨h1, h2⟩
    · rw [h2]
      field_simp
    · rw [h1, h2, mul_zero]
  rw [h2]
  ring

/-- samples, that are not covered by the windows -/
theorem numerator_zero (X : Nat → Nat → ℂ) (w : Nat → ℝ) (W st F n : Nat) (h : denominator w W st F n = 0) :
    numerator X w W st F n = 0 := by
  unfold denominator overlapAdd at h
  rw [Finset.sum_eq_zero_iff_of_nonneg (by
    intro m _
    split
    · exact mul_self_nonneg _
    · exact le_refl _)] at h
  unfold numerator overlapAdd
  refine Finset.sum_eq_zero fun m hm => ?_
  have hm' := h m hm
  by_cases hc : m * st ≤ n ∧ n < m * st + W
  · rw [if_pos hc] at hm' ⊢
    dsimp only at hm' ⊢
    rw [mul_self_eq_zero.mp hm', mul_zero]
  · rw [if_neg hc]

/-! ### The results of the methods -/

/-- the samples, that `scipy.signal.istft` computes for any array of bins -/
theorem scipyIstft_samples (X : Cube ℂ) (w : Nat → ℝ) (W o : Nat) (pad : Bool) (hW : 2 ≤ W) (ho : o < W)
    (hd1 : X.d1 = W / 2 + 1) :
    ∃ y, scipyIstft X w W o pad = .ok y ∧ y.rows = X.d0 ∧ y.cols = W + (X.d2 - 1) * (W - o) - 2 * border W pad ∧
      ∀ c n, n < y.cols → y.get c n = numerator (fun k m => X.get c k m) w W (W - o) X.d2 (n + border W pad) /
        if 1 / 10 ^ 10 < denominator w W (W - o) X.d2 (n + border W pad)
          then denominator w W (W - o) X.d2 (n + border W pad) else 1 := by
  have hst : ((W : Int) - o).toNat = W - o := by omega
  have hN : (if W = 2 * (X.d1 - 1) + 1 then W else 2 * (X.d1 - 1)) = W := by
    rw [hd1]
    split <;> omega
  have hlo : clampBound (W + (X.d2 - 1) * (W - o)) ((W / 2 : Nat) : Int) = W / 2 := by
    rw [clampBound_nat]
    have := Nat.zero_le ((X.d2 - 1) * (W - o))
    omega
  have hhi : clampBound (W + (X.d2 - 1) * (W - o)) (-((W / 2 : Nat) : Int)) = W + (X.d2 - 1) * (W - o) - W / 2 := by
    rw [clampBound_neg (by omega)]
    omega
  unfold scipyIstft
  rw [hN]
  dsimp only
  rw [if_neg (by omega), hst]
  cases pad with
  | false =>
    refine ⟨_, rfl, rfl, rfl, ?_⟩
    intro c n _
    rfl
  | true =>
    have hcrop : ∀ (A : Mat ℝ) (r i : Nat), (crop W true A).get r i = A.get r (clampBound A.cols ((W / 2 : Nat) : Int) + i) := by
      intro A r i
      show (A.slice .all _).get r i = _
      rw [Mat.slice_all_get, PySlice.lo_range]
    refine ⟨_, rfl, rfl, ?_, ?_⟩
    · show (PySlice.range _ _).count _ = _
      rw [PySlice.count_range, hlo, hhi]
      show _ = _ - 2 * (W / 2)
      omega
    · intro c n _
      dsimp only
      rw [hcrop, hcrop]
      dsimp only
      rw [hlo, show W / 2 + n = n + border W true by show _ = n + W / 2; omega]
      rfl

/-- the samples of all channels -/
theorem inverted_samples (s : Spectrogram ℂ ℝ) (w : Mat ℝ) (o : Nat) (pad : Bool) (hs : 1 ≤ s.channels.d0)
    (hw : w.rows = 1 ∨ w.rows = s.channels.d0) (hW : 2 ≤ w.cols) (ho : o < w.cols) (hd1 : s.channels.d1 = w.cols / 2 + 1) :
    ∃ y, inverted s w o pad = .ok y ∧ y.rows = s.channels.d0 ∧
      y.cols = w.cols + (s.channels.d2 - 1) * (w.cols - o) - 2 * border w.cols pad ∧
      ∀ c n, c < s.channels.d0 → n < y.cols → y.get c n =
        numerator (fun k m => s.channels.get c k m) (w.get (Blockwise.pick w.rows c)) w.cols (w.cols - o) s.channels.d2
          (n + border w.cols pad) /
        if 1 / 10 ^ 10 < denominator (w.get (Blockwise.pick w.rows c)) w.cols (w.cols - o) s.channels.d2
            (n + border w.cols pad)
          then denominator (w.get (Blockwise.pick w.rows c)) w.cols (w.cols - o) s.channels.d2 (n + border w.cols pad)
          else 1 := by
  unfold inverted
  by_cases h1 : w.rows = 1
  · rw [if_pos h1]
    obtain ⟨y, y1, y2, y3, y4⟩ := scipyIstft_samples s.channels (w.get 0) w.cols o pad hW ho hd1
    refine ⟨y, y1, y2, y3, fun c n _ hn => ?_⟩
    unfold Blockwise.pick
    rw [if_pos h1]
    exact y4 c n hn
  · rw [if_neg h1]
    have hrow : ∀ c, c < s.channels.d0 → ∃ y, scipyIstft (s.channels.row c) (w.get c) w.cols o pad = .ok y ∧
        y.cols = w.cols + (s.channels.d2 - 1) * (w.cols - o) - 2 * border w.cols pad ∧
        ∀ n, n < y.cols → y.get 0 n =
          numerator (fun k m => s.channels.get c k m) (w.get c) w.cols (w.cols - o) s.channels.d2 (n + border w.cols pad) /
          if 1 / 10 ^ 10 < denominator (w.get c) w.cols (w.cols - o) s.channels.d2 (n + border w.cols pad)
            then denominator (w.get c) w.cols (w.cols - o) s.channels.d2 (n + border w.cols pad) else 1 := by
      intro c _
      obtain ⟨y, y1, y2, y3, y4⟩ := scipyIstft_samples (s.channels.row c) (w.get c) w.cols o pad hW ho hd1
      exact ⟨y, y1, y3, fun n hn => y4 0 n hn⟩
    have : Nonempty (Mat ℝ) := ⟨⟨0, 0, fun _ _ => 0⟩⟩
    choose! g g1 g3 g4 using hrow
    have hmin : min s.count w.rows = s.channels.d0 := by
      show min s.channels.d0 _ = _
      omega
    obtain ⟨r, hr⟩ : ∃ r, s.channels.d0 = r + 1 := ⟨s.channels.d0 - 1, by omega⟩
    rw [hmin, mapM_ok _ g _ (fun c hc => g1 c (List.mem_range.mp hc))]
    have hcols : (((List.range s.channels.d0).map g).headD ⟨0, 0, fun _ _ => 0⟩).cols = (g 0).cols := by
      rw [hr, List.range_succ_eq_map]
      rfl
    refine ⟨_, rfl, ?_, ?_, ?_⟩
    · show (List.map _ _).length = _
      rw [List.length_map, List.length_range]
    · exact hcols.trans (g3 0 (by omega))
    · intro c n hc hn
      rw [stackMats_get (A := g c) (by rw [List.getElem?_map, List.getElem?_range hc]; rfl)]
      unfold Blockwise.pick
      rw [if_neg h1]
      apply g4 c hc
      have h2 : n < (((List.range s.channels.d0).map g).headD ⟨0, 0, fun _ _ => 0⟩).cols := hn
      rw [hcols, g3 0 (by omega)] at h2
      rw [g3 c hc]
      exact h2

/-- the conditions for the inversion of a spectrogram: the parameters fit to the spectrogram, the window has a positive sum
and the sum of the squared overlapping windows exceeds the threshold of `scipy.signal.istft` for all samples, that are covered
by the windows; the result is not shorter than the window -/
structure Invertible (s : Spectrogram ℂ ℝ) (window : Signal ℝ ℝ) (overlap : Idx) (o : Nat) (pad : Bool) : Prop where
  labels : s.labels.length = s.channels.d0
  count : 1 ≤ s.channels.d0
  bins : s.channels.d1 = window.channels.cols / 2 + 1
  segments : 1 ≤ s.channels.d2
  channels : window.channels.rows = 1 ∨ window.channels.rows = s.channels.d0
  length : 2 ≤ window.channels.cols
  index : Indexing.index window.channels.cols overlap = some (o : Int)
  overlap : o < window.channels.cols
  kept : 2 * border window.channels.cols pad ≤ (s.channels.d2 - 1) * (window.channels.cols - o)
  sum : ∀ c, c < window.channels.rows → 0 < windowSum (window.channels.get c) window.channels.cols
  covered : ∀ c n, c < window.channels.rows →
    n + 2 * border window.channels.cols pad < window.channels.cols + (s.channels.d2 - 1) * (window.channels.cols - o) →
    1 / 10 ^ 10 < denominator (window.channels.get c) window.channels.cols (window.channels.cols - o) s.channels.d2
      (n + border window.channels.cols pad) ∨
    denominator (window.channels.get c) window.channels.cols (window.channels.cols - o) s.channels.d2
      (n + border window.channels.cols pad) = 0

/-- the number of segments of the result is that of the spectrogram -/
theorem frames_result (W st F : Nat) (pad : Bool) (hst : 0 < st) (hW : 2 ≤ W) (hF : 1 ≤ F)
    (hk : 2 * border W pad ≤ (F - 1) * st) : frames (W + (F - 1) * st - 2 * border W pad) W st pad = F := by
  have ha : added (W + (F - 1) * st - 2 * border W pad) W st pad = 0 := by
    cases pad with
    | false => rfl
    | true =>
      unfold added
      rw [if_pos rfl]
      have hb : border W true = W / 2 := rfl
      rw [hb] at hk ⊢
      have : -(((W + (F - 1) * st - 2 * (W / 2) : Nat) : Int) + 2 * (W / 2 : Nat) - W) = (st : Int) * (-((F - 1 : Nat) : Int)) := by
        have h2 : (((F - 1) * st : Nat) : Int) = st * ((F - 1 : Nat) : Int) := by push_cast; ring
        rw [mul_neg, ← h2]
        omega
      rw [this, Int.mul_emod_right]
      simp
  unfold frames
  rw [ha, show W + (F - 1) * st - 2 * border W pad + 2 * border W pad + 0 - W = (F - 1) * st by omega,
    Nat.mul_div_cancel _ hst]
  omega

theorem pick_lt {r n c : Nat} (h : r = 1 ∨ r = n) (hc : c < n) : Blockwise.pick r c < r := by
  unfold Blockwise.pick
  split <;> omega

/-- C154: The squared distance between a spectrogram and the transform of a signal is the distance between the spectrogram and
the transform of its inverse transform, plus the weighted squared differences between the samples of the signal and those of
the inverse transform. -/
theorem C154_pythagoras (s : Spectrogram ℂ ℝ) (window : Signal ℝ ℝ) (overlap : Idx) (o : Nat) (pad : Bool)
    (h : Invertible s window overlap o pad) :
    ∃ d a, istftWith s window overlap pad = some (.ok d) ∧ d.count = s.count ∧
      d.length = window.length + (s.length - 1) * (window.length - o) - 2 * border window.length pad ∧
      d.rate = s.rate * (window.length - o : Int) ∧ d.offset = s.offset * (window.length - o : Int) ∧ d.labels = s.labels ∧
      stftWith d window overlap pad = some (.ok a) ∧ a.channels.d0 = s.channels.d0 ∧ a.channels.d1 = s.channels.d1 ∧
      a.channels.d2 = s.channels.d2 ∧ a.offset = s.offset ∧ a.labels = s.labels ∧
      (∀ c n, c < s.count → n < d.length → overlapAdd (fun _ j => window.channels.get (Blockwise.pick window.count c) j *
        window.channels.get (Blockwise.pick window.count c) j) window.length (window.length - o) s.length
        (n + border window.length pad) = 0 → d.channels.get c n = 0) ∧
      ∀ x : Signal ℝ ℝ, x.labels.length = x.count → x.count = d.count → x.length = d.length → x.offset = d.offset →
        ∃ b, stftWith x window overlap pad = some (.ok b) ∧ b.channels.d0 = s.channels.d0 ∧
          b.channels.d1 = s.channels.d1 ∧ b.channels.d2 = s.channels.d2 ∧
          ∀ c, c < s.count → distance window.length s.length (fun k m => s.channels.get c k m) (fun k m => b.channels.get c k m) =
            distance window.length s.length (fun k m => s.channels.get c k m) (fun k m => a.channels.get c k m) +
            window.length / windowSum (window.channels.get (Blockwise.pick window.count c)) window.length ^ 2 *
              ∑ n ∈ range d.length, overlapAdd (fun _ j => window.channels.get (Blockwise.pick window.count c) j *
                window.channels.get (Blockwise.pick window.count c) j) window.length (window.length - o) s.length
                (n + border window.length pad) * (x.channels.get c n - d.channels.get c n) ^ 2 := by
  obtain ⟨y, y1, y2, y3, y4⟩ := inverted_samples s window.channels o pad h.count h.channels h.length h.overlap h.bins
  have hW := h.length
  have ho := h.overlap
  have hk := h.kept
  have hfr : frames y.cols window.channels.cols (window.channels.cols - o) pad = s.channels.d2 := by
    rw [y3]
    exact frames_result _ _ _ _ (by omega) hW h.segments hk
  have hyW : window.channels.cols ≤ y.cols := by omega
  obtain ⟨d, hd⟩ : ∃ d, d = Signal.new y (s.rate * (window.channels.cols - o : Int))
    (s.offset * (window.channels.cols - o : Int)) (some s.labels) := ⟨_, rfl⟩
  have dl : d.labels = s.labels := by
    rw [hd]
    show sanitizeLabels (some s.labels) y.rows = _
    exact Signal.sanitize_self (by rw [y2]; exact h.labels)
  have dch : d.channels = y := by rw [hd]; rfl
  have dof : d.offset = s.offset * (window.channels.cols - o : Int) := by rw [hd]; rfl
  have gen : ∀ x : Signal ℝ ℝ, x.labels.length = x.channels.rows → x.channels.rows = y.rows → x.channels.cols = y.cols →
      x.offset = s.offset * (window.channels.cols - o : Int) →
      ∃ b, stftWith x window overlap pad = some (.ok b) ∧ b.channels.d0 = s.channels.d0 ∧
        b.channels.d1 = s.channels.d1 ∧ b.channels.d2 = s.channels.d2 ∧ b.offset = s.offset ∧ b.labels = x.labels ∧
        ∀ c, c < s.channels.d0 → distance window.channels.cols s.channels.d2 (fun k m => s.channels.get c k m)
            (fun k m => b.channels.get c k m) =
          distance window.channels.cols s.channels.d2 (fun k m => s.channels.get c k m) (fun _ _ => 0) +
          window.channels.cols / windowSum (window.channels.get (Blockwise.pick window.channels.rows c))
            window.channels.cols ^ 2 * ∑ n ∈ range y.cols, (x.channels.get c n ^ 2 *
              denominator (window.channels.get (Blockwise.pick window.channels.rows c)) window.channels.cols
                (window.channels.cols - o) s.channels.d2 (n + border window.channels.cols pad) -
              2 * (x.channels.get c n * numerator (fun k m => s.channels.get c k m)
                (window.channels.get (Blockwise.pick window.channels.rows c)) window.channels.cols
                (window.channels.cols - o) s.channels.d2 (n + border window.channels.cols pad))) := by
    intro x xl xr xc xo
    obtain ⟨b, b1, b2, b3, b4, _, _, b7, b8, b9⟩ := C30_stft x window overlap pad o s.offset xl
      (by rw [xr, y2]; exact h.channels) (by omega) (by rw [xc]; exact hyW) h.index ho xo
    refine ⟨b, b1, by rw [b2, xr, y2], by rw [b3, h.bins], by rw [b4, xc, hfr], b7, b8, fun c hc => ?_⟩
    have e : (fun k m => b.channels.get c k m) = fun (k m : Nat) =>
        ((1 / |windowSum (window.channels.get (Blockwise.pick window.channels.rows c)) window.channels.cols| : ℝ) : ℂ) *
          dft window.channels.cols (fun j => extended x.channels c
            (((m * (window.channels.cols - o) : Nat) : Int) - (border window.channels.cols pad : Nat) + j) *
              window.channels.get (Blockwise.pick window.channels.rows c) j) k := by
      funext k m
      rw [b9 c k m (by rw [xr, y2]; exact hc)]
      rfl
    rw [e, distance_eq _ _ _ _ _ _ _ _ (by omega) (h.sum _ (pick_lt h.channels hc)), xc]
  obtain ⟨a, a1, a2, a3, a4, a5, a6, a7⟩ := gen d (by rw [dl, dch, y2]; exact h.labels) (by rw [dch]) (by rw [dch]) dof
  refine ⟨d, a, ?_, ?_, ?_, ?_, dof, dl, a1, a2, a3, a4, a5, a6.trans dl, ?_, ?_⟩
  · unfold istftWith
    show (index window.channels.cols overlap >>= _) = _
    rw [h.index]
    show some (inverted s window.channels o pad >>= _) = _
    rw [y1, hd]
    rfl
  · show d.channels.rows = s.channels.d0
    rw [dch, y2]
  · show d.channels.cols = window.channels.cols + (s.channels.d2 - 1) * (window.channels.cols - o) - _
    rw [dch, y3]
    rfl
  · rw [hd]
    rfl
  · intro c n hc hn h0
    have hn' : n < y.cols := by rw [← dch]; exact hn
    have h0' : denominator (window.channels.get (Blockwise.pick window.channels.rows c)) window.channels.cols
      (window.channels.cols - o) s.channels.d2 (n + border window.channels.cols pad) = 0 := h0
    rw [dch, y4 c n hc hn', numerator_zero _ _ _ _ _ _ h0', zero_div]
  · intro x xl xr xc xo
    obtain ⟨b, b1, b2, b3, b4, _, _, b7⟩ := gen x xl (xr.trans (by show d.channels.rows = _; rw [dch]))
      (xc.trans (by show d.channels.cols = _; rw [dch])) (xo.trans dof)
    refine ⟨b, b1, b2, b3, b4, fun c hc => ?_⟩
    have hc' : c < s.channels.d0 := hc
    show distance window.channels.cols s.channels.d2 _ _ = distance window.channels.cols s.channels.d2 _ _ +
      window.channels.cols / windowSum (window.channels.get (Blockwise.pick window.channels.rows c)) window.channels.cols ^ 2 *
        ∑ n ∈ range d.channels.cols, denominator (window.channels.get (Blockwise.pick window.channels.rows c))
          window.channels.cols (window.channels.cols - o) s.channels.d2 (n + border window.channels.cols pad) *
          (x.channels.get c n - d.channels.get c n) ^ 2
    rw [b7 c hc', a7 c hc', quadratic y.cols (fun n => x.channels.get c n) (fun n => d.channels.get c n)
      (fun n => denominator (window.channels.get (Blockwise.pick window.channels.rows c)) window.channels.cols
        (window.channels.cols - o) s.channels.d2 (n + border window.channels.cols pad))
      (fun n => numerator (fun k m => s.channels.get c k m)
        (window.channels.get (Blockwise.pick window.channels.rows c)) window.channels.cols
        (window.channels.cols - o) s.channels.d2 (n + border window.channels.cols pad)), dch]
    · ring
    · intro n hn
      rcases h.covered _ n (pick_lt h.channels hc') (by omega) with hp | hp
      · left
        refine ⟨lt_trans (by positivity) hp, ?_⟩
        show d.channels.get c n = _
        rw [dch, y4 c n hc' hn, if_pos hp]
      · exact Or.inr ⟨hp, numerator_zero _ _ _ _ _ _ hp⟩

/-- C154: The inverse transform is the least squares solution: no other signal has a transform, that is closer to the
spectrogram, and the transforms of all other signals are farther away, if they differ in the samples, that are covered by
the windows. -/
theorem C154_least_squares (s : Spectrogram ℂ ℝ) (window : Signal ℝ ℝ) (overlap : Idx) (o : Nat) (pad : Bool)
    (h : Invertible s window overlap o pad) :
    ∃ d a, istftWith s window overlap pad = some (.ok d) ∧ stftWith d window overlap pad = some (.ok a) ∧
      ∀ x : Signal ℝ ℝ, x.labels.length = x.count → x.count = d.count → x.length = d.length → x.offset = d.offset →
        ∃ b, stftWith x window overlap pad = some (.ok b) ∧ ∀ c, c < s.count →
          distance window.length s.length (fun k m => s.channels.get c k m) (fun k m => a.channels.get c k m) ≤
            distance window.length s.length (fun k m => s.channels.get c k m) (fun k m => b.channels.get c k m) ∧
          (distance window.length s.length (fun k m => s.channels.get c k m) (fun k m => a.channels.get c k m) =
            distance window.length s.length (fun k m => s.channels.get c k m) (fun k m => b.channels.get c k m) →
            ∀ n, n < d.length → overlapAdd (fun _ j => window.channels.get (Blockwise.pick window.count c) j *
              window.channels.get (Blockwise.pick window.count c) j) window.length (window.length - o) s.length
              (n + border window.length pad) ≠ 0 → x.channels.get c n = d.channels.get c n) := by
  obtain ⟨d, a, d1, d2, d3, -, -, -, a1, -, -, -, -, -, -, hx⟩ := C154_pythagoras s window overlap o pad h
  refine ⟨d, a, d1, a1, fun x xl xr xc xo => ?_⟩
  obtain ⟨b, b1, -, -, -, hb⟩ := hx x xl xr xc xo
  refine ⟨b, b1, fun c hc => ?_⟩
  have hc' : c < s.channels.d0 := hc
  have hS := h.sum _ (pick_lt h.channels hc')
  have hW := h.length
  have hk := h.kept
  have hp : ∀ n ∈ range d.length, 0 ≤ overlapAdd (fun _ j => window.channels.get (Blockwise.pick window.count c) j *
      window.channels.get (Blockwise.pick window.count c) j) window.length (window.length - o) s.length
      (n + border window.length pad) * (x.channels.get c n - d.channels.get c n) ^ 2 := by
    intro n hn
    refine mul_nonneg ?_ (sq_nonneg _)
    unfold overlapAdd
    refine Finset.sum_nonneg fun m _ => ?_
    split
    · exact mul_self_nonneg _
    · exact le_refl _
  have hfac : 0 < (window.length : ℝ) /
      windowSum (window.channels.get (Blockwise.pick window.count c)) window.length ^ 2 := by
    refine div_pos ?_ (pow_pos hS 2)
    have : 0 < window.length := by show 0 < window.channels.cols; omega
    exact_mod_cast this
  rw [hb c hc]
  constructor
  · have := mul_nonneg hfac.le (Finset.sum_nonneg hp)
    linarith
  · intro he n hn hne
    have h0 : ∑ n ∈ range d.length, overlapAdd (fun _ j => window.channels.get (Blockwise.pick window.count c) j *
      window.channels.get (Blockwise.pick window.count c) j) window.length (window.length - o) s.length
      (n + border window.length pad) * (x.channels.get c n - d.channels.get c n) ^ 2 = 0 := by
      have := left_eq_add.mp he
      rcases mul_eq_zero.mp this with h1 | h1
      · exact absurd h1 hfac.ne'
      · exact h1
    have h1 := (Finset.sum_eq_zero_iff_of_nonneg hp).mp h0 n (mem_range.mpr hn)
    rcases mul_eq_zero.mp h1 with h2 | h2
    · exact absurd h2 hne
    · have := (pow_eq_zero_iff two_ne_zero).mp h2
      linarith

theorem distance_self (W F : Nat) (X : Nat → Nat → ℂ) : distance W F X X = 0 := by
  unfold distance
  simp

/-- C154: Transforming the inverse transform of a spectrogram and transforming the result back does not change the signal any
further. -/
theorem C154_projection (s : Spectrogram ℂ ℝ) (window : Signal ℝ ℝ) (overlap : Idx) (o : Nat) (pad : Bool)
    (h : Invertible s window overlap o pad) :
    ∃ d a e, istftWith s window overlap pad = some (.ok d) ∧ stftWith d window overlap pad = some (.ok a) ∧
      istftWith a window overlap pad = some (.ok e) ∧ e.count = d.count ∧ e.length = d.length ∧ e.offset = d.offset ∧
      e.labels = d.labels ∧ ∀ c n, c < d.count → n < d.length → e.channels.get c n = d.channels.get c n := by
  obtain ⟨d, a, d1, d2, d3, d4, d5, d6, a1, a2, a3, a4, a5, a6, dz, -⟩ := C154_pythagoras s window overlap o pad h
  have ha : Invertible a window overlap o pad :=
    ⟨by rw [a6, a2]; exact h.labels, by rw [a2]; exact h.count, by rw [a3]; exact h.bins, by rw [a4]; exact h.segments,
      by rw [a2]; exact h.channels, h.length, h.index, h.overlap, by rw [a4]; exact h.kept, h.sum,
      by rw [a4]; exact h.covered⟩
  obtain ⟨e, b, e1, e2, e3, -, e5, e6, -, -, -, -, -, -, ez, ex⟩ := C154_pythagoras a window overlap o pad ha
  have hl : a.length = s.length := a4
  have hcnt : a.count = s.count := a2
  rw [hl] at e3 ez ex
  refine ⟨d, a, e, d1, a1, e1, by rw [e2, d2, hcnt], by rw [e3, d3], by rw [e5, d5, a5], by rw [e6, d6, a6], ?_⟩
  intro c n hc hn
  have hc' : c < s.count := by rw [← d2]; exact hc
  have hc2 : c < s.channels.d0 := hc'
  by_cases h0 : overlapAdd (fun _ j => window.channels.get (Blockwise.pick window.count c) j *
        window.channels.get (Blockwise.pick window.count c) j) window.length (window.length - o) s.length
        (n + border window.length pad) = 0
  · rw [dz c n hc' hn h0, ez c n (by rw [hcnt]; exact hc') (by rw [e3, ← d3]; exact hn) h0]
  · obtain ⟨b', b1, -, -, -, hb⟩ := ex d (by rw [d6, d2]; exact h.labels) (by rw [e2, d2, hcnt]) (by rw [e3, d3])
      (by rw [e5, d5, a5])
    obtain rfl : a = b' := by
      rw [a1] at b1
      exact Except.ok.inj (Option.some.inj b1)
    have hq := hb c (by rw [hcnt]; exact hc')
    rw [distance_self] at hq
    have hS := h.sum _ (pick_lt h.channels hc2)
    have hW := h.length
    have hfac : 0 < (window.length : ℝ) /
        windowSum (window.channels.get (Blockwise.pick window.count c)) window.length ^ 2 := by
      refine div_pos ?_ (pow_pos hS 2)
      have : 0 < window.length := by show 0 < window.channels.cols; omega
      exact_mod_cast this
    have hp : ∀ n ∈ range e.length, 0 ≤ overlapAdd (fun _ j => window.channels.get (Blockwise.pick window.count c) j *
        window.channels.get (Blockwise.pick window.count c) j) window.length (window.length - o) s.length
        (n + border window.length pad) * (d.channels.get c n - e.channels.get c n) ^ 2 := by
      intro n hn
      refine mul_nonneg ?_ (sq_nonneg _)
      unfold overlapAdd
      refine Finset.sum_nonneg fun m _ => ?_
      split
      · exact mul_self_nonneg _
      · exact le_refl _
    have hD : 0 ≤ distance window.length s.length (fun k m => a.channels.get c k m) (fun k m => b.channels.get c k m) := by
      unfold distance
      refine Finset.sum_nonneg fun m _ => Finset.sum_nonneg fun k _ => mul_nonneg ?_ (sq_nonneg _)
      unfold binWeight
      split <;> norm_num
    have hsum := Finset.sum_nonneg hp
    have hz := mul_nonneg hfac.le hsum
    have h1 : ∑ n ∈ range e.length, overlapAdd (fun _ j => window.channels.get (Blockwise.pick window.count c) j *
        window.channels.get (Blockwise.pick window.count c) j) window.length (window.length - o) s.length
        (n + border window.length pad) * (d.channels.get c n - e.channels.get c n) ^ 2 = 0 := by
      rcases mul_eq_zero.mp (le_antisymm (by linarith) hz) with h2 | h2
      · exact absurd h2 hfac.ne'
      · exact h2
    have h2 := (Finset.sum_eq_zero_iff_of_nonneg hp).mp h1 n (mem_range.mpr (by rw [e3, ← d3]; exact hn))
    rcases mul_eq_zero.mp h2 with h3 | h3
    · exact absurd h3 h0
    · have := (pow_eq_zero_iff two_ne_zero).mp h3
      linarith

/-- the inverse transform of a segment is linear -/
theorem irfftAt_linear (N : Nat) (X Y : Nat → ℂ) (p q : ℝ) (n : Nat) :
    irfftAt N (fun k => p * X k + q * Y k) n = p * irfftAt N X n + q * irfftAt N Y n := by
  have hs : ∀ k, symmetric N (fun k => p * X k + q * Y k) k = p * symmetric N X k + q * symmetric N Y k := by
    intro k
    unfold symmetric
    split_ifs
    · simp [Complex.add_re]
    · rfl
    · simp
  unfold irfftAt
  have e : (1 / (N : ℂ)) * ∑ k ∈ range N, symmetric N (fun k => p * X k + q * Y k) k * omega N ^ ((k : ℤ) * n) =
      (p : ℂ) * ((1 / (N : ℂ)) * ∑ k ∈ range N, symmetric N X k * omega N ^ ((k : ℤ) * n)) +
      (q : ℂ) * ((1 / (N : ℂ)) * ∑ k ∈ range N, symmetric N Y k * omega N ^ ((k : ℤ) * n)) := by
    simp only [hs, add_mul, Finset.sum_add_distrib, mul_assoc, ← Finset.mul_sum]
    ring
  rw [e, Complex.add_re, Complex.re_ofReal_mul, Complex.re_ofReal_mul]

/-- C154: The inverse transform is linear: the result for a weighted sum of spectrograms is the weighted sum of the results.
(This is also true below the threshold of `scipy.signal.istft`.) -/
theorem C154_linear (s t u : Spectrogram ℂ ℝ) (window : Signal ℝ ℝ) (overlap : Idx) (o : Nat) (pad : Bool) (p q : ℝ)
    (hs : 1 ≤ s.channels.d0) (hb : s.channels.d1 = window.channels.cols / 2 + 1)
    (ht : t.channels.d0 = s.channels.d0 ∧ t.channels.d1 = s.channels.d1 ∧ t.channels.d2 = s.channels.d2)
    (hu : u.channels.d0 = s.channels.d0 ∧ u.channels.d1 = s.channels.d1 ∧ u.channels.d2 = s.channels.d2)
    (hv : ∀ c k m, u.channels.get c k m = p * s.channels.get c k m + q * t.channels.get c k m)
    (hw : window.channels.rows = 1 ∨ window.channels.rows = s.channels.d0) (hW : 2 ≤ window.channels.cols)
    (hi : index window.channels.cols overlap = some (o : Int)) (ho : o < window.channels.cols) :
    ∃ x y z, istftWith s window overlap pad = some (.ok x) ∧ istftWith t window overlap pad = some (.ok y) ∧
      istftWith u window overlap pad = some (.ok z) ∧ z.count = x.count ∧ z.length = x.length ∧
      y.count = x.count ∧ y.length = x.length ∧
      ∀ c n, c < x.count → n < x.length → z.channels.get c n = p * x.channels.get c n + q * y.channels.get c n := by
  have key : ∀ s : Spectrogram ℂ ℝ, ∀ y, inverted s window.channels o pad = .ok y →
      istftWith s window overlap pad = some (.ok (Signal.new y (s.rate * (window.channels.cols - o : Int))
        (s.offset * (window.channels.cols - o : Int)) (some s.labels))) := by
    intro s y hy
    unfold istftWith
    show (index window.channels.cols overlap >>= _) = _
    rw [hi]
    show some (inverted s window.channels o pad >>= _) = _
    rw [hy]
    rfl
  obtain ⟨x, x1, x2, x3, x4⟩ := inverted_samples s window.channels o pad hs hw hW ho hb
  obtain ⟨y, y1, y2, y3, y4⟩ := inverted_samples t window.channels o pad (by omega) (by rw [ht.1]; exact hw) hW ho
    (by rw [ht.2.1]; exact hb)
  obtain ⟨z, z1, z2, z3, z4⟩ := inverted_samples u window.channels o pad (by omega) (by rw [hu.1]; exact hw) hW ho
    (by rw [hu.2.1]; exact hb)
  refine ⟨_, _, _, key s x x1, key t y y1, key u z z1, ?_, ?_, ?_, ?_, ?_⟩
  · show z.rows = x.rows
    omega
  · show z.cols = x.cols
    rw [z3, x3, hu.2.2]
  · show y.rows = x.rows
    omega
  · show y.cols = x.cols
    rw [y3, x3, ht.2.2]
  · intro c n hc hn
    have hc' : c < x.rows := hc
    have hn' : n < x.cols := hn
    show z.get c n = p * x.get c n + q * y.get c n
    rw [x4 c n (by omega) hn', y4 c n (by omega) (by rw [y3, ht.2.2, ← x3]; exact hn'),
      z4 c n (by omega) (by rw [z3, hu.2.2, ← x3]; exact hn'), ht.2.2, hu.2.2]
    rw [← mul_div_assoc, ← mul_div_assoc, ← add_div]
    congr 1
    unfold numerator overlapAdd
    rw [Finset.mul_sum, Finset.mul_sum, ← Finset.sum_add_distrib]
    refine Finset.sum_congr rfl fun m _ => ?_
    split
    · simp only [hv]
      rw [irfftAt_linear]
      ring
    · ring

/-- a spectrogram, which is not the transform of a signal -/
def arbitrary : Spectrogram ℂ ℝ := ⟨⟨1, 2, 3, fun _ k m => (k + m : Nat) * Complex.I⟩, 24000, 48000, -5, ["a"]⟩

/-- a rectangular window with two samples -/
def pair : Signal ℝ ℝ := ⟨⟨1, 2, fun _ _ => 1⟩, 48000, 0, ["w"]⟩

/-- the conditions are satisfied by a spectrogram, whose bins of 0 Hz are not real -/
theorem arbitrary_invertible : Invertible arbitrary pair (.int 1) 1 true where
  labels := rfl
  count := by decide
  bins := rfl
  segments := by decide
  channels := Or.inl rfl
  length := by decide
  index := by decide
  overlap := by decide
  kept := by decide
  sum := by
    intro c _
    show 0 < ∑ j ∈ range 2, (1 : ℝ)
    norm_num
  covered := by
    intro c n _ hn
    left
    have hn' : n + 2 < 4 := hn
    show 1 / 10 ^ 10 < ∑ m ∈ range 3, if m * 1 ≤ n + 1 ∧ n + 1 < m * 1 + 2 then (1 : ℝ) * 1 else 0
    have : n = 0 ∨ n = 1 := by omega
    rcases this with rfl | rfl
    · rw [Finset.sum_range_succ, Finset.sum_range_succ, Finset.sum_range_one]
      norm_num
    · rw [Finset.sum_range_succ, Finset.sum_range_succ, Finset.sum_range_one]
      norm_num

example : ∃ (s : Spectrogram ℂ ℝ) (window : Signal ℝ ℝ) (o : Nat), Invertible s window (.int o) o true ∧
    (s.channels.get 0 0 1).im ≠ 0 ∧ s.offset ≠ 0 :=
  ⟨arbitrary, pair, 1, arbitrary_invertible, by
    show (((0 + 1 : Nat) : ℂ) * Complex.I).im ≠ 0
    simp, by decide⟩

/-- the linearity can be applied to spectrograms with several channels and segments -/
example : ∃ (s t u : Spectrogram ℂ ℝ) (window : Signal ℝ ℝ) (o : Nat) (p q : ℝ), 1 ≤ s.channels.d0 ∧
    s.channels.d1 = window.channels.cols / 2 + 1 ∧
    (t.channels.d0 = s.channels.d0 ∧ t.channels.d1 = s.channels.d1 ∧ t.channels.d2 = s.channels.d2) ∧
    (u.channels.d0 = s.channels.d0 ∧ u.channels.d1 = s.channels.d1 ∧ u.channels.d2 = s.channels.d2) ∧
    (∀ c k m, u.channels.get c k m = p * s.channels.get c k m + q * t.channels.get c k m) ∧
    (window.channels.rows = 1 ∨ window.channels.rows = s.channels.d0) ∧ 2 ≤ window.channels.cols ∧
    index window.channels.cols (.int o) = some (o : Int) ∧ o < window.channels.cols ∧ p ≠ 0 ∧ q ≠ 0 :=
  ⟨⟨⟨2, 2, 3, fun c k m => (c + k + m : Nat)⟩, 1, 1, 0, []⟩, ⟨⟨2, 2, 3, fun c _ m => (c * m : Nat)⟩, 1, 1, 0, []⟩,
    ⟨⟨2, 2, 3, fun c k m => ((2 : ℝ) : ℂ) * (c + k + m : Nat) + ((3 : ℝ) : ℂ) * (c * m : Nat)⟩, 1, 1, 0, []⟩,
    ⟨⟨2, 3, fun _ _ => 1⟩, 1, 0, []⟩, 1, 2, 3, by decide, rfl, ⟨rfl, rfl, rfl⟩, ⟨rfl, rfl, rfl⟩, fun _ _ _ => rfl,
    Or.inr rfl, by decide, by decide, by decide, two_ne_zero, three_ne_zero⟩

/-- C154: With the default values of the parameters and an even length of the window, the conditions are satisfied by all
spectrograms with the fitting number of bins and at least three segments. -/
theorem C154_default (mem : Nat → Nat → ℝ) (s : Spectrogram ℂ ℝ) (m : Nat) (hl : s.labels.length = s.channels.d0)
    (hs : 1 ≤ s.channels.d0) (hm : 0 < m) (hb : s.channels.d1 = m + 1) (hF : 3 ≤ s.channels.d2) :
    ∃ w, w.length = 2 * m ∧ Invertible s w (.float (1 / 2)) m true ∧
      istft mem s (.int (2 * m)) (.float (1 / 2)) true = istftWith s w (.float (1 / 2)) true := by
  obtain ⟨w, h1, h2, h3⟩ := Windows.C43_hann_overlap (R := ℝ) mem m hm s.rate
  obtain ⟨w', h1', g1, _, _, g2, _, g4⟩ := Windows.C42_samples mem Windows.hanning "Hann window" (.int 0) s.rate 0 (2 * m)
    false rfl (by omega)
  rw [h1] at h1'
  cases h1'
  have hpair : ∀ j, j < m → w.channels.get 0 j + w.channels.get 0 (j + m) = 1 := by
    intro j hj
    have := h3 j
    unfold Windows.overlapSum at this
    rw [Windows.filter_half m j hm, Finset.sum_pair (by omega), Nat.mod_eq_of_lt hj] at this
    exact this
  have hsum : windowSum (w.channels.get 0) (2 * m) = m := by
    have h : ∀ j ∈ range m, w.channels.get 0 j + w.channels.get 0 (m + j) = 1 := by
      intro j hj
      rw [add_comm m j]
      exact hpair j (mem_range.mp hj)
    unfold windowSum
    rw [show 2 * m = m + m by omega, Finset.sum_range_add, ← Finset.sum_add_distrib, Finset.sum_congr rfl h]
    simp
  have hbo : border (2 * m) true = m := by
    show 2 * m / 2 = m
    omega
  have hst : 2 * m - m = m := by omega
  have hk : 2 * border (2 * m) true ≤ (s.channels.d2 - 1) * m := by
    rw [hbo]
    exact Nat.mul_le_mul_right m (by omega)
  refine ⟨w, h2, ⟨hl, hs, by rw [hb, h2]; omega, by omega, Or.inl g2, by omega, by rw [h2]; exact index_half m, by omega,
    by rw [h2, hst]; exact hk, ?_, ?_⟩, ?_⟩
  · intro c hc
    rw [show c = 0 by omega, h2, hsum]
    exact_mod_cast hm
  · intro c n hc hn
    left
    rw [h2, hst] at hn
    rw [show c = 0 by omega, h2, hst]
    have hfr := frames_result (2 * m) m s.channels.d2 true hm (by omega) (by omega) hk
    rw [hbo] at hfr hk hn ⊢
    have := squares_half (w.channels.get 0) m (2 * m + (s.channels.d2 - 1) * m - 2 * m) n hm (by omega) (by omega) hpair
    rw [hfr] at this
    unfold squares at this
    rw [show 2 * m / 2 = m by omega] at this
    exact lt_of_lt_of_le (by norm_num) this
  · unfold istft Blockwise.getWindow
    dsimp only
    rw [if_neg (by unfold Blockwise.isZero; norm_num), h1]
    rfl

example : ∃ (s : Spectrogram ℂ ℝ) (m : Nat), s.labels.length = s.channels.d0 ∧ 1 ≤ s.channels.d0 ∧ 0 < m ∧
    s.channels.d1 = m + 1 ∧ 3 ≤ s.channels.d2 ∧ (s.channels.get 0 0 1).im ≠ 0 :=
  ⟨arbitrary, 1, rfl, by decide, by decide, rfl, by decide, by
    show (((0 + 1 : Nat) : ℂ) * Complex.I).im ≠ 0
    simp⟩

theorem dft_scale (N : Nat) (a : ℝ) (f : Nat → ℝ) (k : ℤ) : (a : ℂ) * dft N f k = dft N (fun j => a * f j) k := by
  unfold dft
  rw [Finset.mul_sum]
  refine Finset.sum_congr rfl fun l _ => ?_
  push_cast
  ring

/-- a window, whose first sample is small -/
noncomputable def flat : Signal ℝ ℝ := ⟨⟨1, 2, fun _ j => if j = 0 then 1 / 10 ^ 5 else 1⟩, 48000, 0, ["w"]⟩

/-- a constant signal -/
def constantThree : Signal ℝ ℝ := ⟨⟨1, 3, fun _ _ => 1⟩, 48000, 0, ["x"]⟩

/-- C154: The threshold of `scipy.signal.istft` is needed in the conditions: without padding, the first sample of this signal is
covered by one sample of the window only. Its square does not exceed the threshold, so it is attenuated by 200 dB, although the
spectrogram is the transform of the signal. -/
theorem C154_threshold : ∃ b d, stftWith constantThree flat (.int 1) false = some (.ok b) ∧
    istftWith b flat (.int 1) false = some (.ok d) ∧ d.length = 3 ∧ constantThree.channels.get 0 0 = 1 ∧
    d.channels.get 0 0 = 1 / 10 ^ 10 := by
  have hi : index flat.channels.cols (.int 1) = some ((1 : Nat) : Int) := by decide
  obtain ⟨b, b1, b2, b3, b4, b5, b6, b7, b8, b9⟩ := C30_stft constantThree flat (.int 1) false 1 0 rfl (Or.inl rfl) (by decide)
    (by decide) hi (by decide) rfl
  have hF : b.channels.d2 = 2 := by rw [b4]; decide
  have hS : windowSum (flat.channels.get 0) 2 = 1 + 1 / 10 ^ 5 := by
    show ∑ j ∈ range 2, (if j = 0 then (1 / 10 ^ 5 : ℝ) else 1) = _
    rw [Finset.sum_range_succ, Finset.sum_range_one]
    norm_num
  obtain ⟨y, y1, y2, y3, y4⟩ := inverted_samples b flat.channels 1 false (by rw [b2]; decide) (Or.inl rfl) (by decide)
    (by decide) b3
  rw [hF] at y3 y4
  refine ⟨b, Signal.new y (b.rate * (flat.channels.cols - (1 : Nat) : Int)) (b.offset * (flat.channels.cols - (1 : Nat) : Int))
    (some b.labels), b1, ?_, y3, rfl, ?_⟩
  · unfold istftWith
    show (index flat.channels.cols (.int 1) >>= _) = _
    rw [hi]
    show some (inverted b flat.channels (1 : Nat) false >>= _) = _
    rw [y1]
    rfl
  · show y.get 0 0 = _
    rw [y4 0 0 (by rw [b2]; decide) (by rw [y3]; decide)]
    have hden : denominator (flat.channels.get (Blockwise.pick flat.channels.rows 0)) flat.channels.cols
        (flat.channels.cols - 1) 2 (0 + border flat.channels.cols false) = 1 / 10 ^ 10 := by
      show ∑ m ∈ range 2, (if m * 1 ≤ 0 ∧ 0 < m * 1 + 2 then (if 0 - m * 1 = 0 then (1 / 10 ^ 5 : ℝ) else 1) *
        (if 0 - m * 1 = 0 then (1 / 10 ^ 5 : ℝ) else 1) else 0) = _
      rw [Finset.sum_range_succ, Finset.sum_range_one]
      norm_num
    rw [hden, if_neg (lt_irrefl _), div_one]
    have hr : irfftAt 2 (fun k => b.channels.get 0 k 0) 0 = 1 / (1 + 1 / 10 ^ 5) * (1 * (1 / 10 ^ 5)) := by
      rw [irfft_rfft (by decide) (fun j => 1 / windowSum (flat.channels.get 0) 2 *
        (extended constantThree.channels 0 (((0 * 1 : Nat) : Int) - (border 2 false : Nat) + j) * flat.channels.get 0 j)) _ ?_
        (by decide)]
      · rw [hS]
        rfl
      · intro k _
        rw [b9 0 k 0 (by decide)]
        unfold segment
        show ((1 / |windowSum (flat.channels.get 0) 2| : ℝ) : ℂ) * dft 2 _ k = _
        rw [abs_of_pos (by rw [hS]; norm_num), dft_scale]
        rfl
    show ∑ m ∈ range 2, (if m * 1 ≤ 0 ∧ 0 < m * 1 + 2 then irfftAt 2 (fun k => b.channels.get 0 k m) (0 - m * 1) *
      windowSum (flat.channels.get 0) 2 * (if 0 - m * 1 = 0 then (1 / 10 ^ 5 : ℝ) else 1) else 0) = _
    rw [Finset.sum_range_succ, Finset.sum_range_one, if_pos (by decide), if_pos (by decide), if_neg (by decide),
      show 0 - 0 * 1 = 0 from rfl, hr, hS]
    norm_num

end Stft
end Verif
