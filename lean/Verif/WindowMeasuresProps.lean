import Verif.WindowMeasures
import Verif.WindowsFlatnessProps

/-
C80: the bandwidth and the scalloping loss of windows.
C81: the recommended overlap.
-/

namespace Verif
namespace Windows

open Indexing Finset

/-! ### Specification -/

/-- the spectrum of a window with `L` samples at the frequency `x` in multiples of the frequency bins, where `x` does not
have to be an integer -/
noncomputable def spectrumAt (w : Nat → ℝ) (L : Nat) (x : ℝ) : ℂ :=
  ∑ n ∈ range L, (w n : ℂ) * Complex.exp (-(2 * Real.pi * Complex.I * x * n / L))

/-! ### The padded window -/

theorem padded_ok (mem : Nat → Nat → ℝ) (w : Mat ℝ) (hw : w.rows = 1) (factor : Nat) (hf : 0 < factor) :
    ∃ C, padded mem w factor = .ok C ∧ Fade.Row C (factor * w.cols) fun j => if j < w.cols then w.get 0 j else 0 := by
  have hle : w.cols ≤ factor * w.cols := Nat.le_mul_of_pos_left _ hf
  obtain ⟨A, a1, a2, a3, a4⟩ := Fade.put (A := alloc mem 1 (factor * w.cols)) (S := w) 0 w.cols (Nat.zero_le _) hle rfl hw
    (by omega)
  have a3' : A.cols = factor * w.cols := a3
  obtain ⟨C, c1, c2, c3, c4⟩ := Fade.putScalarTail (A := A) (0 : ℝ) w.cols (by omega) a2
  refine ⟨C, ?_, c2, c3.trans a3', ?_⟩
  · unfold padded
    show ((alloc mem 1 (factor * w.cols)).assign .all (.range (0 : Nat) w.cols) w >>= _) = _
    rw [a1]
    exact c1
  · intro j hj
    rw [c4 j (by omega), a4]
    dsimp only
    by_cases h : j < w.cols
    · rw [if_neg (by omega), if_pos (by omega), if_pos h]
      rfl
    · rw [if_pos (by omega), if_neg h]

theorem dft_padded (w x : Nat → ℝ) (L factor : Nat) (hL : 0 < L) (hf : 0 < factor)
    (hx : ∀ j, j < factor * L → x j = if j < L then w j else 0) (k : Nat) :
    Dft.dft (factor * L) x k = spectrumAt w L ((k : ℝ) / factor) := by
  have hle : L ≤ factor * L := Nat.le_mul_of_pos_left _ hf
  unfold Dft.dft spectrumAt
  rw [← Finset.sum_subset (Finset.range_mono hle)]
  · refine Finset.sum_congr rfl fun n hn => ?_
    have hn' : n < L := Finset.mem_range.1 hn
    rw [hx n (by omega), if_pos hn']
    congr 1
    unfold Dft.omega
    rw [← Complex.exp_int_mul]
    congr 1
    have h1 : (L : ℂ) ≠ 0 := by exact_mod_cast hL.ne'
    have h2 : (factor : ℂ) ≠ 0 := by exact_mod_cast hf.ne'
    push_cast
    field_simp
  · intro n hn hn'
    have hn'' : ¬ n < L := fun h => hn' (Finset.mem_range.2 h)
    rw [hx n (Finset.mem_range.1 hn), if_neg hn'']
    simp

theorem padded_spectrum (mem : Nat → Nat → ℝ) (w : Mat ℝ) (hw : w.rows = 1) (hL : 0 < w.cols) (factor : Nat)
    (hf : 0 < factor) : ∃ C S, padded mem w factor = .ok C ∧ C.rfft = .ok S ∧ S.cols = factor * w.cols / 2 + 1 ∧
      ∀ k : Nat, S.get 0 k = spectrumAt (w.get 0) w.cols ((k : ℝ) / factor) := by
  obtain ⟨C, c1, c2, c3, c4⟩ := padded_ok mem w hw factor hf
  have hpos : 0 < factor * w.cols := Nat.mul_pos hf hL
  refine ⟨C, ⟨C.rows, C.cols / 2 + 1, fun i k => Dft.dft C.cols (C.get i) k⟩, c1, ?_, ?_, ?_⟩
  · unfold Mat.rfft
    rw [if_neg (by omega)]
  · show C.cols / 2 + 1 = _
    rw [c3]
  · intro k
    show Dft.dft C.cols (C.get 0) k = _
    rw [c3]
    exact dft_padded (w.get 0) (C.get 0) w.cols factor hL hf c4 k

theorem spectrumAt_zero (w : Nat → ℝ) (L : Nat) : spectrumAt w L 0 = ((∑ n ∈ range L, w n : ℝ) : ℂ) := by
  unfold spectrumAt
  push_cast
  refine Finset.sum_congr rfl fun n _ => ?_
  simp

/-! ### C80 -/

/-- C80: The scalloping loss is the ratio of the window's spectrum in the middle between the first two frequency bins and
at 0 Hz. -/
theorem C80_scalloping_loss (mem : Nat → Nat → ℝ) (w : Mat ℝ) (hw : w.rows = 1) (hL : 0 < w.cols) :
    scallopingLoss mem w = .ok (‖spectrumAt (w.get 0) w.cols (1 / 2)‖ / |∑ n ∈ range w.cols, w.get 0 n|) := by
  obtain ⟨C, S, h1, h2, _, h4⟩ := padded_spectrum mem w hw hL 2 (by omega)
  unfold scallopingLoss
  rw [h1]
  show (C.rfft >>= _) = _
  rw [h2]
  show Except.ok ‖S.get 0 1 / S.get 0 0‖ = _
  have e0 := h4 0
  have e1 := h4 1
  rw [Nat.cast_zero, zero_div, spectrumAt_zero] at e0
  rw [Nat.cast_one, Nat.cast_ofNat] at e1
  rw [e0, e1, norm_div, Complex.norm_real, Real.norm_eq_abs]

/-- C80: The scalloping loss of windows without negative samples is between zero and one. -/
theorem C80_scalloping_loss_range (mem : Nat → Nat → ℝ) (w : Mat ℝ) (hw : w.rows = 1) (hL : 0 < w.cols)
    (h : ∀ n, n < w.cols → 0 ≤ w.get 0 n) : ∃ x, scallopingLoss mem w = .ok x ∧ 0 ≤ x ∧ x ≤ 1 := by
  refine ⟨_, C80_scalloping_loss mem w hw hL, by positivity, ?_⟩
  refine div_le_one_of_le₀ ?_ (abs_nonneg _)
  rw [abs_of_nonneg (Finset.sum_nonneg fun n hn => h n (Finset.mem_range.1 hn))]
  unfold spectrumAt
  refine (norm_sum_le _ _).trans (Finset.sum_le_sum fun n hn => ?_)
  rw [norm_mul, Complex.norm_real, Real.norm_eq_abs, abs_of_nonneg (h n (Finset.mem_range.1 hn))]
  have : ‖Complex.exp (-(2 * Real.pi * Complex.I * ((1 / 2 : ℝ) : ℂ) * n / w.cols))‖ = 1 := by
    rw [Complex.norm_exp]
    have : (-(2 * Real.pi * Complex.I * ((1 / 2 : ℝ) : ℂ) * n / w.cols) : ℂ) =
        ((-(2 * Real.pi * (1 / 2) * n / w.cols) : ℝ) : ℂ) * Complex.I := by
      push_cast
      ring
    rw [this, Complex.re_ofReal_mul, Complex.I_re, mul_zero, Real.exp_zero]
  rw [this, mul_one]

theorem norm_one_sub_exp (x : ℝ) : ‖(1 : ℂ) - Complex.exp (-(x * Complex.I))‖ = 2 * |Real.sin (x / 2)| := by
  have h : (1 : ℂ) - Complex.exp (-(x * Complex.I)) =
      Complex.exp (-((x / 2 : ℝ) * Complex.I)) * (2 * Complex.I * (Real.sin (x / 2) : ℝ)) := by
    rw [Complex.ofReal_sin, Complex.sin, show -((x : ℂ) * Complex.I) =
      -(((x / 2 : ℝ) : ℂ) * Complex.I) + -(((x / 2 : ℝ) : ℂ) * Complex.I) by push_cast; ring, Complex.exp_add, neg_mul]
    have : Complex.exp (-(((x / 2 : ℝ) : ℂ) * Complex.I)) * Complex.exp (((x / 2 : ℝ) : ℂ) * Complex.I) = 1 := by
      rw [← Complex.exp_add]
      simp
    have hI := Complex.I_mul_I
    linear_combination (-1) * this + (Complex.exp (-(((x / 2 : ℝ) : ℂ) * Complex.I)) *
      Complex.exp (((x / 2 : ℝ) : ℂ) * Complex.I) - Complex.exp (-(((x / 2 : ℝ) : ℂ) * Complex.I)) *
      Complex.exp (-(((x / 2 : ℝ) : ℂ) * Complex.I))) * hI
  rw [h, norm_mul, norm_mul, norm_mul, Complex.norm_I, Complex.norm_real, Real.norm_eq_abs]
  have : ‖Complex.exp (-((x / 2 : ℝ) * Complex.I))‖ = 1 := by
    rw [← neg_mul, ← Complex.ofReal_neg, Complex.norm_exp_ofReal_mul_I]
  rw [this]
  simp

/-- C80: The scalloping loss of the rectangular window. -/
theorem C80_scalloping_loss_rectangular (mem : Nat → Nat → ℝ) (w : Mat ℝ) (hw : w.rows = 1) (hL : 0 < w.cols)
    (h : ∀ n, n < w.cols → w.get 0 n = 1) :
    scallopingLoss mem w = .ok (1 / (w.cols * Real.sin (Real.pi / (2 * w.cols)))) := by
  rw [C80_scalloping_loss mem w hw hL]
  have hL' : (0 : ℝ) < w.cols := by exact_mod_cast hL
  have hLc : (w.cols : ℂ) ≠ 0 := by exact_mod_cast hL.ne'
  have hL1 : (1 : ℝ) ≤ w.cols := by exact_mod_cast hL
  have hsin : 0 < Real.sin (Real.pi / (2 * w.cols)) := by
    apply Real.sin_pos_of_pos_of_lt_pi
    · have := Real.pi_pos
      positivity
    · rw [div_lt_iff₀ (by positivity)]
      nlinarith [Real.pi_pos]
  have hsum : ∑ n ∈ range w.cols, w.get 0 n = w.cols := by
    rw [Finset.sum_congr rfl fun n hn => h n (Finset.mem_range.1 hn)]
    simp
  obtain ⟨z, hz⟩ : ∃ z : ℂ, z = Complex.exp (-(((Real.pi / w.cols : ℝ) : ℂ) * Complex.I)) := ⟨_, rfl⟩
  have hS : spectrumAt (w.get 0) w.cols (1 / 2) = ∑ n ∈ range w.cols, z ^ n := by
    unfold spectrumAt
    refine Finset.sum_congr rfl fun n hn => ?_
    rw [h n (Finset.mem_range.1 hn), hz, ← Complex.exp_nat_mul, Complex.ofReal_one, one_mul]
    congr 1
    push_cast
    field_simp
  have hzL : z ^ w.cols = -1 := by
    rw [hz, ← Complex.exp_nat_mul]
    have : (w.cols : ℂ) * -(((Real.pi / w.cols : ℝ) : ℂ) * Complex.I) = -(Real.pi * Complex.I) := by
      push_cast
      field_simp
    rw [this, Complex.exp_neg, Complex.exp_pi_mul_I]
    norm_num
  have hnorm : ‖(1 : ℂ) - z‖ = 2 * Real.sin (Real.pi / (2 * w.cols)) := by
    rw [hz, norm_one_sub_exp, show Real.pi / w.cols / 2 = Real.pi / (2 * w.cols) by ring, abs_of_pos hsin]
  have hgeom : (∑ n ∈ range w.cols, z ^ n) * (1 - z) = 2 := by
    have := geom_sum_mul z w.cols
    rw [hzL] at this
    linear_combination (-1) * this
  have hg : ‖∑ n ∈ range w.cols, z ^ n‖ * (2 * Real.sin (Real.pi / (2 * w.cols))) = 2 := by
    rw [← hnorm, ← norm_mul, hgeom]
    norm_num
  rw [hS, hsum, abs_of_pos hL']
  congr 1
  rw [div_eq_div_iff hL'.ne' (by positivity)]
  linarith [mul_comm (w.cols : ℝ) (Real.sin (Real.pi / (2 * w.cols))), congrArg (· * (w.cols : ℝ)) hg]

theorem crossing_found (threshold : ℝ) (n : Nat) :
    ∀ (i : Nat) (r : Nat × ℝ) (l : List ℝ), n < l.length → (∀ j, j < n → ¬ l.getD j 0 < threshold) →
      l.getD n 0 < threshold → crossing threshold i r l = (i + n, l.getD n 0) := by
  induction n with
  | zero =>
    intro i r l hl _ hlt
    cases l with
    | nil => exact absurd hl (by simp)
    | cons m l =>
      unfold crossing
      have : m < threshold := hlt
      rw [if_pos this]
      rfl
  | succ n ih =>
    intro i r l hl hge hlt
    cases l with
    | nil => exact absurd hl (by simp)
    | cons m l =>
      have hm : ¬ m < threshold := hge 0 (by omega)
      unfold crossing
      rw [if_neg hm, ih (i + 1) (i, m) l (by simpa using hl) (fun j hj => hge (j + 1) (by omega)) hlt]
      congr 1
      omega

theorem getD_map_range (f : Nat → ℝ) (n j : Nat) (h : j < n) : ((List.range n).map f).getD j 0 = f j := by
  rw [List.getD_eq_getElem?_getD, List.getElem?_map, List.getElem?_range h]
  rfl

/-- C80: The bandwidth is computed by linear interpolation between the first frequency bin of the oversampled spectrum,
whose magnitude is more than 3 dB below that at 0 Hz, and its predecessor. It is twice the frequency, at which the
interpolated magnitude is 3 dB below the maximum (because it includes the negative frequencies). Missing: windows, whose
magnitude does not drop below this threshold, see `C80_bandwidth_violated`. -/
theorem C80_bandwidth_partial (mem : Nat → Nat → ℝ) (w : Mat ℝ) (hw : w.rows = 1) (hL : 0 < w.cols) (rate : ℝ)
    (oversampling k : Nat) (ho : 0 < oversampling) (hk : k + 1 ≤ oversampling * w.cols / 2)
    (hlt : ‖spectrumAt (w.get 0) w.cols (((k + 1 : Nat) : ℝ) / oversampling)‖ <
      ‖spectrumAt (w.get 0) w.cols 0‖ / Real.sqrt 2)
    (hge : ∀ j : Nat, j < k → ‖spectrumAt (w.get 0) w.cols 0‖ / Real.sqrt 2 ≤
      ‖spectrumAt (w.get 0) w.cols (((j + 1 : Nat) : ℝ) / oversampling)‖) :
    ∃ t : ℝ, 0 ≤ t ∧ t < 1 ∧
      (1 - t) * ‖spectrumAt (w.get 0) w.cols ((k : ℝ) / oversampling)‖ +
        t * ‖spectrumAt (w.get 0) w.cols (((k + 1 : Nat) : ℝ) / oversampling)‖ =
          ‖spectrumAt (w.get 0) w.cols 0‖ / Real.sqrt 2 ∧
      bandwidth mem w rate oversampling = .ok (some (2 * ((k + t) / oversampling * (rate / w.cols)))) := by
  obtain ⟨C, S, h1, h2, h3, h4⟩ := padded_spectrum mem w hw hL oversampling ho
  have hm : ∀ j : Nat, ‖S.get 0 j‖ = ‖spectrumAt (w.get 0) w.cols ((j : ℝ) / oversampling)‖ := fun j => by rw [h4]
  have h0 : ‖S.get 0 0‖ = ‖spectrumAt (w.get 0) w.cols 0‖ := by rw [hm, Nat.cast_zero, zero_div]
  rw [← h0, ← hm] at hlt
  have hge' : ∀ j : Nat, j < k → ‖S.get 0 0‖ / Real.sqrt 2 ≤ ‖S.get 0 (j + 1)‖ := by
    intro j hj
    rw [h0, hm]
    exact hge j hj
  rw [← hm, ← hm, ← h0]
  clear hge
  have hk1 : ‖S.get 0 0‖ / Real.sqrt 2 ≤ ‖S.get 0 k‖ := by
    cases k with
    | zero =>
      refine div_le_self (norm_nonneg _) ?_
      rw [Real.one_le_sqrt]
      norm_num
    | succ k => exact hge' k (by omega)
  have hcross : crossing (‖S.get 0 0‖ / Real.sqrt 2) 0 (0, 0)
      ((List.range (S.cols - 1)).map fun k => ‖S.get 0 (k + 1)‖) = (k, ‖S.get 0 (k + 1)‖) := by
    have hlen : k < S.cols - 1 := by omega
    have e : ∀ j, j < S.cols - 1 → ((List.range (S.cols - 1)).map fun k => ‖S.get 0 (k + 1)‖).getD j 0 = ‖S.get 0 (j + 1)‖ :=
      fun j hj => getD_map_range _ _ _ hj
    rw [crossing_found _ k 0 (0, 0) _ (by simpa using hlen), e k hlen, Nat.zero_add]
    · intro j hj
      rw [e j (by omega), not_lt]
      exact hge' j hj
    · rw [e k hlen]
      exact hlt
  have hL' : (w.cols : ℝ) ≠ 0 := by exact_mod_cast hL.ne'
  have ho' : (oversampling : ℝ) ≠ 0 := by exact_mod_cast ho.ne'
  obtain ⟨y1, e1⟩ : ∃ y, y = ‖S.get 0 k‖ := ⟨_, rfl⟩
  obtain ⟨y2, e2⟩ : ∃ y, y = ‖S.get 0 (k + 1)‖ := ⟨_, rfl⟩
  obtain ⟨th, e3⟩ : ∃ y, y = ‖S.get 0 0‖ / Real.sqrt 2 := ⟨_, rfl⟩
  have n1 : 0 ≤ y1 := e1 ▸ norm_nonneg _
  have n2 : 0 ≤ y2 := e2 ▸ norm_nonneg _
  rw [← e3, ← e2] at hlt hcross
  rw [← e3, ← e1] at hk1
  rw [← e1, ← e2, ← e3]
  have hd : y2 - y1 < 0 := by linarith
  refine ⟨(th - y1) / (y2 - y1), div_nonneg_of_nonpos (by linarith) hd.le, ?_, ?_, ?_⟩
  · rw [div_lt_one_of_neg hd]
    linarith
  · have := hd.ne
    field_simp
    ring
  · unfold bandwidth
    rw [h1]
    show (C.rfft >>= _) = _
    rw [h2]
    dsimp only [bind, Except.bind]
    refine (if_neg ?_).trans ?_
    · rw [← e3, hcross]
      dsimp only
      rw [← e1, abs_of_nonneg n1, abs_of_nonneg n2]
      exact hd.ne
    dsimp only [pure, Except.pure]
    rw [← e3, hcross]
    dsimp only
    rw [← e1, abs_of_nonneg n1, abs_of_nonneg n2]
    congr 2
    by_cases hr : rate = 0
    · subst hr
      simp
    · field_simp

theorem crossing_constant (threshold c : ℝ) (h : ¬ c < threshold) : ∀ (n i : Nat) (r : Nat × ℝ),
    crossing threshold i r (List.replicate (n + 1) c) = (i + n, c) := by
  intro n
  induction n with
  | zero =>
    intro i r
    show (if c < threshold then (i, c) else crossing threshold (i + 1) (i, c) []) = _
    rw [if_neg h]
    rfl
  | succ n ih =>
    intro i r
    show (if c < threshold then (i, c) else crossing threshold (i + 1) (i, c) (List.replicate (n + 1) c)) = _
    rw [if_neg h, ih]
    congr 1
    omega

/-- C80 (violation): The bandwidth is documented to be a float in Hz. But when the magnitude of the spectrum does not drop
below the threshold, the code extrapolates from the last two frequency bins. For a window with one sample, these are
equal, so that the result is not a finite number. -/
theorem C80_bandwidth_violated (mem : Nat → Nat → ℝ) (w : Mat ℝ) (hw : w.rows = 1) (hL : w.cols = 1) (rate : ℝ)
    (oversampling : Nat) (ho : 2 ≤ oversampling) : bandwidth mem w rate oversampling = .ok none := by
  obtain ⟨C, S, h1, h2, h3, h4⟩ := padded_spectrum mem w hw (by omega) oversampling (by omega)
  have hm : ∀ j : Nat, ‖S.get 0 j‖ = |w.get 0 0| := by
    intro j
    rw [h4, hL]
    unfold spectrumAt
    simp
  have hlist : ((List.range (S.cols - 1)).map fun k => ‖S.get 0 (k + 1)‖) =
      List.replicate (oversampling / 2 - 1 + 1) |w.get 0 0| := by
    have hc : S.cols - 1 = oversampling / 2 - 1 + 1 := by
      rw [hL] at h3
      omega
    rw [hc]
    refine List.eq_replicate_iff.2 ⟨by simp, ?_⟩
    intro x hx
    obtain ⟨k, _, rfl⟩ := List.mem_map.1 hx
    exact hm _
  have hnot : ¬ |w.get 0 0| < |w.get 0 0| / Real.sqrt 2 := by
    rw [not_lt]
    refine div_le_self (abs_nonneg _) ?_
    rw [Real.one_le_sqrt]
    norm_num
  unfold bandwidth
  rw [h1]
  show (C.rfft >>= _) = _
  rw [h2]
  dsimp only [bind, Except.bind]
  refine (if_pos ?_).trans rfl
  rw [hlist, hm 0, crossing_constant _ _ hnot]
  dsimp only
  rw [hm, abs_abs, sub_self]

example : ∃ w : Mat ℝ, w.rows = 1 ∧ 0 < w.cols ∧ ∀ n, n < w.cols → w.get 0 n = 1 :=
  ⟨⟨1, 4, fun _ _ => 1⟩, rfl, by decide, fun _ _ => rfl⟩

/-- the window with the samples 1, 1 and an oversampling of 2: the magnitude is zero at the second bin and the square root
of two, which equals the threshold, at the first one -/
example : ∃ (w : Mat ℝ) (oversampling k : Nat), w.rows = 1 ∧ 0 < w.cols ∧ 0 < oversampling ∧
    k + 1 ≤ oversampling * w.cols / 2 ∧
    ‖spectrumAt (w.get 0) w.cols (((k + 1 : Nat) : ℝ) / oversampling)‖ <
      ‖spectrumAt (w.get 0) w.cols 0‖ / Real.sqrt 2 ∧
    ∀ j : Nat, j < k → ‖spectrumAt (w.get 0) w.cols 0‖ / Real.sqrt 2 ≤
      ‖spectrumAt (w.get 0) w.cols (((j + 1 : Nat) : ℝ) / oversampling)‖ := by
  refine ⟨⟨1, 2, fun _ _ => 1⟩, 1, 0, rfl, by decide, by decide, by decide, ?_, fun j hj => absurd hj (by omega)⟩
  have h1 : spectrumAt (fun _ => 1) 2 (((0 + 1 : Nat) : ℝ) / ((1 : Nat) : ℝ)) = 0 := by
    unfold spectrumAt
    rw [Finset.sum_range_succ, Finset.sum_range_one]
    have : (-(2 * Real.pi * Complex.I * (((((0 + 1 : Nat) : ℝ) / ((1 : Nat) : ℝ)) : ℝ) : ℂ) * ((1 : Nat) : ℂ) / ((2 : Nat) : ℂ)) : ℂ) =
        -(Real.pi * Complex.I) := by
      push_cast
      ring
    rw [this, Complex.exp_neg (Real.pi * Complex.I), Complex.exp_pi_mul_I]
    norm_num
  have h2 : spectrumAt (fun _ => 1) 2 0 = 2 := by
    rw [spectrumAt_zero]
    norm_num
  show ‖spectrumAt (fun _ => 1) 2 (((0 + 1 : Nat) : ℝ) / ((1 : Nat) : ℝ))‖ < ‖spectrumAt (fun _ => 1) 2 0‖ / Real.sqrt 2
  rw [h1, h2, norm_zero]
  simp

/-! ### C81 -/

theorem argmaxFrom_ok [LinearOrder α] (l : List α) : ∀ (i : Nat) (f : Nat → α) (b : Nat), b < i →
    (∀ j, j < i → f j ≤ f b) → (∀ j, j < b → f j < f b) → (∀ j (h : j < l.length), f (i + j) = l[j]) →
    ∃ o, argmaxFrom i (b, f b) l = o ∧ o < i + l.length ∧ (∀ j, j < i + l.length → f j ≤ f o) ∧ ∀ j, j < o → f j < f o := by
  induction l with
  | nil =>
    intro i f b hb h1 h2 _
    exact ⟨b, rfl, by simpa using hb, by simpa using h1, h2⟩
  | cons x l ih =>
    intro i f b hb h1 h2 h3
    have hx : f i = x := h3 0 (by simp)
    have h3' : ∀ j (h : j < l.length), f (i + 1 + j) = l[j] := by
      intro j h
      have := h3 (j + 1) (by simpa using h)
      rw [show i + 1 + j = i + (j + 1) by omega]
      simpa using this
    show ∃ o, argmaxFrom (i + 1) (if f b < x then (i, x) else (b, f b)) l = o ∧ _
    have hlen : i + (x :: l).length = i + 1 + l.length := by
      simp
      omega
    rw [hlen]
    by_cases c : f b < x
    · rw [if_pos c, ← hx]
      refine ih (i + 1) f i (by omega) ?_ ?_ h3'
      · intro j hj
        rcases Nat.lt_succ_iff_lt_or_eq.1 hj with h | h
        · exact (h1 j h).trans (hx ▸ c).le
        · rw [h]
      · intro j hj
        exact lt_of_le_of_lt (h1 j hj) (hx ▸ c)
    · rw [if_neg c]
      refine ih (i + 1) f b (by omega) ?_ h2 h3'
      intro j hj
      rcases Nat.lt_succ_iff_lt_or_eq.1 hj with h | h
      · exact h1 j h
      · rw [h, hx]
        exact not_lt.1 c

theorem argmax_ok [LinearOrder α] (f : Nat → α) (n : Nat) (hn : 0 < n) :
    ∃ o, argmax ((List.range n).map f) = .ok o ∧ o < n ∧ (∀ j, j < n → f j ≤ f o) ∧ ∀ j, j < o → f j < f o := by
  obtain ⟨m, rfl⟩ : ∃ m, n = m + 1 := ⟨n - 1, by omega⟩
  have e : (List.range (m + 1)).map f = f 0 :: (List.range m).map fun j => f (1 + j) := by
    rw [List.range_succ_eq_map, List.map_cons, List.map_map]
    congr 1
    refine List.map_congr_left fun j _ => ?_
    show f (j + 1) = f (1 + j)
    rw [Nat.add_comm]
  rw [e]
  obtain ⟨o, h1, h2, h3, h4⟩ := argmaxFrom_ok ((List.range m).map fun j => f (1 + j)) 1 f 0 (by omega)
    (by
      intro j hj
      obtain rfl : j = 0 := by omega
      exact le_refl _) (fun j hj => absurd hj (by omega)) (by
      intro j h
      simp)
  have hl : 1 + ((List.range m).map fun j => f (1 + j)).length = m + 1 := by
    simp
    omega
  rw [hl] at h2 h3
  exact ⟨o, congrArg Except.ok h1, h2, h3, h4⟩

theorem index_nat (L : Int) (o : Nat) : index L (.int (o : Nat)) = some (o : Int) := by
  unfold index
  have : (Idx.int (o : Nat)).start L = (o : Int) := rfl
  rw [this, if_pos (by omega)]

theorem mapM_some {β : Type} (g : Nat → Option β) (f : Nat → β) (l : List Nat) (h : ∀ o ∈ l, g o = some (f o)) :
    l.mapM g = some (l.map f) := by
  induction l with
  | nil => rfl
  | cons a l ih =>
    rw [List.mapM_cons, h a (by simp), ih fun o ho => h o (by simp [ho])]
    rfl

theorem mapM_ok {β : Type} (f : Nat → β) (l : List Nat) :
    (l.map fun o => (Except.ok (f o) : Py β)).mapM id = .ok (l.map f) := by
  induction l with
  | nil => rfl
  | cons a l ih =>
    rw [List.map_cons, List.mapM_cons, ih]
    rfl

theorem zipWith_map {β : Type} (op : β → β → β) (f g : Nat → β) (l : List Nat) :
    List.zipWith op (l.map f) (l.map g) = l.map fun o => op (f o) (g o) := by
  induction l with
  | nil => rfl
  | cons a l ih => rw [List.map_cons, List.map_cons, List.zipWith_cons_cons, ih, List.map_cons]

/-- C81: The recommended overlap is the smallest one of those, that maximize the difference between the amplitude flatness
and the overlap correlation. -/
theorem C81_recommended_overlap [Field α] [LinearOrder α] (mem : Nat → Nat → α) (w : Mat α) (hw : w.rows = 1)
    (hL : 0 < w.cols) (hE : ∑ t ∈ range w.cols, w.get 0 t * w.get 0 t ≠ 0) :
    ∃ (F C : Nat → α) (o : Nat), (∀ k, k < w.cols → amplitudeFlatness mem w (.int (k : Nat)) = some (.ok (F k)) ∧
        overlapCorrelation w (.int (k : Nat)) = some (.ok (C k))) ∧
      recommendedOverlap mem w = some (.ok o) ∧ o < w.cols ∧
      (∀ k, k < w.cols → F k - C k ≤ F o - C o) ∧ ∀ k, k < o → F k - C k < F o - C o := by
  have hF : ∀ k, ∃ x, k < w.cols → amplitudeFlatness mem w (.int (k : Nat)) = some (.ok x) := by
    intro k
    by_cases h : k < w.cols
    · obtain ⟨a, b, h1, _⟩ := C59_amplitude_flatness mem w hw (.int (k : Nat)) k (index_nat _ k) h
      exact ⟨_, fun _ => h1⟩
    · exact ⟨0, fun h' => absurd h' h⟩
  have hC : ∀ k, ∃ x, k < w.cols → overlapCorrelation w (.int (k : Nat)) = some (.ok x) := by
    intro k
    by_cases h : k < w.cols
    · exact ⟨_, fun _ => C59_overlap_correlation w hw (.int (k : Nat)) k (index_nat _ k) h.le hE⟩
    · exact ⟨0, fun h' => absurd h' h⟩
  choose F hF using hF
  choose C hC using hC
  obtain ⟨o, h1, h2, h3, h4⟩ := argmax_ok (fun k => F k - C k) w.cols hL
  refine ⟨F, C, o, fun k hk => ⟨hF k hk, hC k hk⟩, ?_, h2, h3, h4⟩
  unfold recommendedOverlap
  dsimp only
  rw [mapM_some _ (fun k => .ok (F k)) _ fun k hk => hF k (List.mem_range.1 hk),
    mapM_some _ (fun k => .ok (C k)) _ fun k hk => hC k (List.mem_range.1 hk)]
  show some (((List.range w.cols).map fun k => (Except.ok (F k) : Py α)).mapM id >>= fun af =>
    ((List.range w.cols).map fun k => (Except.ok (C k) : Py α)).mapM id >>= fun oc =>
      argmax (List.zipWith (· - ·) af oc)) = _
  rw [mapM_ok, mapM_ok]
  show some (argmax (List.zipWith (· - ·) ((List.range w.cols).map F) ((List.range w.cols).map C))) = _
  rw [zipWith_map, h1]

/-- C81: For windows without samples, a `ValueError` is raised, because there is no overlap, that could be recommended. -/
theorem C81_empty [Field α] [LinearOrder α] (mem : Nat → Nat → α) (w : Mat α) (hL : w.cols = 0) :
    recommendedOverlap mem w = some (.error .valueError) := by
  unfold recommendedOverlap
  rw [hL]
  rfl

example : recommendedOverlap (fun _ _ => 0) (⟨1, 0, fun _ _ => 0⟩ : Mat ℚ) = some (.error .valueError) :=
  C81_empty _ _ rfl

/-- C81: No overlap is recommended for rectangular windows. -/
theorem C81_rectangular [Field α] [LinearOrder α] [IsStrictOrderedRing α] (mem : Nat → Nat → α) (w : Mat α)
    (hw : w.rows = 1) (hL : 0 < w.cols) (h : ∀ t, t < w.cols → w.get 0 t = 1) :
    recommendedOverlap mem w = some (.ok 0) := by
  have hL' : (0 : α) < w.cols := by exact_mod_cast hL
  have hEq : ∑ t ∈ range w.cols, w.get 0 t * w.get 0 t = w.cols := by
    rw [Finset.sum_congr rfl fun t ht => by rw [h t (Finset.mem_range.1 ht), mul_one]]
    simp
  have hE : ∑ t ∈ range w.cols, w.get 0 t * w.get 0 t ≠ 0 := by
    rw [hEq]
    exact hL'.ne'
  obtain ⟨F, C, o, h1, h2, h3, _, h5⟩ := C81_recommended_overlap mem w hw hL hE
  rcases Nat.eq_zero_or_pos o with ho | ho
  · rw [h2, ho]
  · exfalso
    have hlt := h5 0 ho
    obtain ⟨f0, c0⟩ := h1 0 hL
    obtain ⟨fo, co⟩ := h1 o h3
    have hf0 : F 0 = 1 := by
      have := C59_flat mem w hw (.int (0 : Nat)) 0 (index_nat _ 0) hL 1 one_ne_zero (by
        intro t ht
        unfold overlapSum
        rw [Nat.sub_zero]
        have : ((range w.cols).filter fun j => j % w.cols = t % w.cols) = {t} := by
          ext j
          simp only [Finset.mem_filter, Finset.mem_range, Finset.mem_singleton]
          constructor
          · rintro ⟨a, b⟩
            rwa [Nat.mod_eq_of_lt a, Nat.mod_eq_of_lt ht] at b
          · rintro rfl
            exact ⟨ht, rfl⟩
        rw [this, Finset.sum_singleton, h t ht])
      rw [f0] at this
      exact Except.ok.inj (Option.some.inj this)
    have hfo : F o ≤ 1 := by
      obtain ⟨x, x1, _, x3, _⟩ := C59_flatness_range mem w hw (.int (o : Nat)) o (index_nat _ o) h3 (by
        intro t ht
        rw [h t ht]
        exact zero_le_one)
      rw [fo] at x1
      rw [Except.ok.inj (Option.some.inj x1)]
      exact x3
    have hc0 : C 0 = 0 := by
      have := C59_overlap_correlation w hw (.int (0 : Nat)) 0 (index_nat _ 0) hL.le hE
      rw [c0] at this
      rw [Except.ok.inj (Option.some.inj this)]
      simp
    have hco : 0 < C o := by
      have := C59_overlap_correlation w hw (.int (o : Nat)) o (index_nat _ o) h3.le hE
      rw [co] at this
      rw [Except.ok.inj (Option.some.inj this), hEq]
      refine div_pos ?_ hL'
      refine Finset.sum_pos (fun t ht => ?_) ⟨0, Finset.mem_range.2 ho⟩
      have ht' : t < o := Finset.mem_range.1 ht
      rw [h t (by omega), h _ (by omega)]
      norm_num
    rw [hf0, hc0] at hlt
    linarith

example : ∃ w : Mat ℚ, w.rows = 1 ∧ 0 < w.cols ∧ (∑ t ∈ range w.cols, w.get 0 t * w.get 0 t ≠ 0) ∧
    ∀ t, t < w.cols → w.get 0 t = 1 :=
  ⟨⟨1, 4, fun _ _ => 1⟩, rfl, by decide, by simp, fun _ _ => rfl⟩

end Windows
end Verif
