import Verif.ConvolutionSpectrumProps
import Verif.FourierProps
import Verif.SpectrogramMore
import Verif.SignalAlgebraProps

/-
C153: Signals without samples, like the default signal `sumpf.Signal()`, are accepted by the methods of signals, which treat them
like silence.
-/

namespace Verif
namespace Empty

open Finset Signal

/-- `sumpf.Signal()` (`_signal.py:82`); the numbers and the sampling rate are arbitrary here -/
def default {α R : Type} (mem : Nat → Nat → α) (rate : R) : Signal α R := Signal.new ⟨1, 0, mem⟩ rate 0 none

/-- all samples of a signal are zero -/
def Silent {α R : Type} [Zero α] (s : Signal α R) : Prop := ∀ c t v, s.at_ c t = some v → v = 0

theorem default_length {α R : Type} (mem : Nat → Nat → α) (rate : R) :
    (default mem rate).length = 0 ∧ (default mem rate).count = 1 ∧ (default mem rate).WF := ⟨rfl, rfl, rfl⟩

theorem silent_of {R : Type} {C : Mat ℝ} {rate : R} {offset : Int} {labels : Option (List String)}
    (h : ∀ i j, i < C.rows → j < C.cols → C.get i j = 0) : Silent (Signal.new C rate offset labels) := by
  intro c t v hv
  rw [at_eq_some] at hv
  obtain ⟨h1, h2, h3, rfl⟩ := hv
  have h2 : offset ≤ t := h2
  have h3 : t < offset + (C.cols : Int) := h3
  exact h c _ h1 (by show (t - offset).toNat < _; omega)

/-- C153: A signal without samples can be padded, then all of its samples have the given value. -/
theorem C153_pad {α R : Type} (mem : Nat → Nat → α) (e : Signal α R) (he : e.WF) (h0 : e.length = 0) (n : Nat) (value : α) :
    ∃ r, e.pad mem n value = .ok r ∧ r.count = e.count ∧ r.length = n ∧ r.rate = e.rate ∧ r.offset = e.offset ∧
      r.labels = e.labels ∧ ∀ c i, c < e.count → i < n → r.sample c i = some value := by
  obtain ⟨r, h1, h2, h3, h4, h5, h6, h7⟩ := C05_pad mem e he n value
  exact ⟨r, h1, h2, h3, h4, h5, h6, fun c i hc hi => by rw [h7 c i hc hi, if_neg (by omega)]⟩

/-- C153: The Fourier transform of a signal without samples is a spectrum with one zero for each channel. -/
theorem C153_fourier (mem : Nat → Nat → ℂ) (e : Signal ℝ ℝ) (h0 : e.length = 0) (hc : 0 < e.count) :
    ∃ r, Fourier.fourierTransform mem e = .ok r ∧ r.count = e.count ∧ r.length = 1 ∧ r.resolution = e.rate ∧
      ∀ c, c < e.count → r.channels.get c 0 = 0 := by
  obtain ⟨C, c1, c2, c3, c4, -⟩ := Mat.assign_scalar (A := alloc mem e.count 1) (r := .all) (c := .all) (0 : ℂ) 0 e.count 0 1
    rfl rfl rfl rfl
  refine ⟨Spectrum.new C e.rate (some e.labels), ?_, c2, c3, rfl, fun c hcc => ?_⟩
  · unfold Fourier.fourierTransform Fourier.full
    dsimp only
    rw [if_neg (by omega), if_pos h0, c1]
    rfl
  · exact c4 c 0 (by omega) hcc (by omega) (by omega)

/-- C153, violated: Transforming the spectrum of a signal without samples back results in a signal with one sample. -/
theorem C153_fourier_violated (mem : Nat → Nat → ℂ) (mem' : Nat → Nat → ℝ) (e : Signal ℝ ℝ) (h0 : e.length = 0)
    (hc : 0 < e.count) :
    ∃ r s, Fourier.fourierTransform mem e = .ok r ∧ Fourier.inverseFourierTransform mem' r = .ok s ∧ s.length = 1 := by
  obtain ⟨r, h1, h2, h3, h4, h5⟩ := C153_fourier mem e h0 hc
  have hl : r.channels.cols = 1 := h3
  obtain ⟨C, c1, c2, c3, -⟩ := Mat.assign_ok (A := alloc mem' r.count 1)
    (S := ⟨r.channels.rows, 1, fun i _ => (r.channels.get i 0).re⟩) (r := .all) (c := .all) 0 r.count 0 1
    rfl rfl rfl rfl rfl rfl
  refine ⟨r, Signal.new C (r.resolution * (1 : Nat)) 0 (some r.labels), h1, ?_, c3⟩
  unfold Fourier.inverseFourierTransform Fourier.irfftN
  rw [if_neg (by omega), h3, if_pos hl]
  show (((alloc mem' r.count 1).assign _ _ _) >>= _) = _
  rw [c1]
  rfl

/-- C153, violated: The inverse Fourier transform of the default spectrum is a signal without samples, whose sampling rate is
zero, so its duration and its time samples can not be computed. -/
theorem C153_rate_violated (mem : Nat → Nat → ℂ) (mem' : Nat → Nat → ℝ) :
    ∃ s, Fourier.inverseFourierTransform mem' (Spectrum.new ⟨1, 0, mem⟩ 1 none) = .ok s ∧ s.length = 0 ∧
      s.duration = .error .zeroDivisionError ∧ s.timeSamples = .error .zeroDivisionError := by
  refine ⟨_, rfl, rfl, ?_, ?_⟩
  · exact if_pos rfl
  · have hd : ∀ x : ℝ, Sweep.div x 0 = .error .zeroDivisionError := fun x => if_pos rfl
    unfold Signal.timeSamples
    show (Sweep.div _ 0 >>= _) = _
    rw [hd]
    rfl

/-- C153: Adding a signal without samples does not change a sample, but if the offset of the signal without samples is outside
of the other signal, the sum is padded with zeros up to that offset. -/
theorem C153_sum_partial {α R : Type} [AddGroup α] (mem : Nat → Nat → α) (label : String) (s e : Signal α R)
    (h0 : e.length = 0) (hso : Compatible s e) (hc : e.count ≤ s.count) :
    ∃ r, algebra mem (· + ·) none label s e = .ok r ∧ r.count = s.count ∧ r.rate = s.rate ∧
      r.offset = min s.offset e.offset ∧ r.offset + r.length = max (s.offset + s.length) e.offset ∧
      ∀ c t, c < s.count → r.offset ≤ t → t < r.offset + r.length → r.at_ c t = some ((s.at_ c t).getD 0) := by
  obtain ⟨r, h1, h2, h3, h4, h5, h6, h7⟩ := C10_pointwise_partial mem (· + ·) none s e label hso
  refine ⟨r, h1, by omega, h3, h4, by omega, fun c t hcc ht1 ht2 => ?_⟩
  rw [h7 c t (by omega) ht1 ht2]
  have he : e.bcast c t = none := by
    unfold bcast
    cases h : e.at_ (if e.count = 1 then 0 else c) t with
    | none => rfl
    | some x =>
      rw [at_eq_some] at h
      omega
  have hs : s.bcast c t = s.at_ c t := by
    unfold bcast
    congr 1
    split <;> omega
  rw [he, hs]
  cases s.at_ c t <;> rfl

/-- C153, violated: The sum of a signal and the default signal is not equal to the signal, if the offset of the signal is not
zero. -/
theorem C153_sum_violated {R : Type} (mem mem' : Nat → Nat → Int) (label : String) (rate : R) (s : Signal Int R)
    (hs : s.count = 1) (ho : 0 < s.offset) :
    ∃ r, algebra mem (· + ·) none label s (default mem' rate) = .ok r ∧ r.length ≠ s.length ∧ r.offset ≠ s.offset := by
  obtain ⟨r, h1, h2, h3, h4, h5, -⟩ := C153_sum_partial mem label s (default mem' rate) rfl
    ⟨fun h => absurd h.2 Nat.one_ne_zero, fun h => by omega⟩ (by rw [hs]; exact Nat.le_refl 1)
  have : (default mem' rate).offset = 0 := rfl
  exact ⟨r, h1, by omega, by omega⟩

/-- the loop over the channels fails, when the first channel fails -/
theorem fillRows_error {α : Type} (mem : Nat → Nat → α) {rows : Nat} (length : Int) (g : Nat → Py (Mat α)) (hr : 0 < rows)
    (hg : g 0 = .error .valueError) : fillRows mem rows length g = .error .valueError := by
  unfold fillRows
  split
  · rfl
  · obtain ⟨n, rfl⟩ : ∃ n, rows = n + 1 := ⟨rows - 1, by omega⟩
    rw [List.range_succ_eq_map, List.foldlM_cons, hg]
    rfl

/-- the methods of a class raise a `ValueError` for arrays without columns -/
structure Fails {α : Type} (f : Convolver α) : Prop where
  vector : ∀ (m v : Mat α) (o0 o1 : Int), 0 < m.rows → m.cols = 0 ∨ v.cols = 0 → f.withVector m v o0 o1 = .error .valueError
  vector2 : ∀ (v m : Mat α) (o0 o1 : Int), 0 < m.rows → m.cols = 0 ∨ v.cols = 0 →
    f.withVector2 v m o0 o1 = .error .valueError
  matrix : ∀ (a b : Mat α) (o0 o1 : Int), 0 < a.rows → 0 < b.rows → a.cols = 0 ∨ b.cols = 0 →
    f.withMatrix a b o0 o1 = .error .valueError

theorem convolve_fails {α R : Type} {f : Convolver α} (hf : Fails f) (label : String) (s o : Signal α R) (hs : 0 < s.count)
    (ho : 0 < o.count) (h0 : s.length = 0 ∨ o.length = 0) : convolve f label s o = .error .valueError := by
  have key : convolveWithArray f s o.channels o.offset = .error .valueError := by
    unfold convolveWithArray
    split
    · exact hf.vector _ _ _ _ hs h0
    · split
      · exact hf.vector2 _ _ _ _ ho h0.symm
      · exact hf.matrix _ _ _ _ hs ho h0
  unfold convolve
  rw [key]
  rfl

section
variable {α : Type} [AddCommMonoid α] [Mul α] (mem : Nat → Nat → α)

theorem npConvolve_error (mode : NpMode) {a b : Mat α} (h : a.cols = 0 ∨ b.cols = 0) :
    npConvolve mode a b = .error .valueError := if_pos h

theorem npCorrelate_error (mode : NpMode) {a b : Mat α} (h : a.cols = 0 ∨ b.cols = 0) :
    npCorrelate mode a b = .error .valueError := if_pos h

theorem npCorrelateReversed_error (mode : NpMode) {a b : Mat α} (h : a.cols = 0 ∨ b.cols = 0) :
    npCorrelateReversed mode a b = .error .valueError := by
  unfold npCorrelateReversed
  rw [npCorrelate_error mode h]
  rfl

omit [AddCommMonoid α] [Mul α] in
theorem fail {β : Type} {rows : Nat} {length : Int} {g : Nat → Py (Mat α)} (k : Mat α → Py β) (hr : 0 < rows)
    (hg : g 0 = .error .valueError) : (fillRows mem rows length g >>= k) = .error .valueError := by
  rw [fillRows_error mem length g hr hg]
  rfl

theorem fullConvolution_fails : Fails (fullConvolution mem) where
  vector _ _ _ _ hr h := fail mem _ hr (npConvolve_error _ h)
  vector2 _ _ _ _ hr h := fail mem _ hr (npConvolve_error _ h)
  matrix _ _ _ _ hr hr' h := fail mem _ (Nat.lt_min.mpr ⟨hr, hr'⟩) (npConvolve_error _ h)

theorem sameConvolution_fails : Fails (sameConvolution mem) where
  vector _ _ _ _ hr h := fail mem _ hr (npConvolve_error _ h)
  vector2 _ _ _ _ hr h := fail mem _ hr (npConvolve_error _ h)
  matrix _ _ _ _ hr hr' h := fail mem _ (Nat.lt_min.mpr ⟨hr, hr'⟩) (npConvolve_error _ h)

theorem validConvolution_fails : Fails (validConvolution mem) where
  vector _ _ _ _ hr h := fail mem _ hr (npConvolve_error _ h)
  vector2 _ _ _ _ hr h := fail mem _ hr (npConvolve_error _ h)
  matrix _ _ _ _ hr hr' h := fail mem _ (Nat.lt_min.mpr ⟨hr, hr'⟩) (npConvolve_error _ h)

theorem fullCorrelation_fails : Fails (fullCorrelation mem) where
  vector _ _ _ _ hr h := fail mem _ hr (npCorrelateReversed_error _ h)
  vector2 _ _ _ _ hr h := fail mem _ hr (npCorrelateReversed_error _ h.symm)
  matrix _ _ _ _ hr hr' h := fail mem _ (Nat.lt_min.mpr ⟨hr, hr'⟩) (npCorrelateReversed_error _ h)

theorem sameCorrelation_fails : Fails (sameCorrelation mem) where
  vector _ _ _ _ hr h := fail mem _ hr (npConvolve_error _ h)
  vector2 _ _ _ _ hr h := fail mem _ hr (npConvolve_error _ h.symm)
  matrix _ _ _ _ hr hr' h := fail mem _ (Nat.lt_min.mpr ⟨hr, hr'⟩) (npConvolve_error _ h)

theorem validCorrelation_fails : Fails (validCorrelation mem) where
  vector _ _ _ _ hr h := fail mem _ hr (npCorrelateReversed_error _ h)
  vector2 _ _ _ _ hr h := fail mem _ hr (npCorrelateReversed_error _ h.symm)
  matrix _ _ _ _ hr hr' h := fail mem _ (Nat.lt_min.mpr ⟨hr, hr'⟩) (npCorrelateReversed_error _ h)

end

/-- C153, violated: In the modes `FULL`, `SAME` and `VALID`, the convolution and the correlation raise a `ValueError`, if one of
the signals has no samples. -/
theorem C153_time_domain_violated {α R : Type} [AddCommMonoid α] [Mul α] (mem : Nat → Nat → α) (label : String)
    (s o : Signal α R) (hs : 0 < s.count) (ho : 0 < o.count) (h0 : s.length = 0 ∨ o.length = 0) :
    ∀ f ∈ [fullConvolution mem, sameConvolution mem, validConvolution mem, fullCorrelation mem, sameCorrelation mem,
      validCorrelation mem], convolve f label s o = .error .valueError := by
  intro f hf
  refine convolve_fails ?_ label s o hs ho h0
  simp only [List.mem_cons, List.not_mem_nil, or_false] at hf
  rcases hf with rfl | rfl | rfl | rfl | rfl | rfl
  · exact fullConvolution_fails mem
  · exact sameConvolution_fails mem
  · exact validConvolution_fails mem
  · exact fullCorrelation_fails mem
  · exact sameCorrelation_fails mem
  · exact validCorrelation_fails mem

theorem ext_zero (f : Nat → ℝ) (x : Int) : ext 0 0 f x = 0 := by
  unfold ext
  exact if_neg (by omega)

theorem convolve_vector {R : Type} {f : Convolver ℝ} {label : String} {s e : Signal ℝ R} {C : Mat ℝ} {offset : Int}
    (he : e.count = 1) (h : f.withVector s.channels (e.channels.row 0) s.offset e.offset = .ok (C, offset)) :
    convolve f label s e = .ok (Signal.new C s.rate offset (some (List.replicate s.count label))) := by
  have key : convolveWithArray f s e.channels e.offset = .ok (C, offset) := (if_pos he).trans h
  unfold convolve
  rw [key]
  rfl

/-- the convolution of signals, one of which has no samples, in the mode `SPECTRUM_PADDED` -/
theorem padded_ok (mem : Nat → Nat → ℝ) (m v : Mat ℝ) (o0 o1 : Int) (hm : 0 < m.cols) (hv : v.cols = 0) (hv1 : v.rows = 1) :
    ∃ C, spectrumPaddedConvolutionVector mem m v o0 o1 = .ok (C, o0 + o1) ∧ C.rows = m.rows ∧ C.cols = m.cols - 1 ∧
      ∀ i j, i < m.rows → j < m.cols - 1 → C.get i j = 0 := by
  obtain ⟨N, hN⟩ : ∃ N, N = if (m.cols + v.cols - 1) % 2 = 1 then m.cols + v.cols - 1 + 1 else m.cols + v.cols - 1 + 2 :=
    ⟨_, rfl⟩
  have hN1 : N = 2 * (N / 2) ∧ m.cols + v.cols ≤ N := by rw [hN]; split <;> omega
  obtain ⟨hN2, hle⟩ := hN1
  obtain ⟨A, a1, a2, a3, a4⟩ := padMatrix_ok mem m m.cols m.rows N rfl (le_refl _) (by omega)
  obtain ⟨B, b1, b2, b3, b4⟩ := padMatrix_ok mem v v.cols 1 N rfl (by omega) (by omega)
  obtain ⟨C, c1, c2, c3, c4⟩ := viaSpectrum_ok mem false A B m.rows (m.cols + v.cols - 1) 0 (N / 2)
    (.range 0 (m.cols + v.cols - 1 : Nat)) (by omega) (by omega) (by omega)
    (Or.inl ⟨a2, b2⟩) (by simp) (by rw [PySlice.hi_range, clampBound_nat]; omega)
    (fun i => ext m.cols 0 (m.get i)) (fun _ => ext v.cols 0 (v.get 0))
    (fun i k hi hk => by
      rw [← a4 i k hi (by omega)]
      congr 1; split <;> omega)
    (fun i k hi hk => by
      rw [← b4 0 k (by omega) (by omega), if_pos b2])
  refine ⟨C, ?_, c2, by omega, ?_⟩
  · unfold spectrumPaddedConvolutionVector
    dsimp only
    rw [if_neg (by omega), ← hN]
    show (padMatrix mem m m.cols m.rows N >>= _) = _
    rw [a1]
    show (padMatrix mem v v.cols 1 N >>= _) = _
    rw [b1]
    show (viaSpectrum mem false A B m.rows (m.cols + v.cols - 1) (.range 0 (m.cols + v.cols - 1 : Nat)) >>= _) = _
    rw [c1]; rfl
  · intro i j hi hj
    rw [c4 i j hi (by omega)]
    refine sum_eq_zero fun k _ => ?_
    rw [hv, ext_zero, mul_zero]

/-- C153: In the mode `SPECTRUM_PADDED`, which is the default, and in the mode `SPECTRUM`, the convolution with a signal without
samples is silent. Missing: the other modes, for which an exception is raised. -/
theorem C153_convolution_partial {R : Type} (mem : Nat → Nat → ℝ) (label : String) (s e : Signal ℝ R) (hs : 0 < s.length)
    (h0 : e.length = 0) (hc : e.count = 1) :
    (∃ r, convolve (spectrumPaddedConvolution mem) label s e = .ok r ∧ r.count = s.count ∧ r.length = s.length - 1 ∧
      r.rate = s.rate ∧ Silent r) ∧
    ∃ r, convolve (spectrumConvolution mem) label s e = .ok r ∧ r.count = s.count ∧ r.length = s.length ∧
      r.rate = s.rate ∧ Silent r := by
  constructor
  · obtain ⟨C, c1, c2, c3, c4⟩ := padded_ok mem s.channels (e.channels.row 0) s.offset e.offset hs h0 rfl
    exact ⟨_, convolve_vector hc c1, c2, c3, rfl, silent_of fun i j hi hj => c4 i j (by omega) (by omega)⟩
  · obtain ⟨C, c1, c2, c3, c4⟩ := spectrumConvolutionVector_ok mem s.channels (e.channels.row 0) s.offset e.offset hs rfl
    have h0' : (e.channels.row 0).cols = 0 := h0
    refine ⟨_, convolve_vector hc c1, c2, ?_, rfl, silent_of fun i j hi hj => ?_⟩
    · show C.cols = s.channels.cols
      omega
    · rw [c4 i j (by omega) (by omega), h0', circularConv_comm]
      simp [circularConv, ext_zero]

theorem assign_error {α : Type} {A S : Mat α} {r c : PySlice} (h0 : S.cols = 0) (h : c.count A.cols ≠ 0) :
    A.assign r c S = .error .valueError := by
  unfold Mat.assign Mat.broadcastTo
  rw [if_neg (by omega)]

/-- an array without columns can not be shifted to the end of an array with columns, because `-0` is the first index -/
theorem shiftMatrix_error (mem : Nat → Nat → ℝ) (m : Mat ℝ) (rows padded : Nat) (h0 : m.cols = 0) (hp : 0 < padded) :
    shiftMatrix mem m 0 rows padded = .error .valueError := by
  obtain ⟨A, a1, a2, a3, -⟩ := Mat.assign_scalar (A := alloc mem rows padded) (r := .all) (c := .range 0 (-((0 : Nat) : Int)))
    (0 : ℝ) 0 rows 0 0 rfl rfl rfl (by simp)
  unfold shiftMatrix
  dsimp only
  rw [a1]
  show A.assign .all (.drop (-((0 : Nat) : Int))) _ = _
  refine assign_error ?_ ?_
  · show PySlice.count .all m.cols = 0
    rw [h0]
    rfl
  · rw [a3]
    show PySlice.count (.drop 0) padded ≠ 0
    simp [PySlice.count]
    omega

/-- assignments only raise a `ValueError` -/
theorem assign_cases {α : Type} (A S : Mat α) (r c : PySlice) :
    A.assign r c S = .error .valueError ∨ ∃ B, A.assign r c S = .ok B := by
  unfold Mat.assign Mat.broadcastTo
  split
  · split at *
    · simp_all
    · left
      simp_all
  · exact Or.inr ⟨_, rfl⟩

theorem padAndShiftMatrix_cases (mem : Nat → Nat → ℝ) (m : Mat ℝ) (length rows padded shift : Nat) :
    padAndShiftMatrix mem m length rows padded shift = .error .valueError ∨
      ∃ B, padAndShiftMatrix mem m length rows padded shift = .ok B := by
  unfold padAndShiftMatrix
  dsimp only
  rcases assign_cases (alloc mem rows padded) (.scalar 0) .all (.range 0 shift) with h | ⟨A, h⟩
  · rw [h]
    exact Or.inl rfl
  rw [h]
  rcases assign_cases A (m.slice (.range 0 rows) .all) .all (.range shift (length + shift : Nat)) with h | ⟨B, h⟩
  · left
    show (A.assign _ _ _ >>= _) = _
    rw [h]
    rfl
  · have := assign_cases B (.scalar 0) .all (.drop (length + shift : Nat))
    show (A.assign _ _ _ >>= _) = _ ∨ ∃ C, (A.assign _ _ _ >>= _) = .ok C
    rw [h]
    exact this

theorem prepare_error (mem : Nat → Nat → ℝ) (a v : Mat ℝ) (length rows padded shift : Nat) (hv : v.cols = 0)
    (hp : 0 < padded) :
    (do
      let a ← padAndShiftMatrix mem a length rows padded shift
      let b ← shiftMatrix mem v 0 1 padded
      return (a, b)) = (.error .valueError : Py (Mat ℝ × Mat ℝ)) := by
  rw [shiftMatrix_error mem v 1 padded hv hp]
  rcases padAndShiftMatrix_cases mem a length rows padded shift with h | ⟨B, h⟩
  · rw [h]
    rfl
  · rw [h]
    rfl

/-- C153, violated: The correlation with a signal without samples raises a `ValueError` in the mode `SPECTRUM_PADDED`, which is
the default, although the convolution with such a signal is silent. -/
theorem C153_correlation_violated {R : Type} (mem : Nat → Nat → ℝ) (label : String) (s e : Signal ℝ R) (hs : 0 < s.length)
    (h0 : e.length = 0) (hc : e.count = 1) :
    convolve (spectrumPaddedCorrelation mem) label s e = .error .valueError := by
  have hm : 0 < s.channels.cols := hs
  have hv : (e.channels.row 0).cols = 0 := h0
  have key : preparePaddedCorrelation mem s.channels (e.channels.row 0) s.channels.rows 1 = .error .valueError := by
    unfold preparePaddedCorrelation
    dsimp only
    rw [if_neg (by omega), hv]
    split
    · exact prepare_error mem s.channels _ _ _ _ _ hv (by omega)
    · exact prepare_error mem s.channels _ _ _ _ _ hv (by omega)
  have key2 : convolveWithArray (spectrumPaddedCorrelation mem) s e.channels e.offset = .error .valueError := by
    refine (if_pos hc).trans ?_
    show (preparePaddedCorrelation mem s.channels (e.channels.row 0) s.channels.rows 1 >>= _) = _
    rw [key]
    rfl
  unfold convolve
  rw [key2]
  rfl

/-- C153, violated: In the mode `SPECTRUM`, the correlation with a signal without samples is silent, if the length of the other
signal is odd, but if it is even, a `ValueError` is raised. -/
theorem C153_parity_violated {R : Type} (mem : Nat → Nat → ℝ) (label : String) (s e : Signal ℝ R) (hs : 0 < s.length)
    (h0 : e.length = 0) (hc : e.count = 1) :
    (s.length % 2 = 1 → ∃ r, convolve (spectrumCorrelation mem) label s e = .ok r ∧ r.count = s.count ∧ r.length = s.length ∧
      Silent r) ∧
    (s.length % 2 = 0 → convolve (spectrumCorrelation mem) label s e = .error .valueError) := by
  have hm : 0 < s.channels.cols := hs
  have hv : (e.channels.row 0).cols = 0 := h0
  have hl : s.length = s.channels.cols := rfl
  have hmax : max s.channels.cols (e.channels.row 0).cols = s.channels.cols := by omega
  constructor
  · intro hodd
    obtain ⟨A, a1, a2, a3, -⟩ := shiftMatrix_ok mem s.channels s.channels.cols s.channels.rows (s.channels.cols + 1) rfl
      (le_refl _) hm (by omega)
    obtain ⟨B, b1, b2, b3, b4⟩ := padMatrix_ok mem (e.channels.row 0) (e.channels.row 0).cols 1 (s.channels.cols + 1) rfl
      (le_refl _) (by omega)
    obtain ⟨C, c1, c2, c3, c4⟩ := viaCorrelation_ok mem A B s.channels.rows s.channels.cols 1 (s.channels.cols + 1)
      (.drop (-(s.channels.cols : Int))) (by omega) (by omega) a3 b3 (Or.inl ⟨a2, b2⟩)
      (by rw [PySlice.lo_drop, clampBound_neg] <;> omega) (by rw [PySlice.hi_drop]; omega)
    refine ⟨_, convolve_vector hc (C := C) (offset := e.offset - s.offset - s.channels.cols + 1) ?_, c2, c3,
      silent_of fun i j hi hj => ?_⟩
    · have hp : prepareCorrelation mem s.channels (e.channels.row 0) s.channels.rows 1 = .ok (A, B) := by
        unfold prepareCorrelation
        dsimp only
        rw [hmax, if_pos (by omega), a1]
        show (padMatrix mem _ _ _ _ >>= _) = _
        rw [b1]
        rfl
      show (prepareCorrelation mem s.channels (e.channels.row 0) s.channels.rows 1 >>= _) = _
      rw [hp]
      show (viaSpectrum mem true A B s.channels.rows (max s.channels.cols (e.channels.row 0).cols)
        (.drop (-((max s.channels.cols (e.channels.row 0).cols : Nat) : Int))) >>= _) = _
      rw [hmax, c1]
      rfl
    · rw [c4 i j (by omega) (by omega)]
      refine sum_eq_zero fun k hk => ?_
      rw [mem_range] at hk
      have hb := emod_bounds (((1 + j : Nat) : Int) + (k : Int)) (n := s.channels.cols + 1) (by omega)
      rw [if_pos b2, b4 0 _ (by omega) (by omega)]
      rw [hv, ext_zero, mul_zero]
  · intro heven
    have hp : prepareCorrelation mem s.channels (e.channels.row 0) s.channels.rows 1 = .error .valueError := by
      unfold prepareCorrelation
      dsimp only
      rw [hmax, if_neg (by omega), if_neg (by omega), if_pos (by omega), hv]
      have : padAndCycleMatrix mem (e.channels.row 0) 0 1 s.channels.cols (-1) = .error .valueError := by
        unfold padAndCycleMatrix
        dsimp only
        rw [if_pos (by decide)]
        have : (alloc mem 1 s.channels.cols).assign .all (.range 0 (((0 : Nat) : Int) + -1))
            ((e.channels.row 0).slice (.range 0 (1 : Nat)) (.drop (- -1))) = .error .valueError := by
          refine assign_error ?_ ?_
          · show PySlice.count (.drop 1) (e.channels.row 0).cols = 0
            rw [hv]
            rfl
          · show PySlice.count (.range 0 (-1)) s.channels.cols ≠ 0
            unfold PySlice.count
            rw [PySlice.hi_range, PySlice.lo_range, clampBound_neg, clampBound_zero] <;> omega
        rw [this]
        rfl
      rw [this]
      rfl
    have key2 : convolveWithArray (spectrumCorrelation mem) s e.channels e.offset = .error .valueError := by
      refine (if_pos hc).trans ?_
      show (prepareCorrelation mem s.channels (e.channels.row 0) s.channels.rows 1 >>= _) = _
      rw [hp]
      rfl
    unfold convolve
    rw [key2]
    rfl

/-- a signal with two channels, for which the theorems about the combination with the default signal can be used -/
example : let s : Signal ℝ ℚ := ⟨⟨2, 4, fun c i => (c : ℝ) + 1 / (i + 1)⟩, 48000, 5, ["a", "b"]⟩
    let e : Signal ℝ ℚ := default (fun _ _ => 1) 48000
    0 < s.length ∧ e.length = 0 ∧ e.count = 1 ∧ Compatible s e ∧ e.count ≤ s.count := by
  refine ⟨?_, rfl, rfl, ⟨?_, ?_⟩, ?_⟩ <;> simp [Signal.length, Signal.count, default, Signal.new]

end Empty
end Verif
