import Verif.StftProps
import Verif.SpectrumLevelProps
import Verif.FourierLawsProps
import Verif.SpectrumSliceProps
import Verif.SpectrogramProps
import Verif.PowModProps

/-
C120: the laws of the short time Fourier transform: it is linear, a time shift by whole steps shifts the spectrogram,
the bins are bounded by the peak of the signal, a tone at the frequency of a bin has half of its amplitude in this bin and
the energy of the segments is the energy of the windowed signal.
-/

namespace Verif
namespace Stft

open Indexing Finset Dft

/-! ### Specification -/

/-- the parameters, for which the short time Fourier transform is computed; `o` is the overlap in samples -/
structure Usable (s window : Signal ℝ ℝ) (overlap : Idx) (o : Nat) : Prop where
  labels : s.labels.length = s.channels.rows
  rows : window.channels.rows = 1 ∨ window.channels.rows = s.channels.rows
  pos : 1 ≤ window.channels.cols
  long : window.channels.cols ≤ s.channels.cols
  index : index window.channels.cols overlap = some (o : Int)
  less : o < window.channels.cols
  rate : s.rate ≠ 0

/-- `b` is the short time Fourier transform of `s` -/
structure IsStft (s window : Signal ℝ ℝ) (o : Nat) (pad : Bool) (b : Spectrogram ℂ ℝ) : Prop where
  count : b.channels.d0 = s.channels.rows
  freqs : b.channels.d1 = window.channels.cols / 2 + 1
  length : b.channels.d2 = frames s.channels.cols window.channels.cols (window.channels.cols - o) pad
  resolution : b.resolution = s.rate / window.channels.cols
  rate : b.rate = s.rate / (window.channels.cols - o : Int)
  offset : b.offset = pyRound ((s.offset : ℚ) / ((window.channels.cols - o : Int) : ℚ))
  labels : b.labels = s.labels
  value : ∀ c k m, c < s.channels.rows → b.channels.get c k m =
    segment s.channels window.channels c k
      ((m * (window.channels.cols - o) : Nat) - (border window.channels.cols pad : Nat)) *
    compensation window.channels.cols (s.rate / window.channels.cols) s.rate
      (s.offset - pyRound ((s.offset : ℚ) / ((window.channels.cols - o : Int) : ℚ)) * (window.channels.cols - o : Int)) k

theorem isStft {s window : Signal ℝ ℝ} {overlap : Idx} {o : Nat} (h : Usable s window overlap o) (pad : Bool) :
    ∃ b, stftWith s window overlap pad = some (.ok b) ∧ IsStft s window o pad b := by
  obtain ⟨X, x1, x2, x3, x4, x5⟩ := transformed_value s window.channels o pad h.rows h.pos h.long h.less
  obtain ⟨q, hq⟩ : ∃ q, pyRound ((s.offset : ℚ) / ((window.channels.cols - o : Int) : ℚ)) = q := ⟨_, rfl⟩
  by_cases hz : s.offset - q * (window.channels.cols - o : Int) = 0
  · refine ⟨Spectrogram.new X (s.rate / window.channels.cols) (s.rate / (window.channels.cols - o : Int)) q (some s.labels),
      ?_, x2, x3, x4, rfl, rfl, hq.symm, ?_, ?_⟩
    · unfold stftWith
      show (Indexing.index window.channels.cols overlap >>= _) = _
      rw [h.index]
      show some (transformed s window.channels o pad >>= _) = _
      rw [x1]
      show some (if s.offset - pyRound ((s.offset : ℚ) / ((window.channels.cols - o : Int) : ℚ)) *
        (window.channels.cols - o : Int) = 0 then _ else _) = _
      rw [if_pos (by rw [hq]; exact hz)]
      show some (Except.ok (Spectrogram.new X _ _ (pyRound ((s.offset : ℚ) / ((window.channels.cols - o : Int) : ℚ))) _)) = _
      rw [hq]
      rfl
    · show sanitizeLabels (some s.labels) X.d0 = _
      exact Signal.sanitize_self (by rw [x2]; exact h.labels)
    · intro c k m hc
      rw [hq, hz, compensation_zero, mul_one]
      exact x5 c k m hc
  · refine ⟨Spectrogram.new ⟨X.d0, X.d1, X.d2, fun c k m => X.get c k m * compensation window.channels.cols
      (s.rate / window.channels.cols) s.rate (s.offset - q * (window.channels.cols - o : Int)) k⟩
      (s.rate / window.channels.cols) (s.rate / (window.channels.cols - o : Int)) q (some s.labels),
      ?_, x2, x3, x4, rfl, rfl, hq.symm, ?_, ?_⟩
    · unfold stftWith
      show (Indexing.index window.channels.cols overlap >>= _) = _
      rw [h.index]
      show some (transformed s window.channels o pad >>= _) = _
      rw [x1]
      show some (if s.offset - pyRound ((s.offset : ℚ) / ((window.channels.cols - o : Int) : ℚ)) *
        (window.channels.cols - o : Int) = 0 then _ else if s.rate = 0 then _ else _) = _
      rw [if_neg (by rw [hq]; exact hz), if_neg h.rate]
      show some (Except.ok (Spectrogram.new ⟨_, _, _, fun c k m => X.get c k m * compensation window.channels.cols
        (s.rate / window.channels.cols) s.rate (s.offset - pyRound ((s.offset : ℚ) /
        ((window.channels.cols - o : Int) : ℚ)) * (window.channels.cols - o : Int)) k⟩ _ _
        (pyRound ((s.offset : ℚ) / ((window.channels.cols - o : Int) : ℚ))) _)) = _
      rw [hq]
      rfl
    · show sanitizeLabels (some s.labels) X.d0 = _
      exact Signal.sanitize_self (by rw [x2]; exact h.labels)
    · intro c k m hc
      show X.get c k m * _ = _
      rw [x5 c k m hc, hq]

/-! ### Lemmas about segments -/

theorem extended_congr {x y : Mat ℝ} {c : Nat} (f : ℝ → ℝ) (hf : f 0 = 0) (hc : y.cols = x.cols)
    (h : ∀ i, i < x.cols → y.get c i = f (x.get c i)) (n : Int) : extended y c n = f (extended x c n) := by
  unfold extended
  rw [hc]
  split
  · rw [h _ (by omega)]
  · exact hf.symm

theorem segment_add {x y z w : Mat ℝ} {c : Nat} (hx : x.cols = z.cols) (hy : y.cols = z.cols)
    (h : ∀ i, i < z.cols → z.get c i = x.get c i + y.get c i) (k : Nat) (i : Int) :
    segment z w c k i = segment x w c k i + segment y w c k i := by
  unfold segment dft
  rw [← mul_add, ← Finset.sum_add_distrib]
  congr 1
  refine Finset.sum_congr rfl fun j _ => ?_
  have e : extended z c (i + j) = extended x c (i + j) + extended y c (i + j) := by
    unfold extended
    rw [hx, hy]
    split
    · rw [h _ (by omega)]
    · rw [add_zero]
  dsimp only
  rw [e]
  push_cast
  ring

theorem segment_mul {x z w : Mat ℝ} {c : Nat} (g : ℝ) (hx : x.cols = z.cols)
    (h : ∀ i, i < z.cols → z.get c i = x.get c i * g) (k : Nat) (i : Int) :
    segment z w c k i = segment x w c k i * g := by
  unfold segment dft
  rw [mul_assoc, Finset.sum_mul]
  congr 1
  refine Finset.sum_congr rfl fun j _ => ?_
  dsimp only
  rw [extended_congr (x := x) (y := z) (fun v => v * g) (zero_mul g) hx.symm (fun i hi => h i (by omega))]
  push_cast
  ring

theorem norm_compensation (W : Nat) (resolution rate : ℝ) (remainder : Int) (k : Nat) :
    ‖compensation W resolution rate remainder k‖ = 1 := by
  unfold compensation Fourier.clinspace
  rw [Complex.norm_exp]
  have : (((if W / 2 + 1 ≤ 1 then (0 : ℂ) else k * ((((W : ℂ) - 1) * (resolution : ℂ)) / (((W / 2 + 1 : Nat) : ℂ) - 1)))) *
      (-Complex.I * 2 * (Real.pi : ℂ) * (((remainder : ℝ) / rate : ℝ) : ℂ))) =
      (((if W / 2 + 1 ≤ 1 then (0 : ℝ) else k * ((((W : ℝ) - 1) * resolution) / (((W / 2 + 1 : Nat) : ℝ) - 1))) *
      (-2 * Real.pi * ((remainder : ℝ) / rate)) : ℝ) : ℂ) * Complex.I := by
    split
    · simp
    · push_cast
      ring
  rw [this, Complex.re_ofReal_mul, Complex.I_re, mul_zero, Real.exp_zero]

theorem norm_omega (N : Nat) (m : ℤ) : ‖omega N ^ m‖ = 1 := by
  rw [norm_zpow]
  unfold omega
  rw [show 2 * (Real.pi : ℂ) * Complex.I / N = ((2 * Real.pi / N : ℝ) : ℂ) * Complex.I by push_cast; ring,
    Complex.norm_exp_ofReal_mul_I, one_zpow]

/-! ### C120 -/

/-- C120: the short time Fourier transform of a sum is the sum of the short time Fourier transforms. -/
theorem C120_sum (m1 : Nat → Nat → ℝ) (m2 : Nat → Nat → Nat → ℂ) (x y window : Signal ℝ ℝ) (overlap : Idx) (o : Nat)
    (pad : Bool) (h : Usable x window overlap o) (hl : y.labels.length = y.channels.rows) (hcount : y.count = x.count)
    (hlength : y.length = x.length) (hoffset : y.offset = x.offset) (hrate : y.rate = x.rate) :
    ∃ sum S X Y XY, x.add m1 y = .ok sum ∧ stftWith sum window overlap pad = some (.ok S) ∧
      stftWith x window overlap pad = some (.ok X) ∧ stftWith y window overlap pad = some (.ok Y) ∧
      Spectrogram.algebra m2 (· + ·) none "Sum" X Y = .ok XY ∧ S.count = XY.count ∧ S.freqs = XY.freqs ∧
      S.length = XY.length ∧ S.resolution = XY.resolution ∧ S.rate = XY.rate ∧ S.offset = XY.offset ∧
      S.labels = XY.labels ∧ ∀ c k m, c < S.count → k < S.freqs → m < S.length →
        S.channels.get c k m = XY.channels.get c k m := by
  obtain ⟨sum, s1, s2, s3, s4, s5, s6, s7⟩ := Signal.algebra_aligned m1 (· + ·) none "Sum" x y hoffset.symm hcount.symm
    hlength.symm
  change sum.channels.rows = x.channels.rows at s4
  change sum.channels.cols = x.channels.cols at s5
  change y.channels.rows = x.channels.rows at hcount
  change y.channels.cols = x.channels.cols at hlength
  have hsum : Usable sum window overlap o := ⟨by rw [s6, List.length_replicate]; exact s4.symm, by rw [s4]; exact h.rows,
    h.pos, by rw [s5]; exact h.long, h.index, h.less, by rw [s2]; exact h.rate⟩
  have hy : Usable y window overlap o := ⟨hl, by rw [hcount]; exact h.rows,
    h.pos, by rw [hlength]; exact h.long, h.index, h.less, by rw [hrate]; exact h.rate⟩
  obtain ⟨S, a1, a2⟩ := isStft hsum pad
  obtain ⟨X, b1, b2⟩ := isStft h pad
  obtain ⟨Y, c1, c2⟩ := isStft hy pad
  have e1 : X.count = x.channels.rows := b2.count
  have e2 : Y.count = x.channels.rows := c2.count.trans hcount
  have e3 : S.count = x.channels.rows := a2.count.trans s4
  have e4 : Y.freqs = X.freqs := c2.freqs.trans b2.freqs.symm
  have e5 : S.freqs = X.freqs := a2.freqs.trans b2.freqs.symm
  have e6 : Y.length = X.length := by
    refine c2.length.trans ?_
    rw [hlength]
    exact b2.length.symm
  have e7 : S.length = X.length := by
    refine a2.length.trans ?_
    rw [s5]
    exact b2.length.symm
  have e8 : Y.offset = X.offset := by rw [c2.offset, b2.offset, hoffset]
  have e9 : S.offset = X.offset := by rw [a2.offset, b2.offset, s3]
  obtain ⟨XY, d1, d2⟩ := Spectrogram.C16_pointwise_partial m2 (· + ·) none "Sum" X Y
    ⟨by omega, by omega⟩ (by simp)
  have f1 := d2.count
  have f2 := d2.freqs
  have f3 := d2.offset
  have f4 := d2.stop
  refine ⟨sum, S, X, Y, XY, s1, a1, b1, c1, d1, by omega, by omega, by omega,
    by rw [a2.resolution, d2.resolution, b2.resolution, s2], by rw [a2.rate, d2.rate, b2.rate, s2], by omega, ?_, ?_⟩
  · rw [a2.labels, s6, d2.labels]
    congr 1
    show x.channels.rows = _
    omega
  · intro c k m hc hk hm
    rw [d2.value c k m (by omega) (by omega) (by omega),
      Spectrogram.bcast_some X c k (XY.offset + m) m (by omega) ⟨by omega, by omega, by omega, by omega⟩,
      Spectrogram.bcast_some Y c k (XY.offset + m) m (by omega) ⟨by omega, by omega, by omega, by omega⟩]
    show _ = X.channels.get _ k m + Y.channels.get _ k m
    rw [show Cube.ix X.count c = c from Cube.ix_lt (by omega), show Cube.ix Y.count c = c from Cube.ix_lt (by omega),
      a2.value c k m (by omega), b2.value c k m (by omega), c2.value c k m (by omega), s2, s3, hrate, hoffset,
      segment_add (x := x.channels) (y := y.channels) (by omega) (by omega)
        (fun i hi => s7 c i (by show c < x.channels.rows; omega) (by show i < x.channels.cols; omega))]
    ring

/-- C120: a gain of the signal is the same gain of the spectrogram. -/
theorem C120_gain (m1 : Nat → Nat → ℝ) (m2 : Nat → Nat → Nat → ℂ) (x window : Signal ℝ ℝ) (overlap : Idx) (o : Nat)
    (pad : Bool) (g : ℝ) (h : Usable x window overlap o) :
    ∃ y Y X Z, x.mulArray m1 (.scalar g) = .ok y ∧ stftWith y window overlap pad = some (.ok Y) ∧
      stftWith x window overlap pad = some (.ok X) ∧ Spectrogram.algebraArray m2 (· * ·) X (.scalar (g : ℂ)) = .ok Z ∧
      Y.count = Z.count ∧ Y.freqs = Z.freqs ∧ Y.length = Z.length ∧ Y.resolution = Z.resolution ∧ Y.rate = Z.rate ∧
      Y.offset = Z.offset ∧ Y.labels = Z.labels ∧ ∀ c k m, c < Y.count → k < Y.freqs → m < Y.length →
        Y.channels.get c k m = Z.channels.get c k m := by
  obtain ⟨y, y1, y2, y3, y4⟩ := Signal.array_number m1 (· * ·) x h.labels g
  have r1 : y.channels.rows = x.channels.rows := y2.count
  have r2 : y.channels.cols = x.channels.cols := y2.length
  have hy : Usable y window overlap o := ⟨y4, by rw [r1]; exact h.rows,
    h.pos, by rw [r2]; exact h.long, h.index, h.less, by rw [y2.rate]; exact h.rate⟩
  obtain ⟨Y, a1, a2⟩ := isStft hy pad
  obtain ⟨X, b1, b2⟩ := isStft h pad
  obtain ⟨⟨Z, z1, z2, z3, z4, z5, z6, z7, z8, z9⟩, -⟩ := Spectrogram.C88_spectrogram m2 (· * ·) X
    (by unfold Spectrogram.WF; rw [b2.labels, h.labels]; exact b2.count.symm) (.scalar (g : ℂ))
    ⟨Or.inr rfl, Or.inr rfl, Or.inr rfl⟩
  have e1 : X.count = x.channels.rows := b2.count
  have e2 : Y.count = x.channels.rows := a2.count.trans r1
  have e3 : Y.freqs = X.freqs := a2.freqs.trans b2.freqs.symm
  have e4 : Y.length = X.length := by
    refine a2.length.trans ?_
    rw [r2]
    exact b2.length.symm
  refine ⟨y, Y, X, Z, y1, a1, b1, z1, by omega, by omega, by omega, by rw [a2.resolution, z2, b2.resolution, y2.rate],
    by rw [a2.rate, z3, b2.rate, y2.rate], by rw [a2.offset, z4, b2.offset, y2.offset], by rw [a2.labels, z5, b2.labels, y3],
    ?_⟩
  intro c k m hc hk hm
  have := z9 c k m _ (Spectrogram.sample_eq_some.mpr ⟨show c < X.count by omega, show k < X.freqs by omega,
    show m < X.length by omega, rfl⟩)
  rw [Spectrogram.sample_eq_some] at this
  rw [this.2.2.2]
  show _ = X.channels.get c k m * (g : ℂ)
  rw [a2.value c k m (by omega), b2.value c k m (by omega), y2.rate, y2.offset,
    segment_mul (x := x.channels) g (by omega)
      (fun i hi => y2.get (by show c < x.channels.rows; omega) (by show i < x.channels.cols; omega))]
  ring

/-! ### Time shifts -/

theorem pyRound_add_int (q : ℚ) (n : Int) (h : 2 ∣ n ∨ q - ⌊q⌋ ≠ 1 / 2) : pyRound (q + n) = pyRound q + n := by
  unfold pyRound
  dsimp only
  rw [Int.floor_add_intCast, show q + n - ((⌊q⌋ + n : Int) : ℚ) = q - ⌊q⌋ by push_cast; ring]
  rcases lt_trichotomy (q - ⌊q⌋) (1 / 2) with h1 | h1 | h1
  · rw [if_pos h1, if_pos h1]
  · rw [h1]
    simp only [lt_irrefl, if_false]
    rcases h with h | h
    · split <;> split <;> omega
    · exact absurd h1 h
  · rw [if_neg (not_lt_of_gt h1), if_neg (not_lt_of_gt h1), if_pos h1, if_pos h1]
    ring

/-- C120: shifting a signal in time by a multiple of the step size shifts its spectrogram by the corresponding number of
samples. `_partial`: if the offset of the signal is in the middle between two multiples of the step size, this is only
shown for shifts by an even number of steps (`C120_shift_violated`). -/
theorem C120_shift_partial (m1 : Nat → Nat → ℝ) (m2 : Nat → Nat → Nat → ℂ) (x window : Signal ℝ ℝ) (overlap : Idx) (o : Nat)
    (pad : Bool) (n : Int) (h : Usable x window overlap o)
    (hn : 2 ∣ n ∨ 2 * (x.offset % (window.channels.cols - o : Int)) ≠ window.channels.cols - o) :
    ∃ y Y X Z, x.shift m1 (some (n * (window.channels.cols - o : Int))) .offset = .ok y ∧
      stftWith y window overlap pad = some (.ok Y) ∧ stftWith x window overlap pad = some (.ok X) ∧
      X.shift m2 (some n) .offset = .ok Z ∧ Y.count = Z.count ∧ Y.freqs = Z.freqs ∧ Y.length = Z.length ∧
      Y.resolution = Z.resolution ∧ Y.rate = Z.rate ∧ Y.offset = Z.offset ∧ Y.labels = Z.labels ∧
      ∀ c k m, c < Y.count → k < Y.freqs → m < Y.length → Y.channels.get c k m = Z.channels.get c k m := by
  obtain ⟨y, y1, y2, y3, y4, y5⟩ := Signal.shift_offset m1 x (n * (window.channels.cols - o : Int))
  have hy : Usable y window overlap o := ⟨by rw [y5 h.labels, y2]; exact h.labels, by rw [y2]; exact h.rows,
    h.pos, by rw [y2]; exact h.long, h.index, h.less, by rw [y3]; exact h.rate⟩
  obtain ⟨Y, a1, a2⟩ := isStft hy pad
  obtain ⟨X, b1, b2⟩ := isStft h pad
  obtain ⟨st, hst⟩ : ∃ st : Int, (window.channels.cols - o : Int) = st := ⟨_, rfl⟩
  have hpos : 0 < st := by have := h.less; omega
  have hposq : (0 : ℚ) < st := by exact_mod_cast hpos
  have hround : pyRound ((y.offset : ℚ) / (st : ℚ)) = pyRound ((x.offset : ℚ) / (st : ℚ)) + n := by
    rw [y4, hst, show (((x.offset + n * st : Int)) : ℚ) / (st : ℚ) = (x.offset : ℚ) / st + n by
      push_cast
      field_simp]
    refine pyRound_add_int _ _ (hn.imp_right fun h1 h2 => h1 ?_)
    rw [hst]
    have hf : ⌊(x.offset : ℚ) / (st : ℚ)⌋ = x.offset / st := by
      obtain ⟨d, rfl⟩ := Int.eq_ofNat_of_zero_le hpos.le
      exact_mod_cast Rat.floor_intCast_div_natCast x.offset d
    rw [hf, sub_eq_iff_eq_add, div_eq_iff hposq.ne'] at h2
    have h3 : ((2 * x.offset : Int) : ℚ) = ((st + 2 * (x.offset / st * st) : Int) : ℚ) := by
      push_cast
      rw [h2]
      ring
    have h4 : 2 * x.offset = st + 2 * (x.offset / st * st) := by exact_mod_cast h3
    have h5 := Int.emod_add_mul_ediv x.offset st
    rw [mul_comm] at h5
    omega
  obtain ⟨Z, z1, z2, z3, z4, z5, z6⟩ : ∃ Z, X.shift m2 (some n) .offset = .ok Z ∧ Z.channels = X.channels ∧
      Z.resolution = X.resolution ∧ Z.rate = X.rate ∧ Z.offset = X.offset + n ∧ Z.labels = X.labels := by
    unfold Spectrogram.shift
    by_cases hz : n = 0
    · subst hz
      exact ⟨X, by simp, rfl, rfl, rfl, by simp, rfl⟩
    · rw [if_neg (by simpa using hz)]
      exact ⟨_, rfl, rfl, rfl, rfl, rfl, Signal.sanitize_self (by rw [b2.labels, b2.count]; exact h.labels)⟩
  refine ⟨y, Y, X, Z, y1, a1, b1, z1, ?_, ?_, ?_, by rw [a2.resolution, z3, b2.resolution, y3],
    by rw [a2.rate, z4, b2.rate, y3], ?_, by rw [a2.labels, z6, b2.labels, y5 h.labels], ?_⟩
  · show Y.channels.d0 = Z.channels.d0
    rw [z2, a2.count, b2.count, y2]
  · show Y.channels.d1 = Z.channels.d1
    rw [z2, a2.freqs, b2.freqs]
  · show Y.channels.d2 = Z.channels.d2
    rw [z2, a2.length, b2.length, y2]
  · rw [a2.offset, z5, b2.offset, hst, hround]
  · intro c k m hc hk hm
    change c < Y.channels.d0 at hc
    rw [a2.count, y2] at hc
    rw [z2, a2.value c k m (by rw [y2]; exact hc), b2.value c k m hc, y2, y3, hst, hround, y4, hst]
    congr 2
    ring

/-- the signal, for which a shift by one step is wrong -/
noncomputable def between (offset : Int) : Signal ℝ ℝ := ⟨⟨1, 4, fun _ i => if i = 0 then 1 else 0⟩, 4, offset, [""]⟩

theorem between_usable (offset : Int) : Usable (between offset) ones (.int 2) 2 :=
  ⟨rfl, Or.inl rfl, by decide, Nat.le_refl 4, by decide, by decide, by show (4 : ℝ) ≠ 0; norm_num⟩

/-- C120 is violated: if the offset of the signal is in the middle between two multiples of the step size, then shifting the
signal by one step shifts the spectrogram by two samples, because the offset is rounded to even integers. -/
theorem C120_shift_violated : ∃ y X Y, (between 1).shift (fun _ _ => 0) (some 2) .offset = .ok y ∧
    stftWith (between 1) ones (.int 2) false = some (.ok X) ∧ stftWith y ones (.int 2) false = some (.ok Y) ∧
    Usable (between 1) ones (.int 2) 2 ∧ X.offset = 0 ∧ Y.offset = 2 ∧
    Y.channels.get 0 1 0 ≠ X.channels.get 0 1 0 := by
  obtain ⟨X, b1, b2⟩ := isStft (between_usable 1) false
  obtain ⟨Y, a1, a2⟩ := isStft (between_usable 3) false
  have hseg : ∀ offset : Int, segment (between offset).channels ones.channels 0 1
      ((0 * (ones.channels.cols - 2) : Nat) - (border ones.channels.cols false : Nat)) = 1 / 4 := by
    intro offset
    unfold segment dft windowSum between ones border extended Blockwise.pick
    simp [Finset.sum_range_succ]
  have hcol : ((ones.channels.cols : Int) - ((2 : Nat) : Int) : Int) = 2 := by decide
  have r1 : pyRound (((1 : Int) : ℚ) / ((2 : Int) : ℚ)) = 0 := by
    unfold pyRound
    norm_num
  have r2 : pyRound (((3 : Int) : ℚ) / ((2 : Int) : ℚ)) = 2 := by
    have hf : ⌊(((3 : Int) : ℚ) / ((2 : Int) : ℚ))⌋ = 1 := by
      rw [Int.floor_eq_iff]
      norm_num
    unfold pyRound
    dsimp only
    rw [hf]
    norm_num
  have o1 := b2.offset
  have o2 := a2.offset
  rw [hcol] at o1 o2
  have v1 := b2.value 0 1 0 (by decide)
  have v2 := a2.value 0 1 0 (by decide)
  rw [hseg, hcol] at v1 v2
  change X.offset = pyRound (((1 : Int) : ℚ) / ((2 : Int) : ℚ)) at o1
  change Y.offset = pyRound (((3 : Int) : ℚ) / ((2 : Int) : ℚ)) at o2
  rw [r1] at o1
  rw [r2] at o2
  change _ = _ * compensation 4 _ _ ((1 : Int) - pyRound (((1 : Int) : ℚ) / ((2 : Int) : ℚ)) * 2) 1 at v1
  change _ = _ * compensation 4 _ _ ((3 : Int) - pyRound (((3 : Int) : ℚ) / ((2 : Int) : ℚ)) * 2) 1 at v2
  rw [r1] at v1
  rw [r2] at v2
  refine ⟨between 3, X, Y, rfl, b1, a1, between_usable 1, o1, o2, ?_⟩
  have hc : ∀ r : Int, compensation 4 (4 / 4) 4 r 1 = Complex.exp (((-(3 * Real.pi / 4 * r) : ℝ) : ℂ) * Complex.I) := by
    intro r
    unfold compensation Fourier.clinspace
    rw [if_neg (by omega)]
    congr 1
    push_cast
    ring
  have w1 : X.channels.get 0 1 0 = 1 / 4 * compensation 4 (4 / 4) 4 1 1 := v1
  have w2 : Y.channels.get 0 1 0 = 1 / 4 * compensation 4 (4 / 4) 4 (-1) 1 := v2
  rw [w1, w2, hc, hc]
  intro heq
  have h5 := mul_left_cancel₀ (by norm_num) heq
  have h8 := congrArg Complex.im h5
  rw [Complex.exp_ofReal_mul_I_im, Complex.exp_ofReal_mul_I_im, Real.sin_neg, Real.sin_neg,
    show 3 * Real.pi / 4 * ((-1 : Int) : ℝ) = -(Real.pi - Real.pi / 4) by push_cast; ring, Real.sin_neg,
    show 3 * Real.pi / 4 * ((1 : Int) : ℝ) = Real.pi - Real.pi / 4 by push_cast; ring, Real.sin_pi_sub,
    Real.sin_pi_div_four] at h8
  have : (0 : ℝ) < Real.sqrt 2 := Real.sqrt_pos.mpr (by norm_num)
  linarith

/-! ### Bounds -/

/-- C120: the bins of the spectrogram of a signal, whose samples have at most the magnitude `M`, have at most the magnitude
`M`, if the samples of the window are not negative. -/
theorem C120_bounded (s window : Signal ℝ ℝ) (overlap : Idx) (o : Nat) (pad : Bool) (M : ℝ) (h : Usable s window overlap o)
    (hM : ∀ c i, c < s.count → i < s.length → |s.channels.get c i| ≤ M)
    (hw : ∀ c j, c < window.count → j < window.length → 0 ≤ window.channels.get c j) :
    ∃ b, stftWith s window overlap pad = some (.ok b) ∧ ∀ c k m, c < b.count → ‖b.channels.get c k m‖ ≤ M := by
  obtain ⟨b, b1, b2⟩ := isStft h pad
  refine ⟨b, b1, fun c k m hc => ?_⟩
  change c < b.channels.d0 at hc
  rw [b2.count] at hc
  rw [b2.value c k m hc, norm_mul, norm_compensation, mul_one]
  obtain ⟨i, hi⟩ : ∃ i : Int, ((m * (window.channels.cols - o) : Nat) : Int) - (border window.channels.cols pad : Nat) = i :=
    ⟨_, rfl⟩
  rw [hi]
  obtain ⟨r, hr⟩ : ∃ r, Blockwise.pick window.channels.rows c = r := ⟨_, rfl⟩
  have hrw : r < window.count := by
    have h1 := h.rows
    show r < window.channels.rows
    rw [← hr]
    unfold Blockwise.pick
    split <;> omega
  have hM0 : 0 ≤ M := le_trans (abs_nonneg _) (hM c 0 hc (by have := h.pos; have := h.long; show 0 < s.channels.cols; omega))
  have hext : ∀ n : Int, |extended s.channels c n| ≤ M := by
    intro n
    unfold extended
    split
    · exact hM c _ hc (by show _ < s.channels.cols; omega)
    · rw [abs_zero]
      exact hM0
  have hsum : 0 ≤ windowSum (window.channels.get r) window.channels.cols :=
    Finset.sum_nonneg fun j hj => hw r j hrw (Finset.mem_range.mp hj)
  unfold segment
  rw [hr, norm_mul, Complex.norm_real, Real.norm_eq_abs, abs_of_nonneg (by positivity), abs_of_nonneg hsum]
  have hd : ‖dft window.channels.cols (fun j => extended s.channels c (i + j) * window.channels.get r j) k‖ ≤
      M * windowSum (window.channels.get r) window.channels.cols := by
    unfold dft windowSum
    rw [Finset.mul_sum]
    refine (norm_sum_le _ _).trans (Finset.sum_le_sum fun j hj => ?_)
    have hwj := hw r j hrw (Finset.mem_range.mp hj)
    rw [norm_mul, norm_omega, mul_one, Complex.norm_real, Real.norm_eq_abs, abs_mul, abs_of_nonneg hwj]
    exact mul_le_mul_of_nonneg_right (hext _) hwj
  rcases hsum.eq_or_lt with h0 | h0
  · rw [← h0, div_zero, zero_mul]
    exact hM0
  · rw [div_mul_eq_mul_div, one_mul, div_le_iff₀ h0]
    exact hd

/-! ### Tones -/

/-- the transform of a segment of a tone, whose frequency is that of the bin `k` -/
theorem segment_tone (x w : Mat ℝ) (c k : Nat) (i : Int) (A phase : ℝ) (hi : 0 ≤ i) (hL : i + w.cols ≤ x.cols)
    (hW : 1 ≤ w.cols)
    (hx : ∀ n, n < x.cols → x.get c n = A * Real.cos (2 * Real.pi * k * n / w.cols + phase))
    (hs : 0 < windowSum (w.get (Blockwise.pick w.rows c)) w.cols)
    (hw : dft w.cols (w.get (Blockwise.pick w.rows c)) (2 * k) = 0) :
    segment x w c k i = (A / 2 : ℝ) * Complex.exp (((2 * Real.pi * k * i / w.cols + phase : ℝ) : ℂ) * Complex.I) := by
  obtain ⟨v, hv⟩ : ∃ v, w.get (Blockwise.pick w.rows c) = v := ⟨_, rfl⟩
  unfold segment
  rw [hv] at hs hw ⊢
  have hWc : (w.cols : ℂ) ≠ 0 := Nat.cast_ne_zero.mpr (by omega)
  obtain ⟨E, hE⟩ : ∃ E : ℂ, Complex.exp (((2 * Real.pi * k * i / w.cols + phase : ℝ) : ℂ) * Complex.I) = E := ⟨_, rfl⟩
  obtain ⟨E', hE'⟩ : ∃ E : ℂ, Complex.exp (-((2 * Real.pi * k * i / w.cols + phase : ℝ) : ℂ) * Complex.I) = E := ⟨_, rfl⟩
  have hterm : ∀ j ∈ range w.cols, ((extended x c (i + j) * v j : ℝ) : ℂ) * omega w.cols ^ (-((k : ℤ) * j)) =
      (A / 2 : ℝ) * E * (v j : ℂ) + (A / 2 : ℝ) * E' * ((v j : ℂ) * omega w.cols ^ (-((2 * k : ℤ) * j))) := by
    intro j hj
    rw [Finset.mem_range] at hj
    have e1 : extended x c (i + j) = A * Real.cos (2 * Real.pi * k * (i + j : Int) / w.cols + phase) := by
      unfold extended
      rw [if_pos (by omega), hx _ (by omega)]
      have : (((i + j).toNat : Nat) : ℝ) = ((i + j : Int) : ℝ) := by
        rw [← Int.cast_natCast, Int.toNat_of_nonneg (by omega)]
      rw [this]
    rw [e1, Complex.ofReal_mul, Complex.ofReal_mul, Complex.ofReal_cos, Complex.cos, ← hE, ← hE', Fourier.omega_zpow,
      Fourier.omega_zpow]
    have f1 : Complex.exp (((2 * Real.pi * k * (i + j : Int) / w.cols + phase : ℝ) : ℂ) * Complex.I) *
        Complex.exp (2 * Real.pi * Complex.I * ((-((k : ℤ) * j) : ℤ) : ℂ) / w.cols) =
        Complex.exp (((2 * Real.pi * k * i / w.cols + phase : ℝ) : ℂ) * Complex.I) := by
      rw [← Complex.exp_add]
      congr 1
      push_cast
      field_simp
      ring
    have f2 : Complex.exp (-((2 * Real.pi * k * (i + j : Int) / w.cols + phase : ℝ) : ℂ) * Complex.I) *
        Complex.exp (2 * Real.pi * Complex.I * ((-((k : ℤ) * j) : ℤ) : ℂ) / w.cols) =
        Complex.exp (-((2 * Real.pi * k * i / w.cols + phase : ℝ) : ℂ) * Complex.I) *
        Complex.exp (2 * Real.pi * Complex.I * ((-((2 * k : ℤ) * j) : ℤ) : ℂ) / w.cols) := by
      rw [← Complex.exp_add, ← Complex.exp_add]
      congr 1
      push_cast
      field_simp
      ring
    rw [← f1, mul_assoc _ (Complex.exp (-_ * Complex.I)), mul_left_comm (Complex.exp (-_ * Complex.I)), ← f2]
    push_cast
    ring
  unfold dft at hw ⊢
  dsimp only
  rw [Finset.sum_congr rfl hterm, Finset.sum_add_distrib, ← Finset.mul_sum, ← Finset.mul_sum, hw, mul_zero, add_zero,
    ← Complex.ofReal_sum, abs_of_pos hs, hE]
  show _ * (_ * ((windowSum v w.cols : ℝ) : ℂ)) = _
  have hsc : ((windowSum v w.cols : ℝ) : ℂ) ≠ 0 := Complex.ofReal_ne_zero.mpr hs.ne'
  push_cast
  field_simp

/-- C120: a tone, whose frequency is that of the bin `k`, has half of its amplitude in this bin of each segment, that is
inside of the signal, if the transform of the window is zero at the doubled frequency. -/
theorem C120_tone (s window : Signal ℝ ℝ) (overlap : Idx) (o : Nat) (pad : Bool) (c k m : Nat) (A phase : ℝ)
    (h : Usable s window overlap o) (hc : c < s.count)
    (hm0 : border window.length pad ≤ m * (window.length - o))
    (hm1 : m * (window.length - o) + window.length ≤ s.length + border window.length pad)
    (hx : ∀ n, n < s.length → s.channels.get c n = A * Real.cos (2 * Real.pi * (k * (s.rate / window.length)) *
      (n / s.rate) + phase))
    (hs : ∀ r, r < window.count → 0 < windowSum (window.channels.get r) window.length)
    (hw : ∀ r, r < window.count → dft window.length (window.channels.get r) (2 * k) = 0) :
    ∃ b, stftWith s window overlap pad = some (.ok b) ∧ ‖b.channels.get c k m‖ = |A| / 2 := by
  obtain ⟨b, b1, b2⟩ := isStft h pad
  refine ⟨b, b1, ?_⟩
  have hW : (window.channels.cols : ℝ) ≠ 0 := Nat.cast_ne_zero.mpr (by have := h.pos; omega)
  have hr : Blockwise.pick window.channels.rows c < window.count := by
    have h1 := h.rows
    change c < s.channels.rows at hc
    show _ < window.channels.rows
    unfold Blockwise.pick
    split <;> omega
  rw [b2.value c k m hc, norm_mul, norm_compensation, mul_one, segment_tone s.channels window.channels c k _ A phase
    (by change border window.channels.cols pad ≤ m * (window.channels.cols - o) at hm0; omega)
    (by
      change m * (window.channels.cols - o) + window.channels.cols ≤
        s.channels.cols + border window.channels.cols pad at hm1
      omega) h.pos (by
      intro n hn
      rw [hx n hn]
      congr 3
      have := h.rate
      show 2 * Real.pi * (k * (s.rate / window.channels.cols)) * (n / s.rate) = _
      field_simp) (hs _ hr) (hw _ hr), norm_mul, Complex.norm_exp_ofReal_mul_I, mul_one, Complex.norm_real,
    Real.norm_eq_abs, abs_div, abs_of_pos (show (0 : ℝ) < 2 by norm_num)]

/-- the transform of the periodic Hann window is zero at even frequencies other than 0 Hz -/
theorem dft_hann (w : Nat → ℝ) (M k : Nat) (hM : 0 < M) (hk : ¬ M ∣ k)
    (hw : ∀ j, j < 2 * M → w j = Windows.hanning (2 * M + 1) j) : dft (2 * M) w (2 * k) = 0 := by
  have hterm : ∀ j ∈ range (2 * M), (w j : ℂ) * omega (2 * M) ^ (-((2 * k : ℤ) * j)) =
      1 / 2 * omega (2 * M) ^ ((j : ℤ) * (-(2 * k))) - 1 / 4 * omega (2 * M) ^ ((j : ℤ) * (1 - 2 * k)) -
        1 / 4 * omega (2 * M) ^ ((j : ℤ) * (-1 - 2 * k)) := by
    intro j hj
    rw [Finset.mem_range] at hj
    have hMr : ((M : ℕ) : ℝ) ≠ 0 := Nat.cast_ne_zero.mpr (by omega)
    have hMc : ((M : ℕ) : ℂ) ≠ 0 := Nat.cast_ne_zero.mpr (by omega)
    have e1 : w j = 1 / 2 - 1 / 2 * Real.cos (2 * Real.pi * j / (2 * M : Nat)) := by
      rw [hw j hj]
      unfold Windows.hanning
      rw [if_neg (by omega), show Real.pi * (1 - ((2 * M + 1 : Nat) : ℝ) + 2 * j) / (((2 * M + 1 : Nat) : ℝ) - 1) =
        2 * Real.pi * j / (2 * M : Nat) - Real.pi by push_cast; field_simp; ring, Real.cos_sub_pi]
      ring
    have e2 : ((Real.cos (2 * Real.pi * j / (2 * M : Nat)) : ℝ) : ℂ) = (omega (2 * M) ^ (j : ℤ) +
        omega (2 * M) ^ (-(j : ℤ))) / 2 := by
      rw [Complex.ofReal_cos, Complex.cos, Fourier.omega_zpow, Fourier.omega_zpow]
      congr 3 <;> (push_cast; ring)
    have hadd := fun a b : ℤ => zpow_add₀ (omega_ne_zero (2 * M)) a b
    rw [e1, show (j : ℤ) * (1 - 2 * k) = j + -((2 * k : ℤ) * j) by ring,
      show (j : ℤ) * (-1 - 2 * k) = -(j : ℤ) + -((2 * k : ℤ) * j) by ring,
      show (j : ℤ) * (-(2 * k)) = -((2 * k : ℤ) * j) by ring, hadd, hadd]
    push_cast
    push_cast at e2
    rw [e2]
    ring
  unfold dft
  rw [Finset.sum_congr rfl hterm, Finset.sum_sub_distrib, Finset.sum_sub_distrib, ← Finset.mul_sum, ← Finset.mul_sum,
    ← Finset.mul_sum, sum_omega (by omega), sum_omega (by omega), sum_omega (by omega), if_neg, if_neg, if_neg]
  · ring
  · rintro ⟨d, hd⟩
    push_cast at hd
    have : (2 : ℤ) ∣ 1 := ⟨-(M * d) - k, by linarith⟩
    omega
  · rintro ⟨d, hd⟩
    push_cast at hd
    have : (2 : ℤ) ∣ 1 := ⟨M * d + k, by linarith⟩
    omega
  · rintro ⟨d, hd⟩
    push_cast at hd
    refine hk (Int.natCast_dvd_natCast.mp ⟨-d, ?_⟩)
    linarith

/-- C120: with an even window length and the default values of the other parameters, a tone, whose frequency is that of the
bin `k`, has half of its amplitude in this bin of each segment, that is inside of the signal. -/
theorem C120_tone_default (mem : Nat → Nat → ℝ) (s : Signal ℝ ℝ) (M c k m : Nat) (A phase : ℝ)
    (hl : s.labels.length = s.channels.rows) (hr : s.rate ≠ 0) (hM : 0 < M) (hL : 2 * M ≤ s.length) (hc : c < s.count)
    (hk : ¬ M ∣ k) (hm0 : 1 ≤ m) (hm1 : m * M + M ≤ s.length)
    (hx : ∀ n, n < s.length → s.channels.get c n = A * Real.cos (2 * Real.pi * (k * (s.rate / (2 * M : Nat))) *
      (n / s.rate) + phase)) :
    ∃ b, stft mem s (.int (2 * M)) (.float (1 / 2)) true = some (.ok b) ∧ ‖b.channels.get c k m‖ = |A| / 2 := by
  obtain ⟨w, h1, h2, h3⟩ := Windows.C43_hann_overlap (R := ℝ) mem M hM s.rate
  obtain ⟨w', h1', g1, _, _, g2, _, g4⟩ := Windows.C42_samples mem Windows.hanning "Hann window" (.int 0) s.rate 0 (2 * M)
    false rfl (by omega)
  rw [h1] at h1'
  cases h1'
  have hpair : ∀ j, j < M → w.channels.get 0 j + w.channels.get 0 (j + M) = 1 := by
    intro j hj
    have := h3 j
    unfold Windows.overlapSum at this
    rw [Windows.filter_half M j hM, Finset.sum_pair (by omega), Nat.mod_eq_of_lt hj] at this
    exact this
  have hsum : windowSum (w.channels.get 0) (2 * M) = M := by
    have h : ∀ j ∈ range M, w.channels.get 0 j + w.channels.get 0 (M + j) = 1 := by
      intro j hj
      rw [add_comm M j]
      exact hpair j (Finset.mem_range.mp hj)
    unfold windowSum
    rw [show 2 * M = M + M by omega, Finset.sum_range_add, ← Finset.sum_add_distrib, Finset.sum_congr rfl h]
    simp
  have hlen : w.length = 2 * M := h2
  have hcount : w.count = 1 := g2
  have hu : Usable s w (.float (1 / 2)) M := ⟨hl, Or.inl g2, by omega, by rw [h2]; exact hL,
    by rw [h2]; exact index_half M, by omega, hr⟩
  obtain ⟨b, b1, b2⟩ := C120_tone s w (.float (1 / 2)) M true c k m A phase hu hc
    (by
      rw [hlen, show 2 * M - M = M by omega]
      show (2 * M) / 2 ≤ _
      have := Nat.mul_le_mul_right M hm0
      omega)
    (by
      rw [hlen, show 2 * M - M = M by omega]
      show _ ≤ s.length + (2 * M) / 2
      omega)
    (by rw [hlen]; exact hx)
    (by
      intro r hr
      rw [show r = 0 by omega, hlen, hsum]
      exact_mod_cast hM)
    (by
      intro r hr
      rw [show r = 0 by omega, hlen]
      refine dft_hann _ M k hM hk fun j hj => ?_
      rw [g4 j hj]
      rfl)
  refine ⟨b, ?_, b2⟩
  unfold stft Blockwise.getWindow
  dsimp only
  rw [if_neg (by unfold Blockwise.isZero; norm_num), h1]
  exact b1

/-! ### Energy -/

/-- the energy of the samples of a segment: the bins between 0 Hz and half of the sampling rate have to be counted twice -/
noncomputable def segmentEnergy (X : Nat → ℂ) (M : Nat) : ℝ :=
  (∑ k ∈ Ico 1 M, ‖X k‖ ^ 2) * 2 + ‖X 0‖ ^ 2 + ‖X M‖ ^ 2

/-- the samples of the segments, counted along the time -/
theorem sum_segments (x : Mat ℝ) (w : Nat → ℝ) (c W st F B : Nat) :
    ∑ m ∈ range F, ∑ j ∈ range W, (extended x c (((m * st : Nat) : Int) - (B : Nat) + j) * w j) ^ 2 =
      ∑ n ∈ range x.cols, x.get c n ^ 2 * overlapAdd (fun _ j => w j * w j) W st F (n + B) := by
  have e : ∀ n, x.get c n ^ 2 * overlapAdd (fun _ j => w j * w j) W st F (n + B) =
      ∑ m ∈ range F, if m * st ≤ n + B ∧ n + B < m * st + W then
        (x.get c n * w (n + B - m * st)) ^ 2 else 0 := by
    intro n
    unfold overlapAdd
    rw [Finset.mul_sum]
    refine Finset.sum_congr rfl fun m _ => ?_
    split
    · ring
    · rw [mul_zero]
  simp only [e]
  rw [Finset.sum_comm (s := range x.cols)]
  refine Finset.sum_congr rfl fun m _ => ?_
  have e2 : ∀ j ∈ range W, (extended x c (((m * st : Nat) : Int) - (B : Nat) + j) * w j) ^ 2 =
      if B ≤ m * st + j ∧ m * st + j < x.cols + B then (x.get c (m * st + j - B) * w j) ^ 2 else 0 := by
    intro j _
    unfold extended
    by_cases h : B ≤ m * st + j ∧ m * st + j < x.cols + B
    · rw [if_pos (by omega), if_pos h]
      congr 3
      omega
    · rw [if_neg (by omega), if_neg h]
      ring
  rw [Finset.sum_congr rfl e2, ← Finset.sum_filter, ← Finset.sum_filter]
  refine Finset.sum_nbij' (fun j => m * st + j - B) (fun n => n + B - m * st) ?_ ?_ ?_ ?_ ?_
  · intro j hj
    rw [Finset.mem_filter, Finset.mem_range] at hj ⊢
    omega
  · intro n hn
    rw [Finset.mem_filter, Finset.mem_range] at hn ⊢
    omega
  · intro j hj
    rw [Finset.mem_filter, Finset.mem_range] at hj
    omega
  · intro n hn
    rw [Finset.mem_filter, Finset.mem_range] at hn
    omega
  · intro j hj
    rw [Finset.mem_filter, Finset.mem_range] at hj
    rw [show m * st + j - B + B - m * st = j by omega]

theorem energy_core (X : Nat → ℂ) (D : Nat → ℝ) (S : ℝ) {W M : Nat} (hW : W = 2 * M) (hM : 0 < M)
    (hX : ∀ k : Nat, ‖X k‖ ^ 2 = 1 / S ^ 2 * ‖dft (2 * M) D k‖ ^ 2) :
    segmentEnergy X M = W / S ^ 2 * ∑ j ∈ range W, D j ^ 2 := by
  have hp := Level.parseval_half hM D
  unfold segmentEnergy
  simp only [hX, ← Finset.mul_sum]
  rw [hW]
  linear_combination (1 / S ^ 2) * hp

/-- C120: Parseval's theorem: for windows with an even length, the energy of the spectrogram is the energy of the signal,
where the samples are weighted with the sum of the squared windows, that cover them. The scaling is the length of the window
divided by the squared sum of its samples. -/
theorem C120_energy (s window : Signal ℝ ℝ) (overlap : Idx) (o : Nat) (pad : Bool) (M c : Nat)
    (h : Usable s window overlap o) (hM : window.length = 2 * M) (hc : c < s.count) :
    ∃ b, stftWith s window overlap pad = some (.ok b) ∧
      ∑ m ∈ range b.length, segmentEnergy (fun k => b.channels.get c k m) M =
        (window.length : ℝ) / windowSum (window.channels.get (Blockwise.pick window.count c)) window.length ^ 2 *
          ∑ n ∈ range s.length, s.channels.get c n ^ 2 * overlapAdd
            (fun _ j => window.channels.get (Blockwise.pick window.count c) j *
              window.channels.get (Blockwise.pick window.count c) j) window.length (window.length - o) b.length
            (n + border window.length pad) := by
  obtain ⟨b, b1, b2⟩ := isStft h pad
  refine ⟨b, b1, ?_⟩
  have hpos : 0 < M := by
    have := h.pos
    change window.channels.cols = 2 * M at hM
    omega
  change _ = (window.channels.cols : ℝ) / windowSum (window.channels.get (Blockwise.pick window.channels.rows c))
    window.channels.cols ^ 2 * ∑ n ∈ range s.channels.cols, s.channels.get c n ^ 2 * overlapAdd
      (fun _ j => window.channels.get (Blockwise.pick window.channels.rows c) j *
        window.channels.get (Blockwise.pick window.channels.rows c) j) window.channels.cols (window.channels.cols - o) b.length
        (n + border window.channels.cols pad)
  change window.channels.cols = 2 * M at hM
  rw [← sum_segments, Finset.mul_sum]
  refine Finset.sum_congr rfl fun m _ => ?_
  have hn : ∀ k : Nat, ‖b.channels.get c k m‖ ^ 2 = (1 / windowSum (window.channels.get (Blockwise.pick window.channels.rows c))
      window.channels.cols ^ 2) * ‖dft (2 * M) (fun j => extended s.channels c (((m * (window.channels.cols - o) : Nat) : Int) -
        (border window.channels.cols pad : Nat) + j) * window.channels.get (Blockwise.pick window.channels.rows c) j) k‖ ^ 2 := by
    intro k
    rw [b2.value c k m hc, norm_mul, norm_compensation, mul_one]
    unfold segment
    rw [norm_mul, Complex.norm_real, Real.norm_eq_abs, mul_pow, sq_abs, one_div, inv_pow, sq_abs, one_div, ← hM]
  exact energy_core _ _ _ hM hpos hn

/-- a signal with an offset, that is not a multiple of the step size, and a window with two channels -/
example : ∃ (s window : Signal ℝ ℝ) (o : Nat), Usable s window (.int o) o ∧ s.offset ≠ 0 ∧ window.count = 2 ∧
    2 * (s.offset % (window.channels.cols - o : Int)) ≠ window.channels.cols - o ∧ window.length = 2 * 3 ∧
    (∀ c i, c < s.count → i < s.length → |s.channels.get c i| ≤ 1) ∧
    ∀ c j, c < window.count → j < window.length → 0 ≤ window.channels.get c j :=
  ⟨⟨⟨2, 9, fun _ i => (-1) ^ i⟩, 48000, -7, ["a", "b"]⟩, ⟨⟨2, 6, fun c i => c + i + 1⟩, 48000, 0, ["v", "w"]⟩, 3,
    ⟨rfl, Or.inr rfl, by decide, by decide, by decide, by decide, by norm_num⟩, by decide, rfl, by decide, rfl,
    fun _ i _ _ => by show |(-1 : ℝ) ^ i| ≤ 1; rw [abs_pow]; simp, fun c j _ _ => by show (0 : ℝ) ≤ c + j + 1; positivity⟩

/-- a rectangular window, whose transform is zero at the doubled frequency of the first bin -/
example : (∀ r, r < ones.count → 0 < windowSum (ones.channels.get r) ones.length) ∧
    ∀ r, r < ones.count → dft ones.length (ones.channels.get r) (2 * (1 : Nat)) = 0 := by
  constructor
  · intro r _
    show 0 < ∑ j ∈ range 4, (1 : ℝ)
    norm_num
  · intro r _
    show ∑ j ∈ range 4, ((1 : ℝ) : ℂ) * omega 4 ^ (-((2 * ((1 : Nat) : ℤ)) * (j : ℤ))) = 0
    have h := sum_omega (N := 4) (by omega) (-2)
    rw [if_neg (by decide)] at h
    rw [← h]
    refine Finset.sum_congr rfl fun j _ => ?_
    rw [Complex.ofReal_one, one_mul]
    congr 1
    push_cast
    ring

end Stft
end Verif
