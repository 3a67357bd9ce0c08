import Verif.Stft
import Verif.BlockwiseProps
import Verif.IndexingProps

/-
C30: The segments of the short time Fourier transform
C68: The offset of the short time Fourier transform
C69: The inverse of the short time Fourier transform
-/

namespace Verif
namespace Stft

open Indexing Finset Dft

/-! ### The segments -/

/-- the padded length is covered by the segments without a remainder -/
theorem total (L W s : Nat) (hs : 0 < s) (hsW : s ≤ W) (hL : W ≤ L) :
    L + 2 * (W / 2) + added L W s true = W + (frames L W s true - 1) * s ∧ 1 ≤ frames L W s true ∧
      added L W s true < s := by
  obtain ⟨a, ha⟩ : ∃ a : Nat, a = L + 2 * (W / 2) - W := ⟨_, rfl⟩
  have h1 : added L W s true = ((-(a : Int)) % s).toNat := by
    unfold added
    rw [if_pos rfl, show (L : Int) + 2 * (W / 2 : Nat) - W = (a : Nat) by omega]
    have h0 : 0 ≤ (-(a : Int)) % s := Int.emod_nonneg _ (by omega)
    have h1 : (-(a : Int)) % s < s := Int.emod_lt_of_pos _ (by omega)
    rw [Int.emod_eq_of_lt h0 (by omega)]
  have h0 : 0 ≤ (-(a : Int)) % s := Int.emod_nonneg _ (by omega)
  have h2 : (-(a : Int)) % s < s := Int.emod_lt_of_pos _ (by omega)
  obtain ⟨q, hq⟩ : (s : Int) ∣ a + (-(a : Int)) % s := by
    have := Int.dvd_self_sub_emod (x := -(a : Int)) (m := s)
    have h3 := (dvd_neg (a := (s : Int))).mpr this
    rwa [show -(-(a : Int) - -(a : Int) % s) = a + (-(a : Int)) % s by ring] at h3
  have hq0 : 0 ≤ q := by
    by_contra h
    have : (s : Int) * q < 0 := mul_neg_of_pos_of_neg (by omega) (by omega)
    omega
  obtain ⟨p, rfl⟩ : ∃ p : Nat, q = p := ⟨q.toNat, by omega⟩
  have hp : a + added L W s true = s * p := by
    have : ((a + added L W s true : Nat) : Int) = ((s * p : Nat) : Int) := by
      rw [h1]
      push_cast
      rw [Int.toNat_of_nonneg h0]
      exact hq
    exact_mod_cast this
  have hf : frames L W s true = p + 1 := by
    unfold frames border
    rw [if_pos rfl, show L + 2 * (W / 2) + added L W s true - W = s * p by omega, Nat.mul_div_cancel_left _ hs]
  refine ⟨?_, by omega, by omega⟩
  rw [hf, Nat.add_sub_cancel, mul_comm p s]
  omega

/-- C30: With padding, each sample of the signal is covered by a segment of the short time Fourier transform. -/
theorem C30_stft_covered (L W s n : Nat) (hs : 0 < s) (hsW : s ≤ W) (hL : W ≤ L) (hn : n < L) :
    ∃ m, m < frames L W s true ∧ (m * s : Int) - (border W true : Nat) ≤ n ∧
      (n : Int) < (m * s : Int) - (border W true : Nat) + W := by
  obtain ⟨h1, h2, _⟩ := total L W s hs hsW hL
  show ∃ m, m < frames L W s true ∧ (m * s : Int) - (W / 2 : Nat) ≤ n ∧ (n : Int) < (m * s : Int) - (W / 2 : Nat) + W
  obtain ⟨q, hq⟩ : ∃ q, q = (n + W / 2) / s := ⟨_, rfl⟩
  have hq1 : q * s ≤ n + W / 2 := by rw [hq]; exact Nat.div_mul_le_self _ _
  have hq2 : n + W / 2 < q * s + s := by
    rw [hq]
    have := Nat.lt_div_mul_add (a := n + W / 2) (b := s) hs
    omega
  rcases Nat.lt_or_ge q (frames L W s true) with h | h
  · refine ⟨q, h, ?_, ?_⟩
    · have : ((q * s : Nat) : Int) ≤ (n + W / 2 : Nat) := by exact_mod_cast hq1
      push_cast at this ⊢
      omega
    · have : ((n + W / 2 : Nat) : Int) < (q * s + s : Nat) := by exact_mod_cast hq2
      push_cast at this ⊢
      omega
  · obtain ⟨F, hF⟩ : ∃ F, frames L W s true = F + 1 := ⟨frames L W s true - 1, by omega⟩
    rw [hF] at h h1 ⊢
    rw [Nat.add_sub_cancel] at h1
    have hFq : F * s ≤ q * s := Nat.mul_le_mul_right _ (by omega)
    have hc : ((F * s : Nat) : Int) = (F : Int) * s := by push_cast; rfl
    refine ⟨F, by omega, ?_, ?_⟩
    · rw [← hc]
      omega
    · rw [← hc]
      omega

/-- C30: Without padding, the segments of the short time Fourier transform are located at all multiples of the step size,
for which the segment is covered by the signal. -/
theorem C30_stft_cropped (L W s m : Nat) (hs : 0 < s) (hL : W ≤ L) :
    m < frames L W s false ↔ m * s + W ≤ L := by
  unfold frames border added
  rw [if_neg (by decide), if_neg (by decide), Nat.mul_zero, Nat.add_zero, Nat.add_zero, Nat.lt_succ_iff,
    Nat.le_div_iff_mul_le hs]
  omega

/-- a window with five samples, steps of three samples and a signal with seven samples -/
example : frames 7 5 3 true = 3 ∧ added 7 5 3 true = 0 ∧ frames 7 5 3 false = 1 ∧ frames 8 5 3 true = 4 ∧
    added 8 5 3 true = 2 := by decide

/-! ### The values -/

theorem mapM_ok {α β : Type} (f : α → Py β) (g : α → β) (l : List α) (h : ∀ x ∈ l, f x = .ok (g x)) :
    l.mapM f = .ok (l.map g) := by
  induction l with
  | nil => rfl
  | cons x l ih =>
    rw [List.mapM_cons, h x List.mem_cons_self, ih fun y hy => h y (List.mem_cons_of_mem _ hy)]
    rfl

theorem stackCubes_get {α : Type} [Inhabited α] {l : List (Cube α)} {d1 d2 c : Nat} {A : Cube α} (h : l[c]? = some A)
    (k m : Nat) : (stackCubes l d1 d2).get c k m = A.get 0 k m := by
  unfold stackCubes
  dsimp only
  rw [h]

theorem stackMats_get {α : Type} [Inhabited α] {l : List (Mat α)} {cols c : Nat} {A : Mat α} (h : l[c]? = some A)
    (n : Nat) : (stackMats l cols).get c n = A.get 0 n := by
  unfold stackMats
  dsimp only
  rw [h]

/-- the transform of a segment: the samples from the position `i` on, weighted with the window, and normalised with the sum
of the window's samples -/
noncomputable def segment (x w : Mat ℝ) (c k : Nat) (i : Int) : ℂ :=
  ((1 / |windowSum (w.get (Blockwise.pick w.rows c)) w.cols| : ℝ) : ℂ) *
    dft w.cols (fun j => extended x c (i + j) * w.get (Blockwise.pick w.rows c) j) k

theorem transformed_value (s : Signal ℝ ℝ) (w : Mat ℝ) (o : Nat) (pad : Bool) (hw : w.rows = 1 ∨ w.rows = s.channels.rows)
    (hW : 1 ≤ w.cols) (hL : w.cols ≤ s.channels.cols) (ho : o < w.cols) :
    ∃ X, transformed s w o pad = .ok X ∧ X.d0 = s.channels.rows ∧ X.d1 = w.cols / 2 + 1 ∧
      X.d2 = frames s.channels.cols w.cols (w.cols - o) pad ∧
      ∀ c k m, c < s.channels.rows → X.get c k m =
        segment s.channels w c k ((m * (w.cols - o) : Nat) - (border w.cols pad : Nat)) := by
  have hst : ((w.cols : Int) - o).toNat = w.cols - o := by omega
  unfold transformed
  by_cases h1 : w.rows = 1
  · rw [if_pos h1]
    unfold scipyStft
    rw [if_neg (by omega), hst]
    refine ⟨_, rfl, rfl, rfl, rfl, ?_⟩
    intro c k m hc
    unfold segment Blockwise.pick
    rw [if_pos h1]
  · have hr : w.rows = s.channels.rows := by omega
    rw [if_neg h1, hst]
    have hmap := mapM_ok (fun c => scipyStft (s.channels.row c) (w.get c) w.cols o pad)
      (fun c => (⟨1, w.cols / 2 + 1, frames s.channels.cols w.cols (w.cols - o) pad, fun c' k m =>
        ((1 / |windowSum (w.get c) w.cols| : ℝ) : ℂ) * dft w.cols (fun j => extended (s.channels.row c) c'
          ((m * (w.cols - o) : Nat) - (border w.cols pad : Nat) + j) * w.get c j) k⟩ : Cube ℂ))
      (List.range (min s.count w.rows)) (by
        intro c _
        show scipyStft _ _ _ _ _ = _
        unfold scipyStft
        rw [if_neg (by show ¬(w.cols = 0 ∨ s.channels.cols < w.cols ∨ _); omega), hst]
        rfl)
    rw [hmap]
    refine ⟨_, rfl, ?_, rfl, rfl, ?_⟩
    · show (List.map _ _).length = _
      rw [List.length_map, List.length_range]
      unfold Signal.count
      omega
    · intro c k m hc
      have hc' : c < min s.count w.rows := by unfold Signal.count; omega
      rw [stackCubes_get (A := _) (by rw [List.getElem?_map, List.getElem?_range hc']; rfl)]
      unfold segment Blockwise.pick
      rw [if_neg h1]
      rfl

/-- C30: The values of the short time Fourier transform, for a signal whose offset is a multiple of the step size. -/
theorem C30_stft (s window : Signal ℝ ℝ) (overlap : Idx) (pad : Bool) (o : Nat) (q : Int)
    (hl : s.labels.length = s.channels.rows)
    (hw : window.channels.rows = 1 ∨ window.channels.rows = s.channels.rows)
    (hW : 1 ≤ window.channels.cols) (hL : window.channels.cols ≤ s.channels.cols)
    (hi : index window.channels.cols overlap = some (o : Int)) (ho : o < window.channels.cols)
    (hq : s.offset = q * (window.channels.cols - o : Int)) :
    ∃ b, stftWith s window overlap pad = some (.ok b) ∧ b.channels.d0 = s.channels.rows ∧
      b.channels.d1 = window.channels.cols / 2 + 1 ∧
      b.channels.d2 = frames s.channels.cols window.channels.cols (window.channels.cols - o) pad ∧
      b.resolution = s.rate / window.channels.cols ∧ b.rate = s.rate / (window.channels.cols - o : Int) ∧ b.offset = q ∧
      b.labels = s.labels ∧ ∀ c k m, c < s.channels.rows → b.channels.get c k m =
        segment s.channels window.channels c k
          ((m * (window.channels.cols - o) : Nat) - (border window.channels.cols pad : Nat)) := by
  obtain ⟨X, x1, x2, x3, x4, x5⟩ := transformed_value s window.channels o pad hw hW hL ho
  have hst : (((window.channels.cols : Int) - o : Int) : ℚ) ≠ 0 := by
    have : (window.channels.cols : Int) - o ≠ 0 := by omega
    exact_mod_cast this
  have hround : pyRound ((s.offset : ℚ) / ((window.channels.cols - o : Int) : ℚ)) = q := by
    rw [hq]
    have : (((q * (window.channels.cols - o : Int) : Int)) : ℚ) / ((window.channels.cols - o : Int) : ℚ) = (q : ℚ) := by
      rw [Int.cast_mul, mul_div_assoc, div_self hst, mul_one]
    rw [this, pyRound_int]
  refine ⟨Spectrogram.new X (s.rate / window.channels.cols) (s.rate / (window.channels.cols - o : Int)) q (some s.labels),
    ?_, x2, x3, x4, rfl, rfl, rfl, ?_, x5⟩
  · unfold stftWith
    show (index window.channels.cols overlap >>= _) = _
    rw [hi]
    show some (transformed s window.channels o pad >>= _) = _
    rw [x1]
    show some (if s.offset - pyRound ((s.offset : ℚ) / ((window.channels.cols - o : Int) : ℚ)) *
      (window.channels.cols - o : Int) = 0 then _ else _) = _
    rw [if_pos (by rw [hround, hq]; ring)]
    show some (Except.ok (Spectrogram.new X _ _ (pyRound ((s.offset : ℚ) / ((window.channels.cols - o : Int) : ℚ))) _)) = _
    rw [hround]
    rfl
  · show sanitizeLabels (some s.labels) X.d0 = _
    exact Signal.sanitize_self (by rw [x2]; exact hl)

example : ∃ (s window : Signal ℝ ℝ) (overlap : Idx) (o : Nat) (q : Int), s.labels.length = s.channels.rows ∧
    (window.channels.rows = 1 ∨ window.channels.rows = s.channels.rows) ∧
    1 ≤ window.channels.cols ∧ window.channels.cols ≤ s.channels.cols ∧
    index window.channels.cols overlap = some (o : Int) ∧ o < window.channels.cols ∧
    s.offset = q * (window.channels.cols - o : Int) ∧ s.offset ≠ 0 :=
  ⟨⟨⟨2, 9, fun c i => c + i⟩, 48000, -6, ["a", "b"]⟩, ⟨⟨2, 5, fun c i => c + i + 1⟩, 48000, 0, ["v", "w"]⟩, .int 2, 2, -2,
    rfl, Or.inr rfl, by decide, by decide, rfl, by decide, rfl, by decide⟩

/-! ### The inverse -/

/-- the inverse transform of the transform of a segment -/
theorem irfft_rfft {N : Nat} (hN : N ≠ 0) (f : Nat → ℝ) (X : Nat → ℂ) (hX : ∀ k : Nat, k ≤ N / 2 → X k = dft N f k)
    {n : Nat} (hn : n < N) : irfftAt N X n = f n := by
  have hsym : ∀ k ∈ range N, symmetric N X k * omega N ^ ((k : ℤ) * n) = dft N f k * omega N ^ ((k : ℤ) * n) := by
    intro k hk
    rw [mem_range] at hk
    congr 1
    unfold symmetric
    split_ifs with h1 h2
    · have hr : (starRingEnd ℂ) (dft N f k) = dft N f k := by
        rw [conj_dft]
        rcases h1 with h | h
        · subst h
          simp
        · rw [← dft_period hN f (-k)]
          congr 1
          omega
      rw [hX k (by omega), Complex.conj_eq_iff_re.mp hr]
    · exact hX k (by omega)
    · rw [hX _ (by omega), conj_dft, ← dft_period hN]
      congr 1
      omega
  unfold irfftAt
  rw [Finset.sum_congr rfl hsym]
  have hN' : (N : ℂ) ≠ 0 := Nat.cast_ne_zero.mpr hN
  have : (1 / (N : ℂ)) * ∑ k ∈ range N, dft N f k * omega N ^ ((k : ℤ) * n) = (f n : ℂ) := by
    unfold dft
    simp only [Finset.sum_mul]
    rw [Finset.sum_comm]
    have h1 : ∀ l ∈ range N, ∑ k ∈ range N, (f l : ℂ) * omega N ^ (-((k : ℤ) * l)) * omega N ^ ((k : ℤ) * n) =
        if l = n then (N : ℂ) * f n else 0 := by
      intro l hl
      rw [mem_range] at hl
      have : ∀ k : Nat, (f l : ℂ) * omega N ^ (-((k : ℤ) * l)) * omega N ^ ((k : ℤ) * n) =
          (f l : ℂ) * omega N ^ ((k : ℤ) * (n - l)) := by
        intro k
        rw [mul_assoc, ← zpow_add₀ (omega_ne_zero N)]
        congr 2
        ring
      simp only [this]
      rw [← Finset.mul_sum, sum_omega hN]
      by_cases h : l = n
      · rw [if_pos h, if_pos (by rw [h]; simp), h, mul_comm]
      · rw [if_neg h, if_neg, mul_zero]
        intro hd
        have := Int.eq_zero_of_abs_lt_dvd hd (by rw [abs_lt]; omega)
        omega
    rw [Finset.sum_congr rfl h1, Finset.sum_ite_eq' (range N) n, if_pos (mem_range.mpr hn)]
    field_simp
  rw [this, Complex.ofReal_re]

/-- the sum of the squared windows, that cover the sample `n` of the signal -/
noncomputable def squares (w : Nat → ℝ) (W step F n : Nat) : ℝ :=
  overlapAdd (fun _ j => w j * w j) W step F (n + W / 2)

theorem overlapAdd_mul (f : Nat → Nat → ℝ) (g : Nat → ℝ) (v : ℝ) (W step F n : Nat)
    (h : ∀ m j, m < F → j < W → m * step + j = n → f m j = v * g j) :
    overlapAdd f W step F n = v * overlapAdd (fun _ j => g j) W step F n := by
  unfold overlapAdd
  rw [Finset.mul_sum]
  refine Finset.sum_congr rfl fun m hm => ?_
  rw [mem_range] at hm
  split
  next hc => rw [h m (n - m * step) hm (by omega) (by omega)]
  · rw [mul_zero]

/-- the inverse transform of the segments of an array `x` with `L` columns -/
theorem scipyIstft_value (x : Mat ℝ) (X : Cube ℂ) (w : Nat → ℝ) (W o L F : Nat) (c0 : Nat → Nat)
    (hW : 2 ≤ W) (ho : o < W) (hLW : W ≤ L) (hx : x.cols = L) (hF : F = frames L W (W - o) true) (hd1 : X.d1 = W / 2 + 1)
    (hd2 : X.d2 = F) (hsum : 0 < windowSum w W)
    (hX : ∀ c k m, c < X.d0 → X.get c k m = ((1 / |windowSum w W| : ℝ) : ℂ) *
      dft W (fun j => extended x (c0 c) ((m * (W - o) : Nat) - (border W true : Nat) + j) * w j) k)
    (hnorm : ∀ n, n < L → 1 / 10 ^ 10 < squares w W (W - o) F n) :
    ∃ y, scipyIstft X w W o true = .ok y ∧ y.rows = X.d0 ∧ y.cols = L + added L W (W - o) true ∧
      ∀ c n, c < X.d0 → n < y.cols → y.get c n = extended x (c0 c) n := by
  obtain ⟨t1, t2, _⟩ := total L W (W - o) (by omega) (by omega) hLW
  have hst : ((W : Int) - o).toNat = W - o := by omega
  have hN : (if W = 2 * (X.d1 - 1) + 1 then W else 2 * (X.d1 - 1)) = W := by
    rw [hd1]
    split <;> omega
  have hlo : clampBound (W + (F - 1) * (W - o)) ((W / 2 : Nat) : Int) = W / 2 := by
    rw [clampBound_nat]
    omega
  have hhi : clampBound (W + (F - 1) * (W - o)) (-((W / 2 : Nat) : Int)) = W + (F - 1) * (W - o) - W / 2 := by
    rw [clampBound_neg (by omega)]
    omega
  have hcols : W + (F - 1) * (W - o) - W / 2 - W / 2 = L + added L W (W - o) true := by
    rw [hF]
    omega
  unfold scipyIstft
  rw [hN]
  dsimp only
  rw [if_neg (by omega), hst, hd2]
  refine ⟨_, rfl, ?_, ?_, ?_⟩
  · rfl
  · show (PySlice.range _ _).count _ = _
    rw [PySlice.count_range, hlo, hhi, hcols]
  · intro c n hc hn
    have hn' : n < L + added L W (W - o) true := by
      have : n < (PySlice.range ((W / 2 : Nat) : Int) (-((W / 2 : Nat) : Int))).count (W + (F - 1) * (W - o)) := hn
      rw [PySlice.count_range, hlo, hhi, hcols] at this
      exact this
    have hcrop : ∀ (A : Mat ℝ) (r i : Nat), (crop W true A).get r i = A.get r (clampBound A.cols ((W / 2 : Nat) : Int) + i) := by
      intro A r i
      show (A.slice .all _).get r i = _
      rw [Mat.slice_all_get, PySlice.lo_range]
    dsimp only
    rw [hcrop, hcrop]
    dsimp only
    rw [hlo, overlapAdd_mul _ (fun j => w j * w j) (extended x (c0 c) n)]
    · rw [show W / 2 + n = n + W / 2 by omega]
      rcases Nat.lt_or_ge n L with h | h
      · have := hnorm n h
        unfold squares at this
        rw [if_pos this, mul_div_assoc, div_self (by
          intro h0
          rw [h0] at this
          norm_num at this), mul_one]
      · have : extended x (c0 c) n = 0 := by
          unfold extended
          rw [if_neg (by omega)]
        rw [this, zero_mul, zero_div]
    · intro m j hm hj hmj
      rw [irfft_rfft (by omega) (fun j => 1 / |windowSum w W| *
        (extended x (c0 c) ((m * (W - o) : Nat) - (border W true : Nat) + j) * w j)) _ ?_ hj]
      · rw [abs_of_pos hsum]
        have : ((m * (W - o) : Nat) : Int) - (border W true : Nat) + j = n := by
          show ((m * (W - o) : Nat) : Int) - (W / 2 : Nat) + j = n
          omega
        rw [this]
        have := ne_of_gt hsum
        field_simp
      · intro k _
        rw [hX c k m hc]
        unfold dft
        rw [Finset.mul_sum]
        refine Finset.sum_congr rfl fun l _ => ?_
        push_cast
        ring

/-- C69: Transforming a signal to a spectrogram with padding and transforming this back restores the sampling rate, the
offset, the labels and the samples of the signal, which are followed by zeros. The offset must be a multiple of the step
size and the sums of the squared windows must be positive for each sample of the signal. -/
theorem C69_inverse (s window : Signal ℝ ℝ) (overlap : Idx) (o : Nat) (q : Int) (hl : s.labels.length = s.channels.rows)
    (hs : 1 ≤ s.channels.rows)
    (hw : window.channels.rows = 1 ∨ window.channels.rows = s.channels.rows)
    (hW : 2 ≤ window.channels.cols) (hL : window.channels.cols ≤ s.channels.cols)
    (hi : index window.channels.cols overlap = some (o : Int)) (ho : o < window.channels.cols)
    (hq : s.offset = q * (window.channels.cols - o : Int))
    (hsum : ∀ c, c < window.channels.rows → 0 < windowSum (window.channels.get c) window.channels.cols)
    (hnorm : ∀ c n, c < window.channels.rows → n < s.channels.cols →
      1 / 10 ^ 10 < squares (window.channels.get c) window.channels.cols (window.channels.cols - o)
        (frames s.channels.cols window.channels.cols (window.channels.cols - o) true) n) :
    ∃ b d, stftWith s window overlap true = some (.ok b) ∧ istftWith b window overlap true = some (.ok d) ∧
      d.channels.rows = s.channels.rows ∧ s.channels.cols ≤ d.channels.cols ∧
      d.channels.cols < s.channels.cols + (window.channels.cols - o) ∧ d.rate = s.rate ∧ d.offset = s.offset ∧
      d.labels = s.labels ∧
      (∀ c n, c < s.channels.rows → n < s.channels.cols → d.channels.get c n = s.channels.get c n) ∧
      ∀ c n, c < s.channels.rows → s.channels.cols ≤ n → n < d.channels.cols → d.channels.get c n = 0 := by
  obtain ⟨b, h1, h2, h3, h4, h5, h6, h7, h8, h9⟩ := C30_stft s window overlap true o q hl hw (by omega) hL hi ho hq
  obtain ⟨_, _, t3⟩ := total s.channels.cols window.channels.cols (window.channels.cols - o) (by omega) (by omega) hL
  have hstR : (((window.channels.cols : Int) - o : Int) : ℝ) ≠ 0 := by
    have : (window.channels.cols : Int) - o ≠ 0 := by omega
    exact_mod_cast this
  obtain ⟨y, y1, y2, y3, y4⟩ : ∃ y, inverted b window.channels o true = .ok y ∧ y.rows = s.channels.rows ∧
      y.cols = s.channels.cols + added s.channels.cols window.channels.cols (window.channels.cols - o) true ∧
      ∀ c n, c < s.channels.rows → n < y.cols → y.get c n = extended s.channels c n := by
    unfold inverted
    by_cases hw1 : window.channels.rows = 1
    · rw [if_pos hw1]
      obtain ⟨y, y1, y2, y3, y4⟩ := scipyIstft_value s.channels b.channels (window.channels.get 0) window.channels.cols o
        s.channels.cols _ id hW ho hL rfl rfl h3 h4 (hsum 0 (by omega)) (by
          intro c k m hc
          rw [h9 c k m (by omega)]
          unfold segment Blockwise.pick
          rw [if_pos hw1]
          rfl) (fun n hn => hnorm 0 n (by omega) hn)
      exact ⟨y, y1, by omega, y3, fun c n hc hn => y4 c n (by omega) hn⟩
    · have hwr : window.channels.rows = s.channels.rows := by omega
      rw [if_neg hw1]
      have hrow : ∀ c, c < s.channels.rows → ∃ y, scipyIstft (b.channels.row c) (window.channels.get c)
          window.channels.cols o true = .ok y ∧ y.rows = 1 ∧
          y.cols = s.channels.cols + added s.channels.cols window.channels.cols (window.channels.cols - o) true ∧
          ∀ n, n < y.cols → y.get 0 n = extended s.channels c n := by
        intro c hc
        obtain ⟨y, y1, y2, y3, y4⟩ := scipyIstft_value s.channels (b.channels.row c) (window.channels.get c)
          window.channels.cols o s.channels.cols _ (fun _ => c) hW ho hL rfl rfl h3 h4 (hsum c (by omega)) (by
            intro c' k m hc'
            show b.channels.get c k m = _
            rw [h9 c k m hc]
            unfold segment Blockwise.pick
            rw [if_neg hw1]) (fun n hn => hnorm c n (by omega) hn)
        exact ⟨y, y1, y2, y3, fun n hn => y4 0 n (by show 0 < 1; omega) hn⟩
      have : Nonempty (Mat ℝ) := ⟨⟨0, 0, fun _ _ => 0⟩⟩
      choose! g g1 g2 g3 g4 using hrow
      have hmin : min b.count window.channels.rows = s.channels.rows := by
        show min b.channels.d0 _ = _
        omega
      rw [hmin, mapM_ok _ g _ (by
        intro c hc
        exact g1 c (List.mem_range.mp hc))]
      refine ⟨_, rfl, ?_, ?_, ?_⟩
      · show (List.map _ _).length = _
        rw [List.length_map, List.length_range]
      · show (((List.range s.channels.rows).map g).headD _).cols = _
        obtain ⟨r, hr⟩ : ∃ r, s.channels.rows = r + 1 := ⟨s.channels.rows - 1, by omega⟩
        rw [hr, List.range_succ_eq_map]
        exact g3 0 (by omega)
      · intro c n hc hn
        rw [stackMats_get (A := g c) (by rw [List.getElem?_map, List.getElem?_range hc]; rfl)]
        apply g4 c hc
        rw [g3 c hc]
        have : n < (((List.range s.channels.rows).map g).headD ⟨0, 0, fun _ _ => 0⟩).cols := hn
        obtain ⟨r, hr⟩ : ∃ r, s.channels.rows = r + 1 := ⟨s.channels.rows - 1, by omega⟩
        rw [hr, List.range_succ_eq_map] at this
        rw [← g3 0 (by omega)]
        exact this
  refine ⟨b, Signal.new y (b.rate * (window.channels.cols - o : Int)) (b.offset * (window.channels.cols - o : Int))
    (some b.labels), h1, ?_, y2, ?_, ?_, ?_, ?_, ?_, ?_, ?_⟩
  · unfold istftWith
    show (index window.channels.cols overlap >>= _) = _
    rw [hi]
    show some (inverted b window.channels o true >>= _) = _
    rw [y1]
    rfl
  · show _ ≤ y.cols
    omega
  · show y.cols < _
    omega
  · show b.rate * _ = _
    rw [h6, div_mul_cancel₀ _ hstR]
  · show b.offset * _ = _
    rw [h7, hq]
  · show sanitizeLabels (some b.labels) y.rows = _
    rw [Signal.sanitize_self (by rw [h8, y2]; exact hl), h8]
  · intro c n hc hn
    show y.get c n = _
    rw [y4 c n hc (by omega)]
    unfold extended
    rw [if_pos (by omega), Int.toNat_natCast]
  · intro c n hc hn hn'
    show y.get c n = _
    rw [y4 c n hc hn']
    unfold extended
    rw [if_neg (by omega)]

/-! ### The Hann window -/

theorem index_half (m : Nat) : index ((2 * m : Nat) : Int) (.float (1 / 2)) = some (m : Int) := by
  unfold index Idx.start
  dsimp only
  have : (1 / 2 * (((2 * m : Nat) : Int) : ℚ)) = ((m : Int) : ℚ) := by
    push_cast
    ring
  rw [this, pyRound_int, if_pos (by omega)]

/-- The sums of the squared Hann windows, that overlap by one half. -/
theorem squares_half (w : Nat → ℝ) (m L n : Nat) (hm : 0 < m) (hL : 2 * m ≤ L) (hn : n < L)
    (hw : ∀ j, j < m → w j + w (j + m) = 1) :
    1 / 2 ≤ squares w (2 * m) m (frames L (2 * m) m true) n := by
  obtain ⟨t1, t2, _⟩ := total L (2 * m) m hm (by omega) hL
  obtain ⟨F, hF⟩ : ∃ F, frames L (2 * m) m true = F := ⟨_, rfl⟩
  rw [hF] at t1 t2 ⊢
  obtain ⟨t, ht⟩ : ∃ t, t = (n + m) / m := ⟨_, rfl⟩
  obtain ⟨j, hj⟩ : ∃ j, j = (n + m) % m := ⟨_, rfl⟩
  have hjm : j < m := by rw [hj]; exact Nat.mod_lt _ hm
  have hsum : n + m = t * m + j := by
    rw [ht, hj, mul_comm]
    exact (Nat.div_add_mod _ _).symm
  have ht1 : 1 ≤ t := by
    rw [ht, Nat.le_div_iff_mul_le hm]
    omega
  obtain ⟨u, rfl⟩ : ∃ u, t = u + 1 := ⟨t - 1, by omega⟩
  have htF : u + 1 < F := by
    by_contra h
    obtain ⟨F', rfl⟩ : ∃ F', F = F' + 1 := ⟨F - 1, by omega⟩
    have h1 : (F' + 1) * m ≤ (u + 1) * m := Nat.mul_le_mul_right _ (by omega)
    rw [Nat.add_sub_cancel] at t1
    rw [Nat.add_mul] at h1
    omega
  have hu : (u + 1) * m = u * m + m := by ring
  unfold squares overlapAdd
  rw [show 2 * m / 2 = m by omega]
  have hpair : (∑ k ∈ {u, u + 1}, if k * m ≤ n + m ∧ n + m < k * m + 2 * m then
      w (n + m - k * m) * w (n + m - k * m) else 0) = w (j + m) * w (j + m) + w j * w j := by
    rw [Finset.sum_pair (by omega), if_pos (by omega), if_pos (by omega), show n + m - u * m = j + m by omega,
      show n + m - (u + 1) * m = j by omega]
  have hsub : ({u, u + 1} : Finset Nat) ⊆ range F := by
    intro x hx
    rw [mem_insert, mem_singleton] at hx
    rw [mem_range]
    omega
  have hle := Finset.sum_le_sum_of_subset_of_nonneg (f := fun k => if k * m ≤ n + m ∧ n + m < k * m + 2 * m then
      w (n + m - k * m) * w (n + m - k * m) else 0) hsub (by
    intro k _ _
    split
    · exact mul_self_nonneg _
    · exact le_refl _)
  rw [hpair] at hle
  refine le_trans ?_ hle
  have := hw j hjm
  nlinarith [sq_nonneg (w j - w (j + m))]

/-- the parameters of `scipy.signal.istft` -/
theorem scipyIstft_congr (X : Cube ℂ) (w w' : Nat → ℝ) (W : Nat) (overlap : Int) (pad : Bool)
    (h : ∀ j, j < W → w j = w' j) : scipyIstft X w W overlap pad = scipyIstft X w' W overlap pad := by
  have h1 : windowSum w W = windowSum w' W := by
    unfold windowSum
    exact Finset.sum_congr rfl fun j hj => h j (mem_range.mp hj)
  have h2 : ∀ (f : Nat → Nat → ℝ) (s F n : Nat), overlapAdd (fun m j => f m j * windowSum w' W * w j) W s F n =
      overlapAdd (fun m j => f m j * windowSum w' W * w' j) W s F n := by
    intro f s F n
    unfold overlapAdd
    refine Finset.sum_congr rfl fun m _ => ?_
    split
    · next hc =>
      dsimp only
      rw [h (n - m * s) (by omega)]
    · rfl
  have h3 : ∀ (s F n : Nat), overlapAdd (fun _ j => w j * w j) W s F n = overlapAdd (fun _ j => w' j * w' j) W s F n := by
    intro s F n
    unfold overlapAdd
    refine Finset.sum_congr rfl fun m _ => ?_
    split
    · next hc =>
      dsimp only
      rw [h (n - m * s) (by omega)]
    · rfl
  unfold scipyIstft
  dsimp only
  simp only [h1, h2, h3]

/-- C69: With an even window length and the default values of the other parameters, the inverse short time Fourier
transform restores a signal, that is not shorter than the window and whose offset is a multiple of the step size. -/
theorem C69_hann (mem mem' : Nat → Nat → ℝ) (s : Signal ℝ ℝ) (m : Nat) (q : Int) (hl : s.labels.length = s.channels.rows)
    (hs : 1 ≤ s.channels.rows) (hm : 0 < m) (hL : 2 * m ≤ s.channels.cols) (hq : s.offset = q * m) :
    ∃ b d, stft mem s (.int (2 * m)) (.float (1 / 2)) true = some (.ok b) ∧
      istft mem' b (.int (2 * m)) (.float (1 / 2)) true = some (.ok d) ∧
      d.channels.rows = s.channels.rows ∧ s.channels.cols ≤ d.channels.cols ∧ d.channels.cols < s.channels.cols + m ∧
      d.rate = s.rate ∧ d.offset = s.offset ∧ d.labels = s.labels ∧
      (∀ c n, c < s.channels.rows → n < s.channels.cols → d.channels.get c n = s.channels.get c n) ∧
      ∀ c n, c < s.channels.rows → s.channels.cols ≤ n → n < d.channels.cols → d.channels.get c n = 0 := by
  obtain ⟨w, h1, h2, h3⟩ := Windows.C43_hann_overlap (R := ℝ) mem m hm s.rate
  obtain ⟨w', h1', g1, _, _, g2, _, g4⟩ := Windows.C42_samples mem Windows.hanning "Hann window" (.int 0) s.rate 0 (2 * m)
    false rfl (by omega)
  rw [h1] at h1'
  cases h1'
  have hpair : ∀ j, j < m → w.channels.get 0 j + w.channels.get 0 (j + m) = 1 := by
    intro j hj
    have := h3 j
    unfold Windows.overlapSum at this
    rw [Windows.filter_half m j hm, Finset.sum_pair (by omega), Nat.mod_eq_of_lt hj] at this
    exact this
  have hsum : windowSum (w.channels.get 0) (2 * m) = m := by
    have h : ∀ j ∈ range m, w.channels.get 0 j + w.channels.get 0 (m + j) = 1 := by
      intro j hj
      rw [add_comm m j]
      exact hpair j (mem_range.mp hj)
    unfold windowSum
    rw [show 2 * m = m + m by omega, Finset.sum_range_add, ← Finset.sum_add_distrib, Finset.sum_congr rfl h]
    simp
  obtain ⟨b, d, a1, a2, a3⟩ := C69_inverse s w (.float (1 / 2)) m q hl hs (Or.inl g2) (by omega) (by omega)
    (by rw [h2]; exact index_half m) (by omega) (by rw [h2, hq]; push_cast; ring) (by
      intro c hc
      rw [show c = 0 by omega, h2, hsum]
      exact_mod_cast hm) (by
      intro c n hc hn
      rw [show c = 0 by omega, h2, show 2 * m - m = m by omega]
      have := squares_half (w.channels.get 0) m s.channels.cols n hm hL hn hpair
      refine lt_of_lt_of_le (by norm_num) this)
  rw [h2, show 2 * m - m = m by omega] at a3
  obtain ⟨v, k1, _, _, _, k2, k3, k4⟩ := Windows.C42_samples mem' Windows.hanning "Hann window" (.int 0) b.rate 0 (2 * m)
    false rfl (by omega)
  refine ⟨b, d, ?_, ?_, a3⟩
  · unfold stft Blockwise.getWindow
    dsimp only
    rw [if_neg (by unfold Blockwise.isZero; norm_num), h1]
    exact a1
  · unfold istft Blockwise.getWindow
    dsimp only
    rw [if_neg (by unfold Blockwise.isZero; norm_num), k1]
    show istftWith b v (.float (1 / 2)) true = _
    rw [← a2]
    unfold istftWith
    show (index v.channels.cols (.float (1 / 2)) >>= _) = (index w.channels.cols (.float (1 / 2)) >>= _)
    rw [k3, h2, index_half]
    show some (inverted b v.channels m true >>= fun channels => Except.ok (Signal.new channels
      (b.rate * ((v.channels.cols : Int) - m : Int)) (b.offset * ((v.channels.cols : Int) - m : Int)) (some b.labels))) =
      some (inverted b w.channels m true >>= fun channels => Except.ok (Signal.new channels
      (b.rate * ((w.channels.cols : Int) - m : Int)) (b.offset * ((w.channels.cols : Int) - m : Int)) (some b.labels)))
    rw [k3, h2]
    congr 2
    unfold inverted
    rw [if_pos k2, if_pos g2, k3, h2]
    apply scipyIstft_congr
    intro j hj
    rw [k4 j hj, g4 j hj]

example : ∃ (s : Signal ℝ ℝ) (m : Nat) (q : Int), s.labels.length = s.channels.rows ∧ 1 ≤ s.channels.rows ∧ 0 < m ∧
    2 * m ≤ s.channels.cols ∧ s.offset = q * m ∧ s.offset ≠ 0 :=
  ⟨⟨⟨2, 9, fun c i => c + i⟩, 48000, -6, ["a", "b"]⟩, 3, -2, rfl, by decide, by decide, by decide, rfl, by decide⟩

/-! ### The offset -/

theorem compensation_zero (W : Nat) (resolution rate : ℝ) (k : Nat) : compensation W resolution rate 0 k = 1 := by
  unfold compensation
  simp

/-- C68: The offset of the spectrogram is the nearest integer to the scaled offset of the signal. In general, the remainder
of the offset is considered by multiplying the bins with a phase. -/
theorem C68_offset (s window : Signal ℝ ℝ) (overlap : Idx) (pad : Bool) (o : Nat)
    (hl : s.labels.length = s.channels.rows)
    (hw : window.channels.rows = 1 ∨ window.channels.rows = s.channels.rows)
    (hW : 1 ≤ window.channels.cols) (hL : window.channels.cols ≤ s.channels.cols)
    (hi : index window.channels.cols overlap = some (o : Int)) (ho : o < window.channels.cols) (hr : s.rate ≠ 0) :
    ∃ b, stftWith s window overlap pad = some (.ok b) ∧
      2 * |s.offset - b.offset * (window.channels.cols - o : Int)| ≤ window.channels.cols - o ∧
      b.resolution = s.rate / window.channels.cols ∧ b.rate = s.rate / (window.channels.cols - o : Int) ∧
      b.labels = s.labels ∧ ∀ c k m, c < s.channels.rows → b.channels.get c k m =
        segment s.channels window.channels c k
          ((m * (window.channels.cols - o) : Nat) - (border window.channels.cols pad : Nat)) *
        compensation window.channels.cols b.resolution s.rate
          (s.offset - b.offset * (window.channels.cols - o : Int)) k := by
  obtain ⟨X, x1, x2, x3, x4, x5⟩ := transformed_value s window.channels o pad hw hW hL ho
  have hst : (0 : ℚ) < (((window.channels.cols : Int) - o : Int) : ℚ) := by
    have : (0 : Int) < (window.channels.cols : Int) - o := by omega
    exact_mod_cast this
  obtain ⟨q, hq⟩ : ∃ q, pyRound ((s.offset : ℚ) / ((window.channels.cols - o : Int) : ℚ)) = q := ⟨_, rfl⟩
  have hnear := pyRound_nearest ((s.offset : ℚ) / ((window.channels.cols - o : Int) : ℚ))
  rw [hq] at hnear
  have hbound : 2 * |s.offset - q * (window.channels.cols - o : Int)| ≤ window.channels.cols - o := by
    obtain ⟨st, hst'⟩ : ∃ st : Int, (window.channels.cols - o : Int) = st := ⟨_, rfl⟩
    rw [hst'] at hst hnear ⊢
    have h1 : |(q : ℚ) - s.offset / st| * st ≤ 1 / 2 * st := mul_le_mul_of_nonneg_right hnear hst.le
    have h2 : |(q : ℚ) - s.offset / st| * st = |(s.offset : ℚ) - q * st| := by
      rw [← abs_of_pos hst, ← abs_mul, abs_of_pos hst, sub_mul, div_mul_cancel₀ _ hst.ne', abs_sub_comm]
    rw [h2] at h1
    have h3 : (2 : ℚ) * |(s.offset : ℚ) - q * st| ≤ st := by linarith
    exact_mod_cast h3
  by_cases hz : s.offset - q * (window.channels.cols - o : Int) = 0
  · refine ⟨Spectrogram.new X (s.rate / window.channels.cols) (s.rate / (window.channels.cols - o : Int)) q (some s.labels),
      ?_, hbound, rfl, rfl, ?_, ?_⟩
    · unfold stftWith
      show (index window.channels.cols overlap >>= _) = _
      rw [hi]
      show some (transformed s window.channels o pad >>= _) = _
      rw [x1]
      show some (if s.offset - pyRound ((s.offset : ℚ) / ((window.channels.cols - o : Int) : ℚ)) *
        (window.channels.cols - o : Int) = 0 then _ else _) = _
      rw [if_pos (by rw [hq]; exact hz)]
      show some (Except.ok (Spectrogram.new X _ _ (pyRound ((s.offset : ℚ) / ((window.channels.cols - o : Int) : ℚ))) _)) = _
      rw [hq]
      rfl
    · show sanitizeLabels (some s.labels) X.d0 = _
      exact Signal.sanitize_self (by rw [x2]; exact hl)
    · intro c k m hc
      show X.get c k m = _ * compensation _ _ _ (s.offset - q * (window.channels.cols - o : Int)) k
      rw [x5 c k m hc, hz, compensation_zero, mul_one]
  · refine ⟨Spectrogram.new ⟨X.d0, X.d1, X.d2, fun c k m => X.get c k m * compensation window.channels.cols
      (s.rate / window.channels.cols) s.rate (s.offset - q * (window.channels.cols - o : Int)) k⟩
      (s.rate / window.channels.cols) (s.rate / (window.channels.cols - o : Int)) q (some s.labels),
      ?_, hbound, rfl, rfl, ?_, ?_⟩
    · unfold stftWith
      show (index window.channels.cols overlap >>= _) = _
      rw [hi]
      show some (transformed s window.channels o pad >>= _) = _
      rw [x1]
      show some (if s.offset - pyRound ((s.offset : ℚ) / ((window.channels.cols - o : Int) : ℚ)) *
        (window.channels.cols - o : Int) = 0 then _ else if s.rate = 0 then _ else _) = _
      rw [if_neg (by rw [hq]; exact hz), if_neg hr]
      show some (Except.ok (Spectrogram.new ⟨_, _, _, fun c k m => X.get c k m * compensation window.channels.cols
        (s.rate / window.channels.cols) s.rate (s.offset - pyRound ((s.offset : ℚ) /
        ((window.channels.cols - o : Int) : ℚ)) * (window.channels.cols - o : Int)) k⟩ _ _
        (pyRound ((s.offset : ℚ) / ((window.channels.cols - o : Int) : ℚ))) _)) = _
      rw [hq]
      rfl
    · show sanitizeLabels (some s.labels) X.d0 = _
      exact Signal.sanitize_self (by rw [x2]; exact hl)
    · intro c k m hc
      show X.get c k m * _ = _
      rw [x5 c k m hc]
      rfl

/-- the phase, that delays the frequency `f` by `remainder` samples -/
noncomputable def delayPhase (f rate : ℝ) (remainder : Int) : ℂ :=
  Complex.exp (-Complex.I * 2 * (Real.pi : ℂ) * (f : ℂ) * (((remainder : ℝ) / rate : ℝ) : ℂ))

/-- the phases for the documented delay, if the maximum frequency is the last one of the bins -/
theorem compensation_delay (W : Nat) (rate : ℝ) (remainder : Int) (k : Nat) (hk : k ≤ W / 2)
    (h : W ≤ 2 ∨ k = 0) : compensation W (rate / W) rate remainder k = delayPhase (k * (rate / W)) rate remainder := by
  unfold compensation delayPhase Fourier.clinspace
  congr 1
  rcases h with h | rfl
  · have : W = 2 ∨ (W < 2 ∧ k = 0) := by omega
    rcases this with rfl | ⟨h1, rfl⟩
    · rw [if_neg (by omega)]
      push_cast
      ring
    · simp
  · simp

/-- C68: The offset's remainder is a constant group delay in the whole spectrogram, if the window is not longer than two
samples or the remainder is zero; in general, this holds for the bins at 0 Hz. Missing: the other bins for longer windows,
where the delay is wrong (`C68_phase_violated`). -/
theorem C68_phase_partial (s window : Signal ℝ ℝ) (overlap : Idx) (pad : Bool) (o : Nat)
    (hl : s.labels.length = s.channels.rows)
    (hw : window.channels.rows = 1 ∨ window.channels.rows = s.channels.rows)
    (hW : 1 ≤ window.channels.cols) (hL : window.channels.cols ≤ s.channels.cols)
    (hi : index window.channels.cols overlap = some (o : Int)) (ho : o < window.channels.cols) (hr : s.rate ≠ 0) :
    ∃ b, stftWith s window overlap pad = some (.ok b) ∧
      ∀ c k m, c < s.channels.rows → k ≤ window.channels.cols / 2 →
        (window.channels.cols ≤ 2 ∨ k = 0 ∨ ((window.channels.cols - o : Int) ∣ s.offset)) →
        b.channels.get c k m = segment s.channels window.channels c k
          ((m * (window.channels.cols - o) : Nat) - (border window.channels.cols pad : Nat)) *
          delayPhase (k * b.resolution) s.rate (s.offset - b.offset * (window.channels.cols - o : Int)) := by
  obtain ⟨b, h1, h2, h3, _, _, h4⟩ := C68_offset s window overlap pad o hl hw hW hL hi ho hr
  refine ⟨b, h1, fun c k m hc hk h => ?_⟩
  rw [h4 c k m hc]
  congr 1
  have h' : (window.channels.cols ≤ 2 ∨ k = 0) ∨ ((window.channels.cols - o : Int) ∣ s.offset) := by tauto
  rcases h' with h | ⟨t, ht⟩
  · rw [h3]
    exact compensation_delay _ _ _ _ hk h
  · have hz : s.offset - b.offset * (window.channels.cols - o : Int) = 0 := by
      have hpos : 0 < (window.channels.cols - o : Int) := by omega
      refine Int.eq_zero_of_abs_lt_dvd (m := (window.channels.cols - o : Int)) ?_ ?_
      · exact Dvd.dvd.sub ⟨t, ht⟩ ⟨b.offset, by ring⟩
      · have := abs_nonneg (s.offset - b.offset * (window.channels.cols - o : Int))
        omega
    rw [hz, compensation_zero]
    unfold delayPhase
    simp

example : ∃ (s window : Signal ℝ ℝ) (overlap : Idx) (o : Nat), s.labels.length = s.channels.rows ∧
    (window.channels.rows = 1 ∨ window.channels.rows = s.channels.rows) ∧ 1 ≤ window.channels.cols ∧
    window.channels.cols ≤ s.channels.cols ∧ index window.channels.cols overlap = some (o : Int) ∧
    o < window.channels.cols ∧ s.rate ≠ 0 ∧ ¬ ((window.channels.cols - o : Int) ∣ s.offset) :=
  ⟨⟨⟨2, 9, fun c i => c + i⟩, 48000, -7, ["a", "b"]⟩, ⟨⟨1, 6, fun _ _ => 1⟩, 48000, 0, [""]⟩, .int 3, 3, rfl, Or.inl rfl,
    by decide, by decide, by decide, by decide, by norm_num, by decide⟩

/-- the signal, for which the phase is wrong -/
noncomputable def shifted : Signal ℝ ℝ := ⟨⟨1, 4, fun _ i => if i = 0 then 1 else 0⟩, 4, 1, [""]⟩

/-- a rectangular window with four samples -/
noncomputable def ones : Signal ℝ ℝ := ⟨⟨1, 4, fun _ _ => 1⟩, 4, 0, [""]⟩

/-- C68 is violated: the phases of an impulse, whose offset is not a multiple of the step size, do not have the documented
delay. In line 560 of `_signal.py`, the maximum frequency is computed for all bins of a full spectrum, but only the bins up
to the half of the sampling rate are computed. -/
theorem C68_phase_violated : ∃ b, stftWith shifted ones (.int 0) false = some (.ok b) ∧ b.offset = 0 ∧
    b.resolution = 1 ∧ b.channels.get 0 1 0 ≠ segment shifted.channels ones.channels 0 1 0 *
      delayPhase (1 * b.resolution) shifted.rate shifted.offset := by
  have hi : index ones.channels.cols (.int 0) = some ((0 : Nat) : Int) := by decide
  obtain ⟨b, h1, h2, h3, _, _, h4⟩ := C68_offset shifted ones (.int 0) false 0 rfl (Or.inl rfl) (by decide) (by decide)
    hi (by decide) (by unfold shifted; norm_num)
  have hb : b.offset = 0 := by
    have h5 : shifted.offset = 1 := rfl
    have h6 : ones.channels.cols = 4 := rfl
    rw [h5, h6] at h2
    have h7 : |1 - b.offset * 4| ≤ 2 := by
      norm_num at h2
      omega
    rw [abs_le] at h7
    omega
  have hres : b.resolution = 1 := by
    rw [h3]
    unfold shifted ones
    norm_num
  refine ⟨b, h1, hb, hres, ?_⟩
  rw [h4 0 1 0 (by decide), hres, hb]
  have hseg : segment shifted.channels ones.channels 0 1 0 ≠ 0 := by
    unfold segment
    refine mul_ne_zero ?_ ?_
    · refine Complex.ofReal_ne_zero.mpr ?_
      unfold windowSum ones
      simp
    · have hd : dft 4 (fun j => extended shifted.channels 0 (0 + j) * ones.channels.get 0 j) 1 = 1 := by
        unfold dft extended shifted ones
        simp [Finset.sum_range_succ]
      show dft 4 (fun j => extended shifted.channels 0 (0 + j) * ones.channels.get 0 j) 1 ≠ 0
      rw [hd]
      exact one_ne_zero
  intro heq
  have heq' : segment shifted.channels ones.channels 0 1 0 * compensation 4 1 4 1 1 =
      segment shifted.channels ones.channels 0 1 0 * delayPhase (1 * 1) 4 1 := heq
  have h5 := mul_left_cancel₀ hseg heq'
  have h6 : compensation 4 1 4 1 1 = Complex.exp (((-(3 * Real.pi / 4) : ℝ) : ℂ) * Complex.I) := by
    unfold compensation Fourier.clinspace
    rw [if_neg (by omega)]
    congr 1
    push_cast
    ring
  have h7 : delayPhase (1 * 1) 4 1 = Complex.exp (((-(Real.pi / 2) : ℝ) : ℂ) * Complex.I) := by
    unfold delayPhase
    congr 1
    push_cast
    ring
  rw [h6, h7] at h5
  have h8 := congrArg Complex.re h5
  rw [Complex.exp_ofReal_mul_I_re, Complex.exp_ofReal_mul_I_re, Real.cos_neg, Real.cos_neg, Real.cos_pi_div_two,
    show 3 * Real.pi / 4 = Real.pi - Real.pi / 4 by ring, Real.cos_pi_sub, Real.cos_pi_div_four] at h8
  have : (0 : ℝ) < Real.sqrt 2 := Real.sqrt_pos.mpr (by norm_num)
  linarith

end Stft
end Verif
