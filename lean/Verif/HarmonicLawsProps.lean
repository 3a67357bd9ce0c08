import Verif.HarmonicProps

/-
C125: Cutting out a harmonic impulse response is linear and treats the channels independently
-/

namespace Verif
namespace Harmonic

open Dft Finset

/-! ### linearity of the delay -/

theorem symmetric_linear (N : Nat) (X Y : Nat → ℂ) (α β : ℝ) (k : Nat) :
    Stft.symmetric N (fun k => (α : ℂ) * X k + (β : ℂ) * Y k) k =
      (α : ℂ) * Stft.symmetric N X k + (β : ℂ) * Stft.symmetric N Y k := by
  unfold Stft.symmetric
  split
  · simp
  · split
    · rfl
    · simp

theorem irfftAt_linear (N : Nat) (X Y : Nat → ℂ) (α β : ℝ) (n : Nat) :
    Stft.irfftAt N (fun k => (α : ℂ) * X k + (β : ℂ) * Y k) n = α * Stft.irfftAt N X n + β * Stft.irfftAt N Y n := by
  unfold Stft.irfftAt
  have : (1 / (N : ℂ)) * ∑ k ∈ range N, Stft.symmetric N (fun k => (α : ℂ) * X k + (β : ℂ) * Y k) k * omega N ^ ((k : ℤ) * n) =
      (α : ℂ) * ((1 / (N : ℂ)) * ∑ k ∈ range N, Stft.symmetric N X k * omega N ^ ((k : ℤ) * n)) +
      (β : ℂ) * ((1 / (N : ℂ)) * ∑ k ∈ range N, Stft.symmetric N Y k * omega N ^ ((k : ℤ) * n)) := by
    rw [mul_left_comm, mul_left_comm (β : ℂ), ← mul_add, mul_sum _ _ (α : ℂ), mul_sum _ _ (β : ℂ), ← sum_add_distrib]
    congr 1
    refine sum_congr rfl fun k _ => ?_
    rw [symmetric_linear]
    ring
  rw [this, Complex.add_re, Complex.re_ofReal_mul, Complex.re_ofReal_mul]

theorem dft_linear (N : Nat) (x y : Nat → ℝ) (α β : ℝ) (k : ℤ) :
    dft N (fun n => α * x n + β * y n) k = (α : ℂ) * dft N x k + (β : ℂ) * dft N y k := by
  unfold dft
  rw [mul_sum, mul_sum, ← sum_add_distrib]
  refine sum_congr rfl fun n _ => ?_
  push_cast
  ring

theorem dft_congr (N : Nat) (x y : Nat → ℝ) (k : ℤ) (h : ∀ n, n < N → x n = y n) : dft N x k = dft N y k := by
  unfold dft
  exact sum_congr rfl fun n hn => by rw [h n (mem_range.1 hn)]

/-- the delayed channel is a linear function of the samples of this channel -/
theorem delayed_linear (A B C : Mat ℝ) (rate delay α β : ℝ) (ca cb cc n : Nat) (ha : A.cols = C.cols) (hb : B.cols = C.cols)
    (h : ∀ j, j < C.cols → C.get cc j = α * A.get ca j + β * B.get cb j) :
    (delayed C rate delay).get cc n = α * (delayed A rate delay).get ca n + β * (delayed B rate delay).get cb n := by
  unfold delayed
  dsimp only
  rw [ha, hb, ← irfftAt_linear]
  congr 1
  funext k
  rw [dft_congr _ _ (fun j => α * A.get ca j + β * B.get cb j) _ h, dft_linear]
  ring

/-! ### the samples of the result -/

/-- the samples `x` of a channel with the length `L`, followed by zeros -/
def zeroPadded (x : Nat → ℝ) (L : Nat) (j : Nat) : ℝ := if j < L then x j else 0

/-- the samples of one channel after the processing of the slice `x` of the impulse response with `L` samples -/
noncomputable def processed (rows : Nat) (x : Nat → ℝ) (L : Nat) (rate : ℝ) (remaining : Option ℝ) (length : Option Nat)
    (j : Nat) : ℝ :=
  match remaining, length with
  | none, none => x j
  | none, some _ => zeroPadded x L j
  | some d, none => (delayed ⟨1, L, fun _ => x⟩ rate d).get 0 j
  | some d, some n =>
    if L < n then (delayed ⟨1, n, fun _ => zeroPadded x L⟩ rate d).get 0 j
    else if rows < L then (delayed ⟨1, L, fun _ => x⟩ rate d).get 0 j
    else x j

theorem delayed_channel (A B : Mat ℝ) (rate delay : ℝ) (a b n : Nat) (hc : A.cols = B.cols)
    (h : ∀ j, j < B.cols → A.get a j = B.get b j) : (delayed A rate delay).get a n = (delayed B rate delay).get b n := by
  have := delayed_linear B B A rate delay 1 0 b b a n hc.symm hc.symm (fun j hj => by rw [h j (by omega)]; ring)
  rw [this]
  ring

/-- the number of samples of the result -/
def resultLength (rows L : Nat) (length : Option Nat) : Nat :=
  match length with
  | none => L
  | some n => if L < n then n else if rows < L then n else L

theorem resized_eq (mem : Nat → Nat → ℝ) (s : Signal ℝ ℝ) (slice : PySlice) (remaining : Option ℝ) (length : Option Nat)
    (h1 : 1 ≤ s.channels.rows) :
    ∃ C D, resized mem s slice remaining length = .ok (C, D) ∧ C.rows = s.channels.rows ∧
      C.cols = resultLength s.channels.rows (s.channels.slice .all slice).cols length ∧
      ∀ c j, c < C.rows → j < C.cols → C.get c j = processed s.channels.rows ((s.channels.slice .all slice).get c)
        (s.channels.slice .all slice).cols s.rate remaining length j := by
  obtain ⟨A, hA⟩ : ∃ A, s.channels.slice .all slice = A := ⟨_, rfl⟩
  have hAr : A.rows = s.channels.rows := by rw [← hA]; rfl
  have hAc : A.cols = slice.hi s.channels.cols - slice.lo s.channels.cols := by rw [← hA]; rfl
  unfold resized
  dsimp only
  rw [hA]
  cases length with
  | none =>
    cases remaining with
    | none => exact ⟨A, s.channels, rfl, hAr, rfl, fun _ _ _ _ => rfl⟩
    | some delay =>
      obtain ⟨C, c1, c2, c3, c4⟩ := applyDelay_ok A A s.rate delay (by omega) rfl (le_refl _)
      obtain ⟨D, d1, _⟩ := Mat.assign_ok (A := s.channels) (S := C) (r := .all) (c := slice) 0 s.channels.rows
        (slice.lo s.channels.cols) (slice.hi s.channels.cols) rfl rfl rfl rfl (by omega) (by omega)
      refine ⟨C, D, ?_, by omega, c3, ?_⟩
      · dsimp only
        rw [c1]
        show (s.channels.assign .all slice C >>= _) = _
        rw [d1]
        rfl
      · intro c j hc hj
        rw [c4 c j (by omega) (by omega)]
        exact delayed_channel A ⟨1, A.cols, fun _ => A.get c⟩ _ _ _ _ _ rfl fun _ _ => rfl
  | some n =>
    dsimp only
    by_cases hlt : A.cols < n
    · rw [if_pos hlt]
      have e1 : (PySlice.range 0 (A.cols : Nat)).hi (alloc mem A.rows n).cols = A.cols := by
        show (PySlice.range 0 (A.cols : Nat)).hi n = _
        rw [PySlice.hi_range, clampBound_nat]
        omega
      obtain ⟨B, b1, b2, b3, b4, _⟩ := Mat.assign_cols (A := alloc mem A.rows n) (S := A) (c := .range 0 (A.cols : Nat)) 0
        A.cols (by rw [PySlice.lo_range, clampBound_zero]) e1 rfl (by omega)
      have b2' : B.rows = A.rows := b2
      have b3' : B.cols = n := b3
      obtain ⟨D, d1, d2, d3, d4, d5⟩ := Mat.assign_cols_scalar (A := B) (c := .drop (A.cols : Nat)) (0 : ℝ) A.cols n
        (by rw [PySlice.lo_drop, clampBound_nat, b3']; omega) (by rw [PySlice.hi_drop, b3'])
      have hD : ∀ c j, c < s.channels.rows → j < n → D.get c j = zeroPadded (A.get c) A.cols j := by
        intro c j hc hj
        unfold zeroPadded
        by_cases hj' : j < A.cols
        · rw [if_pos hj', d5 c j (by omega), b4 c j (by rw [← hAr] at hc; exact hc) (by omega) hj', Nat.sub_zero]
        · rw [if_neg hj', d4 c j (by omega) (by omega) hj]
      rw [b1]
      show ∃ C E, ((B.assign .all (.drop (A.cols : Nat)) (.scalar 0)) >>= _) = _ ∧ _
      rw [d1]
      have hres : resultLength s.channels.rows A.cols (some n) = n := if_pos hlt
      rw [hres]
      cases remaining with
      | none => exact ⟨D, s.channels, rfl, by omega, by omega, fun c j hc hj => hD c j (by omega) (by omega)⟩
      | some delay =>
        obtain ⟨C, c1, c2, c3, c4⟩ := applyDelay_ok D D s.rate delay (by omega) rfl (le_refl _)
        refine ⟨C, s.channels, ?_, by omega, by omega, ?_⟩
        · show (applyDelay D s.rate delay D >>= _) = _
          rw [c1]
          rfl
        · intro c j hc hj
          rw [c4 c j (by omega) (by omega)]
          show _ = if A.cols < n then _ else _
          rw [if_pos hlt]
          exact delayed_channel D ⟨1, n, fun _ => zeroPadded (A.get c) A.cols⟩ _ _ _ _ _ (by show D.cols = n; omega)
            fun j hj => hD c j (by omega) hj
    · rw [if_neg hlt]
      by_cases hgt : A.cols > A.rows
      · have hres : resultLength s.channels.rows A.cols (some n) = n := by
          show (if _ then _ else if _ then _ else _) = _
          rw [if_neg hlt, if_pos (by omega)]
        rw [if_pos hgt, hres]
        cases remaining with
        | none =>
          refine ⟨A.slice .all (.range 0 n), s.channels, rfl, hAr, ?_, ?_⟩
          · rw [Mat.slice_cols, PySlice.count_range, clampBound_zero, clampBound_nat]
            omega
          · intro c j hc hj
            have hj' : j < n := by
              rw [Mat.slice_cols, PySlice.count_range, clampBound_zero, clampBound_nat] at hj
              omega
            rw [Mat.slice_all_get, PySlice.lo_range, clampBound_zero, Nat.zero_add]
            show _ = zeroPadded _ _ _
            unfold zeroPadded
            rw [if_pos (by omega)]
        | some delay =>
          obtain ⟨C, c1, c2, c3, c4⟩ := applyDelay_ok A (alloc mem A.rows n) s.rate delay (by omega) rfl (by
            show n ≤ _
            omega)
          have c3' : C.cols = n := c3
          refine ⟨C, s.channels, ?_, by omega, c3', ?_⟩
          · dsimp only
            rw [c1]
            rfl
          · intro c j hc hj
            rw [c4 c j (by omega) (by rw [← c3]; exact hj)]
            show _ = if A.cols < n then _ else if s.channels.rows < A.cols then _ else _
            rw [if_neg hlt, if_pos (by omega)]
            exact delayed_channel A ⟨1, A.cols, fun _ => A.get c⟩ _ _ _ _ _ rfl fun _ _ => rfl
      · have hres : resultLength s.channels.rows A.cols (some n) = A.cols := by
          show (if _ then _ else if _ then _ else _) = _
          rw [if_neg hlt, if_neg (by omega)]
        rw [if_neg hgt, hres]
        refine ⟨A, s.channels, rfl, hAr, rfl, ?_⟩
        intro c j hc hj
        cases remaining with
        | none =>
          show _ = zeroPadded _ _ _
          unfold zeroPadded
          rw [if_pos hj]
        | some delay =>
          show _ = if A.cols < n then _ else if s.channels.rows < A.cols then _ else _
          rw [if_neg hlt, if_neg (by omega)]

theorem processed_linear (rows L : Nat) (x y z : Nat → ℝ) (rate α β : ℝ) (remaining : Option ℝ) (length : Option Nat)
    (h : ∀ j, j < L → z j = α * x j + β * y j) (j : Nat) (hj : j < resultLength rows L length) :
    processed rows z L rate remaining length j =
      α * processed rows x L rate remaining length j + β * processed rows y L rate remaining length j := by
  have hz : ∀ j, zeroPadded z L j = α * zeroPadded x L j + β * zeroPadded y L j := by
    intro j
    unfold zeroPadded
    by_cases hj : j < L
    · rw [if_pos hj, if_pos hj, if_pos hj, h j hj]
    · rw [if_neg hj, if_neg hj, if_neg hj]
      ring
  unfold processed
  cases remaining with
  | none =>
    cases length with
    | none => exact h j hj
    | some n => exact hz j
  | some d =>
    cases length with
    | none => exact delayed_linear _ _ _ _ _ _ _ _ _ _ _ rfl rfl h
    | some n =>
      unfold resultLength at hj
      dsimp only at hj ⊢
      by_cases h1 : L < n
      · rw [if_pos h1, if_pos h1, if_pos h1]
        exact delayed_linear _ _ _ _ _ _ _ _ _ _ _ rfl rfl fun j _ => hz j
      · rw [if_neg h1, if_neg h1, if_neg h1]
        rw [if_neg h1] at hj
        by_cases h2 : rows < L
        · rw [if_pos h2, if_pos h2, if_pos h2]
          exact delayed_linear _ _ _ _ _ _ _ _ _ _ _ rfl rfl h
        · rw [if_neg h2, if_neg h2, if_neg h2]
          rw [if_neg h2] at hj
          exact h j hj

/-! ### the property -/

/-- The impulse responses have the same sampling rate, offset and shape. -/
def SameAxes (a b : Signal ℝ ℝ) : Prop :=
  a.rate = b.rate ∧ a.offset = b.offset ∧ a.channels.rows = b.channels.rows ∧ a.channels.cols = b.channels.cols

theorem cut_axes (a b : Signal ℝ ℝ) (h : SameAxes a b) (l : ℝ) (harmonic : Int) : cut a l harmonic = cut b l harmonic := by
  obtain ⟨h1, h2, _⟩ := h
  unfold cut stopIndex
  rw [h1, h2]

/-- C125: The harmonic impulse response of a weighted sum of impulse responses is the weighted sum of the harmonic impulse
responses, sample by sample and for any uninitialized memory. -/
theorem C125_linear (m1 m2 m3 : Nat → Nat → ℝ) (l α β : ℝ) (a b s : Signal ℝ ℝ) (harmonic : Int) (length : Option Nat)
    (ha : SameAxes a s) (hb : SameAxes b s) (h1 : 1 ≤ s.channels.rows) (hh : 1 ≤ harmonic) (hr : s.rate ≠ 0)
    (h : ∀ c j, c < s.channels.rows → j < s.channels.cols → s.channels.get c j = α * a.channels.get c j + β * b.channels.get c j) :
    ∃ x y z, harmonicImpulseResponse m1 l a harmonic length = .ok x ∧ harmonicImpulseResponse m2 l b harmonic length = .ok y ∧
      harmonicImpulseResponse m3 l s harmonic length = .ok z ∧ SameAxes x.result z.result ∧ SameAxes y.result z.result ∧
      z.result.channels.rows = s.channels.rows ∧
      ∀ c j, c < z.result.channels.rows → j < z.result.channels.cols →
        z.result.channels.get c j = α * x.result.channels.get c j + β * y.result.channels.get c j := by
  obtain ⟨slice, remaining, hcut, _⟩ := cut_total s l harmonic hh hr
  obtain ⟨a1, a2, a3, a4⟩ := id ha
  obtain ⟨b1, b2, b3, b4⟩ := id hb
  obtain ⟨A, A', ra1, ra2, ra3, ra4⟩ := resized_eq m1 a slice remaining length (by omega)
  obtain ⟨B, B', rb1, rb2, rb3, rb4⟩ := resized_eq m2 b slice remaining length (by omega)
  obtain ⟨C, C', rc1, rc2, rc3, rc4⟩ := resized_eq m3 s slice remaining length h1
  have hca : (a.channels.slice .all slice).cols = (s.channels.slice .all slice).cols := by
    rw [Mat.slice_cols, Mat.slice_cols, a4]
  have hcb : (b.channels.slice .all slice).cols = (s.channels.slice .all slice).cols := by
    rw [Mat.slice_cols, Mat.slice_cols, b4]
  rw [hca, a3] at ra3 ra4
  rw [hcb, b3] at rb3 rb4
  refine ⟨_, _, _, response_ok m1 l a harmonic length slice remaining A A' (by rw [cut_axes a s ha, hcut]) ra1,
    response_ok m2 l b harmonic length slice remaining B B' (by rw [cut_axes b s hb, hcut]) rb1,
    response_ok m3 l s harmonic length slice remaining C C' hcut rc1, ⟨a1, rfl, ?_, ?_⟩, ⟨b1, rfl, ?_, ?_⟩, rc2, ?_⟩
  · show A.rows = C.rows
    omega
  · show A.cols = C.cols
    omega
  · show B.rows = C.rows
    omega
  · show B.cols = C.cols
    omega
  · intro c j hc hj
    change c < C.rows at hc
    change j < C.cols at hj
    show C.get c j = α * A.get c j + β * B.get c j
    rw [rc4 c j hc hj, ra4 c j (by omega) (by omega), rb4 c j (by omega) (by omega), a1, b1]
    refine processed_linear _ _ _ _ _ _ _ _ _ _ ?_ j (by omega)
    intro i hi
    have hlo : slice.lo s.channels.cols + i < s.channels.cols := by
      have h1 : (s.channels.slice .all slice).cols = slice.hi s.channels.cols - slice.lo s.channels.cols := rfl
      have h2 := PySlice.hi_le slice s.channels.cols
      omega
    rw [Mat.slice_all_get, Mat.slice_all_get, Mat.slice_all_get, a4, b4]
    exact h c _ (by omega) hlo

/-- C125: The channels of the harmonic impulse response depend on the same channel of the impulse response only. -/
theorem C125_channels (m1 m2 : Nat → Nat → ℝ) (l : ℝ) (a s : Signal ℝ ℝ) (harmonic : Int) (length : Option Nat)
    (ha : SameAxes a s) (h1 : 1 ≤ s.channels.rows) (hh : 1 ≤ harmonic) (hr : s.rate ≠ 0) (c : Nat) (hc : c < s.channels.rows)
    (h : ∀ j, j < s.channels.cols → a.channels.get c j = s.channels.get c j) :
    ∃ x z, harmonicImpulseResponse m1 l a harmonic length = .ok x ∧ harmonicImpulseResponse m2 l s harmonic length = .ok z ∧
      SameAxes x.result z.result ∧
      ∀ j, j < z.result.channels.cols → x.result.channels.get c j = z.result.channels.get c j := by
  obtain ⟨slice, remaining, hcut, _⟩ := cut_total s l harmonic hh hr
  obtain ⟨a1, a2, a3, a4⟩ := id ha
  obtain ⟨A, A', ra1, ra2, ra3, ra4⟩ := resized_eq m1 a slice remaining length (by omega)
  obtain ⟨C, C', rc1, rc2, rc3, rc4⟩ := resized_eq m2 s slice remaining length h1
  have hca : (a.channels.slice .all slice).cols = (s.channels.slice .all slice).cols := by
    rw [Mat.slice_cols, Mat.slice_cols, a4]
  rw [hca, a3] at ra3 ra4
  refine ⟨_, _, response_ok m1 l a harmonic length slice remaining A A' (by rw [cut_axes a s ha, hcut]) ra1,
    response_ok m2 l s harmonic length slice remaining C C' hcut rc1, ⟨a1, rfl, ?_, ?_⟩, ?_⟩
  · show A.rows = C.rows
    omega
  · show A.cols = C.cols
    omega
  · intro j hj
    change j < C.cols at hj
    show A.get c j = C.get c j
    rw [rc4 c j (by omega) hj, ra4 c j (by omega) (by omega), a1]
    have := processed_linear s.channels.rows (s.channels.slice .all slice).cols ((s.channels.slice .all slice).get c)
      ((s.channels.slice .all slice).get c) ((a.channels.slice .all slice).get c) s.rate 1 0 remaining length (by
        intro i hi
        have hlo : slice.lo s.channels.cols + i < s.channels.cols := by
          have h1 : (s.channels.slice .all slice).cols = slice.hi s.channels.cols - slice.lo s.channels.cols := rfl
          have h2 := PySlice.hi_le slice s.channels.cols
          omega
        rw [Mat.slice_all_get, Mat.slice_all_get, a4, h _ hlo]
        ring) j (by omega)
    rw [this]
    ring

/-- the hypotheses of `C125_linear` -/
example : ∃ a b s : Signal ℝ ℝ, SameAxes a s ∧ SameAxes b s ∧ 1 ≤ s.channels.rows ∧ s.rate ≠ 0 ∧
    (∀ c j, c < s.channels.rows → j < s.channels.cols → s.channels.get c j = 2 * a.channels.get c j + 3 * b.channels.get c j) ∧
    s.channels.get 0 1 = 5 :=
  ⟨⟨⟨1, 8, fun _ j => (j : ℝ)⟩, 48000, -3, ["a"]⟩, ⟨⟨1, 8, fun _ _ => 1⟩, 48000, -3, ["b"]⟩,
    ⟨⟨1, 8, fun _ j => 2 * (j : ℝ) + 3 * 1⟩, 48000, -3, ["s"]⟩, ⟨rfl, rfl, rfl, rfl⟩, ⟨rfl, rfl, rfl, rfl⟩, le_refl _,
    by norm_num, fun _ _ _ _ => rfl, by norm_num⟩

/-- the hypotheses of `C125_channels` for two impulse responses, that differ in their second channel -/
example : ∃ a s : Signal ℝ ℝ, SameAxes a s ∧ 1 ≤ s.channels.rows ∧ s.rate ≠ 0 ∧
    (∀ j, j < s.channels.cols → a.channels.get 0 j = s.channels.get 0 j) ∧ a.channels.get 1 0 ≠ s.channels.get 1 0 :=
  ⟨⟨⟨2, 8, fun c j => (j : ℝ) + c⟩, 48000, -3, ["a", "b"]⟩, ⟨⟨2, 8, fun c j => (j : ℝ) + 2 * c⟩, 48000, -3, ["s", "t"]⟩,
    ⟨rfl, rfl, rfl, rfl⟩, by norm_num, by norm_num, fun _ _ => by simp, by norm_num⟩

end Harmonic
end Verif
