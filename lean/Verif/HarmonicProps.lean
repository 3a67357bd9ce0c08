import Verif.Harmonic
import Verif.SweepProps
import Verif.StftProps
import Mathlib.Analysis.SpecialFunctions.Trigonometric.Basic

/-
Properties of the impulse responses of harmonics (C45) and of the compensation of the remaining delay (C71).
-/

namespace Verif
namespace Harmonic

open Finset Dft

/-! ### The delay -/

theorem cos_eq (N k n : Nat) (φ : ℝ) : ((Real.cos (2 * Real.pi * k * n / N + φ) : ℝ) : ℂ) =
    (Complex.exp (φ * Complex.I) * omega N ^ ((k : ℤ) * n) + Complex.exp (-(φ * Complex.I)) * omega N ^ (-((k : ℤ) * n))) / 2 := by
  have h1 : omega N ^ ((k : ℤ) * n) = Complex.exp (2 * Real.pi * k * n / N * Complex.I) := by
    unfold omega
    rw [← Complex.exp_int_mul]
    congr 1
    push_cast
    ring
  rw [zpow_neg, h1, ← Complex.exp_neg, ← Complex.exp_add, ← Complex.exp_add, Complex.ofReal_cos]
  unfold Complex.cos
  push_cast
  congr 2 <;> congr 1 <;> ring

theorem dft_cos {N : Nat} (hN : N ≠ 0) (k m : Nat) (φ : ℝ) (hk : 0 < k) (hkN : 2 * k < N) (hm : m ≤ N / 2) :
    dft N (fun n => Real.cos (2 * Real.pi * k * n / N + φ)) m =
      if m = k then (N : ℂ) / 2 * Complex.exp (φ * Complex.I) else 0 := by
  unfold dft
  have e : ∀ n : Nat, ((Real.cos (2 * Real.pi * k * n / N + φ) : ℝ) : ℂ) * omega N ^ (-((m : ℤ) * n)) =
      Complex.exp (φ * Complex.I) / 2 * omega N ^ ((n : ℤ) * (k - m)) +
        Complex.exp (-(φ * Complex.I)) / 2 * omega N ^ ((n : ℤ) * (-(k + m))) := by
    intro n
    rw [cos_eq, show (n : ℤ) * (k - m) = k * n + -(m * n) by ring, show (n : ℤ) * (-(k + m)) = -(k * n) + -(m * n) by ring,
      zpow_add₀ (omega_ne_zero N), zpow_add₀ (omega_ne_zero N)]
    ring
  simp only [e]
  rw [Finset.sum_add_distrib, ← Finset.mul_sum, ← Finset.mul_sum, sum_omega hN, sum_omega hN]
  have h2 : ¬ ((N : ℤ) ∣ -(k + m)) := by
    rw [dvd_neg]
    intro h
    have := Int.le_of_dvd (by omega) h
    omega
  rw [if_neg h2]
  by_cases hmk : m = k
  · subst hmk
    rw [if_pos (by simp), if_pos rfl]
    ring
  · have h1 : ¬ ((N : ℤ) ∣ (k : ℤ) - m) := by
      intro h
      have := Int.eq_zero_of_abs_lt_dvd h (by rw [abs_lt]; omega)
      omega
    rw [if_neg h1, if_neg hmk]
    ring

/-- the transformation of a sinusoid by `apply_delay` -/
theorem delayed_cos (channels : Mat ℝ) (rate delay φ : ℝ) (c k n : Nat) (hk : 0 < k) (hkN : 2 * k < channels.cols)
    (hn : n < channels.cols)
    (hx : ∀ i, i < channels.cols → channels.get c i = Real.cos (2 * Real.pi * k * i / channels.cols + φ)) :
    (delayed channels rate delay).get c n = Real.cos (2 * Real.pi * k * n / channels.cols +
      (φ + 2 * Real.pi * axis (rate / 2) (channels.cols / 2 + 1) k * delay)) := by
  obtain ⟨N, hN⟩ : ∃ N, channels.cols = N := ⟨_, rfl⟩
  unfold delayed
  dsimp only
  rw [hN] at hkN hn hx ⊢
  have hN0 : N ≠ 0 := by omega
  refine Stft.irfft_rfft hN0
    (fun n => Real.cos (2 * Real.pi * k * n / N + (φ + 2 * Real.pi * axis (rate / 2) (N / 2 + 1) k * delay))) _ ?_ hn
  intro m hm
  have h1 : dft N (channels.get c) m = dft N (fun n => Real.cos (2 * Real.pi * k * n / N + φ)) m := by
    unfold dft
    refine Finset.sum_congr rfl fun j hj => ?_
    rw [hx j (mem_range.mp hj)]
  rw [h1, dft_cos hN0 k m φ hk hkN hm, dft_cos hN0 k m _ hk hkN hm]
  split
  · next h =>
    subst h
    rw [mul_assoc, ← Complex.exp_add]
    congr 2
    push_cast
    ring
  · rw [zero_mul]

theorem applyDelay_ok (A out : Mat ℝ) (rate delay : ℝ) (h1 : 1 ≤ A.rows) (hr : out.rows = A.rows) (hc : out.cols ≤ A.cols) :
    ∃ C, applyDelay A rate delay out = .ok C ∧ C.rows = A.rows ∧ C.cols = out.cols ∧
      ∀ c n, c < A.rows → n < out.cols → C.get c n = (delayed A rate delay).get c n := by
  unfold applyDelay
  by_cases h : A.cols = 0
  · rw [if_neg (by rw [h]; simp)]
    obtain ⟨C, c1, c2, c3, _⟩ := Mat.assign_ok (A := out) (S := A) (r := .all) (c := .all) 0 out.rows 0 out.cols rfl rfl rfl rfl
      (by omega) (by omega)
    exact ⟨C, c1, by omega, c3, fun c n _ hn => by omega⟩
  · rw [if_pos (Nat.mul_ne_zero (by omega) h)]
    have e1 : (PySlice.range 0 (A.cols : Nat)).hi out.cols = out.cols := by
      rw [PySlice.hi_range, clampBound_nat]
      omega
    obtain ⟨C, c1, c2, c3, c4, _⟩ := Mat.assign_ok (A := out)
      (S := (delayed A rate delay).slice .all (.range 0 out.cols)) (r := .all) (c := .range 0 (A.cols : Nat)) 0 out.rows 0
      out.cols rfl rfl (by rw [PySlice.lo_range, clampBound_zero]) e1 (by
        show (delayed A rate delay).rows = _
        exact hr.symm ▸ rfl) (by
        rw [Mat.slice_cols, PySlice.count_range, clampBound_zero, clampBound_nat]
        show min out.cols A.cols - 0 = _
        omega)
    refine ⟨C, c1, by omega, c3, ?_⟩
    intro c n hcr hn
    rw [c4 c n (by omega) (by omega) (by omega) hn, Mat.slice_all_get, PySlice.lo_range, clampBound_zero]
    congr 1
    omega

/-- C71: For an even number of samples, `apply_delay` shifts each sinusoid, whose frequency is that of a bin, by exactly the
given time. Missing: odd numbers of samples, for which the frequencies are wrong (`C71_delay_violated`). -/
theorem C71_delay_partial (channels out : Mat ℝ) (rate delay φ : ℝ) (c k n M : Nat) (hM : channels.cols = 2 * M)
    (hk : 0 < k) (hkM : k < M) (hr : out.rows = channels.rows) (hc : out.cols ≤ channels.cols) (hcr : c < channels.rows)
    (hn : n < out.cols)
    (hx : ∀ i : Nat, i < channels.cols → channels.get c i = Real.cos (2 * Real.pi * (k * rate / channels.cols) * (i / rate) + φ))
    (hrate : rate ≠ 0) :
    ∃ C, applyDelay channels rate delay out = .ok C ∧
      C.get c n = Real.cos (2 * Real.pi * (k * rate / channels.cols) * (n / rate + delay) + φ) := by
  obtain ⟨C, c1, _, _, c2⟩ := applyDelay_ok channels out rate delay (by omega) hr hc
  refine ⟨C, c1, ?_⟩
  have hMR : (M : ℝ) ≠ 0 := by
    have : M ≠ 0 := by omega
    exact_mod_cast this
  have hN : (channels.cols : ℝ) ≠ 0 := by
    rw [hM]
    push_cast
    exact mul_ne_zero two_ne_zero hMR
  rw [c2 c n hcr hn, delayed_cos channels rate delay φ c k n hk (by omega) (by omega) (by
    intro i hi
    rw [hx i hi]
    congr 2
    field_simp)]
  have haxis : axis (rate / 2) (channels.cols / 2 + 1) k = k * rate / channels.cols := by
    unfold axis Sweep.linspace
    rw [if_neg (by omega), hM, show 2 * M / 2 = M by omega]
    push_cast
    rw [add_sub_cancel_right]
    field_simp
    ring
  rw [haxis]
  congr 1
  field_simp
  ring

example : ∃ (channels : Mat ℝ) (rate φ : ℝ) (k M : Nat), channels.cols = 2 * M ∧ 0 < k ∧ k < M ∧ 0 < channels.rows ∧
    rate ≠ 0 ∧ φ ≠ 0 ∧ ∀ i : Nat, i < channels.cols →
      channels.get 0 i = Real.cos (2 * Real.pi * (k * rate / channels.cols) * (i / rate) + φ) :=
  ⟨⟨1, 8, fun _ i => Real.cos (2 * Real.pi * ((3 : Nat) * 48000 / (8 : Nat)) * (i / 48000) + 1)⟩, 48000, 1, 3, 4, rfl,
    by decide, by decide, Nat.one_pos, by norm_num, by norm_num, fun _ _ => rfl⟩

/-- one period of a cosine with three samples -/
noncomputable def cosine : Mat ℝ := ⟨1, 3, fun _ i => Real.cos (2 * Real.pi * (1 * 3 / 3) * (i / 3) + 0)⟩

/-- C71 is violated for odd numbers of samples: the cosine with three samples and the sampling rate 3 Hz is advanced by a
quarter of its period instead of half a sample, because the last bin's frequency is considered to be the half of the sampling
rate. -/
theorem C71_delay_violated : ∃ C, applyDelay cosine 3 (1 / 6) cosine = .ok C ∧
    C.get 0 0 ≠ Real.cos (2 * Real.pi * (1 * 3 / 3) * (0 / 3 + 1 / 6) + 0) := by
  obtain ⟨C, c1, _, _, c2⟩ := applyDelay_ok cosine cosine 3 (1 / 6) (by decide) rfl (le_refl _)
  refine ⟨C, c1, ?_⟩
  rw [c2 0 0 (by decide) (by decide), delayed_cos cosine 3 (1 / 6) 0 0 1 0 (by decide) (by decide) (by decide) (by
    intro i _
    show Real.cos _ = Real.cos (2 * Real.pi * ((1 : Nat) : ℝ) * i / ((3 : Nat) : ℝ) + 0)
    congr 1
    push_cast
    ring)]
  have haxis : axis (3 / 2) (cosine.cols / 2 + 1) 1 = 3 / 2 := by
    unfold axis Sweep.linspace cosine
    norm_num
  rw [haxis]
  have e1 : 2 * Real.pi * ((1 : Nat) : ℝ) * ((0 : Nat) : ℝ) / (cosine.cols : ℝ) + (0 + 2 * Real.pi * (3 / 2) * (1 / 6)) =
      Real.pi / 2 := by
    push_cast
    ring
  have e2 : 2 * Real.pi * (1 * 3 / 3) * (0 / 3 + 1 / 6) + 0 = Real.pi / 3 := by ring
  rw [e1, e2, Real.cos_pi_div_two, Real.cos_pi_div_three]
  norm_num

/-! ### The samples, that are cut out -/

theorem delayed_zero (A : Mat ℝ) (rate : ℝ) (c n : Nat) (hn : n < A.cols) : (delayed A rate 0).get c n = A.get c n := by
  unfold delayed
  dsimp only
  refine Stft.irfft_rfft (by omega) (A.get c) _ ?_ hn
  intro k _
  simp

/-- the index behind the harmonic impulse response as a number -/
noncomputable def stopOf (s : Signal ℝ ℝ) (l : ℝ) (harmonic : Int) : Int :=
  if harmonic = 2 then -s.offset else -⌊Real.log ((harmonic : ℝ) - 1) * l * s.rate⌋ - s.offset

theorem cut_one (s : Signal ℝ ℝ) (l : ℝ) : cut s l 1 = .ok (.drop (-s.offset), none) := rfl

theorem cut_harmonic (s : Signal ℝ ℝ) (l : ℝ) (harmonic : Int) (hh : 2 ≤ harmonic) (hr : s.rate ≠ 0) :
    cut s l harmonic = .ok (if stopOf s l harmonic = 0 ∨ (-⌈Real.log harmonic * l * s.rate⌉ - s.offset < 0 ∧
        0 ≤ stopOf s l harmonic) then .drop (-⌈Real.log harmonic * l * s.rate⌉ - s.offset)
      else .range (-⌈Real.log harmonic * l * s.rate⌉ - s.offset) (stopOf s l harmonic),
      some (⌈Real.log harmonic * l * s.rate⌉ / s.rate - Real.log harmonic * l)) := by
  unfold cut
  rw [if_neg (by omega)]
  have h1 : (2 : ℝ) ≤ harmonic := by exact_mod_cast hh
  rw [show Sweep.log (harmonic : ℝ) = .ok (Real.log harmonic) from if_neg (by linarith)]
  show (Sweep.div _ s.rate >>= _) = _
  rw [Sweep.div_ok hr]
  show (stopIndex s l harmonic >>= _) = _
  have h2 : stopIndex s l harmonic = .ok (stopOf s l harmonic) := by
    unfold stopIndex stopOf
    split
    · rfl
    · next hne =>
      have h3 : (3 : ℝ) ≤ harmonic := by
        have : 3 ≤ harmonic := by omega
        exact_mod_cast this
      rw [show Sweep.log ((harmonic : ℝ) - 1) = .ok (Real.log ((harmonic : ℝ) - 1)) from if_neg (by linarith)]
      rfl
  rw [h2]
  rfl

theorem cut_total (s : Signal ℝ ℝ) (l : ℝ) (harmonic : Int) (hh : 1 ≤ harmonic) (hr : s.rate ≠ 0) :
    ∃ slice remaining, cut s l harmonic = .ok (slice, remaining) ∧ (harmonic = 1 → remaining = none) := by
  rcases eq_or_lt_of_le hh with rfl | h
  · exact ⟨_, _, cut_one s l, fun _ => rfl⟩
  · exact ⟨_, _, cut_harmonic s l harmonic (by omega) hr, fun h => by omega⟩

/-- the result with a requested length -/
theorem resized_some (mem : Nat → Nat → ℝ) (s : Signal ℝ ℝ) (slice : PySlice) (remaining : Option ℝ) (n : Nat)
    (h1 : 1 ≤ s.channels.rows) :
    ∃ C, resized mem s slice remaining (some n) = .ok (C, s.channels) ∧ C.rows = s.channels.rows ∧
      (C.cols = n ∨ n < C.cols ∧ C.cols ≤ s.channels.rows) ∧
      ((remaining = none ∨ remaining = some 0) → ∀ c j, c < s.channels.rows → j < n →
        C.get c j = if j < (s.channels.slice .all slice).cols then (s.channels.slice .all slice).get c j else 0) := by
  obtain ⟨A, hA⟩ : ∃ A, s.channels.slice .all slice = A := ⟨_, rfl⟩
  have hAr : A.rows = s.channels.rows := by rw [← hA]; rfl
  unfold resized
  dsimp only
  rw [hA]
  by_cases hlt : A.cols < n
  · rw [if_pos hlt]
    have e1 : (PySlice.range 0 (A.cols : Nat)).hi (alloc mem A.rows n).cols = A.cols := by
      show (PySlice.range 0 (A.cols : Nat)).hi n = _
      rw [PySlice.hi_range, clampBound_nat]
      omega
    obtain ⟨B, b1, b2, b3, b4, _⟩ := Mat.assign_cols (A := alloc mem A.rows n) (S := A) (c := .range 0 (A.cols : Nat)) 0 A.cols
      (by rw [PySlice.lo_range, clampBound_zero]) e1 rfl (by omega)
    have b2' : B.rows = A.rows := b2
    have b3' : B.cols = n := b3
    obtain ⟨D, d1, d2, d3, d4, d5⟩ := Mat.assign_cols_scalar (A := B) (c := .drop (A.cols : Nat)) (0 : ℝ) A.cols n
      (by rw [PySlice.lo_drop, clampBound_nat, b3']; omega) (by rw [PySlice.hi_drop, b3'])
    have hD : ∀ c j, c < s.channels.rows → j < n → D.get c j = if j < A.cols then A.get c j else 0 := by
      intro c j hc hj
      by_cases hj' : j < A.cols
      · rw [if_pos hj', d5 c j (by omega), b4 c j (by rw [← hAr] at hc; exact hc) (by omega) hj', Nat.sub_zero]
      · rw [if_neg hj', d4 c j (by omega) (by omega) hj]
    rw [b1]
    show ∃ C, ((B.assign .all (.drop (A.cols : Nat)) (.scalar 0)) >>= _) = _ ∧ _
    rw [d1]
    cases remaining with
    | none =>
      refine ⟨D, rfl, by omega, Or.inl (by omega), fun _ => hD⟩
    | some delay =>
      obtain ⟨C, c1, c2, c3, c4⟩ := applyDelay_ok D D s.rate delay (by omega) rfl (le_refl _)
      refine ⟨C, ?_, by omega, Or.inl (by omega), ?_⟩
      · show (applyDelay D s.rate delay D >>= _) = _
        rw [c1]
        rfl
      · intro h c j hc hj
        have h0 : delay = 0 := by
          rcases h with h | h
          · cases h
          · exact Option.some.inj h
        subst h0
        rw [c4 c j (by omega) (by omega), delayed_zero _ _ _ _ (by omega)]
        exact hD c j hc hj
  · rw [if_neg hlt]
    by_cases hgt : A.cols > A.rows
    · rw [if_pos hgt]
      cases remaining with
      | none =>
        refine ⟨A.slice .all (.range 0 n), rfl, hAr, Or.inl ?_, ?_⟩
        · rw [Mat.slice_cols, PySlice.count_range, clampBound_zero, clampBound_nat]
          omega
        · intro _ c j hc hj
          rw [if_pos (by omega), Mat.slice_all_get, PySlice.lo_range, clampBound_zero, Nat.zero_add]
      | some delay =>
        obtain ⟨C, c1, c2, c3, c4⟩ := applyDelay_ok A (alloc mem A.rows n) s.rate delay (by omega) rfl (by
          show n ≤ _
          omega)
        have c3' : C.cols = n := c3
        refine ⟨C, ?_, by omega, Or.inl c3', ?_⟩
        · dsimp only
          rw [c1]
          rfl
        · intro h c j hc hj
          have h0 : delay = 0 := by
            rcases h with h | h
            · cases h
            · exact Option.some.inj h
          subst h0
          rw [if_pos (by omega), c4 c j (by omega) hj, delayed_zero _ _ _ _ (by omega)]
    · rw [if_neg hgt]
      refine ⟨A, rfl, hAr, by omega, ?_⟩
      intro _ c j hc hj
      rw [if_pos (by omega)]

theorem resized_none (mem : Nat → Nat → ℝ) (s : Signal ℝ ℝ) (slice : PySlice) (remaining : Option ℝ)
    (h1 : 1 ≤ s.channels.rows) :
    ∃ C D, resized mem s slice remaining none = .ok (C, D) ∧ C.rows = s.channels.rows ∧
      C.cols = (s.channels.slice .all slice).cols ∧ (remaining = none → D = s.channels) ∧
      ((remaining = none ∨ remaining = some 0) → ∀ c j, c < s.channels.rows → j < (s.channels.slice .all slice).cols →
        C.get c j = (s.channels.slice .all slice).get c j) := by
  obtain ⟨A, hA⟩ : ∃ A, s.channels.slice .all slice = A := ⟨_, rfl⟩
  have hAr : A.rows = s.channels.rows := by rw [← hA]; rfl
  have hAc : A.cols = slice.hi s.channels.cols - slice.lo s.channels.cols := by rw [← hA]; rfl
  unfold resized
  dsimp only
  rw [hA]
  cases remaining with
  | none => exact ⟨A, s.channels, rfl, hAr, rfl, fun _ => rfl, fun _ _ _ _ _ => rfl⟩
  | some delay =>
    obtain ⟨C, c1, c2, c3, c4⟩ := applyDelay_ok A A s.rate delay (by omega) rfl (le_refl _)
    obtain ⟨D, d1, _⟩ := Mat.assign_ok (A := s.channels) (S := C) (r := .all) (c := slice) 0 s.channels.rows
      (slice.lo s.channels.cols) (slice.hi s.channels.cols) rfl rfl rfl rfl (by omega) (by omega)
    refine ⟨C, D, ?_, by omega, by omega, fun h => (by cases h), ?_⟩
    · dsimp only
      rw [c1]
      show (s.channels.assign .all slice C >>= _) = _
      rw [d1]
      rfl
    · intro h c j hc hj
      have h0 : delay = 0 := by
        rcases h with h | h
        · cases h
        · exact Option.some.inj h
      subst h0
      rw [c4 c j (by omega) (by omega), delayed_zero _ _ _ _ hj]

theorem response_ok (mem : Nat → Nat → ℝ) (l : ℝ) (s : Signal ℝ ℝ) (harmonic : Int) (length : Option Nat) (slice : PySlice)
    (remaining : Option ℝ) (C D : Mat ℝ) (h1 : cut s l harmonic = .ok (slice, remaining))
    (h2 : resized mem s slice remaining length = .ok (C, D)) :
    harmonicImpulseResponse mem l s harmonic length = .ok ⟨Signal.new C s.rate 0 (some (s.labels.map fun label =>
      label ++ " (" ++ String.ofList (Text.countingNumber harmonic) ++ " harmonic)")), D⟩ := by
  unfold harmonicImpulseResponse
  rw [h1]
  show (resized mem s slice remaining length >>= _) = _
  rw [h2]
  rfl

/-- C45: The harmonic impulse response has the number of channels, the sampling rate and the labels of the given impulse
response, the offset 0, and the requested length, if this is not smaller than the number of channels. Missing: shorter
lengths (`C45_length_violated`). -/
theorem C45_length_partial (mem : Nat → Nat → ℝ) (l : ℝ) (s : Signal ℝ ℝ) (harmonic : Int) (n : Nat)
    (hl : s.labels.length = s.channels.rows) (h1 : 1 ≤ s.channels.rows) (hh : 1 ≤ harmonic) (hr : s.rate ≠ 0)
    (hn : s.channels.rows ≤ n) :
    ∃ r, harmonicImpulseResponse mem l s harmonic (some n) = .ok r ∧ r.result.channels.rows = s.channels.rows ∧
      r.result.channels.cols = n ∧ r.result.rate = s.rate ∧ r.result.offset = 0 ∧
      r.result.labels = s.labels.map fun label =>
        label ++ " (" ++ String.ofList (Text.countingNumber harmonic) ++ " harmonic)" := by
  obtain ⟨slice, remaining, c1, _⟩ := cut_total s l harmonic hh hr
  obtain ⟨C, d1, d2, d3, _⟩ := resized_some mem s slice remaining n h1
  refine ⟨_, response_ok mem l s harmonic (some n) slice remaining C s.channels c1 d1, d2, ?_, rfl, rfl, ?_⟩
  · show C.cols = n
    omega
  · show sanitizeLabels (some _) C.rows = _
    exact Signal.sanitize_self (by rw [List.length_map]; omega)

example : ∃ (s : Signal ℝ ℝ) (harmonic : Int) (n : Nat), s.labels.length = s.channels.rows ∧ 1 ≤ s.channels.rows ∧
    1 ≤ harmonic ∧ s.rate ≠ 0 ∧ s.channels.rows ≤ n :=
  ⟨⟨⟨2, 9, fun c i => c + i⟩, 48000, -5, ["a", "b"]⟩, 3, 4, rfl, by decide, by decide, by norm_num, by decide⟩

/-- C45 is violated: if the harmonic impulse response has not more samples than channels, it is not cropped to the requested
length, because its length is compared with the number of channels in line 217. -/
theorem C45_length_violated : ∃ s : Signal ℝ ℝ, s.channels.rows = 2 ∧ s.channels.cols = 2 ∧ ∀ mem l, ∃ r,
    harmonicImpulseResponse mem l s 1 (some 1) = .ok r ∧ r.result.channels.cols = 2 :=
  ⟨⟨⟨2, 2, fun _ _ => 1⟩, 48000, 0, ["a", "b"]⟩, rfl, rfl, fun _ _ => ⟨_, rfl, rfl⟩⟩

/-- C45: The given impulse response is not modified, if a length is specified or if the linear impulse response is computed.
Missing: the other harmonics without a specified length (`C45_unmodified_violated`). -/
theorem C45_unmodified_partial (mem : Nat → Nat → ℝ) (l : ℝ) (s : Signal ℝ ℝ) (harmonic : Int) (length : Option Nat)
    (h1 : 1 ≤ s.channels.rows) (hh : 1 ≤ harmonic) (hr : s.rate ≠ 0) (h : length ≠ none ∨ harmonic = 1) :
    ∃ r, harmonicImpulseResponse mem l s harmonic length = .ok r ∧ r.impulse = s.channels := by
  obtain ⟨slice, remaining, c1, c2⟩ := cut_total s l harmonic hh hr
  cases length with
  | some n =>
    obtain ⟨C, d1, d2, d3, _⟩ := resized_some mem s slice remaining n h1
    exact ⟨_, response_ok mem l s harmonic (some n) slice remaining C s.channels c1 d1, rfl⟩
  | none =>
    obtain ⟨C, D, d1, d2, d3, d4, _⟩ := resized_none mem s slice remaining h1
    exact ⟨_, response_ok mem l s harmonic none slice remaining C D c1 d1, d4 (c2 (by simpa using h))⟩

/-- an impulse with two samples -/
noncomputable def pulse : Signal ℝ ℝ := ⟨⟨1, 2, fun _ i => if i = 0 then 1 else 0⟩, 1, 0, [""]⟩

/-- C45 is violated: without a specified length, the computation of the second harmonic changes the samples of the given
impulse response. -/
theorem C45_unmodified_violated : ∃ l : ℝ, ∀ mem, ∃ r, harmonicImpulseResponse mem l pulse 2 none = .ok r ∧
    pulse.channels.get 0 0 = 1 ∧ r.impulse.get 0 0 = 1 / 2 := by
  have hlog : Real.log ((2 : Int) : ℝ) ≠ 0 := by
    have : (0 : ℝ) < Real.log ((2 : Int) : ℝ) := Real.log_pos (by norm_num)
    exact this.ne'
  refine ⟨3 / 2 / Real.log ((2 : Int) : ℝ), fun mem => ?_⟩
  have hd : Real.log ((2 : Int) : ℝ) * (3 / 2 / Real.log ((2 : Int) : ℝ)) = 3 / 2 := by
    field_simp
  have hcut : cut pulse (3 / 2 / Real.log ((2 : Int) : ℝ)) 2 = .ok (.drop (-2), some (1 / 2)) := by
    rw [cut_harmonic _ _ _ (le_refl _) (by unfold pulse; norm_num)]
    have hr : pulse.rate = 1 := rfl
    have ho : pulse.offset = 0 := rfl
    have hs : stopOf pulse (3 / 2 / Real.log ((2 : Int) : ℝ)) 2 = 0 := rfl
    have hceil : ⌈(3 / 2 : ℝ)⌉ = 2 := by
      rw [Int.ceil_eq_iff]
      norm_num
    rw [hd, hr, ho, hs, mul_one, hceil, if_pos (Or.inl rfl)]
    congr 2
    norm_num
  have hslice : pulse.channels.slice .all (.drop (-2)) = ⟨1, 2, fun i j => pulse.channels.get (0 + i) (0 + j)⟩ := rfl
  obtain ⟨C, c1, c2, c3, c4⟩ := applyDelay_ok (pulse.channels.slice .all (.drop (-2))) (pulse.channels.slice .all (.drop (-2)))
    1 (1 / 2) (by decide) rfl (le_refl _)
  obtain ⟨D, d1, _, _, d4, _⟩ := Mat.assign_ok (A := pulse.channels) (S := C) (r := .all) (c := .drop (-2)) 0 1 0 2 rfl rfl rfl
    rfl c2 c3
  have hres : resized mem pulse (.drop (-2)) (some (1 / 2)) none = .ok (C, D) := by
    show (applyDelay (pulse.channels.slice .all (.drop (-2))) 1 (1 / 2) (pulse.channels.slice .all (.drop (-2))) >>= _) = _
    rw [c1]
    show (pulse.channels.assign .all (.drop (-2)) C >>= _) = _
    rw [d1]
    rfl
  refine ⟨_, response_ok mem _ pulse 2 none _ _ C D hcut hres, by unfold pulse; simp, ?_⟩
  show D.get 0 0 = 1 / 2
  rw [d4 0 0 (by omega) (by omega) (by omega) (by omega), c4 0 0 (by decide) (by decide), hslice]
  have hexp : Complex.exp (2 * Complex.I * (Real.pi : ℂ) * ((axis (1 / 2) 2 1 : ℝ) : ℂ) * ((1 / 2 : ℝ) : ℂ)) = Complex.I := by
    have ha : axis (1 / 2) 2 1 = 1 / 2 := by
      unfold axis Sweep.linspace
      norm_num
    rw [ha, show 2 * Complex.I * (Real.pi : ℂ) * ((1 / 2 : ℝ) : ℂ) * ((1 / 2 : ℝ) : ℂ) = (Real.pi : ℂ) / 2 * Complex.I by
      push_cast
      ring]
    exact Complex.exp_pi_div_two_mul_I
  have hdft : ∀ k : Nat, dft 2 (fun j => pulse.channels.get (0 + 0) (0 + j)) k = 1 := by
    intro k
    unfold dft pulse
    simp [Finset.sum_range_succ]
  show Stft.irfftAt 2 (fun k => dft 2 (fun j => pulse.channels.get (0 + 0) (0 + j)) k *
    Complex.exp (2 * Complex.I * (Real.pi : ℂ) * ((axis (1 / 2) 2 k : ℝ) : ℂ) * ((1 / 2 : ℝ) : ℂ))) 0 = _
  unfold Stft.irfftAt
  rw [Finset.sum_range_succ, Finset.sum_range_one]
  unfold Stft.symmetric
  rw [if_pos (Or.inl rfl), if_pos (Or.inr rfl)]
  dsimp only
  rw [hdft, hdft, hexp]
  have h0 : axis (1 / 2) 2 0 = 0 := by
    unfold axis Sweep.linspace
    norm_num
  rw [h0]
  norm_num

/-! ### The samples -/

/-- C45: The linear impulse response starts at the time 0 of the given impulse response and is filled with zeros. -/
theorem C45_linear (mem : Nat → Nat → ℝ) (l : ℝ) (s : Signal ℝ ℝ) (n : Nat) (h1 : 1 ≤ s.channels.rows)
    (ho : s.offset ≤ 0) (hn : s.channels.rows ≤ n) :
    ∃ r, harmonicImpulseResponse mem l s 1 (some n) = .ok r ∧ r.result.channels.cols = n ∧
      ∀ c i j : Nat, c < s.channels.rows → j < n → (i : Int) + s.offset = j →
        r.result.channels.get c j = if i < s.channels.cols then s.channels.get c i else 0 := by
  obtain ⟨C, d1, d2, d3, d4⟩ := resized_some mem s (.drop (-s.offset)) none n h1
  refine ⟨_, response_ok mem l s 1 (some n) _ _ C s.channels (cut_one s l) d1, ?_, ?_⟩
  · show C.cols = n
    omega
  · intro c i j hc hj hij
    show C.get c j = _
    rw [d4 (Or.inl rfl) c j hc hj, Mat.slice_cols, PySlice.count_drop, Mat.slice_all_get, PySlice.lo_drop]
    obtain ⟨o, ho'⟩ : ∃ o : Nat, -s.offset = (o : Int) := ⟨(-s.offset).toNat, by omega⟩
    rw [ho', clampBound_nat]
    by_cases h : i < s.channels.cols
    · rw [if_pos (by omega), if_pos h]
      congr 1
      omega
    · rw [if_neg (by omega), if_neg h]

example : ∃ (s : Signal ℝ ℝ) (n : Nat), 1 ≤ s.channels.rows ∧ s.offset ≤ 0 ∧ s.channels.rows ≤ n :=
  ⟨⟨⟨2, 9, fun c i => c + i⟩, 48000, -5, ["a", "b"]⟩, 4, by decide, by decide, by decide⟩

/-- the time between the beginning of the harmonic and the beginning of the next lower one in samples, if the time between
the beginning of the harmonic and that of the linear impulse response is the integer number `d` of samples -/
noncomputable def duration (l rate : ℝ) (harmonic : Int) (d : Nat) : Int :=
  d - ⌊Real.log ((harmonic : ℝ) - 1) * l * rate⌋

theorem stop_duration (s : Signal ℝ ℝ) (l : ℝ) (harmonic : Int) (d : Nat) :
    stopOf s l harmonic = -s.offset - d + duration l s.rate harmonic d := by
  unfold stopOf duration
  split
  · next h =>
    subst h
    norm_num
  · ring

theorem duration_bounds (l rate : ℝ) (harmonic : Int) (d : Nat) (hh : 2 ≤ harmonic) (hl : 0 < l * rate)
    (hd : Real.log harmonic * l * rate = d) : 1 ≤ duration l rate harmonic d ∧ duration l rate harmonic d ≤ d := by
  have h2 : (2 : ℝ) ≤ harmonic := by exact_mod_cast hh
  have hlt : Real.log ((harmonic : ℝ) - 1) * l * rate < d := by
    rw [← hd, mul_assoc, mul_assoc]
    exact mul_lt_mul_of_pos_right (Real.log_lt_log (by linarith) (by linarith)) hl
  have hge : 0 ≤ Real.log ((harmonic : ℝ) - 1) * l * rate := by
    rw [mul_assoc]
    exact mul_nonneg (Real.log_nonneg (by linarith)) hl.le
  have h3 : ⌊Real.log ((harmonic : ℝ) - 1) * l * rate⌋ < d := by
    rw [Int.floor_lt]
    exact_mod_cast hlt
  have h4 : 0 ≤ ⌊Real.log ((harmonic : ℝ) - 1) * l * rate⌋ := Int.floor_nonneg.mpr hge
  unfold duration
  omega

/-- C45: If the harmonic's impulse response starts at a sample, the result has exactly the samples of the given impulse
response from there to the beginning of the next lower harmonic, followed by zeros. This holds for impulse responses, whose
offset is the negative number of samples before the linear impulse response, and for circular ones with the offset 0. -/
theorem C45_harmonic (mem : Nat → Nat → ℝ) (l : ℝ) (s : Signal ℝ ℝ) (harmonic : Int) (n d : Nat) (h1 : 1 ≤ s.channels.rows)
    (hn : s.channels.rows ≤ n) (hh : 2 ≤ harmonic) (hr : s.rate ≠ 0) (hl : 0 < l * s.rate)
    (hd : Real.log harmonic * l * s.rate = d)
    (ho : (d ≤ -s.offset ∧ -s.offset ≤ s.channels.cols) ∨ (s.offset = 0 ∧ d ≤ s.channels.cols)) :
    ∃ r, harmonicImpulseResponse mem l s harmonic (some n) = .ok r ∧ r.result.channels.cols = n ∧
      (∀ c j : Nat, c < s.channels.rows → j < n → (j : Int) < duration l s.rate harmonic d →
        r.result.channels.get c j = s.channels.get c ((-s.offset - d + j) % s.channels.cols).toNat) ∧
      ∀ c j : Nat, c < s.channels.rows → j < n → duration l s.rate harmonic d ≤ j → r.result.channels.get c j = 0 := by
  have hcut := cut_harmonic s l harmonic hh hr
  obtain ⟨b1, b2⟩ := duration_bounds l s.rate harmonic d hh hl hd
  rw [hd, Int.ceil_natCast, stop_duration s l harmonic d] at hcut
  have hrem : (((d : Int) : ℝ) / s.rate - Real.log harmonic * l) = 0 := by
    rw [sub_eq_zero, div_eq_iff hr, hd]
    push_cast
    rfl
  rw [hrem] at hcut
  obtain ⟨t, ht⟩ : ∃ t : Nat, duration l s.rate harmonic d = t := ⟨(duration l s.rate harmonic d).toNat, by omega⟩
  rw [ht] at b1 b2 hcut ⊢
  obtain ⟨N, hN⟩ : ∃ N, s.channels.cols = N := ⟨_, rfl⟩
  rw [hN] at ho
  obtain ⟨slice, hs1, hs2, hs3⟩ : ∃ slice : PySlice, cut s l harmonic = .ok (slice, some 0) ∧
      (slice.lo N : Int) = (-s.offset - d) % N ∧ slice.hi N - slice.lo N = t := by
    rcases ho with ⟨g1, g2⟩ | ⟨g1, g2⟩
    · obtain ⟨o, ho'⟩ : ∃ o : Nat, -s.offset = (o : Int) := ⟨(-s.offset).toNat, by omega⟩
      rw [if_neg (by omega)] at hcut
      refine ⟨_, hcut, ?_, ?_⟩
      · rw [PySlice.lo_range, show -(d : Int) - s.offset = ((o - d : Nat) : Int) by omega, clampBound_nat,
          Int.emod_eq_of_lt (by omega) (by omega)]
        omega
      · rw [PySlice.lo_range, PySlice.hi_range, show -(d : Int) - s.offset = ((o - d : Nat) : Int) by omega, clampBound_nat,
          show -s.offset - (d : Int) + t = ((o - d + t : Nat) : Int) by omega, clampBound_nat]
        omega
    · have hlo : ((clampBound N (-(d : Int) - s.offset) : Nat) : Int) = N - d := by
        rw [clampBound_neg (by omega)]
        omega
      have hmod : (-s.offset - (d : Int)) % N = N - d := by
        rw [show -s.offset - (d : Int) = (N - d) + N * (-1) by rw [g1]; ring, Int.add_mul_emod_self_left]
        exact Int.emod_eq_of_lt (by omega) (by omega)
      by_cases htd : t = d
      · rw [if_pos (Or.inl (by omega))] at hcut
        refine ⟨_, hcut, ?_, ?_⟩
        · rw [PySlice.lo_drop, hlo, hmod]
        · rw [PySlice.lo_drop, PySlice.hi_drop]
          omega
      · rw [if_neg (by omega)] at hcut
        refine ⟨_, hcut, ?_, ?_⟩
        · rw [PySlice.lo_range, hlo, hmod]
        · rw [PySlice.lo_range, PySlice.hi_range, clampBound_neg (i := -s.offset - d + t) (by omega)]
          omega
  obtain ⟨C, d1, d2, d3, d4⟩ := resized_some mem s slice (some 0) n h1
  have hlt := PySlice.hi_le slice N
  have hcols : (s.channels.slice .all slice).cols = t := by
    rw [Mat.slice_cols, hN]
    exact hs3
  refine ⟨_, response_ok mem l s harmonic (some n) _ _ C s.channels hs1 d1, ?_, ?_, ?_⟩
  · show C.cols = n
    omega
  · intro c j hc hj hjt
    show C.get c j = _
    rw [d4 (Or.inr rfl) c j hc hj, hcols, if_pos (by omega), Mat.slice_all_get, hN]
    congr 1
    have : (-s.offset - (d : Int) + j) % N = slice.lo N + j := by
      rw [Int.add_emod, ← hs2, Int.add_emod_emod]
      exact Int.emod_eq_of_lt (by omega) (by omega)
    rw [this]
    omega
  · intro c j hc hj hjt
    show C.get c j = _
    rw [d4 (Or.inr rfl) c j hc hj, hcols, if_neg (by omega)]

/-- the second harmonic, that starts six samples before the linear impulse response -/
example : ∃ (l : ℝ) (s : Signal ℝ ℝ) (harmonic : Int) (n d : Nat), 1 ≤ s.channels.rows ∧ s.channels.rows ≤ n ∧ 2 ≤ harmonic ∧
    s.rate ≠ 0 ∧ 0 < l * s.rate ∧ Real.log harmonic * l * s.rate = d ∧
    ((d ≤ -s.offset ∧ -s.offset ≤ s.channels.cols) ∨ (s.offset = 0 ∧ d ≤ s.channels.cols)) := by
  have hlog : (0 : ℝ) < Real.log ((2 : Int) : ℝ) := Real.log_pos (by norm_num)
  refine ⟨6 / Real.log ((2 : Int) : ℝ), ⟨⟨2, 16, fun c i => c + i⟩, 1, -8, ["a", "b"]⟩, 2, 4, 6, by decide, by decide,
    le_refl _, one_ne_zero, ?_, ?_, Or.inl (by decide)⟩
  · rw [mul_one]
    exact div_pos (by norm_num) hlog
  · rw [mul_one, mul_div_cancel₀ _ hlog.ne']
    norm_num

end Harmonic
end Verif
