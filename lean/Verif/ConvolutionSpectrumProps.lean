import Verif.ConvolutionProps

/-
Properties C19 (convolution in the frequency domain) and C21 (correlation in the frequency domain).
-/

namespace Verif

open Finset Dft

/-! ### Periodic sums -/

theorem emod_small {x : Int} {n : Nat} (h0 : 0 ≤ x) (h1 : x < n) : x % n = x := Int.emod_eq_of_lt h0 h1

theorem emod_above {x : Int} {n : Nat} (h0 : (n : Int) ≤ x) (h1 : x < 2 * n) : x % n = x - n := by
  rw [← Int.sub_emod_right, Int.emod_eq_of_lt (by omega) (by omega)]

theorem emod_below {x : Int} {n : Nat} (h0 : -(n : Int) ≤ x) (h1 : x < 0) : x % n = x + n := by
  rw [← Int.add_emod_right, Int.emod_eq_of_lt (by omega) (by omega)]

theorem emod_bounds (x : Int) {n : Nat} (h : 0 < n) : 0 ≤ x % n ∧ x % n < n :=
  ⟨Int.emod_nonneg _ (by omega), Int.emod_lt_of_pos _ (by omega)⟩

/-- a sum over one period does not depend on where the period begins -/
theorem sum_cycle {N : Nat} (hN : 0 < N) (F : Int → ℝ) (d : Int) :
    ∑ k ∈ range N, F ((k + d) % N) = ∑ k ∈ range N, F k := by
  have hb := fun x : Int => emod_bounds x hN
  refine Finset.sum_bij' (fun k _ => (((k : Int) + d) % N).toNat) (fun k _ => (((k : Int) - d) % N).toNat) ?_ ?_ ?_ ?_ ?_
  · intro k _; rw [Finset.mem_range]; have := hb (k + d); omega
  · intro k _; rw [Finset.mem_range]; have := hb (k - d); omega
  · intro k hk
    rw [Finset.mem_range] at hk
    rw [Int.toNat_of_nonneg (hb _).1, Int.sub_emod, Int.emod_emod, ← Int.sub_emod, add_sub_cancel_right,
      emod_small (by omega) (by omega)]
    omega
  · intro k hk
    rw [Finset.mem_range] at hk
    rw [Int.toNat_of_nonneg (hb _).1, Int.add_emod, Int.emod_emod, ← Int.add_emod, sub_add_cancel,
      emod_small (by omega) (by omega)]
    omega
  · intro k _
    rw [Int.toNat_of_nonneg (hb _).1]

/-- the periodic continuation of a sequence, which is not longer than the period -/
theorem periodic_ext {lb N : Nat} (hN : 0 < N) (hb : lb ≤ N) (b : Nat → ℝ) (d : Int) :
    ∑ᶠ k : Int, ext lb 0 b (d + k * N) = ext lb 0 b (d % N) := by
  rw [finsum_eq_single _ (-(d / N))]
  · congr 1
    have := Int.emod_add_mul_ediv d N
    have h2 : -(d / (N : Int)) * N = -(N * (d / N)) := by ring
    omega
  · intro k hk
    rw [ext, if_neg]
    rintro ⟨h1, h2⟩
    apply hk
    have : (d + k * N) / (N : Int) = 0 := Int.ediv_eq_zero_of_lt h1 (by omega)
    rw [Int.add_mul_ediv_right _ _ (by omega)] at this
    omega

theorem periodic_finite {lb N : Nat} (hN : 0 < N) (hb : lb ≤ N) (b : Nat → ℝ) (d : Int) :
    (Function.support fun k : Int => ext lb 0 b (d + k * N)).Finite := by
  refine Set.Finite.subset (Set.finite_singleton (-(d / N))) ?_
  intro k hk
  rw [Function.mem_support] at hk
  rw [Set.mem_singleton_iff]
  by_contra hne
  apply hk
  rw [ext, if_neg]
  rintro ⟨h1, h2⟩
  apply hne
  have : (d + k * N) / (N : Int) = 0 := Int.ediv_eq_zero_of_lt h1 (by omega)
  rw [Int.add_mul_ediv_right _ _ (by omega)] at this
  omega

theorem periodic_sum {la lb N : Nat} (hN : 0 < N) (hb : lb ≤ N) (a b : Nat → ℝ) (d : Nat → Int) :
    ∑ᶠ k : Int, ∑ i ∈ range la, a i * ext lb 0 b (d i + k * N) = ∑ i ∈ range la, a i * ext lb 0 b (d i % N) := by
  rw [finsum_sum_comm]
  · refine Finset.sum_congr rfl fun i _ => ?_
    rw [← mul_finsum, periodic_ext hN hb]
  · intro i _
    refine Set.Finite.subset (periodic_finite hN hb b (d i)) ?_
    intro k hk
    rw [Function.mem_support] at hk ⊢
    exact right_ne_zero_of_mul hk

theorem sum_ext {la N : Nat} (oa : Nat) (h : oa + la ≤ N) (a : Nat → ℝ) (G : Nat → ℝ) :
    ∑ k ∈ range N, ext la oa a k * G k = ∑ i ∈ range la, a i * G (oa + i) := by
  have h1 : ∑ k ∈ range N, ext la oa a k * G k = ∑ k ∈ range N with (oa ≤ k ∧ k < oa + la), ext la oa a k * G k := by
    rw [Finset.sum_filter]
    refine Finset.sum_congr rfl fun k _ => ?_
    split
    · rfl
    · rw [ext, if_neg (by omega), zero_mul]
  rw [h1]
  symm
  refine Finset.sum_bij' (fun i _ => oa + i) (fun k _ => k - oa) ?_ ?_ ?_ ?_ ?_
  · intro i hi; rw [Finset.mem_range] at hi; rw [Finset.mem_filter, Finset.mem_range]; omega
  · intro k hk; rw [Finset.mem_filter, Finset.mem_range] at hk; rw [Finset.mem_range]; omega
  · intro i _; omega
  · intro k hk; rw [Finset.mem_filter, Finset.mem_range] at hk; omega
  · intro i hi
    rw [Finset.mem_range] at hi
    congr 1
    rw [ext, if_pos (by omega)]
    congr 1; omega

/-! ### The transformation to the frequency domain and back -/

theorem irfft_ok (A : Mat ℂ) (M : Nat) (hM : 0 < M) (hA : A.cols = M + 1) :
    ∃ B, A.irfft = .ok B ∧ B.rows = A.rows ∧ B.cols = 2 * M := by
  unfold Mat.irfft
  rw [if_neg (by omega)]
  exact ⟨_, rfl, rfl, by simp only; omega⟩

theorem viaSpectrum_ok (mem : Nat → Nat → ℝ) (conj : Bool) (a b : Mat ℝ) (rows rl p0 M : Nat) (part : PySlice)
    (hM : 0 < M) (ha : a.cols = 2 * M) (hb : b.cols = 2 * M)
    (hr : a.rows = rows ∧ b.rows = 1 ∨ a.rows = 1 ∧ b.rows = rows ∨ a.rows = rows ∧ b.rows = rows)
    (hlo : part.lo (2 * M) = p0) (hhi : part.hi (2 * M) = p0 + rl)
    (fa fb : Nat → Int → ℝ)
    (hfa : ∀ i k : Nat, i < rows → k < 2 * M → a.get (if a.rows = 1 then 0 else i) k = fa i k)
    (hfb : ∀ i k : Nat, i < rows → k < 2 * M → b.get (if b.rows = 1 then 0 else i) k = fb i k) :
    ∃ C, viaSpectrum mem conj a b rows rl part = .ok C ∧ C.rows = rows ∧ C.cols = rl ∧
      ∀ i j, i < rows → j < rl → C.get i j =
        ∑ k ∈ range (2 * M), fa i k * fb i (((p0 + j : Nat) - (if conj then -1 else 1) * (k : Int)) % (2 * M : Nat)) := by
  unfold viaSpectrum
  have har : a.rfft = .ok ⟨a.rows, 2 * M / 2 + 1, fun i k => dft (2 * M) (a.get i) k⟩ := by
    unfold Mat.rfft; rw [if_neg (by omega), ha]
  have hbr : b.rfft = .ok ⟨b.rows, 2 * M / 2 + 1, fun i k => dft (2 * M) (b.get i) k⟩ := by
    unfold Mat.rfft; rw [if_neg (by omega), hb]
  have h2 : 2 * M / 2 = M := by omega
  rw [har, hbr, h2]
  set as : Mat ℂ := ⟨a.rows, M + 1, fun i k => dft (2 * M) (a.get i) k⟩ with has
  set bs : Mat ℂ := ⟨b.rows, M + 1, fun i k => dft (2 * M) (b.get i) k⟩ with hbs
  have hprod : ∃ P, Mat.zipBroadcast (fun x y => (if conj then (starRingEnd ℂ) x else x) * y) as bs = .ok P ∧
      P.rows = rows ∧ P.cols = M + 1 ∧ ∀ i k, i < rows → k ≤ M → P.get i k =
        dft (2 * M) (a.get (if a.rows = 1 then 0 else i)) ((if conj then -1 else 1) * k) *
        dft (2 * M) (b.get (if b.rows = 1 then 0 else i)) k := by
    unfold Mat.zipBroadcast
    have e1 : (if as.rows = 1 then bs.rows else as.rows) = rows := by
      show (if a.rows = 1 then b.rows else a.rows) = rows
      split <;> omega
    have e2 : (if as.cols = 1 then bs.cols else as.cols) = M + 1 := by
      show (if M + 1 = 1 then M + 1 else M + 1) = M + 1
      simp
    rw [e1, e2]
    have e3 : as.broadcastTo rows (M + 1) = .ok ⟨rows, M + 1, fun i j => as.get (if as.rows = 1 then 0 else i)
        (if as.cols = 1 then 0 else j)⟩ := by
      unfold Mat.broadcastTo
      rw [if_pos]
      refine ⟨?_, Or.inl rfl⟩
      show a.rows = rows ∨ a.rows = 1
      omega
    have e4 : bs.broadcastTo rows (M + 1) = .ok ⟨rows, M + 1, fun i j => bs.get (if bs.rows = 1 then 0 else i)
        (if bs.cols = 1 then 0 else j)⟩ := by
      unfold Mat.broadcastTo
      rw [if_pos]
      refine ⟨?_, Or.inl rfl⟩
      show b.rows = rows ∨ b.rows = 1
      omega
    dsimp only
    rw [e3, e4]
    refine ⟨_, rfl, rfl, rfl, ?_⟩
    intro i k hi hk
    have e5 : (if as.cols = 1 then 0 else k) = k := by
      show (if M + 1 = 1 then 0 else k) = k
      rw [if_neg (by omega)]
    have e6 : (if bs.cols = 1 then 0 else k) = k := by
      show (if M + 1 = 1 then 0 else k) = k
      rw [if_neg (by omega)]
    simp only [e5, e6]
    show (if conj = true then (starRingEnd ℂ) (dft (2 * M) (a.get (if a.rows = 1 then 0 else i)) k)
      else dft (2 * M) (a.get (if a.rows = 1 then 0 else i)) k) * dft (2 * M) (b.get (if b.rows = 1 then 0 else i)) k = _
    cases conj
    · simp
    · simp [conj_dft]
  obtain ⟨P, p1, p2, p3, p4⟩ := hprod
  obtain ⟨B, b1, b2, b3⟩ := irfft_ok P M hM p3
  obtain ⟨C, c1, c2, c3, c4, _⟩ := Mat.assign_cols (A := alloc mem rows rl) (S := B.slice .all part) (c := .all)
    0 rl rfl rfl (by show PySlice.all.count B.rows = rows; simp [b2, p2])
    (by show part.count B.cols = _; rw [b3, PySlice.count, hlo, hhi]; omega)
  refine ⟨C, ?_, c2, c3, ?_⟩
  · show (Mat.zipBroadcast _ as bs >>= fun product => _) = _
    rw [p1]
    show (P.irfft >>= fun result => _) = _
    rw [b1]
    exact c1
  · intro i j hi hj
    rw [c4 i j hi (by omega) hj, Mat.slice_all_get, b3, hlo, Nat.sub_zero]
    obtain ⟨B', b1', _, _, b4'⟩ := Mat.irfft_product P M hM p3 i
      (a.get (if a.rows = 1 then 0 else i)) (b.get (if b.rows = 1 then 0 else i)) (if conj then -1 else 1)
      (by cases conj <;> simp) (fun k hk => p4 i k hi hk)
    rw [b1] at b1'
    cases b1'
    rw [b4']
    refine Finset.sum_congr rfl fun k hk => ?_
    rw [Finset.mem_range] at hk
    have hbound := emod_bounds (((p0 + j : Nat) : Int) - (if conj then -1 else 1) * k) (n := 2 * M) (by omega)
    rw [hfa i k hi hk, hfb i _ hi (by omega), Int.toNat_of_nonneg hbound.1]

/-! ### The helper functions -/

section
variable (mem : Nat → Nat → ℝ)

theorem slice_top {m : Mat ℝ} {rows : Nat} (h : rows ≤ m.rows) (c : PySlice) :
    (m.slice (.range 0 rows) c).rows = rows ∧
      ∀ i j, (m.slice (.range 0 rows) c).get i j = m.get i (c.lo m.cols + j) := by
  refine ⟨by simp; omega, fun i j => ?_⟩
  rw [Mat.slice_get]; simp

theorem padMatrix_ok (m : Mat ℝ) (length rows padded : Nat) (hl : m.cols = length) (hr : rows ≤ m.rows)
    (hp : length ≤ padded) :
    ∃ C, padMatrix mem m length rows padded = .ok C ∧ C.rows = rows ∧ C.cols = padded ∧
      ∀ i k : Nat, i < rows → k < padded → C.get i k = ext length 0 (m.get i) k := by
  obtain ⟨s1, s2⟩ := slice_top hr .all
  obtain ⟨A, a1, a2, a3, a4, a5⟩ := Mat.assign_cols (A := alloc mem rows padded) (S := m.slice (.range 0 rows) .all)
    (c := .range 0 length) 0 length (by simp) (by simp [alloc]; omega) s1 (by simp [hl])
  obtain ⟨B, b1, b2, b3, b4, b5⟩ := Mat.assign_cols_scalar (A := A) (c := .drop length) (0 : ℝ) length padded
    (by rw [a3]; simp [alloc]; omega) (by rw [a3]; simp [alloc])
  refine ⟨B, ?_, by rw [b2, a2]; rfl, by rw [b3, a3]; rfl, ?_⟩
  · unfold padMatrix
    show ((alloc mem rows padded).assign .all (.range 0 length) (m.slice (.range 0 rows) .all) >>= _) = _
    rw [a1]; exact b1
  · intro i k hi hk
    have hir : i < A.rows := by rw [a2]; exact hi
    unfold ext
    by_cases h : k < length
    · rw [b5 i k (by omega), a4 i k hi (by omega) h, s2, if_pos (by omega)]
      congr 1; simp
    · rw [b4 i k hir (by omega) (by omega), if_neg (by omega)]

theorem shiftMatrix_ok (m : Mat ℝ) (length rows padded : Nat) (hl : m.cols = length) (hr : rows ≤ m.rows)
    (h0 : 0 < length) (hp : length ≤ padded) :
    ∃ C, shiftMatrix mem m length rows padded = .ok C ∧ C.rows = rows ∧ C.cols = padded ∧
      ∀ i k : Nat, i < rows → k < padded → C.get i k = ext length ((padded - length : Nat)) (m.get i) k := by
  obtain ⟨s1, s2⟩ := slice_top hr .all
  have hc : clampBound padded (-(length : Int)) = padded - length := by
    rw [clampBound_neg (by omega)]; omega
  obtain ⟨A, a1, a2, a3, a4, a5⟩ := Mat.assign_cols_scalar (A := alloc mem rows padded)
    (c := .range 0 (-(length : Int))) (0 : ℝ) 0 (padded - length) (by simp) (by simpa [alloc] using hc)
  obtain ⟨B, b1, b2, b3, b4, b5⟩ := Mat.assign_cols (A := A) (S := m.slice (.range 0 rows) .all)
    (c := .drop (-(length : Int))) (padded - length) padded (by rw [a3]; simpa [alloc] using hc) (by rw [a3]; simp [alloc])
    (by rw [s1, a2]; rfl) (by simp [hl]; omega)
  refine ⟨B, ?_, by rw [b2, a2]; rfl, by rw [b3, a3]; rfl, ?_⟩
  · unfold shiftMatrix
    show ((alloc mem rows padded).assign .all (.range 0 (-(length : Int))) (.scalar 0) >>= _) = _
    rw [a1]; exact b1
  · intro i k hi hk
    have hir : i < A.rows := by rw [a2]; exact hi
    unfold ext
    by_cases h : k < padded - length
    · rw [b5 i k (by omega), a4 i k hi (by omega) h, if_neg (by omega)]
    · rw [b4 i k hir (by omega) (by omega), s2, if_pos (by omega)]
      congr 1; simp

theorem padAndShiftMatrix_ok (m : Mat ℝ) (length rows padded shift : Nat) (hl : m.cols = length) (hr : rows ≤ m.rows)
    (hp : length + shift ≤ padded) :
    ∃ C, padAndShiftMatrix mem m length rows padded shift = .ok C ∧ C.rows = rows ∧ C.cols = padded ∧
      ∀ i k : Nat, i < rows → k < padded → C.get i k = ext length shift (m.get i) k := by
  obtain ⟨s1, s2⟩ := slice_top hr .all
  obtain ⟨A, a1, a2, a3, a4, a5⟩ := Mat.assign_cols_scalar (A := alloc mem rows padded)
    (c := .range 0 shift) (0 : ℝ) 0 shift (by simp) (by simp [alloc]; omega)
  obtain ⟨B, b1, b2, b3, b4, b5⟩ := Mat.assign_cols (A := A) (S := m.slice (.range 0 rows) .all)
    (c := .range shift (length + shift : Nat)) shift (length + shift) (by rw [a3]; simp [alloc]; omega)
    (by rw [a3, PySlice.hi_range, clampBound_nat]; simp [alloc]; omega)
    (by rw [s1, a2]; rfl) (by simp [hl])
  obtain ⟨C, c1, c2, c3, c4, c5⟩ := Mat.assign_cols_scalar (A := B)
    (c := .drop (length + shift : Nat)) (0 : ℝ) (length + shift) padded
    (by rw [b3, a3, PySlice.lo_drop, clampBound_nat]; simp [alloc]; omega) (by rw [b3, a3]; simp [alloc])
  refine ⟨C, ?_, by rw [c2, b2, a2]; rfl, by rw [c3, b3, a3]; rfl, ?_⟩
  · unfold padAndShiftMatrix
    show ((alloc mem rows padded).assign .all (.range 0 shift) (.scalar 0) >>= _) = _
    rw [a1]
    show (A.assign .all (.range shift (length + shift : Nat)) (m.slice (.range 0 rows) .all) >>= _) = _
    rw [b1]; exact c1
  · intro i k hi hk
    have hir : i < A.rows := by rw [a2]; exact hi
    have hir' : i < B.rows := by rw [b2]; exact hir
    unfold ext
    by_cases h : k < shift
    · rw [c5 i k (by omega), b5 i k (by omega), a4 i k hi (by omega) h, if_neg (by omega)]
    · by_cases h' : k < length + shift
      · rw [c5 i k (by omega), b4 i k hir (by omega) h', s2, if_pos (by omega)]
        congr 1; simp
      · rw [c4 i k hir' (by omega) (by omega), if_neg (by omega)]

theorem cycleMatrix_ok (m : Mat ℝ) (length rows : Nat) (hl : m.cols = length) (hr : rows ≤ m.rows)
    (h0 : 0 < length) :
    ∃ C, cycleMatrix mem m length rows (-1) = .ok C ∧ C.rows = rows ∧ C.cols = length ∧
      ∀ i k : Nat, i < rows → k < length → C.get i k = ext length 0 (m.get i) (((k : Int) + 1) % length) := by
  obtain ⟨s1, s2⟩ := slice_top hr (.drop 1)
  obtain ⟨s3, s4⟩ := slice_top hr (.range 0 1)
  have hc : clampBound length (-1) = length - 1 := by
    rw [clampBound_neg (by omega)]; omega
  have hc1 : clampBound length 1 = 1 := by
    rw [clampBound_nonneg (by omega)]; omega
  obtain ⟨A, a1, a2, a3, a4, a5⟩ := Mat.assign_cols (A := alloc mem rows length)
    (S := m.slice (.range 0 rows) (.drop 1))
    (c := .range 0 (-1)) 0 (length - 1) (by simp) (by simpa [alloc] using hc) s1 (by simp [hl, hc1])
  obtain ⟨B, b1, b2, b3, b4, b5⟩ := Mat.assign_cols (A := A) (S := m.slice (.range 0 rows) (.range 0 1))
    (c := .drop (-1)) (length - 1) length (by rw [a3]; simpa [alloc] using hc) (by rw [a3]; simp [alloc])
    (by rw [s3, a2]; rfl) (by simp [hl, hc1]; omega)
  refine ⟨B, ?_, by rw [b2, a2]; rfl, by rw [b3, a3]; rfl, ?_⟩
  · unfold cycleMatrix
    show ((alloc mem rows length).assign .all (.range 0 (-1)) (m.slice (.range 0 rows) (.drop 1)) >>= _) = _
    rw [a1]; exact b1
  · intro i k hi hk
    have hir : i < A.rows := by rw [a2]; exact hi
    by_cases h : k < length - 1
    · rw [b5 i k (by omega), a4 i k hi (by omega) h, s2, emod_small (by omega) (by omega), ext, if_pos (by omega)]
      congr 1; rw [PySlice.lo_drop, hl, hc1]; omega
    · rw [b4 i k hir (by omega) (by omega), s4, emod_above (by omega) (by omega), ext, if_pos (by omega)]
      congr 1; simp; omega

theorem padAndCycleMatrix_ok (m : Mat ℝ) (length rows padded : Nat) (hl : m.cols = length) (hr : rows ≤ m.rows)
    (h0 : 0 < length) (hp : length < padded) :
    ∃ C, padAndCycleMatrix mem m length rows padded (-1) = .ok C ∧ C.rows = rows ∧ C.cols = padded ∧
      ∀ i k : Nat, i < rows → k < padded → C.get i k = ext length 0 (m.get i) (((k : Int) + 1) % padded) := by
  obtain ⟨s1, s2⟩ := slice_top hr (.drop 1)
  obtain ⟨s3, s4⟩ := slice_top hr (.range 0 1)
  have hc : clampBound padded (-1) = padded - 1 := by
    rw [clampBound_neg (by omega)]; omega
  have hc1 : clampBound length 1 = 1 := by
    rw [clampBound_nonneg (by omega)]; omega
  have hc2 : clampBound padded ((length : Int) + -1) = length - 1 := by
    rw [clampBound_nonneg (by omega)]; omega
  obtain ⟨A, a1, a2, a3, a4, a5⟩ := Mat.assign_cols (A := alloc mem rows padded)
    (S := m.slice (.range 0 rows) (.drop 1))
    (c := .range 0 ((length : Int) + -1)) 0 (length - 1) (by simp) (by simpa [alloc] using hc2) s1 (by simp [hl, hc1])
  obtain ⟨B, b1, b2, b3, b4, b5⟩ := Mat.assign_cols_scalar (A := A)
    (c := .range ((length : Int) + -1) (-1)) (0 : ℝ) (length - 1) (padded - 1)
    (by rw [a3]; simpa [alloc] using hc2) (by rw [a3]; simpa [alloc] using hc)
  obtain ⟨C, c1, c2, c3, c4, c5⟩ := Mat.assign_cols (A := B) (S := m.slice (.range 0 rows) (.range 0 1))
    (c := .drop (-1)) (padded - 1) padded (by rw [b3, a3]; simpa [alloc] using hc) (by rw [b3, a3]; simp [alloc])
    (by rw [s3, b2, a2]; rfl) (by simp [hl, hc1]; omega)
  refine ⟨C, ?_, by rw [c2, b2, a2]; rfl, by rw [c3, b3, a3]; rfl, ?_⟩
  · unfold padAndCycleMatrix
    rw [if_pos (by omega)]
    show ((alloc mem rows padded).assign .all (.range 0 ((length : Int) + -1)) (m.slice (.range 0 rows) (.drop 1)) >>=
      _) = _
    rw [a1]
    show (A.assign .all (.range ((length : Int) + -1) (-1)) (.scalar 0) >>= _) = _
    rw [b1]; exact c1
  · intro i k hi hk
    have hir : i < A.rows := by rw [a2]; exact hi
    have hir' : i < B.rows := by rw [b2]; exact hir
    by_cases h : k < length - 1
    · rw [c5 i k (by omega), b5 i k (by omega), a4 i k hi (by omega) h, s2, emod_small (by omega) (by omega), ext,
        if_pos (by omega)]
      congr 1; rw [PySlice.lo_drop, hl, hc1]; omega
    · by_cases h' : k < padded - 1
      · rw [c5 i k (by omega), b4 i k hir (by omega) h', emod_small (by omega) (by omega), ext, if_neg (by omega)]
      · rw [c4 i k hir' (by omega) (by omega), s4, emod_above (by omega) (by omega), ext, if_pos (by omega)]
        congr 1; simp; omega

theorem shiftAndCycleMatrix_ok (m : Mat ℝ) (length rows padded : Nat) (hl : m.cols = length) (hr : rows ≤ m.rows)
    (h0 : 0 < length) (hp : length < padded) :
    ∃ C, shiftAndCycleMatrix mem m length rows padded 1 = .ok C ∧ C.rows = rows ∧ C.cols = padded ∧
      ∀ i k : Nat, i < rows → k < padded →
        C.get i k = ext length ((padded - length : Nat)) (m.get i) (((k : Int) + -1) % padded) := by
  obtain ⟨s1, s2⟩ := slice_top hr (.drop (-1))
  obtain ⟨s3, s4⟩ := slice_top hr (.range 0 (-1))
  have hc : clampBound length (-1) = length - 1 := by
    rw [clampBound_neg (by omega)]; omega
  have hc1 : clampBound padded 1 = 1 := by
    rw [clampBound_nonneg (by omega)]; omega
  obtain ⟨A, a1, a2, a3, a4, a5⟩ := Mat.assign_cols (A := alloc mem rows padded)
    (S := m.slice (.range 0 rows) (.drop (-1)))
    (c := .range 0 1) 0 1 (by simp) (by simpa [alloc] using hc1) s1 (by simp [hl, hc]; omega)
  have hfirst : ∀ i : Nat, m.get i (length - 1) = ext length ((padded - length : Nat)) (m.get i) ((((0 : Nat) : Int) + -1) % padded) := by
    intro i
    rw [emod_below (by omega) (by omega), ext, if_pos (by omega)]
    congr 1; omega
  by_cases hlen : 1 < length
  · have hc2 : clampBound padded (-((length : Int) - 1)) = padded - (length - 1) := by
      rw [clampBound_neg (by omega)]; omega
    obtain ⟨B, b1, b2, b3, b4, b5⟩ := Mat.assign_cols_scalar (A := A)
      (c := .range 1 (-((length : Int) - 1))) (0 : ℝ) 1 (padded - (length - 1))
      (by rw [a3]; simpa [alloc] using hc1) (by rw [a3]; simpa [alloc] using hc2)
    obtain ⟨C, c1, c2, c3, c4, c5⟩ := Mat.assign_cols (A := B) (S := m.slice (.range 0 rows) (.range 0 (-1)))
      (c := .drop (-((length : Int) - 1))) (padded - (length - 1)) padded (by rw [b3, a3]; simpa [alloc] using hc2)
      (by rw [b3, a3]; simp [alloc]) (by rw [s3, b2, a2]; rfl) (by simp [hl, hc]; omega)
    refine ⟨C, ?_, by rw [c2, b2, a2]; rfl, by rw [c3, b3, a3]; rfl, ?_⟩
    · unfold shiftAndCycleMatrix
      show ((alloc mem rows padded).assign .all (.range 0 1) (m.slice (.range 0 rows) (.drop (-1))) >>= _) = _
      rw [a1]
      show (if (length : Int) > 1 then _ else _) = _
      rw [if_pos (by omega)]
      show (A.assign .all (.range 1 (-((length : Int) - 1))) (.scalar 0) >>= _) = _
      rw [b1]; exact c1
    · intro i k hi hk
      have hir : i < A.rows := by rw [a2]; exact hi
      have hir' : i < B.rows := by rw [b2]; exact hir
      by_cases h : k = 0
      · subst h
        rw [c5 i 0 (by omega), b5 i 0 (by omega), a4 i 0 hi (by omega) (by omega), s2, ← hfirst]
        congr 1; rw [PySlice.lo_drop, hl, hc]; omega
      · by_cases h' : k < padded - (length - 1)
        · rw [c5 i k (by omega), b4 i k hir (by omega) h', emod_small (by omega) (by omega), ext, if_neg (by omega)]
        · rw [c4 i k hir' (by omega) (by omega), s4, emod_small (by omega) (by omega), ext, if_pos (by omega)]
          congr 1; simp; omega
  · obtain ⟨B, b1, b2, b3, b4, b5⟩ := Mat.assign_cols_scalar (A := A) (c := .drop 1) (0 : ℝ) 1 padded
      (by rw [a3]; simpa [alloc] using hc1) (by rw [a3]; simp [alloc])
    refine ⟨B, ?_, by rw [b2, a2]; rfl, by rw [b3, a3]; rfl, ?_⟩
    · unfold shiftAndCycleMatrix
      show ((alloc mem rows padded).assign .all (.range 0 1) (m.slice (.range 0 rows) (.drop (-1))) >>= _) = _
      rw [a1]
      show (if (length : Int) > 1 then _ else _) = _
      rw [if_neg (by omega)]; exact b1
    · intro i k hi hk
      have hir : i < A.rows := by rw [a2]; exact hi
      by_cases h : k = 0
      · subst h
        rw [b5 i 0 (by omega), a4 i 0 hi (by omega) (by omega), s2, ← hfirst]
        congr 1; rw [PySlice.lo_drop, hl, hc]; omega
      · rw [b4 i k hir (by omega) (by omega), emod_small (by omega) (by omega), ext, if_neg (by omega)]

theorem maybePad_ok (m : Mat ℝ) (length rows padded : Nat) (hl : m.cols = length) (hr : rows ≤ m.rows)
    (hp : length ≤ padded) :
    ∃ C, padIfShorter mem m length rows padded = .ok C ∧ rows ≤ C.rows ∧
      (m.rows = rows → C.rows = rows) ∧ C.cols = padded ∧
      ∀ i k : Nat, i < rows → k < padded → C.get i k = ext length 0 (m.get i) k := by
  unfold padIfShorter
  split
  · obtain ⟨C, c1, c2, c3, c4⟩ := padMatrix_ok mem m length rows padded hl hr hp
    exact ⟨C, c1, by omega, fun _ => c2, c3, c4⟩
  · refine ⟨m, rfl, hr, id, by omega, fun i k _ hk => ?_⟩
    rw [ext, if_pos (by omega)]
    congr 1

/-! ### The classes -/

/-- The smallest even number which is not less than `n`: the period of the circular convolutions. -/
def evenLength (n : Nat) : Nat := if n % 2 = 0 then n else n + 1

/-- the circular convolution: the periodic continuation of the linear convolution -/
noncomputable def circularConv (la lb : Nat) (a b : Nat → ℝ) (j : Nat) : ℝ :=
  ∑ᶠ k : Int, ∑ᶠ u : Int, ext la 0 a u * ext lb 0 b (j + k * (evenLength (max la lb) : Nat) - u)

theorem evenLength_bounds (la lb : Nat) (h : 0 < la) :
    0 < evenLength (max la lb) ∧ la ≤ evenLength (max la lb) ∧ lb ≤ evenLength (max la lb) := by
  unfold evenLength; split <;> omega

theorem circularConv_comm (la lb : Nat) (a b : Nat → ℝ) (j : Nat) :
    circularConv la lb a b j = circularConv lb la b a j := by
  unfold circularConv
  refine finsum_congr fun k => ?_
  rw [conv_comm, Nat.max_comm]

theorem circularConv_eq {la lb : Nat} (h : 0 < la) (a b : Nat → ℝ) (j : Nat) :
    circularConv la lb a b j =
      ∑ k ∈ range (evenLength (max la lb)), ext la 0 a k *
        ext lb 0 b (((j : Int) - 1 * (k : Int)) % (evenLength (max la lb) : Nat)) := by
  obtain ⟨h0, h1, h2⟩ := evenLength_bounds la lb h
  rw [show (∑ k ∈ range (evenLength (max la lb)), ext la 0 a k *
        ext lb 0 b (((j : Int) - 1 * (k : Int)) % (evenLength (max la lb) : Nat))) =
      ∑ i ∈ range la, a i * ext lb 0 b (((j : Int) - 1 * ((0 + i : Nat) : Int)) % (evenLength (max la lb) : Nat)) from
    sum_ext 0 (by omega) a (fun k : Nat => ext lb 0 b (((j : Int) - 1 * (k : Int)) % (evenLength (max la lb) : Nat)))]
  rw [← periodic_sum h0 h2 a b (fun i => (j : Int) - 1 * ((0 + i : Nat) : Int))]
  unfold circularConv
  refine finsum_congr fun k => ?_
  rw [finsum_ext]
  refine Finset.sum_congr rfl fun i _ => ?_
  congr 2
  push_cast
  ring

/-- without wrap-around the circular convolution is the linear convolution -/
theorem linear_conv {la lb N : Nat} (h1 : la + lb ≤ N) (a b : Nat → ℝ) (j : Nat) (hj : j + 1 < la + lb) :
    npFull la lb a b j =
      ∑ k ∈ range N, ext la 0 a k * ext lb 0 b (((j : Int) - 1 * (k : Int)) % (N : Nat)) := by
  rw [show (∑ k ∈ range N, ext la 0 a k * ext lb 0 b (((j : Int) - 1 * (k : Int)) % (N : Nat))) =
      ∑ i ∈ range la, a i * ext lb 0 b (((j : Int) - 1 * ((0 + i : Nat) : Int)) % (N : Nat)) from
    sum_ext 0 (by omega) a (fun k : Nat => ext lb 0 b (((j : Int) - 1 * (k : Int)) % (N : Nat)))]
  unfold npFull
  refine Finset.sum_congr rfl fun i hi => ?_
  rw [Finset.mem_range] at hi
  unfold ext
  by_cases h : i ≤ j
  · rw [emod_small (by omega) (by omega)]
    split
    · rw [if_pos (by omega)]; congr 2; omega
    · rw [if_neg (by omega), mul_zero]
  · rw [emod_below (by omega) (by omega), if_neg (by omega), if_neg (by omega), mul_zero]

theorem spectrumConvolutionVector_ok (m v : Mat ℝ) (o0 o1 : Int) (hm : 0 < m.cols) (hv1 : v.rows = 1) :
    ∃ C, spectrumConvolutionVector mem m v o0 o1 = .ok (C, o0 + o1) ∧ C.rows = m.rows ∧ C.cols = max m.cols v.cols ∧
      ∀ i j, i < m.rows → j < max m.cols v.cols → C.get i j = circularConv m.cols v.cols (m.get i) (v.get 0) j := by
  obtain ⟨h0, h1, h2⟩ := evenLength_bounds m.cols v.cols hm
  set N := evenLength (max m.cols v.cols) with hN
  have hN2 : N = 2 * (N / 2) := by rw [hN]; unfold evenLength; split <;> omega
  obtain ⟨A, a1, a2, a3, a4, a5⟩ := maybePad_ok mem m m.cols m.rows N rfl (le_refl _) h1
  obtain ⟨B, b1, b2, b3, b4, b5⟩ := maybePad_ok mem v v.cols 1 N rfl (by omega) h2
  have hle : max m.cols v.cols ≤ N := by omega
  obtain ⟨C, c1, c2, c3, c4⟩ := viaSpectrum_ok mem false A B m.rows (max m.cols v.cols) 0 (N / 2)
    (.range 0 (max m.cols v.cols : Nat)) (by omega) (by omega) (by omega)
    (Or.inl ⟨a3 rfl, b3 hv1⟩) (by simp) (by rw [PySlice.hi_range, clampBound_nat]; omega)
    (fun i => ext m.cols 0 (m.get i)) (fun _ => ext v.cols 0 (v.get 0))
    (fun i k hi hk => by
      rw [← a5 i k hi (by omega)]
      congr 1; split <;> omega)
    (fun i k hi hk => by
      rw [← b5 0 k (by omega) (by omega), if_pos (b3 hv1)])
  refine ⟨C, ?_, c2, c3, ?_⟩
  · unfold spectrumConvolutionVector
    show (do
      let matrix ← padIfShorter mem m m.cols m.rows N
      let vector ← padIfShorter mem v v.cols 1 N
      let channels ← viaSpectrum mem false matrix vector m.rows (max m.cols v.cols) (.range 0 (max m.cols v.cols : Nat))
      return (channels, o0 + o1)) = _
    rw [a1, b1]
    show (do
      let channels ← viaSpectrum mem false A B m.rows (max m.cols v.cols) (.range 0 (max m.cols v.cols : Nat))
      return (channels, o0 + o1)) = _
    rw [c1]; rfl
  · intro i j hi hj
    rw [c4 i j hi hj, circularConv_eq hm, ← hN, ← hN2, Nat.zero_add]
    rfl

theorem spectrumConvolution_computes : Computes (spectrumConvolution mem) circularConv (fun la lb => max la lb)
    (fun _ _ o0 o1 => o0 + o1) where
  vector m v o0 o1 hm _ hv1 := spectrumConvolutionVector_ok mem m v o0 o1 hm hv1
  vector2 v m o0 o1 _ hm hv1 := by
    obtain ⟨C, h1, h2, h3, h4⟩ := spectrumConvolutionVector_ok mem m v o0 o1 hm hv1
    refine ⟨C, h1, h2, by rw [h3, Nat.max_comm], fun i j hi hj => ?_⟩
    rw [h4 i j hi (by omega), circularConv_comm]
  matrix a b o0 o1 ha hb := by
    obtain ⟨h0, h1, h2⟩ := evenLength_bounds a.cols b.cols ha
    set N := evenLength (max a.cols b.cols) with hN
    have hN2 : N = 2 * (N / 2) := by rw [hN]; unfold evenLength; split <;> omega
    obtain ⟨A, a1, a2, a3, a4, a5⟩ := maybePad_ok mem a a.cols (min a.rows b.rows) N rfl (by omega) h1
    obtain ⟨B, b1, b2, b3, b4, b5⟩ := maybePad_ok mem b b.cols (min a.rows b.rows) N rfl (by omega) h2
    obtain ⟨s1, s2⟩ := slice_top a2 .all
    obtain ⟨s3, s4⟩ := slice_top b2 .all
    have hle : max a.cols b.cols ≤ N := by omega
    obtain ⟨C, c1, c2, c3, c4⟩ := viaSpectrum_ok mem false (A.slice (.range 0 (min a.rows b.rows : Nat)) .all)
      (B.slice (.range 0 (min a.rows b.rows : Nat)) .all) (min a.rows b.rows) (max a.cols b.cols) 0 (N / 2)
      (.range 0 (max a.cols b.cols : Nat)) (by omega) (by rw [Mat.slice_cols]; simp; omega)
      (by rw [Mat.slice_cols]; simp; omega)
      (Or.inr (Or.inr ⟨s1, s3⟩)) (by simp) (by rw [PySlice.hi_range, clampBound_nat]; omega)
      (fun i => ext a.cols 0 (a.get i)) (fun i => ext b.cols 0 (b.get i))
      (fun i k hi hk => by
        rw [s2, ← a5 i k hi (by omega), PySlice.lo_all, Nat.zero_add]
        congr 1; split <;> omega)
      (fun i k hi hk => by
        rw [s4, ← b5 i k hi (by omega), PySlice.lo_all, Nat.zero_add]
        congr 1; split <;> omega)
    refine ⟨C, ?_, c2, c3, ?_⟩
    · show spectrumConvolutionMatrix mem a b o0 o1 = _
      unfold spectrumConvolutionMatrix
      show (do
        let a' ← padIfShorter mem a a.cols (min a.rows b.rows) N
        let b' ← padIfShorter mem b b.cols (min a.rows b.rows) N
        let channels ← viaSpectrum mem false (a'.slice (.range 0 (min a.rows b.rows : Nat)) .all)
          (b'.slice (.range 0 (min a.rows b.rows : Nat)) .all) (min a.rows b.rows) (max a.cols b.cols)
          (.range 0 (max a.cols b.cols : Nat))
        return (channels, o0 + o1)) = _
      rw [a1, b1]
      show (viaSpectrum mem false (A.slice (.range 0 (min a.rows b.rows : Nat)) .all)
          (B.slice (.range 0 (min a.rows b.rows : Nat)) .all) (min a.rows b.rows) (max a.cols b.cols)
          (.range 0 (max a.cols b.cols : Nat)) >>= _) = _
      rw [c1]; rfl
    · intro i j hi hj
      rw [c4 i j hi hj, circularConv_eq ha, ← hN, ← hN2, Nat.zero_add]
      rfl

theorem spectrumPaddedConvolutionVector_ok (m v : Mat ℝ) (o0 o1 : Int) (hm : 0 < m.cols) (hv : 0 < v.cols)
    (hv1 : v.rows = 1) :
    ∃ C, spectrumPaddedConvolutionVector mem m v o0 o1 = .ok (C, o0 + o1) ∧ C.rows = m.rows ∧
      C.cols = m.cols + v.cols - 1 ∧
      ∀ i j, i < m.rows → j < m.cols + v.cols - 1 → C.get i j = npFull m.cols v.cols (m.get i) (v.get 0) j := by
  obtain ⟨N, hN⟩ : ∃ N, N = if (m.cols + v.cols - 1) % 2 = 1 then m.cols + v.cols - 1 + 1 else m.cols + v.cols - 1 + 2 :=
    ⟨_, rfl⟩
  have hN1 : N = 2 * (N / 2) ∧ m.cols + v.cols ≤ N := by rw [hN]; split <;> omega
  obtain ⟨hN2, hle⟩ := hN1
  obtain ⟨A, a1, a2, a3, a4⟩ := padMatrix_ok mem m m.cols m.rows N rfl (le_refl _) (by omega)
  obtain ⟨B, b1, b2, b3, b4⟩ := padMatrix_ok mem v v.cols 1 N rfl (by omega) (by omega)
  obtain ⟨C, c1, c2, c3, c4⟩ := viaSpectrum_ok mem false A B m.rows (m.cols + v.cols - 1) 0 (N / 2)
    (.range 0 (m.cols + v.cols - 1 : Nat)) (by omega) (by omega) (by omega)
    (Or.inl ⟨a2, b2⟩) (by simp) (by rw [PySlice.hi_range, clampBound_nat]; omega)
    (fun i => ext m.cols 0 (m.get i)) (fun _ => ext v.cols 0 (v.get 0))
    (fun i k hi hk => by
      rw [← a4 i k hi (by omega)]
      congr 1; split <;> omega)
    (fun i k hi hk => by
      rw [← b4 0 k (by omega) (by omega), if_pos b2])
  refine ⟨C, ?_, c2, c3, ?_⟩
  · unfold spectrumPaddedConvolutionVector
    dsimp only
    rw [if_neg (by omega), ← hN]
    show (padMatrix mem m m.cols m.rows N >>= _) = _
    rw [a1]
    show (padMatrix mem v v.cols 1 N >>= _) = _
    rw [b1]
    show (viaSpectrum mem false A B m.rows (m.cols + v.cols - 1) (.range 0 (m.cols + v.cols - 1 : Nat)) >>= _) = _
    rw [c1]; rfl
  · intro i j hi hj
    rw [c4 i j hi hj, linear_conv hle _ _ _ (by omega), ← hN2, Nat.zero_add]
    rfl

theorem spectrumPaddedConvolution_computes : Computes (spectrumPaddedConvolution mem) npFull
    (fun la lb => la + lb - 1) (fun _ _ o0 o1 => o0 + o1) where
  vector m v o0 o1 hm hv hv1 := spectrumPaddedConvolutionVector_ok mem m v o0 o1 hm hv hv1
  vector2 v m o0 o1 hv hm hv1 := by
    obtain ⟨C, h1, h2, h3, h4⟩ := spectrumPaddedConvolutionVector_ok mem m v o0 o1 hm hv hv1
    refine ⟨C, h1, h2, by omega, fun i j hi hj => ?_⟩
    rw [h4 i j hi (by omega), npFull_comm]
  matrix a b o0 o1 ha hb := by
    obtain ⟨N, hN⟩ : ∃ N, N = if (a.cols + b.cols - 1) % 2 = 1 then a.cols + b.cols - 1 + 1
      else a.cols + b.cols - 1 + 2 := ⟨_, rfl⟩
    have hN1 : N = 2 * (N / 2) ∧ a.cols + b.cols ≤ N := by rw [hN]; split <;> omega
    obtain ⟨hN2, hle⟩ := hN1
    obtain ⟨A, a1, a2, a3, a4⟩ := padMatrix_ok mem a a.cols (min a.rows b.rows) N rfl (by omega) (by omega)
    obtain ⟨B, b1, b2, b3, b4⟩ := padMatrix_ok mem b b.cols (min a.rows b.rows) N rfl (by omega) (by omega)
    obtain ⟨s1, s2⟩ := slice_top (le_of_eq a2.symm) .all
    obtain ⟨s3, s4⟩ := slice_top (le_of_eq b2.symm) .all
    obtain ⟨C, c1, c2, c3, c4⟩ := viaSpectrum_ok mem false (A.slice (.range 0 (min a.rows b.rows : Nat)) .all)
      (B.slice (.range 0 (min a.rows b.rows : Nat)) .all) (min a.rows b.rows) (a.cols + b.cols - 1) 0 (N / 2)
      (.range 0 (a.cols + b.cols - 1 : Nat)) (by omega) (by rw [Mat.slice_cols]; simp; omega)
      (by rw [Mat.slice_cols]; simp; omega)
      (Or.inr (Or.inr ⟨s1, s3⟩)) (by simp) (by rw [PySlice.hi_range, clampBound_nat]; omega)
      (fun i => ext a.cols 0 (a.get i)) (fun i => ext b.cols 0 (b.get i))
      (fun i k hi hk => by
        rw [s2, ← a4 i k hi (by omega), PySlice.lo_all, Nat.zero_add]
        congr 1; split <;> omega)
      (fun i k hi hk => by
        rw [s4, ← b4 i k hi (by omega), PySlice.lo_all, Nat.zero_add]
        congr 1; split <;> omega)
    refine ⟨C, ?_, c2, c3, ?_⟩
    · unfold spectrumPaddedConvolution
      dsimp only
      rw [if_neg (by omega), ← hN]
      show (padMatrix mem a a.cols (min a.rows b.rows) N >>= _) = _
      rw [a1]
      show (padMatrix mem b b.cols (min a.rows b.rows) N >>= _) = _
      rw [b1]
      show (viaSpectrum mem false (A.slice (.range 0 (min a.rows b.rows : Nat)) .all)
          (B.slice (.range 0 (min a.rows b.rows : Nat)) .all) (min a.rows b.rows) (a.cols + b.cols - 1)
          (.range 0 (a.cols + b.cols - 1 : Nat)) >>= _) = _
      rw [c1]; rfl
    · intro i j hi hj
      rw [c4 i j hi hj, linear_conv hle _ _ _ (by omega), ← hN2, Nat.zero_add]
      rfl

/-! ### The classes for the correlation -/

/-- the circular correlation: the periodic continuation of the cross-correlation -/
noncomputable def circularCorr (la lb : Nat) (a b : Nat → ℝ) (j : Nat) : ℝ :=
  ∑ᶠ k : Int, corrSum la lb a b ((j : Int) - la + 1 + k * (evenLength (max la lb) : Nat))

/-- The sum to which all cases of the preparation of the arrays lead. -/
theorem circularCorr_eq {la lb : Nat} (h : 0 < la) (a b : Nat → ℝ) (j : Nat) :
    circularCorr la lb a b j =
      ∑ k ∈ range (evenLength (max la lb)), ext la ((evenLength (max la lb) - la : Nat)) a k *
        ext lb 0 b (((j : Int) + 1 + k) % (evenLength (max la lb) : Nat)) := by
  obtain ⟨h0, h1, h2⟩ := evenLength_bounds la lb h
  set N := evenLength (max la lb) with hN
  rw [show (∑ k ∈ range N, ext la ((N - la : Nat)) a k * ext lb 0 b (((j : Int) + 1 + k) % (N : Nat))) =
      ∑ i ∈ range la, a i * ext lb 0 b (((j : Int) + 1 + ((N - la + i : Nat) : Int)) % (N : Nat)) from
    sum_ext (N - la) (by omega) a (fun k : Nat => ext lb 0 b (((j : Int) + 1 + k) % (N : Nat)))]
  rw [← periodic_sum h0 h2 a b (fun i => (j : Int) + 1 + ((N - la + i : Nat) : Int))]
  unfold circularCorr corrSum
  rw [← hN, ← finsum_comp_equiv (Equiv.addRight (1 : Int))]
  refine finsum_congr fun k => Finset.sum_congr rfl fun i _ => ?_
  congr 2
  simp only [Equiv.coe_addRight]
  push_cast [h1]
  ring

theorem prepareCorrelation_ok (a b : Mat ℝ) (ar br : Nat) (ha : 0 < a.cols) (hb : 0 < b.cols) (har : ar ≤ a.rows)
    (hbr : br ≤ b.rows) :
    ∃ A B, prepareCorrelation mem a b ar br = .ok (A, B) ∧ ar ≤ A.rows ∧ (a.rows = ar → A.rows = ar) ∧
      br ≤ B.rows ∧ (b.rows = br → B.rows = br) ∧
      A.cols = evenLength (max a.cols b.cols) ∧ B.cols = evenLength (max a.cols b.cols) ∧
      ∀ i i' j : Nat, i < ar → i' < br → j < max a.cols b.cols →
        ∑ k ∈ range (evenLength (max a.cols b.cols)), A.get i k *
          B.get i' (((evenLength (max a.cols b.cols) - max a.cols b.cols + j : Nat) + (k : Int)) %
            (evenLength (max a.cols b.cols) : Nat)).toNat =
        circularCorr a.cols b.cols (a.get i) (b.get i') j := by
  obtain ⟨h0, h1, h2⟩ := evenLength_bounds a.cols b.cols ha
  obtain ⟨N, hN⟩ : ∃ N, N = evenLength (max a.cols b.cols) := ⟨_, rfl⟩
  have hb' := fun x : Int => emod_bounds x (n := N) (by omega)
  unfold prepareCorrelation
  simp only [circularCorr_eq ha]
  simp only [← hN] at h0 h1 h2 ⊢
  by_cases hodd : max a.cols b.cols % 2 = 1
  · have hNe : max a.cols b.cols + 1 = N := by rw [hN, evenLength, if_neg (by omega)]
    rw [if_pos hodd, hNe]
    obtain ⟨A, a1, a2, a3, a4⟩ := shiftMatrix_ok mem a a.cols ar N rfl har ha h1
    obtain ⟨B, b1, b2, b3, b4⟩ := padMatrix_ok mem b b.cols br N rfl hbr h2
    refine ⟨A, B, by rw [a1, b1]; rfl, by omega, fun _ => a2, by omega, fun _ => b2, a3, b3, ?_⟩
    intro i i' j hi hi' hj
    refine Finset.sum_congr rfl fun k hk => ?_
    rw [Finset.mem_range] at hk
    have := hb' ((N - max a.cols b.cols + j : Nat) + (k : Int))
    rw [a4 i k hi hk, b4 i' _ hi' (by omega), Int.toNat_of_nonneg this.1]
    congr 3
    omega
  · rw [if_neg hodd]
    have hNe : max a.cols b.cols = N := by rw [hN, evenLength, if_pos (by omega)]
    rw [hNe, Nat.sub_self]
    by_cases hal : a.cols < N
    · rw [if_pos hal]
      obtain ⟨A, a1, a2, a3, a4⟩ := shiftAndCycleMatrix_ok mem a a.cols ar N rfl har ha hal
      refine ⟨A, b, by rw [a1]; rfl, by omega, fun _ => a2, hbr, id, a3, by omega, ?_⟩
      intro i i' j hi hi' hj
      rw [← sum_cycle h0 (fun x => ext a.cols ((N - a.cols : Nat)) (a.get i) x *
        ext b.cols 0 (b.get i') (((j : Int) + 1 + x) % (N : Nat))) (-1)]
      refine Finset.sum_congr rfl fun k hk => ?_
      rw [Finset.mem_range] at hk
      have := hb' ((0 + j : Nat) + (k : Int))
      rw [a4 i k hi hk]
      congr 1
      rw [Int.add_emod_emod, show (j : Int) + 1 + (k + -1) = (0 + j : Nat) + (k : Int) by push_cast; ring, ext,
        if_pos (by omega)]
      congr 1
    · rw [if_neg hal]
      have hla : N - a.cols = 0 := by omega
      have key : ∀ j k : Int, ((j + k) % N + 1) % N = (j + 1 + k) % N := by
        intro j k
        rw [Int.emod_add_emod]
        congr 1; ring
      by_cases hbl : b.cols < N
      · rw [if_pos hbl]
        obtain ⟨B, b1, b2, b3, b4⟩ := padAndCycleMatrix_ok mem b b.cols br N rfl hbr hb hbl
        refine ⟨a, B, by rw [b1]; rfl, har, id, by omega, fun _ => b2, by omega, b3, ?_⟩
        intro i i' j hi hi' hj
        refine Finset.sum_congr rfl fun k hk => ?_
        rw [Finset.mem_range] at hk
        have := hb' ((0 + j : Nat) + (k : Int))
        rw [b4 i' _ hi' (by omega), Int.toNat_of_nonneg this.1, key, hla, Nat.zero_add]
        congr 1
        rw [ext, if_pos (by omega)]
        congr 1
      · rw [if_neg hbl]
        obtain ⟨B, b1, b2, b3, b4⟩ := cycleMatrix_ok mem b a.cols br (by omega) hbr ha
        refine ⟨a, B, by rw [b1]; rfl, har, id, by omega, fun _ => b2, by omega, by omega, ?_⟩
        intro i i' j hi hi' hj
        refine Finset.sum_congr rfl fun k hk => ?_
        rw [Finset.mem_range] at hk
        have := hb' ((0 + j : Nat) + (k : Int))
        have haN : a.cols = N := by omega
        have hbN : b.cols = N := by omega
        rw [haN] at b4
        rw [b4 i' _ hi' (by omega), Int.toNat_of_nonneg this.1, key, hla, Nat.zero_add, hbN]
        congr 1
        rw [ext, if_pos (by omega)]
        congr 1

theorem viaCorrelation_ok (A B : Mat ℝ) (rows rl p0 N : Nat) (part : PySlice) (hN : 0 < N) (hN2 : N = 2 * (N / 2))
    (hA : A.cols = N) (hB : B.cols = N)
    (hr : A.rows = rows ∧ B.rows = 1 ∨ A.rows = 1 ∧ B.rows = rows ∨ A.rows = rows ∧ B.rows = rows)
    (hlo : part.lo N = p0) (hhi : part.hi N = p0 + rl) :
    ∃ C, viaSpectrum mem true A B rows rl part = .ok C ∧ C.rows = rows ∧ C.cols = rl ∧
      ∀ i j, i < rows → j < rl → C.get i j =
        ∑ k ∈ range N, A.get (if A.rows = 1 then 0 else i) k *
          B.get (if B.rows = 1 then 0 else i) (((p0 + j : Nat) + (k : Int)) % (N : Nat)).toNat := by
  obtain ⟨C, c1, c2, c3, c4⟩ := viaSpectrum_ok mem true A B rows rl p0 (N / 2) part (by omega) (by omega) (by omega) hr
    (by rw [← hN2]; exact hlo) (by rw [← hN2]; exact hhi)
    (fun i x => A.get (if A.rows = 1 then 0 else i) x.toNat) (fun i x => B.get (if B.rows = 1 then 0 else i) x.toNat)
    (fun i k _ _ => by simp) (fun i k _ _ => by simp)
  refine ⟨C, c1, c2, c3, fun i j hi hj => ?_⟩
  rw [c4 i j hi hj, ← hN2]
  refine Finset.sum_congr rfl fun k _ => ?_
  simp

theorem spectrumCorrelation_computes : Computes (spectrumCorrelation mem) circularCorr (fun la lb => max la lb)
    (fun la _ o0 o1 => o1 - o0 - la + 1) where
  vector m v o0 o1 hm hv hv1 := by
    obtain ⟨h0, h1, h2⟩ := evenLength_bounds m.cols v.cols hm
    obtain ⟨A, B, p1, _, p2, _, p3, p4, p5, p6⟩ := prepareCorrelation_ok mem m v m.rows 1 hm hv (le_refl _) (by omega)
    obtain ⟨N, hN⟩ : ∃ N, N = evenLength (max m.cols v.cols) := ⟨_, rfl⟩
    have hN2 : N = 2 * (N / 2) := by rw [hN]; unfold evenLength; split <;> omega
    simp only [← hN] at h0 h1 h2 p4 p5 p6
    obtain ⟨C, c1, c2, c3, c4⟩ := viaCorrelation_ok mem A B m.rows (max m.cols v.cols) (N - max m.cols v.cols) N
      (.drop (-((max m.cols v.cols : Nat) : Int))) h0 hN2 p4 p5 (Or.inl ⟨p2 rfl, p3 hv1⟩)
      (by rw [PySlice.lo_drop, clampBound_neg (by omega)]; omega) (by rw [PySlice.hi_drop]; omega)
    refine ⟨C, ?_, c2, c3, ?_⟩
    · unfold spectrumCorrelation
      dsimp only
      rw [p1]
      show (viaSpectrum mem true A B m.rows (max m.cols v.cols) (.drop (-((max m.cols v.cols : Nat) : Int))) >>= _) = _
      rw [c1]; rfl
    · intro i j hi hj
      rw [c4 i j hi hj, ← p6 i 0 j hi (by omega) hj, if_pos (p3 hv1)]
      have : (if A.rows = 1 then 0 else i) = i := by have := p2 rfl; split <;> omega
      rw [this]
  vector2 v m o0 o1 hv hm hv1 := by
    obtain ⟨h0, h1, h2⟩ := evenLength_bounds v.cols m.cols hv
    obtain ⟨A, B, p1, _, p2, _, p3, p4, p5, p6⟩ := prepareCorrelation_ok mem v m 1 m.rows hv hm (by omega) (le_refl _)
    obtain ⟨N, hN⟩ : ∃ N, N = evenLength (max v.cols m.cols) := ⟨_, rfl⟩
    have hN2 : N = 2 * (N / 2) := by rw [hN]; unfold evenLength; split <;> omega
    simp only [← hN] at h0 h1 h2 p4 p5 p6
    obtain ⟨C, c1, c2, c3, c4⟩ := viaCorrelation_ok mem A B m.rows (max m.cols v.cols) (N - max m.cols v.cols) N
      (.drop (-((max m.cols v.cols : Nat) : Int))) h0 hN2 p4 p5 (Or.inr (Or.inl ⟨p2 hv1, p3 rfl⟩))
      (by rw [PySlice.lo_drop, clampBound_neg (by omega)]; omega) (by rw [PySlice.hi_drop]; omega)
    refine ⟨C, ?_, c2, by omega, ?_⟩
    · unfold spectrumCorrelation
      dsimp only
      rw [p1]
      show (viaSpectrum mem true A B m.rows (max m.cols v.cols) (.drop (-((max m.cols v.cols : Nat) : Int))) >>= _) = _
      rw [c1]; rfl
    · intro i j hi hj
      rw [c4 i j hi (by omega), ← p6 0 i j (by omega) hi hj, if_pos (p2 hv1)]
      have : (if B.rows = 1 then 0 else i) = i := by have := p3 rfl; split <;> omega
      rw [this, Nat.max_comm]
  matrix a b o0 o1 ha hb := by
    obtain ⟨h0, h1, h2⟩ := evenLength_bounds a.cols b.cols ha
    obtain ⟨A, B, p1, p2, _, p3, _, p4, p5, p6⟩ := prepareCorrelation_ok mem a b (min a.rows b.rows) (min a.rows b.rows)
      ha hb (by omega) (by omega)
    obtain ⟨N, hN⟩ : ∃ N, N = evenLength (max a.cols b.cols) := ⟨_, rfl⟩
    have hN2 : N = 2 * (N / 2) := by rw [hN]; unfold evenLength; split <;> omega
    simp only [← hN] at h0 h1 h2 p4 p5 p6
    obtain ⟨s1, s2⟩ := slice_top p2 .all
    obtain ⟨s3, s4⟩ := slice_top p3 .all
    obtain ⟨C, c1, c2, c3, c4⟩ := viaCorrelation_ok mem (A.slice (.range 0 (min a.rows b.rows : Nat)) .all)
      (B.slice (.range 0 (min a.rows b.rows : Nat)) .all) (min a.rows b.rows) (max a.cols b.cols)
      (N - max a.cols b.cols) N
      (.drop (-((max a.cols b.cols : Nat) : Int))) h0 hN2 (by rw [Mat.slice_cols]; simp; omega)
      (by rw [Mat.slice_cols]; simp; omega) (Or.inr (Or.inr ⟨s1, s3⟩))
      (by rw [PySlice.lo_drop, clampBound_neg (by omega)]; omega) (by rw [PySlice.hi_drop]; omega)
    refine ⟨C, ?_, c2, c3, ?_⟩
    · unfold spectrumCorrelation
      dsimp only
      rw [p1]
      show (viaSpectrum mem true (A.slice (.range 0 (min a.rows b.rows : Nat)) .all)
        (B.slice (.range 0 (min a.rows b.rows : Nat)) .all) (min a.rows b.rows) (max a.cols b.cols)
        (.drop (-((max a.cols b.cols : Nat) : Int))) >>= _) = _
      rw [c1]; rfl
    · intro i j hi hj
      rw [c4 i j hi hj, ← p6 i i j hi hi hj, s1, s3]
      have : (if min a.rows b.rows = 1 then 0 else i) = i := by split <;> omega
      rw [this]
      refine Finset.sum_congr rfl fun k _ => ?_
      rw [s2, s4, PySlice.lo_all, PySlice.lo_all, Nat.zero_add, Nat.zero_add]

/-- the padded length of `SpectrumPaddedCorrelation` -/
def paddedLength (n : Nat) : Nat := if n % 2 = 1 then n + 1 else n + 2

theorem preparePaddedCorrelation_ok (a b : Mat ℝ) (ar br : Nat) (ha : 0 < a.cols) (hb : 0 < b.cols) (har : ar ≤ a.rows)
    (hbr : br ≤ b.rows) :
    ∃ A B, preparePaddedCorrelation mem a b ar br = .ok (A, B) ∧ A.rows = ar ∧ B.rows = br ∧
      A.cols = paddedLength (a.cols + b.cols - 1) ∧ B.cols = paddedLength (a.cols + b.cols - 1) ∧
      ∀ i i' j : Nat, i < ar → i' < br → j < a.cols + b.cols - 1 →
        ∑ k ∈ range (paddedLength (a.cols + b.cols - 1)), A.get i k *
          B.get i' (((0 + j : Nat) + (k : Int)) % (paddedLength (a.cols + b.cols - 1) : Nat)).toNat =
        corrSum a.cols b.cols (a.get i) (b.get i') ((0 : Nat) + (j : Int) - a.cols + 1) := by
  obtain ⟨N, hN⟩ : ∃ N, N = paddedLength (a.cols + b.cols - 1) := ⟨_, rfl⟩
  -- both cases lead to the same sum
  have key : ∀ shift : Nat, N + 1 = a.cols + b.cols + shift → 1 ≤ shift → shift ≤ 2 → ∀ (x y : Nat → ℝ) (j : Nat),
      j < a.cols + b.cols - 1 →
      ∑ k ∈ range N, ext a.cols shift x k * ext b.cols ((N - b.cols : Nat)) y (((0 + j : Nat) + (k : Int)) % (N : Nat)) =
      corrSum a.cols b.cols x y ((0 : Nat) + (j : Int) - a.cols + 1) := by
    intro shift hs hs1 hs2 x y j hj
    rw [sum_ext shift (by omega) x
      (fun k : Nat => ext b.cols ((N - b.cols : Nat)) y (((0 + j : Nat) + (k : Int)) % (N : Nat)))]
    unfold corrSum
    refine Finset.sum_congr rfl fun l hl => ?_
    rw [Finset.mem_range] at hl
    congr 1
    by_cases h : j + shift + l < N
    · rw [emod_small (by omega) (by omega)]
      unfold ext
      by_cases h' : a.cols ≤ l + j + 1
      · rw [if_pos (by omega), if_pos (by omega)]; congr 1; omega
      · rw [if_neg (by omega), if_neg (by omega)]
    · rw [emod_above (by omega) (by omega)]
      unfold ext
      rw [if_neg (by omega), if_neg (by omega)]
  have hb' := fun x : Int => emod_bounds x (n := N) (by rw [hN]; unfold paddedLength; split <;> omega)
  unfold preparePaddedCorrelation
  dsimp only
  rw [if_neg (by omega)]
  by_cases hodd : (a.cols + b.cols - 1) % 2 = 1
  · have hNe : a.cols + b.cols - 1 + 1 = N := by rw [hN, paddedLength, if_pos (by omega)]
    rw [if_pos hodd, ← hN, hNe]
    obtain ⟨A, a1, a2, a3, a4⟩ := padAndShiftMatrix_ok mem a a.cols ar N 1 rfl har (by omega)
    obtain ⟨B, b1, b2, b3, b4⟩ := shiftMatrix_ok mem b b.cols br N rfl hbr hb (by omega)
    refine ⟨A, B, by rw [a1, b1]; rfl, a2, b2, a3, b3, ?_⟩
    intro i i' j hi hi' hj
    rw [← key 1 (by omega) (by omega) (by omega) _ _ j hj]
    refine Finset.sum_congr rfl fun k hk => ?_
    rw [Finset.mem_range] at hk
    have := hb' ((0 + j : Nat) + (k : Int))
    rw [a4 i k hi hk, b4 i' _ hi' (by omega), Int.toNat_of_nonneg this.1]
  · have hNe : a.cols + b.cols - 1 + 2 = N := by rw [hN, paddedLength, if_neg (by omega)]
    rw [if_neg hodd, ← hN, hNe]
    obtain ⟨A, a1, a2, a3, a4⟩ := padAndShiftMatrix_ok mem a a.cols ar N 2 rfl har (by omega)
    obtain ⟨B, b1, b2, b3, b4⟩ := shiftMatrix_ok mem b b.cols br N rfl hbr hb (by omega)
    refine ⟨A, B, by rw [a1, b1]; rfl, a2, b2, a3, b3, ?_⟩
    intro i i' j hi hi' hj
    rw [← key 2 (by omega) (by omega) (by omega) _ _ j hj]
    refine Finset.sum_congr rfl fun k hk => ?_
    rw [Finset.mem_range] at hk
    have := hb' ((0 + j : Nat) + (k : Int))
    rw [a4 i k hi hk, b4 i' _ hi' (by omega), Int.toNat_of_nonneg this.1]

theorem spectrumPaddedCorrelation_computes : Computes (spectrumPaddedCorrelation mem)
    (fun la lb a b j => corrSum la lb a b ((0 : Nat) + (j : Int) - la + 1)) (fun la lb => la + lb - 1)
    (fun la _ o0 o1 => o1 - o0 - la + 1) where
  vector m v o0 o1 hm hv hv1 := by
    obtain ⟨A, B, p1, p2, p3, p4, p5, p6⟩ := preparePaddedCorrelation_ok mem m v m.rows 1 hm hv (le_refl _) (by omega)
    obtain ⟨N, hN⟩ : ∃ N, N = paddedLength (m.cols + v.cols - 1) := ⟨_, rfl⟩
    have hN2 : N = 2 * (N / 2) ∧ m.cols + v.cols ≤ N := by rw [hN]; unfold paddedLength; split <;> omega
    simp only [← hN] at p4 p5 p6
    obtain ⟨C, c1, c2, c3, c4⟩ := viaCorrelation_ok mem A B m.rows (m.cols + v.cols - 1) 0 N
      (.range 0 (m.cols + v.cols - 1 : Nat)) (by omega) hN2.1 p4 p5 (Or.inl ⟨p2, p3⟩)
      (by simp) (by rw [PySlice.hi_range, clampBound_nat]; omega)
    refine ⟨C, ?_, c2, c3, ?_⟩
    · unfold spectrumPaddedCorrelation
      dsimp only
      rw [p1]
      show (viaSpectrum mem true A B m.rows (m.cols + v.cols - 1) (.range 0 (m.cols + v.cols - 1 : Nat)) >>= _) = _
      rw [c1]; rfl
    · intro i j hi hj
      rw [c4 i j hi hj, ← p6 i 0 j hi (by omega) hj, if_pos p3]
      have : (if A.rows = 1 then 0 else i) = i := by split <;> omega
      rw [this]
  vector2 v m o0 o1 hv hm hv1 := by
    obtain ⟨A, B, p1, p2, p3, p4, p5, p6⟩ := preparePaddedCorrelation_ok mem v m 1 m.rows hv hm (by omega) (le_refl _)
    obtain ⟨N, hN⟩ : ∃ N, N = paddedLength (v.cols + m.cols - 1) := ⟨_, rfl⟩
    have hN2 : N = 2 * (N / 2) ∧ v.cols + m.cols ≤ N := by rw [hN]; unfold paddedLength; split <;> omega
    simp only [← hN] at p4 p5 p6
    obtain ⟨C, c1, c2, c3, c4⟩ := viaCorrelation_ok mem A B m.rows (m.cols + v.cols - 1) 0 N
      (.range 0 (m.cols + v.cols - 1 : Nat)) (by omega) hN2.1 p4 p5 (Or.inr (Or.inl ⟨p2, p3⟩))
      (by simp) (by rw [PySlice.hi_range, clampBound_nat]; omega)
    refine ⟨C, ?_, c2, by omega, ?_⟩
    · unfold spectrumPaddedCorrelation
      dsimp only
      rw [p1]
      show (viaSpectrum mem true A B m.rows (m.cols + v.cols - 1) (.range 0 (m.cols + v.cols - 1 : Nat)) >>= _) = _
      rw [c1]; rfl
    · intro i j hi hj
      rw [c4 i j hi (by omega), ← p6 0 i j (by omega) hi hj, if_pos p2]
      have : (if B.rows = 1 then 0 else i) = i := by split <;> omega
      rw [this]
  matrix a b o0 o1 ha hb := by
    obtain ⟨A, B, p1, p2, p3, p4, p5, p6⟩ := preparePaddedCorrelation_ok mem a b (min a.rows b.rows) (min a.rows b.rows)
      ha hb (by omega) (by omega)
    obtain ⟨N, hN⟩ : ∃ N, N = paddedLength (a.cols + b.cols - 1) := ⟨_, rfl⟩
    have hN2 : N = 2 * (N / 2) ∧ a.cols + b.cols ≤ N := by rw [hN]; unfold paddedLength; split <;> omega
    simp only [← hN] at p4 p5 p6
    obtain ⟨s1, s2⟩ := slice_top (le_of_eq p2.symm) .all
    obtain ⟨s3, s4⟩ := slice_top (le_of_eq p3.symm) .all
    obtain ⟨C, c1, c2, c3, c4⟩ := viaCorrelation_ok mem (A.slice (.range 0 (min a.rows b.rows : Nat)) .all)
      (B.slice (.range 0 (min a.rows b.rows : Nat)) .all) (min a.rows b.rows) (a.cols + b.cols - 1) 0 N
      (.range 0 (a.cols + b.cols - 1 : Nat)) (by omega) hN2.1 (by rw [Mat.slice_cols]; simp; omega)
      (by rw [Mat.slice_cols]; simp; omega) (Or.inr (Or.inr ⟨s1, s3⟩))
      (by simp) (by rw [PySlice.hi_range, clampBound_nat]; omega)
    refine ⟨C, ?_, c2, c3, ?_⟩
    · unfold spectrumPaddedCorrelation
      dsimp only
      rw [p1]
      show (viaSpectrum mem true (A.slice (.range 0 (min a.rows b.rows : Nat)) .all)
        (B.slice (.range 0 (min a.rows b.rows : Nat)) .all) (min a.rows b.rows) (a.cols + b.cols - 1)
        (.range 0 (a.cols + b.cols - 1 : Nat)) >>= _) = _
      rw [c1]; rfl
    · intro i j hi hj
      rw [c4 i j hi hj, ← p6 i i j hi hi hj, s1, s3]
      have : (if min a.rows b.rows = 1 then 0 else i) = i := by split <;> omega
      rw [this]
      refine Finset.sum_congr rfl fun k _ => ?_
      rw [s2, s4, PySlice.lo_all, PySlice.lo_all, Nat.zero_add, Nat.zero_add]

end

/-! ### The properties -/

namespace Signal
variable {R : Type}

/-- Two signals are the same. -/
structure SameSignal {α : Type} (r r' : Signal α R) : Prop where
  count : r.count = r'.count
  length : r.length = r'.length
  rate : r.rate = r'.rate
  offset : r.offset = r'.offset
  labels : r.labels = r'.labels
  samples : ∀ c t, r.at_ c t = r'.at_ c t

theorem same_of_computes {α : Type} {f g : Convolver α} {kernel len off} (hf : Computes f kernel len off)
    (hg : Computes g kernel len off) (label : String) (s o : Signal α R) (hs : 0 < s.length) (ho : 0 < o.length) :
    ∃ r r', convolve f label s o = .ok r ∧ convolve g label s o = .ok r' ∧ SameSignal r r' := by
  obtain ⟨r, a1, a2, a3, a4, ⟨a5, a6⟩, a7⟩ := convolve_computes hf label s o hs ho
  obtain ⟨r', b1, b2, b3, b4, ⟨b5, b6⟩, b7⟩ := convolve_computes hg label s o hs ho
  refine ⟨r, r', a1, b1, by omega, by omega, by rw [a5, b5], by rw [a4, b4], by rw [a6, b6, a2, b2], ?_⟩
  intro c t
  unfold at_ sample
  rw [a4, b4, a2, b2, a3, b3]
  by_cases h : c < convCount s o ∧ (t - off s.length o.length s.offset o.offset).toNat < len s.length o.length
  · rw [if_pos h, if_pos h, a7 c _ h.1 h.2, b7 c _ h.1 h.2]
  · rw [if_neg h, if_neg h]

/-- **C19**: `s.convolve(o, SPECTRUM_PADDED)`, which is the default, is the same as `s.convolve(o, FULL)`. -/
theorem C19_padded (mem mem' : Nat → Nat → ℝ) (label : String) (s o : Signal ℝ R) (hs : 0 < s.length)
    (ho : 0 < o.length) :
    ∃ r r', convolve (spectrumPaddedConvolution mem) label s o = .ok r ∧
      convolve (fullConvolution mem') label s o = .ok r' ∧ SameSignal r r' :=
  same_of_computes (spectrumPaddedConvolution_computes mem) (fullConvolution_computes mem') label s o hs ho

/-- **C21**: `s.correlate(o, SPECTRUM_PADDED)`, which is the default, is the same as `s.correlate(o, FULL)`. -/
theorem C21_padded (mem mem' : Nat → Nat → ℝ) (label : String) (s o : Signal ℝ R) (hs : 0 < s.length)
    (ho : 0 < o.length) :
    ∃ r r', convolve (spectrumPaddedCorrelation mem) label s o = .ok r ∧
      convolve (fullCorrelation mem') label s o = .ok r' ∧ SameSignal r r' :=
  same_of_computes (spectrumPaddedCorrelation_computes mem) (fullCorrelation_computes mem') label s o hs ho

/-- **C19**: `s.convolve(o, SPECTRUM)` is the circular convolution, i.e. the periodic continuation of the
convolution, whose period `N` is the length of the longer signal, rounded up to an even number.  It begins where the
linear convolution does and has the length of the longer signal. -/
theorem C19_spectrum (mem : Nat → Nat → ℝ) (label : String) (s o : Signal ℝ R) (hs : 0 < s.length)
    (ho : 0 < o.length) :
    ∃ (r : Signal ℝ R) (N : Nat), convolve (spectrumConvolution mem) label s o = .ok r ∧
      N % 2 = 0 ∧ max s.length o.length ≤ N ∧ N ≤ max s.length o.length + 1 ∧
      r.offset = s.offset + o.offset ∧ r.length = max s.length o.length ∧
      r.IsCutout (convCount s o) s.rate (fun c t => ∑ᶠ k : Int, convAt s o c (t + k * N)) := by
  obtain ⟨r, h1, h2, h3, h4, h5, h6⟩ := convolve_computes (spectrumConvolution_computes mem) label s o hs ho
  refine ⟨r, evenLength (max s.length o.length), h1, ?_, ?_, ?_, h4, h3, ?_⟩
  · unfold evenLength; split <;> omega
  · unfold evenLength; split <;> omega
  · unfold evenLength; split <;> omega
  · refine isCutout_of h2 h5.1 fun c i hc hi => ?_
    rw [h6 c i hc (by omega), circularConv]
    refine finsum_congr fun k => ?_
    rw [convAt_eq s o hc, conv_eq, h4,
      show s.offset + o.offset + (i : Int) + k * (evenLength (max s.length o.length) : Nat) - s.offset - o.offset =
        (i : Int) + k * (evenLength (max s.length o.length) : Nat) - 0 - 0 by ring]

/-- **C21**: `s.correlate(o, SPECTRUM)` is the circular cross-correlation, i.e. the periodic continuation of the
cross-correlation, whose period `N` is the length of the longer signal, rounded up to an even number.  It begins with
the same lag as the full correlation and has the length of the longer signal. -/
theorem C21_spectrum (mem : Nat → Nat → ℝ) (label : String) (s o : Signal ℝ R) (hs : 0 < s.length)
    (ho : 0 < o.length) :
    ∃ (r : Signal ℝ R) (N : Nat), convolve (spectrumCorrelation mem) label s o = .ok r ∧
      N % 2 = 0 ∧ max s.length o.length ≤ N ∧ N ≤ max s.length o.length + 1 ∧
      r.offset = o.offset - (s.offset + s.length - 1) ∧ r.length = max s.length o.length ∧
      r.IsCutout (convCount s o) s.rate (fun c t => ∑ᶠ k : Int, corrAt s o c (t + k * N)) := by
  obtain ⟨r, h1, h2, h3, h4, h5, h6⟩ := convolve_computes (spectrumCorrelation_computes mem) label s o hs ho
  refine ⟨r, evenLength (max s.length o.length), h1, ?_, ?_, ?_, by omega, h3, ?_⟩
  · unfold evenLength; split <;> omega
  · unfold evenLength; split <;> omega
  · unfold evenLength; split <;> omega
  · refine isCutout_of h2 h5.1 fun c i hc hi => ?_
    rw [h6 c i hc (by omega), circularCorr]
    refine finsum_congr fun k => ?_
    rw [corrAt_eq s o hc, h4]
    congr 1
    ring

/-- The hypotheses are met by real signals with different numbers of channels, lengths and offsets. -/
example : ∃ s o : Signal ℝ Nat, s.count = 1 ∧ o.count = 2 ∧ 0 < s.length ∧ 0 < o.length ∧ s.length ≠ o.length ∧
    s.offset ≠ o.offset :=
  ⟨new ⟨1, 2, fun _ j => j⟩ 48000 3 none, new ⟨2, 5, fun i j => i * j⟩ 48000 (-1) none, rfl, rfl,
    by decide, by decide, by decide, by decide⟩

end Signal
end Verif
