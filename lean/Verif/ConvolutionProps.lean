import Verif.Convolution
import Verif.SignalAlgebraProps
import Mathlib.Algebra.BigOperators.Finprod
import Mathlib.Algebra.Ring.Int.Defs
import Mathlib.Tactic.Ring

/-
Properties C17 (full convolution), C18 (`SAME` and `VALID` convolution) and C20 (correlation).
-/

namespace Verif

open Finset

/-! ### Specification vocabulary -/

/-- A finite sequence as a function on all integers: `l` values, the first of which is located at `off`. -/
def ext {α : Type} [Zero α] (l : Nat) (off : Int) (a : Nat → α) (t : Int) : α :=
  if off ≤ t ∧ t < off + l then a (t - off).toNat else 0

namespace Signal
variable {α R : Type}

/-- The signal as a function on all points in time, which is zero where the signal has no samples; the
channel of a one-channel signal stands in for every channel. -/
def val [Zero α] (s : Signal α R) (c : Nat) (t : Int) : α := (s.bcast c t).getD 0

/-- The signal has samples for the time `t`. -/
def Covers (s : Signal α R) (t : Int) : Prop := s.offset ≤ t ∧ t < s.offset + s.length

/-- The number of channels of the convolution of two signals. -/
def convCount (s o : Signal α R) : Nat :=
  if o.count = 1 then s.count else if s.count = 1 then o.count else min s.count o.count

/-- The value of the convolution of two signals at the time `t`. -/
noncomputable def convAt [NonUnitalNonAssocSemiring α] (s o : Signal α R) (c : Nat) (t : Int) : α :=
  ∑ᶠ u : Int, s.val c u * o.val c (t - u)

/-- The value of the cross-correlation of two signals for the lag `t`. -/
noncomputable def corrAt [NonUnitalNonAssocSemiring α] (s o : Signal α R) (c : Nat) (t : Int) : α :=
  ∑ᶠ u : Int, s.val c u * o.val c (u + t)

/-- The channel of a signal which is used for the `c`-th channel of the result. -/
def chan (s : Signal α R) (c : Nat) : Nat := if s.count = 1 then 0 else c

theorem chan_lt_left {s o : Signal α R} {c : Nat} (h : c < convCount s o) : s.chan c < s.count := by
  unfold convCount at h; unfold chan
  split at h
  · split <;> omega
  · split at h
    · rw [if_pos (by assumption)]; omega
    · split <;> omega

theorem chan_lt_right {s o : Signal α R} {c : Nat} (h : c < convCount s o) : o.chan c < o.count := by
  unfold convCount at h; unfold chan
  split at h
  · rw [if_pos (by assumption)]; omega
  · split at h
    · split <;> omega
    · split <;> omega

theorem val_eq_ext [Zero α] (s : Signal α R) {c : Nat} (h : s.chan c < s.count) (t : Int) :
    s.val c t = ext s.length s.offset (s.channels.get (s.chan c)) t := by
  unfold val bcast at_ ext
  change (if s.offset ≤ t then s.sample (s.chan c) _ else none).getD 0 = _
  by_cases h1 : s.offset ≤ t
  · rw [if_pos h1]
    unfold sample
    by_cases h2 : t < s.offset + s.length
    · rw [if_pos ⟨h, by omega⟩, if_pos ⟨h1, h2⟩]; rfl
    · rw [if_neg (by omega), if_neg (by omega)]; rfl
  · rw [if_neg h1, if_neg (by omega)]; rfl

end Signal

/-! ### The sums -/

section
variable {α : Type}

theorem finsum_ext [NonUnitalNonAssocSemiring α] (la : Nat) (oa : Int) (a : Nat → α) (G : Int → α) :
    ∑ᶠ u : Int, ext la oa a u * G u = ∑ i ∈ range la, a i * G (oa + i) := by
  have hsub : (Function.support fun u : Int => ext la oa a u * G u) ⊆
      (((range la).image fun i : Nat => oa + (i : Int)) : Finset Int) := by
    intro u hu
    rw [Function.mem_support] at hu
    rw [Finset.mem_coe, Finset.mem_image]
    by_cases h : oa ≤ u ∧ u < oa + la
    · exact ⟨(u - oa).toNat, Finset.mem_range.2 (by omega), by omega⟩
    · exact absurd (by rw [ext, if_neg h, zero_mul]) hu
  rw [finsum_eq_sum_of_support_subset _ hsub, Finset.sum_image (by intro x _ y _ h; simpa using h)]
  refine Finset.sum_congr rfl fun i hi => ?_
  rw [Finset.mem_range] at hi
  congr 1
  rw [ext, if_pos (by omega)]
  congr 1
  omega

theorem conv_eq [NonUnitalNonAssocSemiring α] (la lb : Nat) (oa ob : Int) (a b : Nat → α) (t : Int) :
    ∑ᶠ u : Int, ext la oa a u * ext lb ob b (t - u) =
      if 0 ≤ t - oa - ob then npFull la lb a b (t - oa - ob).toNat else 0 := by
  rw [finsum_ext]
  split
  · unfold npFull
    refine Finset.sum_congr rfl fun i _ => ?_
    unfold ext
    split
    · rw [if_pos (by omega)]
      congr 2; omega
    · rw [if_neg (by omega), mul_zero]
  · refine Finset.sum_eq_zero fun i _ => ?_
    rw [ext, if_neg (by omega), mul_zero]

theorem npFull_beyond [NonUnitalNonAssocSemiring α] {la lb : Nat} {a b : Nat → α} {k : Nat} (h : la + lb - 1 ≤ k) :
    npFull la lb a b k = 0 :=
  Finset.sum_eq_zero fun i hi => if_neg (by rw [Finset.mem_range] at hi; omega)

theorem conv_comm [NonUnitalNonAssocCommSemiring α] (f g : Int → α) (t : Int) :
    ∑ᶠ u : Int, f u * g (t - u) = ∑ᶠ u : Int, g u * f (t - u) := by
  rw [← finsum_comp_equiv (Equiv.subLeft t)]
  refine finsum_congr fun u => ?_
  simp only [Equiv.subLeft_apply]
  rw [mul_comm, sub_sub_cancel]

theorem npFull_comm [NonUnitalNonAssocCommSemiring α] (la lb : Nat) (a b : Nat → α) (k : Nat) :
    npFull la lb a b k = npFull lb la b a k := by
  have h1 := conv_eq la lb 0 0 a b k
  have h2 := conv_eq lb la 0 0 b a k
  rw [if_pos (by omega)] at h1 h2
  rw [show ((k : Int) - 0 - 0).toNat = k by omega] at h1 h2
  rw [← h1, ← h2, conv_comm]

/-- The reversed result of `numpy.correlate`. -/
theorem corr_eq [NonUnitalNonAssocSemiring α] (la lb : Nat) (oa ob : Int) (a b : Nat → α) (t : Int) :
    ∑ᶠ u : Int, ext la oa a u * ext lb ob b (u + t) =
      ∑ l ∈ range la, a l * ext lb 0 b (l + (oa + t - ob)) := by
  rw [finsum_ext]
  refine Finset.sum_congr rfl fun l _ => ?_
  congr 1
  unfold ext
  by_cases h : 0 ≤ (l : Int) + (oa + t - ob) ∧ (l : Int) + (oa + t - ob) < 0 + lb
  · rw [if_pos (by omega), if_pos h]; congr 1; omega
  · rw [if_neg (by omega), if_neg h]

theorem npCorr_eq [NonUnitalNonAssocSemiring α] {la lb : Nat} (hb : 0 < lb) (a b : Nat → α) (k : Nat) (d : Int)
    (hd : d = (lb : Int) - 1 - k) :
    npCorr la lb a b k = ∑ l ∈ range la, a l * ext lb 0 b (l + d) := by
  unfold npCorr
  refine Finset.sum_congr rfl fun l _ => ?_
  unfold ext
  split
  · rw [if_pos (by omega)]; congr 2; omega
  · rw [if_neg (by omega), mul_zero]

theorem npFull_reverse [NonUnitalNonAssocSemiring α] {la lb : Nat} (a b : Nat → α) (k : Nat) (d : Int)
    (hd : d = (k : Int) - la + 1) :
    npFull la lb (fun j => a (la - 1 - j)) b k = ∑ l ∈ range la, a l * ext lb 0 b (l + d) := by
  unfold npFull
  rw [← Finset.sum_range_reflect (fun l => a l * ext lb 0 b (l + d))]
  refine Finset.sum_congr rfl fun i hi => ?_
  rw [Finset.mem_range] at hi
  unfold ext
  split
  · rw [if_pos (by omega)]; congr 2; omega
  · rw [if_neg (by omega), mul_zero]

theorem corr_beyond [NonUnitalNonAssocSemiring α] {la lb : Nat} (a b : Nat → α) (d : Int)
    (hd : d ≤ -la ∨ lb ≤ d) : ∑ l ∈ range la, a l * ext lb 0 b (l + d) = 0 :=
  Finset.sum_eq_zero fun i hi => by
    rw [Finset.mem_range] at hi
    rw [ext, if_neg (by omega), mul_zero]

end

/-! ### The loop over the channels -/

theorem fillRows_ok {α : Type} (mem : Nat → Nat → α) (rows : Nat) (length : Int) (n : Nat) (hn : length = n)
    (g : Nat → Py (Mat α)) (G : Nat → Nat → α)
    (h : ∀ c, c < rows → ∃ row, g c = .ok row ∧ row.rows = 1 ∧ row.cols = n ∧ ∀ j, j < n → row.get 0 j = G c j) :
    ∃ C, fillRows mem rows length g = .ok C ∧ C.rows = rows ∧ C.cols = n ∧
      ∀ i j, i < rows → j < n → C.get i j = G i j := by
  unfold fillRows
  rw [if_neg (by omega), show length.toNat = n by omega]
  have key : ∀ k, k ≤ rows → ∃ C, (List.range k).foldlM (fun (channels : Mat α) (c : Nat) => do
      let row ← g c
      channels.assign (.range c (c + 1)) .all row) (alloc mem rows n) = (.ok C : Py (Mat α)) ∧
      C.rows = rows ∧ C.cols = n ∧ ∀ i j, i < k → j < n → C.get i j = G i j := by
    intro k
    induction k with
    | zero => intro _; exact ⟨_, rfl, rfl, rfl, fun i j h => absurd h (by omega)⟩
    | succ k ih =>
      intro hk
      obtain ⟨C, h1, h2, h3, h4⟩ := ih (by omega)
      obtain ⟨row, g1, g2, g3, g4⟩ := h k (by omega)
      rw [List.range_succ, List.foldlM_append, h1]
      obtain ⟨D, d1, d2, d3, d4, d5⟩ := Mat.assign_ok (A := C) (S := row) (r := .range k (k + 1)) (c := .all)
        k (k + 1) 0 n (by simp; omega)
        (by rw [PySlice.hi_range, h2, show ((k : Int) + 1) = ((k + 1 : Nat) : Int) by omega, clampBound_nat]; omega)
        (by simp) (by simp [h3]) (by omega) (by omega)
      refine ⟨D, ?_, by omega, by omega, ?_⟩
      · show (do
          let row ← g k
          C.assign (.range k (k + 1)) .all row) >>= pure = _
        rw [g1]
        show C.assign (.range k (k + 1)) .all row >>= pure = _
        rw [d1]; rfl
      · intro i j hi hj
        by_cases hik : i = k
        · subst hik
          rw [d4 i j (by omega) (by omega) (by omega) hj, Nat.sub_self]
          exact g4 j hj
        · rw [d5 i j (by omega)]
          exact h4 i j (by omega) hj
  exact key rows (le_refl _)

/-! ### What a class for a mode has to compute -/

/-- The methods of `f` compute `kernel`, rows with `len` samples and the offset `off` from rows of the lengths
`la > 0` and `lb > 0`. -/
structure Computes {α : Type} (f : Convolver α) (kernel : (la lb : Nat) → (a b : Nat → α) → Nat → α)
    (len : Nat → Nat → Nat) (off : Nat → Nat → Int → Int → Int) : Prop where
  vector : ∀ (m v : Mat α) (o0 o1 : Int), 0 < m.cols → 0 < v.cols → v.rows = 1 →
    ∃ C, f.withVector m v o0 o1 = .ok (C, off m.cols v.cols o0 o1) ∧ C.rows = m.rows ∧ C.cols = len m.cols v.cols ∧
      ∀ i j, i < m.rows → j < len m.cols v.cols → C.get i j = kernel m.cols v.cols (m.get i) (v.get 0) j
  vector2 : ∀ (v m : Mat α) (o0 o1 : Int), 0 < v.cols → 0 < m.cols → v.rows = 1 →
    ∃ C, f.withVector2 v m o0 o1 = .ok (C, off v.cols m.cols o0 o1) ∧ C.rows = m.rows ∧ C.cols = len v.cols m.cols ∧
      ∀ i j, i < m.rows → j < len v.cols m.cols → C.get i j = kernel v.cols m.cols (v.get 0) (m.get i) j
  matrix : ∀ (a b : Mat α) (o0 o1 : Int), 0 < a.cols → 0 < b.cols →
    ∃ C, f.withMatrix a b o0 o1 = .ok (C, off a.cols b.cols o0 o1) ∧ C.rows = min a.rows b.rows ∧
      C.cols = len a.cols b.cols ∧
      ∀ i j, i < min a.rows b.rows → j < len a.cols b.cols → C.get i j = kernel a.cols b.cols (a.get i) (b.get i) j

theorem Mat.row_get {α : Type} (A : Mat α) (c i j : Nat) : (A.row c).get i j = A.get c j := rfl

section
variable {α : Type} [AddCommMonoid α] [Mul α]

omit [AddCommMonoid α] [Mul α] in
theorem rows_ok (mem : Nat → Nat → α) (rows : Nat) (length : Int) (n : Nat) (hn : length = n)
    (g : Nat → Py (Mat α)) (G : Nat → Nat → α) (off : Int)
    (h : ∀ c, c < rows → ∃ row, g c = .ok row ∧ row.rows = 1 ∧ row.cols = n ∧ ∀ j, j < n → row.get 0 j = G c j) :
    ∃ C, (do
        let channels ← fillRows mem rows length g
        return (channels, off) : Py (Mat α × Int)) = .ok (C, off) ∧ C.rows = rows ∧ C.cols = n ∧
      ∀ i j, i < rows → j < n → C.get i j = G i j := by
  obtain ⟨C, h1, h2, h3, h4⟩ := fillRows_ok mem rows length n hn g G h
  refine ⟨C, ?_, h2, h3, h4⟩
  rw [h1]; rfl

theorem npConvolve_ok (mode : NpMode) (a b : Mat α) (ha : 0 < a.cols) (hb : 0 < b.cols) (n : Nat)
    (hn : npLength mode a.cols b.cols = n) (G : Nat → α)
    (hG : ∀ j, j < n → npFull a.cols b.cols (a.get 0) (b.get 0) (npStart mode a.cols b.cols + j) = G j) :
    ∃ row, npConvolve mode a b = .ok row ∧ row.rows = 1 ∧ row.cols = n ∧ ∀ j, j < n → row.get 0 j = G j := by
  unfold npConvolve
  rw [if_neg (by omega)]
  exact ⟨_, rfl, rfl, hn, fun j hj => hG j hj⟩

theorem npCorrelateReversed_ok (mode : NpMode) (a b : Mat α) (ha : 0 < a.cols) (hb : 0 < b.cols) (n : Nat)
    (hn : npLength mode a.cols b.cols = n) (G : Nat → α)
    (hG : ∀ j, j < n → npCorr a.cols b.cols (a.get 0) (b.get 0) (npStart mode a.cols b.cols + (n - 1 - j)) = G j) :
    ∃ row, npCorrelateReversed mode a b = .ok row ∧ row.rows = 1 ∧ row.cols = n ∧ ∀ j, j < n → row.get 0 j = G j := by
  unfold npCorrelateReversed npCorrelate
  rw [if_neg (by omega)]
  refine ⟨_, rfl, rfl, hn, fun j hj => ?_⟩
  rw [← hG j hj, ← hn]
  rfl

end

section
variable {α : Type} [NonUnitalNonAssocCommSemiring α] (mem : Nat → Nat → α)

theorem fullConvolution_computes : Computes (fullConvolution mem) npFull (fun la lb => la + lb - 1)
    (fun _ _ o0 o1 => o0 + o1) where
  vector m v o0 o1 hm hv _ := rows_ok mem _ _ _ (by omega) _ (fun i => npFull m.cols v.cols (m.get i) (v.get 0)) _
    fun c _ => npConvolve_ok .full (m.row c) v hm hv _ rfl _ fun j _ => by
      show npFull m.cols v.cols (m.get c) (v.get 0) (0 + j) = _
      rw [Nat.zero_add]
  vector2 v m o0 o1 hv hm _ := rows_ok mem _ _ _ (by omega) _ (fun i => npFull v.cols m.cols (v.get 0) (m.get i)) _
    fun c _ => npConvolve_ok .full (m.row c) v hm hv _ (by show m.cols + v.cols - 1 = _; omega) _ fun j _ => by
      show npFull m.cols v.cols (m.get c) (v.get 0) (0 + j) = _
      rw [Nat.zero_add, npFull_comm]
  matrix a b o0 o1 ha hb := rows_ok mem _ _ _ (by omega) _ (fun i => npFull a.cols b.cols (a.get i) (b.get i)) _
    fun c _ => npConvolve_ok .full (a.row c) (b.row c) ha hb _ rfl _ fun j _ => by
      show npFull a.cols b.cols (a.get c) (b.get c) (0 + j) = _
      rw [Nat.zero_add]

theorem sameConvolution_computes : Computes (sameConvolution mem)
    (fun la lb a b j => npFull la lb a b ((min la lb - 1) / 2 + j)) (fun la lb => max la lb)
    (fun la lb o0 o1 => o0 + o1 + ((min la lb : Nat) - 1 : Int) / 2) where
  vector m v o0 o1 hm hv _ := rows_ok mem _ _ _ (by omega) _
    (fun i j => npFull m.cols v.cols (m.get i) (v.get 0) ((min m.cols v.cols - 1) / 2 + j)) _
    fun c _ => npConvolve_ok .same (m.row c) v hm hv _ rfl _ fun j _ => rfl
  vector2 v m o0 o1 hv hm _ := by
    have h := rows_ok mem m.rows (max m.cols v.cols) (max m.cols v.cols) (by omega)
      (fun c => npConvolve .same (m.row c) v)
      (fun i j => npFull v.cols m.cols (v.get 0) (m.get i) ((min m.cols v.cols - 1) / 2 + j))
      (o0 + o1 + ((min m.cols v.cols : Nat) - 1 : Int) / 2)
      fun c _ => npConvolve_ok .same (m.row c) v hm hv _ rfl _ fun j _ => by
        show npFull m.cols v.cols (m.get c) (v.get 0) ((min m.cols v.cols - 1) / 2 + j) = _
        rw [npFull_comm]
    simp only [Nat.min_comm m.cols v.cols, Nat.max_comm m.cols v.cols] at h
    simpa only [sameConvolution, Nat.min_comm m.cols v.cols, Nat.max_comm m.cols v.cols] using h
  matrix a b o0 o1 ha hb := rows_ok mem _ _ _ (by omega) _
    (fun i j => npFull a.cols b.cols (a.get i) (b.get i) ((min a.cols b.cols - 1) / 2 + j)) _
    fun c _ => npConvolve_ok .same (a.row c) (b.row c) ha hb _ rfl _ fun j _ => rfl

theorem validConvolution_computes : Computes (validConvolution mem)
    (fun la lb a b j => npFull la lb a b (min la lb - 1 + j)) (fun la lb => max la lb - min la lb + 1)
    (fun la lb o0 o1 => o0 + o1 + ((min la lb : Nat) - 1 : Int)) where
  vector m v o0 o1 hm hv _ := rows_ok mem _ _ _ (by omega) _
    (fun i j => npFull m.cols v.cols (m.get i) (v.get 0) (min m.cols v.cols - 1 + j)) _
    fun c _ => npConvolve_ok .valid (m.row c) v hm hv _ rfl _ fun j _ => rfl
  vector2 v m o0 o1 hv hm _ := by
    have h := rows_ok mem m.rows (((m.cols : Int) - v.cols).natAbs + 1) (max m.cols v.cols - min m.cols v.cols + 1)
      (by omega) (fun c => npConvolve .valid (m.row c) v)
      (fun i j => npFull v.cols m.cols (v.get 0) (m.get i) (min m.cols v.cols - 1 + j))
      (o0 + o1 + ((min m.cols v.cols : Nat) - 1 : Int))
      fun c _ => npConvolve_ok .valid (m.row c) v hm hv _ rfl _ fun j _ => by
        show npFull m.cols v.cols (m.get c) (v.get 0) (min m.cols v.cols - 1 + j) = _
        rw [npFull_comm]
    simp only [Nat.min_comm m.cols v.cols, Nat.max_comm m.cols v.cols] at h
    simpa only [validConvolution, Nat.min_comm m.cols v.cols, Nat.max_comm m.cols v.cols] using h
  matrix a b o0 o1 ha hb := rows_ok mem _ _ _ (by omega) _
    (fun i j => npFull a.cols b.cols (a.get i) (b.get i) (min a.cols b.cols - 1 + j)) _
    fun c _ => npConvolve_ok .valid (a.row c) (b.row c) ha hb _ rfl _ fun j _ => rfl

end

section
variable {α : Type} [NonUnitalNonAssocSemiring α] (mem : Nat → Nat → α)

/-- the sum which the classes for the correlation compute -/
def corrSum (la lb : Nat) (a b : Nat → α) (d : Int) : α := ∑ l ∈ range la, a l * ext lb 0 b (l + d)

theorem corr_row (mode : NpMode) (a b : Mat α) (ha : 0 < a.cols) (hb : 0 < b.cols) (n : Nat)
    (hn : npLength mode a.cols b.cols = n) (G : Nat → α) (front : Nat)
    (hfront : (npStart mode a.cols b.cols + (n - 1) : Nat) = ((a.cols + b.cols - 2 - front : Nat)))
    (hfront' : front ≤ a.cols + b.cols - 2)
    (hG : ∀ j : Nat, j < n → corrSum a.cols b.cols (a.get 0) (b.get 0) ((front : Int) + j - a.cols + 1) = G j) :
    ∃ row, npCorrelateReversed mode a b = .ok row ∧ row.rows = 1 ∧ row.cols = n ∧ ∀ j, j < n → row.get 0 j = G j :=
  npCorrelateReversed_ok mode a b ha hb n hn G fun j hj => by
    rw [← hG j hj]
    exact npCorr_eq hb _ _ _ _ (by omega)

theorem fullCorrelation_computes : Computes (fullCorrelation mem)
    (fun la lb a b j => corrSum la lb a b ((0 : Nat) + (j : Int) - la + 1)) (fun la lb => la + lb - 1)
    (fun la _ o0 o1 => o1 - o0 - la + 1) where
  vector m v o0 o1 hm hv _ := rows_ok mem _ _ _ (by omega) _
    (fun i j => corrSum m.cols v.cols (m.get i) (v.get 0) ((0 : Nat) + (j : Int) - m.cols + 1)) _
    fun c _ => corr_row .full (m.row c) v hm hv _ rfl _ 0
      (by show 0 + (m.cols + v.cols - 1 - 1) = m.cols + v.cols - 2 - 0; omega) (by omega) fun j _ => rfl
  vector2 v m o0 o1 hv hm _ := rows_ok mem _ _ _ (by omega) _
    (fun i j => corrSum v.cols m.cols (v.get 0) (m.get i) ((0 : Nat) + (j : Int) - v.cols + 1)) _
    fun c _ => corr_row .full v (m.row c) hv hm _ rfl _ 0
      (by show 0 + (v.cols + m.cols - 1 - 1) = v.cols + m.cols - 2 - 0; omega) (by omega) fun j _ => rfl
  matrix a b o0 o1 ha hb := rows_ok mem _ _ _ (by omega) _
    (fun i j => corrSum a.cols b.cols (a.get i) (b.get i) ((0 : Nat) + (j : Int) - a.cols + 1)) _
    fun c _ => corr_row .full (a.row c) (b.row c) ha hb _ rfl _ 0
      (by show 0 + (a.cols + b.cols - 1 - 1) = a.cols + b.cols - 2 - 0; omega) (by omega) fun j _ => rfl

theorem same_row (a b : Mat α) (ha : 0 < a.cols) (hb : 0 < b.cols) :
    ∃ row, npConvolve .same a.reverse b = .ok row ∧ row.rows = 1 ∧ row.cols = max a.cols b.cols ∧
      ∀ j, j < max a.cols b.cols → row.get 0 j =
        corrSum a.cols b.cols (a.get 0) (b.get 0) (((min a.cols b.cols - 1) / 2 : Nat) + (j : Int) - a.cols + 1) :=
  npConvolve_ok .same a.reverse b ha hb _ rfl _ fun j _ =>
    npFull_reverse (a.get 0) (b.get 0) _ _ (by
      show _ = (((min a.cols b.cols - 1) / 2 + j : Nat) : Int) - a.cols + 1
      omega)

theorem sameCorrelation_computes : Computes (sameCorrelation mem)
    (fun la lb a b j => corrSum la lb a b (((min la lb - 1) / 2 : Nat) + (j : Int) - la + 1))
    (fun la lb => max la lb)
    (fun la lb o0 o1 => o1 - o0 + lb - (max la lb : Nat) - ((min la lb : Nat) : Int) / 2) where
  vector m v o0 o1 hm hv _ := rows_ok mem _ _ _ (by omega) _
    (fun i j => corrSum m.cols v.cols (m.get i) (v.get 0) (((min m.cols v.cols - 1) / 2 : Nat) + (j : Int) - m.cols + 1))
    _ fun c _ => same_row (m.row c) v hm hv
  vector2 v m o0 o1 hv hm _ := by
    have h := rows_ok mem m.rows (max m.cols v.cols : Nat) (max v.cols m.cols) (by omega)
      (fun c => npConvolve .same v.reverse (m.row c))
      (fun i j => corrSum v.cols m.cols (v.get 0) (m.get i) (((min v.cols m.cols - 1) / 2 : Nat) + (j : Int) - v.cols + 1))
      (o1 - o0 + m.cols - (max m.cols v.cols : Nat) - ((min v.cols m.cols : Nat) : Int) / 2)
      fun c _ => same_row v (m.row c) hv hm
    simp only [Nat.max_comm m.cols v.cols] at h
    simpa only [sameCorrelation, Mat.reverse, Nat.max_comm m.cols v.cols] using h
  matrix a b o0 o1 ha hb := rows_ok mem _ _ _ (by omega) _
    (fun i j => corrSum a.cols b.cols (a.get i) (b.get i) (((min a.cols b.cols - 1) / 2 : Nat) + (j : Int) - a.cols + 1))
    _ fun c _ => same_row (a.row c) (b.row c) ha hb

theorem validCorrelation_computes : Computes (validCorrelation mem)
    (fun la lb a b j => corrSum la lb a b ((min la lb - 1 : Nat) + (j : Int) - la + 1))
    (fun la lb => max la lb - min la lb + 1)
    (fun la lb o0 o1 => o1 - o0 - ((la : Int) - lb + (((la : Int) - lb).natAbs + 1)) / 2) where
  vector m v o0 o1 hm hv _ := rows_ok mem _ _ _ (by omega) _
    (fun i j => corrSum m.cols v.cols (m.get i) (v.get 0) ((min m.cols v.cols - 1 : Nat) + (j : Int) - m.cols + 1))
    _ fun c _ => corr_row .valid (m.row c) v hm hv _ rfl _ (min m.cols v.cols - 1)
      (by show min m.cols v.cols - 1 + (max m.cols v.cols - min m.cols v.cols + 1 - 1) =
            m.cols + v.cols - 2 - (min m.cols v.cols - 1); omega)
      (by show min m.cols v.cols - 1 ≤ m.cols + v.cols - 2; omega) fun j _ => rfl
  vector2 v m o0 o1 hv hm _ := rows_ok mem _ _ _ (by omega) _
    (fun i j => corrSum v.cols m.cols (v.get 0) (m.get i) ((min v.cols m.cols - 1 : Nat) + (j : Int) - v.cols + 1))
    _ fun c _ => corr_row .valid v (m.row c) hv hm _ rfl _ (min v.cols m.cols - 1)
      (by show min v.cols m.cols - 1 + (max v.cols m.cols - min v.cols m.cols + 1 - 1) =
            v.cols + m.cols - 2 - (min v.cols m.cols - 1); omega)
      (by show min v.cols m.cols - 1 ≤ v.cols + m.cols - 2; omega) fun j _ => rfl
  matrix a b o0 o1 ha hb := rows_ok mem _ _ _ (by omega) _
    (fun i j => corrSum a.cols b.cols (a.get i) (b.get i) ((min a.cols b.cols - 1 : Nat) + (j : Int) - a.cols + 1))
    _ fun c _ => corr_row .valid (a.row c) (b.row c) ha hb _ rfl _ (min a.cols b.cols - 1)
      (by show min a.cols b.cols - 1 + (max a.cols b.cols - min a.cols b.cols + 1 - 1) =
            a.cols + b.cols - 2 - (min a.cols b.cols - 1); omega)
      (by show min a.cols b.cols - 1 ≤ a.cols + b.cols - 2; omega) fun j _ => rfl

end

namespace Signal
variable {α R : Type}

/-- The result of a convolution or correlation in terms of the `kernel` of its mode. -/
theorem convolve_computes {f : Convolver α} {kernel len off} (hf : Computes f kernel len off) (label : String)
    (s o : Signal α R) (hs : 0 < s.length) (ho : 0 < o.length) :
    ∃ r, convolve f label s o = .ok r ∧ r.count = convCount s o ∧ r.length = len s.length o.length ∧
      r.offset = off s.length o.length s.offset o.offset ∧
      (r.rate = s.rate ∧ r.labels = sanitizeLabels (some (List.replicate s.count label)) r.count) ∧
      ∀ c i, c < convCount s o → i < len s.length o.length →
        r.channels.get c i = kernel s.length o.length (s.channels.get (s.chan c)) (o.channels.get (o.chan c)) i := by
  unfold convolve convolveWithArray convCount
  by_cases h1 : o.count = 1
  · rw [if_pos h1, if_pos (show o.channels.rows = 1 from h1)]
    obtain ⟨C, c1, c2, c3, c4⟩ := hf.vector s.channels (o.channels.row 0) s.offset o.offset hs ho rfl
    rw [c1]
    refine ⟨_, rfl, c2, c3, rfl, ⟨rfl, rfl⟩, ?_⟩
    intro c i hc hi
    have hs1 : s.chan c = c := by unfold chan; split <;> omega
    have ho1 : o.chan c = 0 := by unfold chan; rw [if_pos h1]
    rw [hs1, ho1]
    exact c4 c i hc hi
  · rw [if_neg h1, if_neg (show ¬ o.channels.rows = 1 from h1)]
    have ho1 : ∀ c, o.chan c = c := fun c => by unfold chan; rw [if_neg h1]
    by_cases h2 : s.count = 1
    · rw [if_pos h2, if_pos h2]
      obtain ⟨C, c1, c2, c3, c4⟩ := hf.vector2 (s.channels.row 0) o.channels s.offset o.offset hs ho rfl
      rw [c1]
      refine ⟨_, rfl, c2, c3, rfl, ⟨rfl, rfl⟩, ?_⟩
      intro c i hc hi
      have hs1 : s.chan c = 0 := by unfold chan; rw [if_pos h2]
      rw [hs1, ho1]
      exact c4 c i hc hi
    · rw [if_neg h2, if_neg h2]
      obtain ⟨C, c1, c2, c3, c4⟩ := hf.matrix s.channels o.channels s.offset o.offset hs ho
      rw [c1]
      refine ⟨_, rfl, c2, c3, rfl, ⟨rfl, rfl⟩, ?_⟩
      intro c i hc hi
      have hs1 : s.chan c = c := by unfold chan; rw [if_neg h2]
      rw [hs1, ho1]
      exact c4 c i hc hi

/-- The relation between a result and a function of time, of which it is a cutout. -/
structure IsCutout (r : Signal α R) (n : Nat) (rate : R) (F : Nat → Int → α) : Prop where
  count : r.count = n
  rate : r.rate = rate
  values : ∀ c t, c < n → r.Covers t → r.at_ c t = some (F c t)

theorem isCutout_of {r : Signal α R} {n : Nat} {rate : R} {F : Nat → Int → α} (h1 : r.count = n) (h2 : r.rate = rate)
    (h : ∀ c i, c < n → i < r.length → r.channels.get c i = F c (r.offset + i)) : r.IsCutout n rate F := by
  refine ⟨h1, h2, ?_⟩
  rintro c t hc ⟨ht1, ht2⟩
  rw [at_eq_some]
  refine ⟨by omega, ht1, ht2, ?_⟩
  rw [h c _ hc (by omega)]
  congr 1; omega

section
variable [NonUnitalNonAssocCommSemiring α] (mem : Nat → Nat → α)

theorem convAt_eq (s o : Signal α R) {c : Nat} (hc : c < convCount s o) (t : Int) :
    convAt s o c t = if 0 ≤ t - s.offset - o.offset then
      npFull s.length o.length (s.channels.get (s.chan c)) (o.channels.get (o.chan c)) (t - s.offset - o.offset).toNat
      else 0 := by
  unfold convAt
  rw [← conv_eq]
  exact finsum_congr fun u => by rw [val_eq_ext s (chan_lt_left hc), val_eq_ext o (chan_lt_right hc)]

/-- **C17**: `s.convolve(o, FULL)` is the convolution of the signals as functions of time; it covers all the
times at which the convolution can be other than zero. -/
theorem C17_full (label : String) (s o : Signal α R) (hs : 0 < s.length) (ho : 0 < o.length) :
    ∃ r, convolve (fullConvolution mem) label s o = .ok r ∧ r.offset = s.offset + o.offset ∧
      r.length + 1 = s.length + o.length ∧
      r.IsCutout (convCount s o) s.rate (convAt s o) ∧
      ∀ c t, c < convCount s o → ¬ r.Covers t → convAt s o c t = 0 := by
  obtain ⟨r, h1, h2, h3, h4, h5, h6⟩ := convolve_computes (fullConvolution_computes mem) label s o hs ho
  refine ⟨r, h1, h4, by omega, ?_, ?_⟩
  · refine isCutout_of h2 h5.1 fun c i hc hi => ?_
    rw [h6 c i hc (by omega), convAt_eq s o hc, if_pos (by omega)]
    congr 1; omega
  · intro c t hc ht
    rw [convAt_eq s o hc]
    split
    · apply npFull_beyond
      unfold Covers at ht
      omega
    · rfl

/-- **C17**: convolution in the mode `FULL` is commutative. -/
theorem C17_commutative (label : String) (s o : Signal α R) (hs : 0 < s.length) (ho : 0 < o.length) :
    ∃ r r', convolve (fullConvolution mem) label s o = .ok r ∧ convolve (fullConvolution mem) label o s = .ok r' ∧
      r.count = r'.count ∧ r.offset = r'.offset ∧ r.length = r'.length ∧ ∀ c t, r.at_ c t = r'.at_ c t := by
  obtain ⟨r, a1, a2, a3, ⟨a4, a5, a6⟩, a7⟩ := C17_full mem label s o hs ho
  obtain ⟨r', b1, b2, b3, ⟨b4, b5, b6⟩, b7⟩ := C17_full mem label o s ho hs
  have hcount : convCount s o = convCount o s := by unfold convCount; split <;> split <;> omega
  refine ⟨r, r', a1, b1, by omega, by omega, by omega, ?_⟩
  intro c t
  by_cases hc : c < convCount s o
  · by_cases ht : r.Covers t
    · rw [a6 c t hc ht, b6 c t (by omega) (by unfold Covers at *; omega)]
      congr 1
      exact conv_comm _ _ _
    · have : ∀ x : Signal α R, ¬ x.Covers t → x.at_ c t = none := by
        intro x hx
        cases hxx : x.at_ c t with
        | none => rfl
        | some y => exact absurd ⟨(at_eq_some.1 hxx).2.1, (at_eq_some.1 hxx).2.2.1⟩ hx
      rw [this r ht, this r' (by unfold Covers at *; omega)]
  · have : ∀ x : Signal α R, x.count = convCount s o → x.at_ c t = none := by
      intro x hx
      cases hxx : x.at_ c t with
      | none => rfl
      | some y => exact absurd (at_eq_some.1 hxx).1 (by omega)
    rw [this r a4, this r' (by omega)]

/-- **C18**: `s.convolve(o, SAME)` has the length of the longer signal and is the middle part of the full
convolution: at most one sample more is cut off at its end than at its beginning. -/
theorem C18_same (label : String) (s o : Signal α R) (hs : 0 < s.length) (ho : 0 < o.length) :
    ∃ r full, convolve (sameConvolution mem) label s o = .ok r ∧ convolve (fullConvolution mem) label s o = .ok full ∧
      r.length = max s.length o.length ∧
      (∃ front back : Nat, r.offset = full.offset + front ∧
        r.offset + r.length + back = full.offset + full.length ∧ (back = front ∨ back = front + 1)) ∧
      r.IsCutout (convCount s o) s.rate (convAt s o) := by
  obtain ⟨full, f1, f2, f3, _⟩ := C17_full mem label s o hs ho
  obtain ⟨r, h1, h2, h3, h4, h5, h6⟩ := convolve_computes (sameConvolution_computes mem) label s o hs ho
  refine ⟨r, full, h1, f1, h3, ?_, ?_⟩
  · refine ⟨(min s.length o.length - 1) / 2, min s.length o.length - 1 - (min s.length o.length - 1) / 2, ?_, ?_, ?_⟩
    all_goals omega
  · refine isCutout_of h2 h5.1 fun c i hc hi => ?_
    rw [h6 c i hc (by omega), convAt_eq s o hc, if_pos (by omega)]
    congr 1; omega

/-- **C18**: `s.convolve(o, VALID)` covers exactly those times, for which one of the signals is overlapped by the
other (reversed and shifted) one completely. -/
theorem C18_valid (label : String) (s o : Signal α R) (hs : 0 < s.length) (ho : 0 < o.length) :
    ∃ r, convolve (validConvolution mem) label s o = .ok r ∧
      (∀ t, r.Covers t ↔ (∀ u, s.Covers u → o.Covers (t - u)) ∨ (∀ u, o.Covers u → s.Covers (t - u))) ∧
      r.IsCutout (convCount s o) s.rate (convAt s o) := by
  obtain ⟨r, h1, h2, h3, h4, h5, h6⟩ := convolve_computes (validConvolution_computes mem) label s o hs ho
  refine ⟨r, h1, ?_, ?_⟩
  · intro t
    unfold Covers
    constructor
    · intro h
      by_cases hle : s.length ≤ o.length
      · left; intro u hu; omega
      · right; intro u hu; omega
    · rintro (h | h)
      · have a1 := h s.offset (by omega)
        have a2 := h (s.offset + s.length - 1) (by omega)
        omega
      · have a1 := h o.offset (by omega)
        have a2 := h (o.offset + o.length - 1) (by omega)
        omega
  · refine isCutout_of h2 h5.1 fun c i hc hi => ?_
    rw [h6 c i hc (by omega), convAt_eq s o hc, if_pos (by omega)]
    congr 1; omega

end

section
variable [NonUnitalNonAssocSemiring α] (mem : Nat → Nat → α)

theorem corrAt_eq (s o : Signal α R) {c : Nat} (hc : c < convCount s o) (t : Int) :
    corrAt s o c t = corrSum s.length o.length (s.channels.get (s.chan c)) (o.channels.get (o.chan c))
      (s.offset + t - o.offset) := by
  unfold corrAt corrSum
  rw [← corr_eq]
  exact finsum_congr fun u => by rw [val_eq_ext s (chan_lt_left hc), val_eq_ext o (chan_lt_right hc)]

/-- **C20**: `s.correlate(o, FULL)` is the cross-correlation of the signals as a function of the lag; it
covers all the lags for which the cross-correlation can be other than zero. -/
theorem C20_full (label : String) (s o : Signal α R) (hs : 0 < s.length) (ho : 0 < o.length) :
    ∃ r, convolve (fullCorrelation mem) label s o = .ok r ∧
      r.offset = o.offset - (s.offset + s.length - 1) ∧ r.length + 1 = s.length + o.length ∧
      r.IsCutout (convCount s o) s.rate (corrAt s o) ∧
      ∀ c t, c < convCount s o → ¬ r.Covers t → corrAt s o c t = 0 := by
  obtain ⟨r, h1, h2, h3, h4, h5, h6⟩ := convolve_computes (fullCorrelation_computes mem) label s o hs ho
  refine ⟨r, h1, by omega, by omega, ?_, ?_⟩
  · refine isCutout_of h2 h5.1 fun c i hc hi => ?_
    rw [h6 c i hc (by omega), corrAt_eq s o hc]
    congr 1; omega
  · intro c t hc ht
    rw [corrAt_eq s o hc]
    apply corr_beyond
    unfold Covers at ht
    omega

/-- **C20**: `s.correlate(o, SAME)` has the length of the longer signal and is the middle part of the full
correlation. -/
theorem C20_same (label : String) (s o : Signal α R) (hs : 0 < s.length) (ho : 0 < o.length) :
    ∃ r full, convolve (sameCorrelation mem) label s o = .ok r ∧ convolve (fullCorrelation mem) label s o = .ok full ∧
      r.length = max s.length o.length ∧
      (∃ front back : Nat, r.offset = full.offset + front ∧
        r.offset + r.length + back = full.offset + full.length ∧ (back = front ∨ back = front + 1)) ∧
      r.IsCutout (convCount s o) s.rate (corrAt s o) := by
  obtain ⟨full, f1, f2, f3, _⟩ := C20_full mem label s o hs ho
  obtain ⟨r, h1, h2, h3, h4, h5, h6⟩ := convolve_computes (sameCorrelation_computes mem) label s o hs ho
  refine ⟨r, full, h1, f1, h3, ?_, ?_⟩
  · refine ⟨(min s.length o.length - 1) / 2, min s.length o.length - 1 - (min s.length o.length - 1) / 2, ?_, ?_, ?_⟩
    all_goals omega
  · refine isCutout_of h2 h5.1 fun c i hc hi => ?_
    rw [h6 c i hc (by omega), corrAt_eq s o hc]
    congr 1; omega

/-- **C20**: `s.correlate(o, VALID)` covers exactly those lags, for which one of the signals is overlapped by the
other (shifted) one completely. -/
theorem C20_valid (label : String) (s o : Signal α R) (hs : 0 < s.length) (ho : 0 < o.length) :
    ∃ r, convolve (validCorrelation mem) label s o = .ok r ∧
      (∀ t, r.Covers t ↔ (∀ u, s.Covers u → o.Covers (u + t)) ∨ (∀ u, o.Covers u → s.Covers (u - t))) ∧
      r.IsCutout (convCount s o) s.rate (corrAt s o) := by
  obtain ⟨r, h1, h2, h3, h4, h5, h6⟩ := convolve_computes (validCorrelation_computes mem) label s o hs ho
  refine ⟨r, h1, ?_, ?_⟩
  · intro t
    unfold Covers
    constructor
    · intro h
      by_cases hle : s.length ≤ o.length
      · left; intro u hu; omega
      · right; intro u hu; omega
    · rintro (h | h)
      · have a1 := h s.offset (by omega)
        have a2 := h (s.offset + s.length - 1) (by omega)
        omega
      · have a1 := h o.offset (by omega)
        have a2 := h (o.offset + o.length - 1) (by omega)
        omega
  · refine isCutout_of h2 h5.1 fun c i hc hi => ?_
    rw [h6 c i hc (by omega), corrAt_eq s o hc]
    congr 1; omega

end

/-! ### Instances -/

/-- a signal with two samples and offset 3 -/
def convExampleA : Signal Int Nat := new (.ofRows 2 [[1, 2]]) 48000 3 none

/-- a signal with two channels, three samples and offset -1 -/
def convExampleB : Signal Int Nat := new (.ofRows 3 [[1, 10, 100], [1, 0, -1]]) 48000 (-1) none

example : 0 < convExampleA.length ∧ 0 < convExampleB.length := by decide

/-- The results of all modes for concrete signals, as flat lists with the offsets. -/
example : (convolve (fullConvolution fun _ _ => 0) "" convExampleA convExampleB).map
      (fun r => (r.channels.flat, r.offset)) = .ok ([1, 12, 120, 200, 1, 2, -1, -2], 2) := by rfl
example : (convolve (sameConvolution fun _ _ => 0) "" convExampleA convExampleB).map
      (fun r => (r.channels.flat, r.offset)) = .ok ([1, 12, 120, 1, 2, -1], 2) := by rfl
example : (convolve (validConvolution fun _ _ => 0) "" convExampleA convExampleB).map
      (fun r => (r.channels.flat, r.offset)) = .ok ([12, 120, 2, -1], 3) := by rfl
example : (convolve (fullCorrelation fun _ _ => 0) "" convExampleA convExampleB).map
      (fun r => (r.channels.flat, r.offset)) = .ok ([2, 21, 210, 100, 2, 1, -2, -1], -5) := by rfl
example : (convolve (validCorrelation fun _ _ => 0) "" convExampleA convExampleB).map
      (fun r => (r.channels.flat, r.offset)) = .ok ([21, 210, 1, -2], -4) := by rfl

end Signal
end Verif
