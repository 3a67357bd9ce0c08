import Verif.Level
import Verif.ConvolutionProps
import Verif.SignalProps
import Mathlib.Algebra.BigOperators.Field

/-
Properties of the level of signals (C54, C72).
-/

namespace Verif
namespace Level

open Finset

/-! ### Specification -/

/-- the part of the sample at the distance `d`, that is covered by an interval with the length `w`, which is placed
symmetrically around a sample; each sample is represented by an interval with the length 1 -/
noncomputable def weight (w : ℝ) (d : Int) : ℝ := max 0 (min 1 ((w + 1) / 2 - |(d : ℝ)|))

/-- the sum of the weights, that lie inside a signal with `L` samples -/
noncomputable def covered (w : ℝ) (L i : Nat) : ℝ := ∑ k ∈ range L, weight w ((k : Int) - i)

/-- the root mean square of the samples in the interval -/
noncomputable def levelAt (x : Nat → ℝ) (L : Nat) (w : ℝ) (pad : Bool) (i : Nat) : ℝ :=
  Real.sqrt ((∑ k ∈ range L, x k ^ 2 * weight w ((k : Int) - i)) / if pad then w else covered w L i)

/-! ### The weights -/

theorem weight_nonneg (w : ℝ) (d : Int) : 0 ≤ weight w d := le_max_left _ _

theorem weight_neg (w : ℝ) (d : Int) : weight w (-d) = weight w d := by
  unfold weight
  push_cast
  rw [abs_neg]

theorem weight_zero {w : ℝ} (hw : 1 < w) : weight w 0 = 1 := by
  unfold weight
  rw [Int.cast_zero, abs_zero, min_eq_left (by linarith), max_eq_right (by norm_num)]

/-- the sum of the weights on one side of the sample -/
theorem side {w : ℝ} (hw : 1 < w) (n : Nat) : ∑ d ∈ range n, weight w ((d : Int) + 1) = min (n : ℝ) ((w - 1) / 2) := by
  induction n with
  | zero =>
    rw [Finset.sum_range_zero, Nat.cast_zero, min_eq_left (by linarith)]
  | succ n ih =>
    rw [Finset.sum_range_succ, ih]
    unfold weight
    have h0 : (0 : ℝ) ≤ n := Nat.cast_nonneg n
    push_cast
    rw [abs_of_nonneg (by linarith)]
    rcases le_total (n : ℝ) ((w - 1) / 2) with h | h
    · rw [min_eq_left h]
      rcases le_total ((n : ℝ) + 1) ((w - 1) / 2) with h' | h'
      · rw [min_eq_left h', min_eq_left (by linarith), max_eq_right (by norm_num)]
      · rw [min_eq_right h', min_eq_right (by linarith), max_eq_right (by linarith)]
        ring
    · rw [min_eq_right h, min_eq_right (by linarith : (w - 1) / 2 ≤ (n : ℝ) + 1), min_eq_right (by linarith),
        max_eq_left (by linarith), add_zero]

/-- the sum of the weights inside the signal -/
theorem covered_eq {w : ℝ} (hw : 1 < w) (L i : Nat) (hi : i < L) :
    covered w L i = 1 + min (i : ℝ) ((w - 1) / 2) + min ((L - 1 - i : Nat) : ℝ) ((w - 1) / 2) := by
  unfold covered
  obtain ⟨b, rfl⟩ : ∃ b, L = i + (1 + b) := ⟨L - 1 - i, by omega⟩
  rw [Finset.sum_range_add, Finset.sum_range_add, Finset.sum_range_one, show i + (1 + b) - 1 - i = b by omega]
  have h1 : ∑ k ∈ range i, weight w ((k : Int) - i) = min (i : ℝ) ((w - 1) / 2) := by
    rw [← Finset.sum_range_reflect, ← side hw i]
    refine Finset.sum_congr rfl fun d hd => ?_
    rw [mem_range] at hd
    rw [← weight_neg]
    congr 1
    omega
  have h2 : ∑ x ∈ range b, weight w (((i + (1 + x) : Nat) : Int) - i) = min (b : ℝ) ((w - 1) / 2) := by
    rw [← side hw b]
    refine Finset.sum_congr rfl fun d _ => ?_
    congr 1
    omega
  rw [h1, h2, show ((i + 0 : Nat) : Int) - i = 0 by omega, weight_zero hw]
  ring

theorem covered_pos {w : ℝ} (hw : 1 < w) (L i : Nat) (hi : i < L) : 0 < covered w L i := by
  rw [covered_eq hw L i hi]
  have h1 : (0 : ℝ) ≤ min (i : ℝ) ((w - 1) / 2) := le_min (Nat.cast_nonneg _) (by linarith)
  have h2 : (0 : ℝ) ≤ min ((L - 1 - i : Nat) : ℝ) ((w - 1) / 2) := le_min (Nat.cast_nonneg _) (by linarith)
  linarith

/-- `h` is the rounded up half of the window's length without the sample in the middle -/
def IsHalf (w : ℝ) (h : Nat) : Prop := (w - 1) / 2 ≤ h ∧ (h : ℝ) < (w - 1) / 2 + 1

theorem isHalf_ceil {w : ℝ} (hw : 1 < w) : IsHalf w ⌈(w - 1) / 2⌉.toNat := by
  have h0 : 0 ≤ ⌈(w - 1) / 2⌉ := Int.ceil_nonneg (by linarith)
  have h1 : ((⌈(w - 1) / 2⌉.toNat : Nat) : ℝ) = (⌈(w - 1) / 2⌉ : ℝ) := by
    have : ((⌈(w - 1) / 2⌉.toNat : Nat) : Int) = ⌈(w - 1) / 2⌉ := Int.toNat_of_nonneg h0
    exact_mod_cast congrArg (fun z : Int => (z : ℝ)) this
  unfold IsHalf
  rw [h1]
  exact ⟨Int.le_ceil _, Int.ceil_lt_add_one _⟩

theorem half_pos {w : ℝ} {h : Nat} (hw : 1 < w) (hh : IsHalf w h) : 1 ≤ h := by
  have : (0 : ℝ) < h := lt_of_lt_of_le (by linarith) hh.1
  exact_mod_cast this

theorem weight_inside {w : ℝ} {h : Nat} (hh : IsHalf w h) (d : Int) (hd : |d| < h) : weight w d = 1 := by
  unfold weight
  have h1 : |(d : ℝ)| + 1 ≤ h := by exact_mod_cast hd
  have := hh.2
  rw [min_eq_left (by linarith), max_eq_right (by norm_num)]

theorem weight_corner {w : ℝ} {h : Nat} (hh : IsHalf w h) (d : Int) (hd : |d| = h) :
    weight w d = 1 - (h - (w - 1) / 2) := by
  unfold weight
  have h1 : |(d : ℝ)| = h := by exact_mod_cast hd
  obtain ⟨h2, h3⟩ := hh
  rw [h1, min_eq_right (by linarith), max_eq_right (by linarith)]
  ring

theorem weight_outside {w : ℝ} {h : Nat} (hh : IsHalf w h) (d : Int) (hd : h < |d|) : weight w d = 0 := by
  unfold weight
  have h1 : (h : ℝ) + 1 ≤ |(d : ℝ)| := by exact_mod_cast hd
  obtain ⟨h2, h3⟩ := hh
  rw [max_eq_left]
  exact le_trans (min_le_right _ _) (by linarith)

/-! ### The convolution -/

/-- the convolution with the window computes the weighted mean of the squares -/
theorem convolution_value {w : ℝ} {h : Nat} (hh : IsHalf w h)
    (hr : (h : ℝ) - (w - 1) / 2 = 0 ∨ (h : ℝ) - (w - 1) / 2 = 1 / 2) (x : Nat → ℝ) (L i : Nat) :
    npFull L (1 + 2 * h) (fun k => x k ^ 2) ((window w ((w - 1) / 2) h).get 0) (i + h) =
      (∑ k ∈ range L, x k ^ 2 * weight w ((k : Int) - i)) / w := by
  unfold npFull
  rw [Finset.sum_div]
  refine Finset.sum_congr rfl fun k _ => ?_
  unfold window
  dsimp only
  by_cases hk : k ≤ i + h ∧ i + h - k < 1 + 2 * h
  · rw [if_pos hk]
    by_cases hc : i + h - k = 0 ∨ i + h - k = 2 * h
    · rw [weight_corner hh ((k : Int) - i) (by rw [abs_eq (by omega)]; omega)]
      rcases hr with hr | hr
      · rw [hr, if_neg (by simp)]
        ring
      · rw [hr, if_pos ⟨by norm_num, hc⟩]
        ring
    · rw [weight_inside hh ((k : Int) - i) (by rw [abs_lt]; omega), if_neg (fun hn => hc hn.2)]
      ring
  · rw [if_neg hk, weight_outside hh ((k : Int) - i) (by rw [lt_abs]; omega)]
    simp

theorem effective_get (hf : ℝ) (h i : Nat) (hi : i < h) : (effective hf h).get 0 i = 1 + hf + i := by
  unfold effective Sweep.linspace
  dsimp only
  split
  · have : i = 0 := by omega
    subst this
    simp
  · have hn : (h : ℝ) - 1 ≠ 0 := by
      have h2 : (2 : ℝ) ≤ h := by
        have : 2 ≤ h := by omega
        exact_mod_cast this
      linarith
    rw [show (h : ℝ) + hf - (1 + hf) = h - 1 by ring, div_self hn, mul_one]

theorem scaleColumns_ok (A v : Mat ℝ) (s : PySlice) (a b : Nat) (ha : s.lo A.cols = a) (hb : s.hi A.cols = b)
    (hv : v.rows = 1) (hc : v.cols = b - a) :
    ∃ C, scaleColumns A s v = .ok C ∧ C.rows = A.rows ∧ C.cols = A.cols ∧
      (∀ c j, c < A.rows → a ≤ j → j < b → C.get c j = A.get c j * v.get 0 (j - a)) ∧
      ∀ c j, ¬ (a ≤ j ∧ j < b) → C.get c j = A.get c j := by
  obtain ⟨B, b1, _, _, b2⟩ := Mat.broadcastTo_self (A := A.slice .all s) (r := A.rows - 0) (c := b - a) rfl (by
    subst ha hb
    rfl)
  obtain ⟨D, d1, _, _, d2⟩ := Mat.broadcastTo_row (A := v) (r := A.rows - 0) (c := b - a) hv hc
  obtain ⟨C, c1, c2, c3, c4, c5⟩ := Mat.ufunc2_of_broadcast (f := fun (x y : ℝ) => x * y) (A := A.slice .all s) (B := v)
    (out := A) (r := .all) (c := s) 0 A.rows a b rfl rfl ha hb b1 d1
  refine ⟨C, c1, c2, c3, ?_, fun c j h => c5 c j (fun h' => h h'.2)⟩
  intro c j hcr h1 h2
  rw [c4 c j (Nat.zero_le _) hcr h1 h2, b2 _ _ (by omega) (by omega), d2 _ _ (by omega) (by omega), Mat.slice_all_get, ha]
  congr 2
  omega

/-! ### The three cases -/

theorem level_cases {S w D : ℝ} (hS : 0 ≤ S) (hw : 0 < w) : Real.sqrt (S / w) * Real.sqrt (w / D) = Real.sqrt (S / D) := by
  rw [← Real.sqrt_mul (div_nonneg hS hw.le)]
  congr 1
  rw [div_mul_div_cancel₀ hw.ne']

theorem sum_nonneg' (x : Nat → ℝ) (w : ℝ) (L i : Nat) : 0 ≤ ∑ k ∈ range L, x k ^ 2 * weight w ((k : Int) - i) :=
  Finset.sum_nonneg fun k _ => mul_nonneg (sq_nonneg _) (weight_nonneg _ _)


/-- the loop over the channels, which fills each of them with one value -/
theorem fillRows_scalar (mem : Nat → Nat → ℝ) (rows n : Nat) (g : Nat → ℝ) :
    ∃ C, fillRows mem rows n (fun c => .ok (Mat.scalar (g c))) = .ok C ∧ C.rows = rows ∧ C.cols = n ∧
      ∀ i j, i < rows → j < n → C.get i j = g i := by
  unfold fillRows
  rw [if_neg (by omega), Int.toNat_natCast]
  have key : ∀ k, k ≤ rows → ∃ C, (List.range k).foldlM (fun (channels : Mat ℝ) (c : Nat) => do
      let row ← (.ok (Mat.scalar (g c)) : Py (Mat ℝ))
      channels.assign (.range c (c + 1)) .all row) (alloc mem rows n) = (.ok C : Py (Mat ℝ)) ∧
      C.rows = rows ∧ C.cols = n ∧ ∀ i j, i < k → j < n → C.get i j = g i := by
    intro k
    induction k with
    | zero => intro _; exact ⟨_, rfl, rfl, rfl, fun i j h => absurd h (by omega)⟩
    | succ k ih =>
      intro hk
      obtain ⟨C, h1, h2, h3, h4⟩ := ih (by omega)
      rw [List.range_succ, List.foldlM_append, h1]
      obtain ⟨D, d1, d2, d3, d4, d5⟩ := Mat.assign_scalar (A := C) (r := .range k (k + 1)) (c := .all) (g k)
        k (k + 1) 0 n (by simp; omega)
        (by rw [PySlice.hi_range, h2, show ((k : Int) + 1) = ((k + 1 : Nat) : Int) by omega, clampBound_nat]; omega)
        (by simp) (by simp [h3])
      refine ⟨D, ?_, by omega, by omega, ?_⟩
      · show C.assign (.range k (k + 1)) .all (Mat.scalar (g k)) >>= pure = _
        rw [d1]; rfl
      · intro i j hi hj
        by_cases hik : i = k
        · subst hik
          exact d4 i j (by omega) (by omega) (by omega) hj
        · rw [d5 i j (by omega)]
          exact h4 i j (by omega) hj
  exact key rows (le_refl _)

/-- a signal, all of whose samples are completely inside the interval -/
theorem levelAt_whole (x : Nat → ℝ) (L : Nat) (w : ℝ) (pad : Bool) (i : Nat)
    (h : ∀ k, k < L → weight w ((k : Int) - i) = 1) :
    levelAt x L w pad i = Real.sqrt (∑ k ∈ range L, x k ^ 2) / Real.sqrt (if pad then w else L) := by
  unfold levelAt covered
  rw [Finset.sum_congr rfl (g := fun k => x k ^ 2) (fun k hk => by rw [h k (mem_range.mp hk), mul_one]),
    Finset.sum_congr rfl (g := fun _ => (1 : ℝ)) (fun k hk => h k (mem_range.mp hk)), Finset.sum_const, card_range,
    nsmul_eq_mul, mul_one, Real.sqrt_div (Finset.sum_nonneg fun k _ => sq_nonneg _)]

theorem constant_value (mem : Nat → Nat → ℝ) (s : Signal ℝ ℝ) (w : ℝ) (pad : Bool) :
    ∃ C, constant mem s w pad = .ok C ∧ C.rows = s.channels.rows ∧ C.cols = s.channels.cols ∧
      ∀ c i, c < s.channels.rows → i < s.channels.cols → C.get c i =
        Real.sqrt (∑ k ∈ range s.channels.cols, s.channels.get c k ^ 2) / Real.sqrt (if pad then w else s.channels.cols) := by
  obtain ⟨C, h1, h2, h3, h4⟩ := fillRows_scalar mem s.count s.length
    (fun c => if pad then norm s.channels c / Real.sqrt w else level s c)
  refine ⟨C, h1, h2, h3, fun c i hc hi => ?_⟩
  rw [h4 c i hc hi]
  cases pad <;> rfl

theorem constant_ok (mem : Nat → Nat → ℝ) (s : Signal ℝ ℝ) {w : ℝ} {h : Nat} (pad : Bool) (hh : IsHalf w h)
    (hL : s.channels.cols ≤ h ∨ (s.channels.cols = 1 + h ∧ (h : ℝ) - (w - 1) / 2 = 0)) :
    ∃ C, constant mem s w pad = .ok C ∧ C.rows = s.channels.rows ∧ C.cols = s.channels.cols ∧
      ∀ c i, c < s.channels.rows → i < s.channels.cols → C.get c i = levelAt (s.channels.get c) s.channels.cols w pad i := by
  obtain ⟨C, h1, h2, h3, h4⟩ := constant_value mem s w pad
  refine ⟨C, h1, h2, h3, fun c i hc hi => ?_⟩
  rw [h4 c i hc hi, levelAt_whole]
  intro k hk
  by_cases hd : |(k : Int) - i| < h
  · exact weight_inside hh _ hd
  · rcases hL with hL | ⟨hL, hr⟩
    · exfalso
      apply hd
      rw [abs_lt]
      omega
    · rw [weight_corner hh, hr, sub_zero]
      refine le_antisymm ?_ (by omega)
      rw [abs_le]
      omega

/-- the values of the convolution after the square root -/
theorem sqrt_value {w : ℝ} {h : Nat} (hh : IsHalf w h)
    (hr : (h : ℝ) - (w - 1) / 2 = 0 ∨ (h : ℝ) - (w - 1) / 2 = 1 / 2) (A : Mat ℝ) (c i : Nat) :
    Real.sqrt (npFull A.cols (1 + 2 * h) (((square A).row c).get 0) ((window w ((w - 1) / 2) h).get 0) (i + h)) =
      Real.sqrt ((∑ k ∈ range A.cols, A.get c k ^ 2 * weight w ((k : Int) - i)) / w) :=
  congrArg _ (convolution_value hh hr (A.get c) A.cols i)

theorem short_filled (mem : Nat → Nat → ℝ) (s : Signal ℝ ℝ) (w : ℝ) (h : Nat) (hL : 1 + 2 * h < s.channels.cols) :
    ∃ C, (fillRows mem s.count s.length fun c => do
        let row ← npConvolve .same ((square s.channels).row c) (window w ((w - 1) / 2) h)
        .ok (elementwise Real.sqrt row)) = .ok C ∧ C.rows = s.channels.rows ∧ C.cols = s.channels.cols ∧
      ∀ c i, c < s.channels.rows → i < s.channels.cols → C.get c i =
        Real.sqrt (npFull s.channels.cols (1 + 2 * h) (((square s.channels).row c).get 0)
          ((window w ((w - 1) / 2) h).get 0) (i + h)) := by
  refine fillRows_ok mem s.count s.length s.channels.cols rfl _ _ ?_
  intro c _
  obtain ⟨row, r1, r2, r3, r4⟩ := npConvolve_ok .same ((square s.channels).row c) (window w ((w - 1) / 2) h)
    (by show 0 < s.channels.cols; omega) (by show 0 < 1 + 2 * h; omega) s.channels.cols
    (by show max s.channels.cols (1 + 2 * h) = _; omega) (fun i => npFull s.channels.cols (1 + 2 * h)
      (((square s.channels).row c).get 0) ((window w ((w - 1) / 2) h).get 0) (i + h)) (by
      intro j _
      show npFull s.channels.cols (1 + 2 * h) _ _ ((min s.channels.cols (1 + 2 * h) - 1) / 2 + j) = _
      rw [show (min s.channels.cols (1 + 2 * h) - 1) / 2 + j = j + h by omega])
  refine ⟨elementwise Real.sqrt row, by rw [r1]; rfl, r2, r3, fun j hj => ?_⟩
  show Real.sqrt (row.get 0 j) = _
  rw [r4 j hj]

theorem long_filled (mem : Nat → Nat → ℝ) (s : Signal ℝ ℝ) (w : ℝ) (h : Nat) (h0 : 0 < s.channels.cols)
    (hL : s.channels.cols ≤ 1 + 2 * h) :
    ∃ C, (fillRows mem s.count s.length fun c => do
        let row ← npConvolve .same ((square s.channels).row c) (window w ((w - 1) / 2) h)
        .ok (elementwise Real.sqrt (row.slice .all (.range (((1 + 2 * h : Nat) + 1 - (s.length : Int)) / 2)
          (((1 + 2 * h : Nat) + 1 - (s.length : Int)) / 2 + s.length))))) = .ok C ∧
      C.rows = s.channels.rows ∧ C.cols = s.channels.cols ∧
      ∀ c i, c < s.channels.rows → i < s.channels.cols → C.get c i =
        Real.sqrt (npFull s.channels.cols (1 + 2 * h) (((square s.channels).row c).get 0)
          ((window w ((w - 1) / 2) h).get 0) (i + h)) := by
  refine fillRows_ok mem s.count s.length s.channels.cols rfl _ _ ?_
  intro c _
  obtain ⟨row, r1, r2, r3, r4⟩ := npConvolve_ok .same ((square s.channels).row c) (window w ((w - 1) / 2) h)
    (by show 0 < s.channels.cols; omega) (by show 0 < 1 + 2 * h; omega) (1 + 2 * h)
    (by show max s.channels.cols (1 + 2 * h) = _; omega) (fun i => npFull s.channels.cols (1 + 2 * h)
      (((square s.channels).row c).get 0) ((window w ((w - 1) / 2) h).get 0) ((s.channels.cols - 1) / 2 + i)) (by
      intro j _
      show npFull s.channels.cols (1 + 2 * h) _ _ ((min s.channels.cols (1 + 2 * h) - 1) / 2 + j) = _
      rw [show (min s.channels.cols (1 + 2 * h) - 1) / 2 + j = (s.channels.cols - 1) / 2 + j by omega])
  obtain ⟨a, ha⟩ : ∃ a : Nat, ((1 + 2 * h : Nat) + 1 - (s.length : Int)) / 2 = a :=
    ⟨(2 * h + 2 - s.channels.cols) / 2, by
      show ((1 + 2 * h : Nat) + 1 - (s.channels.cols : Int)) / 2 = _
      omega⟩
  have ha' : (s.channels.cols - 1) / 2 + a = h := by
    have : ((1 + 2 * h : Nat) + 1 - (s.channels.cols : Int)) / 2 = a := ha
    omega
  have hn : a + s.channels.cols ≤ 1 + 2 * h := by omega
  rw [ha, r1]
  refine ⟨_, rfl, ?_, ?_, ?_⟩
  · show row.rows - 0 = 1
    omega
  · show (PySlice.range a (a + s.length)).count row.cols = _
    have e : ((a : Int) + (s.length : Nat)) = ((a + s.channels.cols : Nat) : Int) := by
      show ((a : Int) + (s.channels.cols : Nat)) = _
      omega
    rw [e, PySlice.count_range, clampBound_nat, clampBound_nat, r3]
    omega
  · intro j hj
    show Real.sqrt ((row.slice .all (.range a (a + s.length))).get 0 j) = _
    rw [Mat.slice_all_get, PySlice.lo_range, clampBound_nat, r3, r4 _ (by omega)]
    rw [show (s.channels.cols - 1) / 2 + (min a (1 + 2 * h) + j) = j + h by omega]

theorem covered_left {w : ℝ} {h : Nat} (hw : 1 < w) (hh : IsHalf w h) {L i : Nat} (hi : i < h) (hL : 2 * h < L) :
    covered w L i = 1 + (w - 1) / 2 + i := by
  obtain ⟨h1, h2⟩ := hh
  rw [covered_eq hw L i (by omega)]
  have e1 : (i : ℝ) + 1 ≤ h := by exact_mod_cast hi
  have e2 : (h : ℝ) ≤ ((L - 1 - i : Nat) : ℝ) := by
    have : h ≤ L - 1 - i := by omega
    exact_mod_cast this
  rw [min_eq_left (by linarith), min_eq_right (by linarith)]
  ring

theorem covered_middle {w : ℝ} {h : Nat} (hw : 1 < w) (hh : IsHalf w h) {L i : Nat} (hi : h ≤ i) (hL : i + h < L) :
    covered w L i = w := by
  obtain ⟨h1, h2⟩ := hh
  rw [covered_eq hw L i (by omega)]
  have e1 : (h : ℝ) ≤ i := by exact_mod_cast hi
  have e2 : (h : ℝ) ≤ ((L - 1 - i : Nat) : ℝ) := by
    have : h ≤ L - 1 - i := by omega
    exact_mod_cast this
  rw [min_eq_right (by linarith), min_eq_right (by linarith)]
  ring

theorem covered_reverse {w : ℝ} (hw : 1 < w) {L i : Nat} (hi : i < L) : covered w L (L - 1 - i) = covered w L i := by
  rw [covered_eq hw L i hi, covered_eq hw L (L - 1 - i) (by omega), show L - 1 - (L - 1 - i) = i by omega]
  ring

theorem short_ok (mem : Nat → Nat → ℝ) (s : Signal ℝ ℝ) {w : ℝ} {h : Nat} (pad : Bool) (hw : 1 < w) (hh : IsHalf w h)
    (hr : (h : ℝ) - (w - 1) / 2 = 0 ∨ (h : ℝ) - (w - 1) / 2 = 1 / 2) (hL : 1 + 2 * h < s.channels.cols) :
    ∃ C, short mem s w ((w - 1) / 2) h pad = .ok C ∧ C.rows = s.channels.rows ∧ C.cols = s.channels.cols ∧
      ∀ c i, c < s.channels.rows → i < s.channels.cols → C.get c i = levelAt (s.channels.get c) s.channels.cols w pad i := by
  obtain ⟨A, a1, a2, a3, a4⟩ := short_filled mem s w h hL
  unfold short
  rw [a1]
  show ∃ C, compensateShort w ((w - 1) / 2) h pad A = .ok C ∧ _
  have h1 := half_pos hw hh
  have hA : ∀ c i, c < s.channels.rows → i < s.channels.cols → A.get c i =
      Real.sqrt ((∑ k ∈ range s.channels.cols, s.channels.get c k ^ 2 * weight w ((k : Int) - i)) / w) := by
    intro c i hc hi
    rw [a4 c i hc hi, sqrt_value hh hr]
  unfold compensateShort
  cases pad with
  | true =>
    rw [if_pos rfl]
    exact ⟨A, rfl, a2, a3, fun c i hc hi => by rw [hA c i hc hi]; rfl⟩
  | false =>
    rw [if_neg Bool.false_ne_true]
    have l0 : (PySlice.range 0 h).lo A.cols = 0 := by
      rw [PySlice.lo_range, clampBound_zero]
    have l1 : (PySlice.range 0 h).hi A.cols = h := by
      rw [PySlice.hi_range, clampBound_nat]
      omega
    obtain ⟨B, b1, b2, b3, b4, b5⟩ := scaleColumns_ok A (elementwise (fun x => Real.sqrt (w / x)) (effective ((w - 1) / 2) h))
      (.range 0 h) 0 h l0 l1 rfl (by show h = h - 0; omega)
    have l2 : (PySlice.drop (-(h : Int))).lo B.cols = s.channels.cols - h := by
      rw [PySlice.lo_drop, clampBound_neg (by omega)]
      omega
    have l3 : (PySlice.drop (-(h : Int))).hi B.cols = s.channels.cols := by
      rw [PySlice.hi_drop]
      omega
    obtain ⟨C, c1, c2, c3, c4, c5⟩ := scaleColumns_ok B
      (elementwise (fun x => Real.sqrt (w / x)) (effective ((w - 1) / 2) h)).reverse (.drop (-(h : Int))) _ _ l2 l3 rfl
      (by show h = _; omega)
    refine ⟨C, ?_, by omega, by omega, ?_⟩
    · show (do
        let channels ← scaleColumns A (.range 0 h) (elementwise (fun x => Real.sqrt (w / x)) (effective ((w - 1) / 2) h))
        scaleColumns channels (.drop (-(h : Int)))
          (elementwise (fun x => Real.sqrt (w / x)) (effective ((w - 1) / 2) h)).reverse) = _
      rw [b1]
      exact c1
    · intro c i hc hi
      have hl : levelAt (s.channels.get c) s.channels.cols w false i =
          Real.sqrt ((∑ k ∈ range s.channels.cols, s.channels.get c k ^ 2 * weight w ((k : Int) - i)) /
            covered w s.channels.cols i) := rfl
      rw [hl]
      have hw0 : 0 < w := by linarith
      by_cases i1 : i < h
      · rw [c5 c i (by omega), b4 c i (by omega) (Nat.zero_le _) i1, hA c i hc hi]
        show _ * Real.sqrt (w / (effective ((w - 1) / 2) h).get 0 (i - 0)) = _
        rw [Nat.sub_zero, effective_get _ _ _ i1, level_cases (sum_nonneg' _ _ _ _) hw0,
          covered_left hw hh i1 (by omega)]
      · by_cases i2 : i < s.channels.cols - h
        · rw [c5 c i (by omega), b5 c i (by omega), hA c i hc hi, covered_middle hw hh (by omega) (by omega)]
        · rw [c4 c i (by omega) (by omega) hi, b5 c i (by omega), hA c i hc hi]
          show _ * Real.sqrt (w / (effective ((w - 1) / 2) h).get 0 (h - 1 - (i - (s.channels.cols - h)))) = _
          rw [show h - 1 - (i - (s.channels.cols - h)) = s.channels.cols - 1 - i by omega, effective_get _ _ _ (by omega),
            level_cases (sum_nonneg' _ _ _ _) hw0, ← covered_reverse hw hi, covered_left hw hh (by omega) (by omega)]

theorem covered_long {w : ℝ} {h : Nat} (hw : 1 < w) (hh : IsHalf w h) {L i : Nat} (hi : i < h) (hL : i < L) :
    covered w L i = min (L : ℝ) (max 0 (1 + (w - 1) / 2 + i)) := by
  obtain ⟨h1, h2⟩ := hh
  rw [covered_eq hw L i hL]
  have e1 : (i : ℝ) + 1 ≤ h := by exact_mod_cast hi
  have e2 : ((L - 1 - i : Nat) : ℝ) = L - 1 - i := by
    rw [Nat.cast_sub (by omega), Nat.cast_sub (by omega), Nat.cast_one]
  have e3 : (0 : ℝ) ≤ i := Nat.cast_nonneg i
  rw [min_eq_left (by linarith), e2, max_eq_right (by linarith)]
  rcases le_total ((L : ℝ) - 1 - i) ((w - 1) / 2) with h | h
  · rw [min_eq_left h, min_eq_left (by linarith)]
    ring
  · rw [min_eq_right h, min_eq_right (by linarith)]
    ring

theorem longCorrection_value (empty : Nat → Nat → ℝ) (L : Nat) (w : ℝ) (h : Nat) (h1 : h ≤ L) (f : Nat → ℝ)
    (hf : ∀ i, f i = Real.sqrt (w / min (L : ℝ) (max 0 (if i < h then 1 + (w - 1) / 2 + i else empty 0 i)))) :
    ∃ C, longCorrection empty L w ((w - 1) / 2) h = .ok C ∧ C.rows = 1 ∧ C.cols = L ∧
      ∀ i, i < L → C.get 0 i = if i < (L + 1) / 2 then f i else f (L - 1 - i) := by
  have lo : ∀ n b : Nat, (PySlice.range 0 (b : Int)).lo n = 0 := fun n b => by rw [PySlice.lo_range, clampBound_zero]
  have hi : ∀ b : Nat, b ≤ L → (PySlice.range 0 (b : Int)).hi L = b := fun b hb => by
    rw [PySlice.hi_range, clampBound_nat]
    omega
  obtain ⟨A, a1, a2, a3, a4, a5⟩ := Mat.assign_cols (A := alloc empty 1 L) (S := effective ((w - 1) / 2) h)
    (c := .range 0 h) 0 h (lo _ _) (hi h (by omega)) rfl (by show h = h - 0; omega)
  have a3' : A.cols = L := a3
  have a2' : A.rows = 1 := a2
  have hhalf : (A.slice .all (.range 0 ((L + 1) / 2 : Nat))).cols = (L + 1) / 2 - 0 := by
    show (PySlice.range 0 _).hi A.cols - (PySlice.range 0 _).lo A.cols = _
    rw [a3', hi _ (by omega), lo]
  obtain ⟨B, b1, b2, b3, b4, b5⟩ := Mat.assign_cols (A := A)
    (S := elementwise (fun x => Real.sqrt (w / min (L : ℝ) (max 0 x))) (A.slice .all (.range 0 ((L + 1) / 2 : Nat))))
    (c := .range 0 ((L + 1) / 2 : Nat)) 0 ((L + 1) / 2) (lo _ _) (by rw [a3']; exact hi _ (by omega)) rfl hhalf
  have hB : ∀ i, i < (L + 1) / 2 → B.get 0 i = f i := by
    intro i h'
    rw [b4 0 i (by omega) (Nat.zero_le _) h']
    show Real.sqrt (w / min (L : ℝ) (max 0 ((A.slice .all (.range 0 ((L + 1) / 2 : Nat))).get 0 (i - 0)))) = _
    rw [Mat.slice_all_get, lo, Nat.sub_zero, Nat.zero_add, hf]
    by_cases i1 : i < h
    · rw [a4 0 _ (by show 0 < 1; omega) (Nat.zero_le _) i1, Nat.sub_zero, effective_get _ _ _ i1, if_pos i1]
    · rw [a5 0 _ (by omega), if_neg i1]
      rfl
  have hhalf2 : (B.slice .all (.range 0 (L / 2 : Nat))).cols = L / 2 := by
    show (PySlice.range 0 _).hi B.cols - (PySlice.range 0 _).lo B.cols = _
    rw [b3, a3', hi _ (by omega), lo]
    omega
  have hrev : (B.slice .all (.range 0 (L / 2 : Nat))).reverse.cols = L - (L + 1) / 2 := by
    show (B.slice .all (.range 0 (L / 2 : Nat))).cols = _
    rw [hhalf2]
    omega
  obtain ⟨C, c1, c2, c3, c4, c5⟩ := Mat.assign_cols (A := B) (S := (B.slice .all (.range 0 (L / 2 : Nat))).reverse)
    (c := .range ((L + 1) / 2 : Nat) L) ((L + 1) / 2) L
    (by rw [PySlice.lo_range, clampBound_nat]; omega) (by rw [PySlice.hi_range, clampBound_nat]; omega) rfl hrev
  refine ⟨C, ?_, by omega, by omega, ?_⟩
  · unfold longCorrection
    dsimp only
    rw [a1]
    show (do
      let correction ← A.assign .all (.range 0 ((L + 1) / 2 : Nat))
        (elementwise (fun x => Real.sqrt (w / min (L : ℝ) (max 0 x))) (A.slice .all (.range 0 ((L + 1) / 2 : Nat))))
      correction.assign .all (.range ((L + 1) / 2 : Nat) L) (correction.slice .all (.range 0 (L / 2 : Nat))).reverse) = _
    rw [b1]
    exact c1
  · intro i hi'
    by_cases i1 : i < (L + 1) / 2
    · rw [c5 0 i (by omega), hB i i1, if_pos i1]
    · rw [c4 0 i (by omega) (by omega) hi']
      show (B.slice .all (.range 0 (L / 2 : Nat))).get 0 ((B.slice .all (.range 0 (L / 2 : Nat))).cols - 1 - (i - (L + 1) / 2)) = _
      rw [hhalf2, Mat.slice_all_get, lo, hB _ (by omega), show 0 + (L / 2 - 1 - (i - (L + 1) / 2)) = L - 1 - i by omega,
        if_neg i1]

theorem longCorrection_ok (empty : Nat → Nat → ℝ) (L : Nat) {w : ℝ} {h : Nat} (hw : 1 < w) (hh : IsHalf w h)
    (h1 : 1 + h < L) (h2 : L < 1 + 2 * h) :
    ∃ C, longCorrection empty L w ((w - 1) / 2) h = .ok C ∧ C.rows = 1 ∧ C.cols = L ∧
      ∀ i, i < L → C.get 0 i = Real.sqrt (w / covered w L i) := by
  obtain ⟨C, c1, c2, c3, c4⟩ := longCorrection_value empty L w h (by omega) _ (fun i => rfl)
  refine ⟨C, c1, c2, c3, fun i hi => ?_⟩
  rw [c4 i hi]
  by_cases i1 : i < (L + 1) / 2
  · rw [if_pos i1, if_pos (by omega), covered_long hw hh (by omega) (by omega)]
  · rw [if_neg i1, if_pos (by omega), ← covered_reverse hw hi, covered_long hw hh (by omega) (by omega)]

theorem long_ok (mem empty : Nat → Nat → ℝ) (s : Signal ℝ ℝ) {w : ℝ} {h : Nat} (pad : Bool) (hw : 1 < w) (hh : IsHalf w h)
    (hr : (h : ℝ) - (w - 1) / 2 = 0 ∨ (h : ℝ) - (w - 1) / 2 = 1 / 2) (h1 : 1 + h < s.channels.cols)
    (h2 : s.channels.cols ≤ 1 + 2 * h) (h3 : pad = true ∨ s.channels.cols ≠ 1 + 2 * h) :
    ∃ C, long mem empty s w ((w - 1) / 2) h pad = .ok C ∧ C.rows = s.channels.rows ∧ C.cols = s.channels.cols ∧
      ∀ c i, c < s.channels.rows → i < s.channels.cols → C.get c i = levelAt (s.channels.get c) s.channels.cols w pad i := by
  obtain ⟨A, a1, a2, a3, a4⟩ := long_filled mem s w h (by omega) h2
  unfold long
  dsimp only
  rw [a1]
  show ∃ C, compensateLong empty w ((w - 1) / 2) h pad A = .ok C ∧ _
  have hA : ∀ c i, c < s.channels.rows → i < s.channels.cols → A.get c i =
      Real.sqrt ((∑ k ∈ range s.channels.cols, s.channels.get c k ^ 2 * weight w ((k : Int) - i)) / w) := by
    intro c i hc hi
    rw [a4 c i hc hi, sqrt_value hh hr]
  unfold compensateLong
  cases pad with
  | true =>
    rw [if_pos rfl]
    exact ⟨A, rfl, a2, a3, fun c i hc hi => by rw [hA c i hc hi]; rfl⟩
  | false =>
    rw [if_neg Bool.false_ne_true, a3]
    obtain ⟨B, b1, b2, b3, b4⟩ := longCorrection_ok empty s.channels.cols hw hh h1 (by
      rcases h3 with h3 | h3
      · cases h3
      · omega)
    obtain ⟨C, c1, c2, c3, c4, c5⟩ := scaleColumns_ok A B .all 0 A.cols rfl rfl b2 (by omega)
    refine ⟨C, ?_, by omega, by omega, ?_⟩
    · rw [b1]
      exact c1
    · intro c i hc hi
      rw [c4 c i (by omega) (Nat.zero_le _) (by omega), hA c i hc hi, Nat.sub_zero, b4 i hi,
        level_cases (sum_nonneg' _ _ _ _) (by linarith)]
      rfl

/-! ### The property -/

theorem levelVsTime_eq (mem empty : Nat → Nat → ℝ) (s : Signal ℝ ℝ) (T : ℝ) (pad : Bool) (hw : 1 < T * s.rate) :
    levelVsTime mem empty s T pad = (do
      let channels ← (if 1 + ⌈(T * s.rate - 1) / 2⌉.toNat ≥ s.length then constant mem s (T * s.rate) pad
        else if 1 + 2 * ⌈(T * s.rate - 1) / 2⌉.toNat < s.length then
          short mem s (T * s.rate) ((T * s.rate - 1) / 2) ⌈(T * s.rate - 1) / 2⌉.toNat pad
        else long mem empty s (T * s.rate) ((T * s.rate - 1) / 2) ⌈(T * s.rate - 1) / 2⌉.toNat pad)
      .ok (Signal.new channels s.rate s.offset (some s.labels))) := by
  unfold levelVsTime
  dsimp only
  rw [if_neg (not_le.mpr hw)]
  split
  · rfl
  · split <;> rfl

theorem half_unique {w : ℝ} {h h' : Nat} (a : IsHalf w h) (b : IsHalf w h') : h = h' := by
  obtain ⟨a1, a2⟩ := a
  obtain ⟨b1, b2⟩ := b
  have e1 : (h : ℝ) < (h' : ℝ) + 1 := by linarith
  have e2 : (h' : ℝ) < (h : ℝ) + 1 := by linarith
  have e3 : h < h' + 1 := by exact_mod_cast e1
  have e4 : h' < h + 1 := by exact_mod_cast e2
  omega

/-- C54 for integration times, for which the rounded up half `h` of the window exceeds the exact half by 0 or 1/2. Missing:
other integration times (see `C54_corner_violated`), signals with `h + 1` samples and the difference 1/2 (see
`C54_constant_violated`) and signals with `2 * h + 1` samples without padding (see `C54_memory_violated`). -/
theorem C54_level_partial (mem empty : Nat → Nat → ℝ) (s : Signal ℝ ℝ) (T : ℝ) (pad : Bool) (h : Nat)
    (hw : 1 < T * s.rate) (hh : IsHalf (T * s.rate) h)
    (hr : (h : ℝ) - (T * s.rate - 1) / 2 = 0 ∨ (h : ℝ) - (T * s.rate - 1) / 2 = 1 / 2)
    (h1 : s.channels.cols ≠ 1 + h ∨ (h : ℝ) - (T * s.rate - 1) / 2 = 0)
    (h2 : pad = true ∨ s.channels.cols ≠ 1 + 2 * h) (hl : s.labels.length = s.channels.rows) :
    ∃ r, levelVsTime mem empty s T pad = .ok r ∧ r.channels.rows = s.channels.rows ∧ r.channels.cols = s.channels.cols ∧
      r.rate = s.rate ∧ r.offset = s.offset ∧ r.labels = s.labels ∧
      ∀ c i, c < s.channels.rows → i < s.channels.cols →
        r.channels.get c i = levelAt (s.channels.get c) s.channels.cols (T * s.rate) pad i := by
  rw [levelVsTime_eq mem empty s T pad hw, half_unique (isHalf_ceil hw) hh]
  have hlen : s.length = s.channels.cols := rfl
  have finish : ∀ X : Py (Mat ℝ), (∃ C, X = .ok C ∧ C.rows = s.channels.rows ∧ C.cols = s.channels.cols ∧
      ∀ c i, c < s.channels.rows → i < s.channels.cols →
        C.get c i = levelAt (s.channels.get c) s.channels.cols (T * s.rate) pad i) →
      ∃ r, (do
          let channels ← X
          .ok (Signal.new channels s.rate s.offset (some s.labels)) : Py (Signal ℝ ℝ)) = .ok r ∧
        r.channels.rows = s.channels.rows ∧ r.channels.cols = s.channels.cols ∧
        r.rate = s.rate ∧ r.offset = s.offset ∧ r.labels = s.labels ∧
        ∀ c i, c < s.channels.rows → i < s.channels.cols →
          r.channels.get c i = levelAt (s.channels.get c) s.channels.cols (T * s.rate) pad i := by
    rintro X ⟨C, rfl, c1, c2, c3⟩
    refine ⟨_, rfl, c1, c2, rfl, rfl, ?_, c3⟩
    exact Signal.sanitize_self (by rw [hl, ← c1])
  by_cases e1 : 1 + h ≥ s.length
  · rw [if_pos e1]
    apply finish
    refine constant_ok mem s pad hh ?_
    by_cases e2 : s.channels.cols = 1 + h
    · exact Or.inr ⟨e2, h1.resolve_left (fun hn => hn e2)⟩
    · left
      omega
  · rw [if_neg e1]
    by_cases e2 : 1 + 2 * h < s.length
    · rw [if_pos e2]
      exact finish _ (short_ok mem s pad hw hh hr e2)
    · rw [if_neg e2]
      exact finish _ (long_ok mem empty s pad hw hh hr (by omega) (by omega) h2)

/-- C54 for integration times, that are an integer number `m` of sampling periods. Missing: see `C54_level_partial`. -/
theorem C54_integer_partial (mem empty : Nat → Nat → ℝ) (s : Signal ℝ ℝ) (T : ℝ) (pad : Bool) (m : Nat)
    (hw : T * s.rate = m) (hm : 1 < m) (h1 : m % 2 = 1 ∨ s.channels.cols ≠ 1 + m / 2)
    (h2 : pad = true ∨ s.channels.cols ≠ 1 + 2 * (m / 2)) (hl : s.labels.length = s.channels.rows) :
    ∃ r, levelVsTime mem empty s T pad = .ok r ∧ r.channels.rows = s.channels.rows ∧ r.channels.cols = s.channels.cols ∧
      r.rate = s.rate ∧ r.offset = s.offset ∧ r.labels = s.labels ∧
      ∀ c i, c < s.channels.rows → i < s.channels.cols →
        r.channels.get c i = levelAt (s.channels.get c) s.channels.cols m pad i := by
  have hm' : (1 : ℝ) < m := by exact_mod_cast hm
  rw [← hw]
  rcases Nat.mod_two_eq_zero_or_one m with hp | hp
  · have e : (m : ℝ) = 2 * ((m / 2 : Nat) : ℝ) := by
      have : m = 2 * (m / 2) := by omega
      exact_mod_cast this
    refine C54_level_partial mem empty s T pad (m / 2) (by rw [hw]; exact hm') ?_ (Or.inr ?_) (Or.inl ?_) h2 hl
    · rw [hw]
      exact ⟨by linarith, by linarith⟩
    · rw [hw]
      linarith
    · exact h1.resolve_left (by omega)
  · have e : (m : ℝ) = 2 * ((m / 2 : Nat) : ℝ) + 1 := by
      have : m = 2 * (m / 2) + 1 := by omega
      exact_mod_cast this
    refine C54_level_partial mem empty s T pad (m / 2) (by rw [hw]; exact hm') ?_ (Or.inl ?_) (Or.inr ?_) h2 hl
    · rw [hw]
      exact ⟨by linarith, by linarith⟩
    · rw [hw]
      linarith
    · rw [hw]
      linarith

/-- C54: if the integration time is not longer than one sampling period, the level is the absolute value of the sample. -/
theorem C54_abs (mem empty : Nat → Nat → ℝ) (s : Signal ℝ ℝ) (T : ℝ) (pad : Bool) (hw : T * s.rate ≤ 1)
    (hl : s.labels.length = s.channels.rows) :
    ∃ r, levelVsTime mem empty s T pad = .ok r ∧ r.channels.rows = s.channels.rows ∧ r.channels.cols = s.channels.cols ∧
      r.rate = s.rate ∧ r.offset = s.offset ∧ r.labels = s.labels ∧
      ∀ c i, r.channels.get c i = |s.channels.get c i| := by
  refine ⟨absolute s, ?_, rfl, rfl, rfl, rfl, Signal.sanitize_self hl, fun _ _ => rfl⟩
  unfold levelVsTime
  dsimp only
  rw [if_pos hw]

/-- a signal with one channel, the sampling rate 1 and the samples 1 -/
def ones (n : Nat) : Signal ℝ ℝ := ⟨⟨1, n, fun _ _ => 1⟩, 1, 0, [""]⟩

/-- C54 is violated for integration times, that are not an integer multiple of the sampling period: the outermost samples get
the weight of the part, that is not inside the interval. The level of a constant signal is wrong in its middle. -/
theorem C54_corner_violated (mem empty : Nat → Nat → ℝ) :
    ∃ r, levelVsTime mem empty (ones 4) (3 / 2) true = .ok r ∧ r.channels.get 0 1 = Real.sqrt (5 / 3) ∧
      levelAt ((ones 4).channels.get 0) 4 (3 / 2) true 1 = 1 := by
  have hw : (1 : ℝ) < 3 / 2 * (ones 4).rate := by
    show (1 : ℝ) < 3 / 2 * 1
    norm_num
  have e : (3 / 2 * (ones 4).rate : ℝ) = 3 / 2 := by
    show (3 / 2 * 1 : ℝ) = _
    norm_num
  have hh : IsHalf (3 / 2 * (ones 4).rate) 1 := by
    rw [e]
    unfold IsHalf
    norm_num
  rw [levelVsTime_eq mem empty _ _ _ hw, half_unique (isHalf_ceil hw) hh, e]
  obtain ⟨A, a1, a2, a3, a4⟩ := short_filled mem (ones 4) (3 / 2) 1 (by show 1 + 2 * 1 < 4; omega)
  refine ⟨Signal.new A (ones 4).rate (ones 4).offset (some (ones 4).labels), ?_, ?_, ?_⟩
  · rw [if_neg (by show ¬ (1 + 1 ≥ 4); omega), if_pos (by show 1 + 2 * 1 < 4; omega)]
    unfold short
    rw [a1]
    rfl
  · show A.get 0 1 = _
    rw [a4 0 1 (by show 0 < 1; omega) (by show 1 < 4; omega)]
    congr 1
    show npFull 4 3 (fun _ => (1 : ℝ) ^ 2) ((window (3 / 2) ((3 / 2 - 1) / 2) 1).get 0) 2 = _
    unfold npFull window
    norm_num [Finset.sum_range_succ]
  · unfold levelAt weight ones
    norm_num [Finset.sum_range_succ, abs_of_nonneg, abs_of_nonpos]

theorem memory_value (mem empty : Nat → Nat → ℝ) :
    ∃ r, levelVsTime mem empty (ones 3) 3 false = .ok r ∧
      r.channels.get 0 1 = Real.sqrt (3 / min 3 (max 0 (empty 0 1))) := by
  have hw : (1 : ℝ) < 3 * (ones 3).rate := by
    show (1 : ℝ) < 3 * 1
    norm_num
  have e : (3 * (ones 3).rate : ℝ) = 3 := by
    show (3 * 1 : ℝ) = _
    norm_num
  have hh : IsHalf (3 * (ones 3).rate) 1 := by
    rw [e]
    unfold IsHalf
    norm_num
  rw [levelVsTime_eq mem empty _ _ _ hw, half_unique (isHalf_ceil hw) hh, e]
  obtain ⟨A, a1, a2, a3, a4⟩ := long_filled mem (ones 3) 3 1 (by show 0 < 3; omega) (by show 3 ≤ 1 + 2 * 1; omega)
  have a2' : A.rows = 1 := a2
  have a3' : A.cols = 3 := a3
  obtain ⟨B, b1, b2, b3, b4⟩ := longCorrection_value empty 3 3 1 (by omega) _ (fun i => rfl)
  obtain ⟨C, c1, c2, c3, c4, c5⟩ := scaleColumns_ok A B .all 0 A.cols rfl rfl b2 (by omega)
  refine ⟨Signal.new C (ones 3).rate (ones 3).offset (some (ones 3).labels), ?_, ?_⟩
  · rw [if_neg (by show ¬ (1 + 1 ≥ 3); omega), if_neg (by show ¬ (1 + 2 * 1 < 3); omega)]
    unfold long
    dsimp only
    rw [a1]
    show (do
      let channels ← compensateLong empty 3 ((3 - 1) / 2) 1 false A
      .ok (Signal.new channels (ones 3).rate (ones 3).offset (some (ones 3).labels))) = _
    unfold compensateLong
    rw [if_neg Bool.false_ne_true, a3', b1]
    show (do
      let channels ← scaleColumns A .all B
      .ok (Signal.new channels (ones 3).rate (ones 3).offset (some (ones 3).labels))) = _
    rw [c1]
    rfl
  · show C.get 0 1 = _
    rw [c4 0 1 (by omega) (by omega) (by omega), a4 0 1 (by show 0 < 1; omega) (by show 1 < 3; omega), Nat.sub_zero,
      b4 1 (by omega), if_pos (by omega), if_neg (by omega)]
    have : npFull (ones 3).channels.cols (1 + 2 * 1) (((square (ones 3).channels).row 0).get 0)
        ((window 3 ((3 - 1) / 2) 1).get 0) (1 + 1) = 1 := by
      show npFull 3 3 (fun _ => (1 : ℝ) ^ 2) ((window 3 ((3 - 1) / 2) 1).get 0) 2 = 1
      unfold npFull window
      norm_num [Finset.sum_range_succ]
    rw [this, Real.sqrt_one, one_mul]
    norm_num

/-- C54 is violated for signals with `2 * h + 1` samples without padding: the correction of the sample in the middle is not
initialised. -/
theorem C54_memory_violated (mem : Nat → Nat → ℝ) :
    ∃ r, levelVsTime mem (fun _ _ => 1) (ones 3) 3 false = .ok r ∧
      ∃ r', levelVsTime mem (fun _ _ => 3) (ones 3) 3 false = .ok r' ∧ r.channels.get 0 1 ≠ r'.channels.get 0 1 := by
  obtain ⟨r, r1, r2⟩ := memory_value mem (fun _ _ => 1)
  obtain ⟨r', r1', r2'⟩ := memory_value mem (fun _ _ => 3)
  refine ⟨r, r1, r', r1', ?_⟩
  rw [r2, r2', show (3 : ℝ) / min 3 (max 0 1) = 3 by norm_num, show (3 : ℝ) / min 3 (max 0 3) = 1 by norm_num, Real.sqrt_one]
  intro h
  have := congrArg (· ^ 2) h
  simp only [Real.sq_sqrt (by norm_num : (0 : ℝ) ≤ 3)] at this
  norm_num at this

/-- C54 is violated for signals with `h + 1` samples, if the outermost samples of the window are not completely inside the
interval: the level is constant. -/
theorem C54_constant_violated (mem empty : Nat → Nat → ℝ) :
    let s : Signal ℝ ℝ := ⟨⟨1, 2, fun _ i => if i = 0 then 1 else 0⟩, 1, 0, [""]⟩
    ∃ r, levelVsTime mem empty s 2 true = .ok r ∧ r.channels.get 0 1 = Real.sqrt (1 / 2) ∧
      levelAt (s.channels.get 0) 2 2 true 1 = Real.sqrt (1 / 4) := by
  intro s
  have hw : (1 : ℝ) < 2 * s.rate := by
    show (1 : ℝ) < 2 * 1
    norm_num
  have e : (2 * s.rate : ℝ) = 2 := by
    show (2 * 1 : ℝ) = _
    norm_num
  have hh : IsHalf (2 * s.rate) 1 := by
    rw [e]
    unfold IsHalf
    norm_num
  rw [levelVsTime_eq mem empty _ _ _ hw, half_unique (isHalf_ceil hw) hh, e]
  obtain ⟨C, c1, c2, c3, c4⟩ := constant_value mem s 2 true
  refine ⟨Signal.new C s.rate s.offset (some s.labels), ?_, ?_, ?_⟩
  · rw [if_pos (by show 1 + 1 ≥ 2; omega), c1]
    rfl
  · show C.get 0 1 = _
    rw [c4 0 1 (by show 0 < 1; omega) (by show 1 < 2; omega)]
    show Real.sqrt (∑ k ∈ range 2, (if k = 0 then (1 : ℝ) else 0) ^ 2) / Real.sqrt 2 = _
    norm_num [Finset.sum_range_succ]
  · show Real.sqrt ((∑ k ∈ range 2, (if k = 0 then (1 : ℝ) else 0) ^ 2 * weight 2 ((k : Int) - (1 : Nat))) / 2) = _
    congr 1
    unfold weight
    norm_num [Finset.sum_range_succ]

/-- the hypotheses of `C54_integer_partial` are met by a signal with eight samples and an integration time of three samples -/
example : ∃ (s : Signal ℝ ℝ) (T : ℝ) (m : Nat), T * s.rate = m ∧ 1 < m ∧ (m % 2 = 1 ∨ s.channels.cols ≠ 1 + m / 2) ∧
    (false = true ∨ s.channels.cols ≠ 1 + 2 * (m / 2)) ∧ s.labels.length = s.channels.rows :=
  ⟨ones 8, 3, 3, by show (3 * 1 : ℝ) = ((3 : Nat) : ℝ); norm_num, by omega, Or.inl rfl,
    Or.inr (by show (8 : Nat) ≠ _; omega), rfl⟩

/-- the hypotheses of `C54_level_partial` are met by the same signal and an integration time of four samples -/
example : ∃ (s : Signal ℝ ℝ) (T : ℝ) (h : Nat), 1 < T * s.rate ∧ IsHalf (T * s.rate) h ∧
    ((h : ℝ) - (T * s.rate - 1) / 2 = 0 ∨ (h : ℝ) - (T * s.rate - 1) / 2 = 1 / 2) ∧
    (s.channels.cols ≠ 1 + h ∨ (h : ℝ) - (T * s.rate - 1) / 2 = 0) ∧
    (false = true ∨ s.channels.cols ≠ 1 + 2 * h) ∧ s.labels.length = s.channels.rows := by
  have e : (4 * (ones 8).rate : ℝ) = 4 := by
    show (4 * 1 : ℝ) = _
    norm_num
  refine ⟨ones 8, 4, 2, ?_, ?_, ?_, Or.inl (by show (8 : Nat) ≠ _; omega), Or.inr (by show (8 : Nat) ≠ _; omega), rfl⟩
  · rw [e]
    norm_num
  · rw [e]
    unfold IsHalf
    norm_num
  · rw [e]
    norm_num

/-- the hypotheses of `C54_abs` are met by an integration time of half a sampling period -/
example : (1 / 2 : ℝ) * (ones 8).rate ≤ 1 ∧ (ones 8).labels.length = (ones 8).channels.rows :=
  ⟨by show (1 / 2 : ℝ) * 1 ≤ 1; norm_num, rfl⟩

/-! ### The level of the whole signal -/

/-- C72: the square of a channel's level is the mean of the squares of its samples. -/
theorem C72_mean (s : Signal ℝ ℝ) (c : Nat) (h : 0 < s.length) :
    0 ≤ level s c ∧ level s c ^ 2 * s.length = ∑ i ∈ range s.length, s.channels.get c i ^ 2 := by
  have h0 : (0 : ℝ) < s.length := by exact_mod_cast h
  refine ⟨div_nonneg (Real.sqrt_nonneg _) (Real.sqrt_nonneg _), ?_⟩
  unfold level norm
  rw [div_pow, Real.sq_sqrt (Finset.sum_nonneg fun i _ => sq_nonneg _), Real.sq_sqrt h0.le, div_mul_cancel₀ _ h0.ne']
  rfl

/-- C72: the square of the single level is the mean of the squares of the levels of the channels. -/
theorem C72_single (s : Signal ℝ ℝ) (hl : 0 < s.length) (hc : 0 < s.count) :
    0 ≤ totalLevel s ∧ totalLevel s ^ 2 * s.count = ∑ c ∈ range s.count, level s c ^ 2 := by
  have h0 : (0 : ℝ) < s.length := by exact_mod_cast hl
  have h1 : (0 : ℝ) < s.count := by exact_mod_cast hc
  refine ⟨div_nonneg (Real.sqrt_nonneg _) (Real.sqrt_nonneg _), ?_⟩
  unfold totalLevel totalNorm
  rw [div_pow, Real.sq_sqrt (Finset.sum_nonneg fun c _ => Finset.sum_nonneg fun i _ => sq_nonneg _),
    Real.sq_sqrt (by positivity)]
  have e : ∀ c, level s c ^ 2 = (∑ i ∈ range s.length, s.channels.get c i ^ 2) / s.length := by
    intro c
    rw [← (C72_mean s c hl).2, mul_div_cancel_right₀ _ h0.ne']
  rw [Finset.sum_congr rfl fun c _ => e c, ← Finset.sum_div]
  show (∑ c ∈ range s.count, ∑ i ∈ range s.length, s.channels.get c i ^ 2) / (s.count * s.length) * s.count = _
  field_simp

/-- C72: the level does not exceed the largest absolute value of the samples. -/
theorem C72_bound (s : Signal ℝ ℝ) (c : Nat) (h : 0 < s.length) (b : ℝ)
    (hb : ∀ i, i < s.length → |s.channels.get c i| ≤ b) : level s c ≤ b := by
  have h0 : (0 : ℝ) < s.length := by exact_mod_cast h
  have hb0 : 0 ≤ b := le_trans (abs_nonneg _) (hb 0 h)
  obtain ⟨h1, h2⟩ := C72_mean s c h
  refine le_of_sq_le_sq ?_ hb0
  have : ∑ i ∈ range s.length, s.channels.get c i ^ 2 ≤ ∑ i ∈ range s.length, b ^ 2 := by
    refine Finset.sum_le_sum fun i hi => ?_
    rw [← sq_abs]
    exact pow_le_pow_left₀ (abs_nonneg _) (hb i (mem_range.mp hi)) 2
  rw [← h2, Finset.sum_const, card_range, nsmul_eq_mul, mul_comm] at this
  exact le_of_mul_le_mul_left this h0

/-- the hypotheses are met by a signal with four samples -/
example : 0 < (ones 4).length ∧ 0 < (ones 4).count ∧ ∀ i, i < (ones 4).length → |(ones 4).channels.get 0 i| ≤ 1 :=
  ⟨by decide, by decide, fun i _ => by show |(1 : ℝ)| ≤ 1; norm_num⟩

/-- C72: the level over time of a whole constant signal without padding is the level of the signal; here for the
integration times of `C54_integer_partial`. Missing: the other integration times. -/
theorem C72_constant_partial (mem empty : Nat → Nat → ℝ) (s : Signal ℝ ℝ) (T : ℝ) (m : Nat) (v : Nat → ℝ)
    (hw : T * s.rate = m) (hm : 1 < m) (h1 : m % 2 = 1 ∨ s.channels.cols ≠ 1 + m / 2)
    (h2 : s.channels.cols ≠ 1 + 2 * (m / 2)) (hl : s.labels.length = s.channels.rows)
    (hv : ∀ c i, c < s.channels.rows → i < s.channels.cols → s.channels.get c i = v c) :
    ∃ r, levelVsTime mem empty s T false = .ok r ∧
      ∀ c i, c < s.channels.rows → i < s.channels.cols → r.channels.get c i = |v c| ∧ level s c = |v c| := by
  obtain ⟨r, r1, _, _, _, _, _, r2⟩ := C54_integer_partial mem empty s T false m hw hm h1 (Or.inr h2) hl
  refine ⟨r, r1, fun c i hc hi => ⟨?_, ?_⟩⟩
  · rw [r2 c i hc hi]
    have hm' : (1 : ℝ) < m := by exact_mod_cast hm
    unfold levelAt
    rw [if_neg Bool.false_ne_true, Finset.sum_congr rfl (g := fun k : Nat => v c ^ 2 * weight m ((k : Int) - i))
      (fun k hk => by rw [hv c k hc (mem_range.mp hk)]), ← Finset.mul_sum]
    show Real.sqrt (v c ^ 2 * covered m s.channels.cols i / covered m s.channels.cols i) = _
    rw [mul_div_cancel_right₀ _ (covered_pos hm' _ _ hi).ne', Real.sqrt_sq_eq_abs]
  · have hl0 : 0 < s.length := lt_of_le_of_lt (Nat.zero_le _) hi
    obtain ⟨e1, e2⟩ := C72_mean s c hl0
    have h0 : (0 : ℝ) < s.length := by exact_mod_cast hl0
    rw [Finset.sum_congr rfl (g := fun _ => v c ^ 2) (fun k hk => by rw [hv c k hc (mem_range.mp hk)]), Finset.sum_const,
      card_range, nsmul_eq_mul, mul_comm] at e2
    rw [← abs_of_nonneg e1]
    exact (sq_eq_sq_iff_abs_eq_abs _ _).mp (mul_left_cancel₀ h0.ne' e2)

/-- the hypotheses are met by a constant signal with eight samples and an integration time of three samples -/
example : ∀ c i, c < (ones 8).channels.rows → i < (ones 8).channels.cols → (ones 8).channels.get c i = (fun _ => (1 : ℝ)) c :=
  fun _ _ _ _ => rfl

/-- C72 is violated by constant signals, that are as long as the window: the level versus time in the middle is scaled by
uninitialised memory, so that it is not the level of the signal. -/
theorem C72_constant_violated (mem : Nat → Nat → ℝ) :
    ∃ r, levelVsTime mem (fun _ _ => 1) (ones 3) 3 false = .ok r ∧ level (ones 3) 0 = 1 ∧
      r.channels.get 0 1 ≠ level (ones 3) 0 := by
  obtain ⟨r, r1, r2⟩ := memory_value mem (fun _ _ => 1)
  have e : level (ones 3) 0 = 1 := by
    show Real.sqrt (∑ i ∈ range 3, (1 : ℝ) ^ 2) / Real.sqrt ((3 : Nat) : ℝ) = 1
    rw [show (∑ i ∈ range 3, (1 : ℝ) ^ 2) = ((3 : Nat) : ℝ) by simp]
    exact div_self (Real.sqrt_ne_zero'.mpr (by norm_num))
  refine ⟨r, r1, e, ?_⟩
  rw [r2, e, show (3 : ℝ) / min 3 (max 0 1) = 3 by norm_num]
  intro h
  have := congrArg (· ^ 2) h
  simp only [Real.sq_sqrt (by norm_num : (0 : ℝ) ≤ 3)] at this
  norm_num at this

end Level
end Verif
