import Verif.Blockwise
import Verif.FourierProps
import Verif.WindowsOverlapProps
import Mathlib.Data.Int.Interval
import Mathlib.Data.Int.Order.Lemmas

/-
C30: The segments of the block-wise Fourier transform
C67: The block-wise Fourier transform as the transform of the whole signal
-/

namespace Verif
namespace Blockwise

open Indexing Finset Dft

/-! ### Ranges -/

theorem mem_pyRange_pos {a b s : Int} (hs : 0 < s) (i : Int) :
    i ∈ pyRange a b s ↔ ∃ k : Nat, i = a + k * s ∧ i < b := by
  unfold pyRange
  rw [if_pos hs, List.mem_map]
  constructor
  · rintro ⟨k, hk, rfl⟩
    rw [List.mem_range] at hk
    refine ⟨k, rfl, ?_⟩
    have h1 : (k : Int) < (b - a + s - 1) / s := by omega
    have h2 : (k : Int) + 1 ≤ (b - a + s - 1) / s := by omega
    have h3 := (Int.le_ediv_iff_mul_le hs).mp h2
    nlinarith
  · rintro ⟨k, rfl, hk⟩
    refine ⟨k, ?_, rfl⟩
    rw [List.mem_range]
    have : (k : Int) + 1 ≤ (b - a + s - 1) / s := by
      rw [Int.le_ediv_iff_mul_le hs]
      nlinarith
    omega

theorem mem_pyRange_neg {a b s : Int} (hs : s < 0) (i : Int) :
    i ∈ pyRange a b s ↔ ∃ k : Nat, i = a + k * s ∧ b < i := by
  unfold pyRange
  rw [if_neg (by omega), List.mem_map]
  have hs' : 0 < -s := by omega
  constructor
  · rintro ⟨k, hk, rfl⟩
    rw [List.mem_range] at hk
    refine ⟨k, rfl, ?_⟩
    have h2 : (k : Int) + 1 ≤ (a - b + -s - 1) / -s := by omega
    have h3 := (Int.le_ediv_iff_mul_le hs').mp h2
    nlinarith
  · rintro ⟨k, rfl, hk⟩
    refine ⟨k, ?_, rfl⟩
    rw [List.mem_range]
    have : (k : Int) + 1 ≤ (a - b + -s - 1) / -s := by
      rw [Int.le_ediv_iff_mul_le hs']
      nlinarith
    omega

theorem nodup_pyRange {a b s : Int} (hs : s ≠ 0) : (pyRange a b s).Nodup := by
  have key : ∀ n, ((List.range n).map fun (k : Nat) => a + k * s).Nodup := by
    intro n
    apply List.Nodup.map _ List.nodup_range
    intro x y h
    have : (x : Int) * s = y * s := by
      have : a + (x : Int) * s = a + y * s := h
      omega
    have := mul_right_cancel₀ hs this
    omega
  unfold pyRange
  split
  · exact key _
  · exact key _

/-! ### Frames -/

/-- the row that is selected by broadcasting -/
def pick (rows c : Nat) : Nat := if rows = 1 then 0 else c

theorem broadcast_pick {α : Type} {A : Mat α} {r c : Nat} (hr : A.rows = r ∨ A.rows = 1) (hc : A.cols = c) :
    ∃ B, A.broadcastTo r c = .ok B ∧ B.rows = r ∧ B.cols = c ∧
      ∀ i j, i < r → j < c → B.get i j = A.get (pick A.rows i) j := by
  unfold Mat.broadcastTo
  rw [if_pos ⟨hr, Or.inl hc⟩]
  refine ⟨_, rfl, rfl, rfl, ?_⟩
  intro i j _ hj
  show A.get (if A.rows = 1 then 0 else i) (if A.cols = 1 then 0 else j) = A.get (pick A.rows i) j
  unfold pick
  congr 1
  split <;> omega

/-- the samples of a signal, which is extended with zeros -/
noncomputable def extended (x : Mat ℝ) (c : Nat) (n : Int) : ℝ :=
  if 0 ≤ n ∧ n < x.cols then x.get (pick x.rows c) n.toNat else 0

/-- the array contains the segment that starts at the sample `i`, weighted with the window -/
def IsFrame (x w : Mat ℝ) (R : Nat) (i : Int) (A : Mat ℝ) : Prop :=
  A.rows = R ∧ A.cols = w.cols ∧
    ∀ c j, c < R → j < w.cols → A.get c j = extended x c (i + j) * w.get (pick w.rows c) j

theorem leading_frame {x w windowed : Mat ℝ} {R : Nat} {i : Int} (hx : x.rows = R ∨ x.rows = 1)
    (hw : w.rows = R ∨ w.rows = 1) (hr : windowed.rows = R) (hc : windowed.cols = w.cols) (h0 : i < 0)
    (h1 : -(w.cols : Int) < i) : ∃ A, leading x w windowed i = .ok A ∧ IsFrame x w R i A := by
  obtain ⟨p, hp⟩ : ∃ p : Nat, -i = p := ⟨(-i).toNat, by omega⟩
  obtain ⟨l, hl⟩ : ∃ l : Nat, min ((w.cols : Int) + i) x.cols = l := ⟨(min ((w.cols : Int) + i) x.cols).toNat, by omega⟩
  have hpl : (l : Int) - i = ((p + l : Nat) : Int) := by omega
  have hle : p + l ≤ w.cols := by omega
  have hlx : l ≤ x.cols := by omega
  obtain ⟨A, a1, a2, a3, a4, a5⟩ := Mat.assign_cols_scalar (A := windowed) (c := .range 0 (-i)) (0 : ℝ) 0 p
    (by simp) (by rw [PySlice.hi_range, hp, clampBound_nat]; omega)
  obtain ⟨B, b1, b2, b3, b4, b5⟩ := Mat.assign_cols_scalar (A := A) (c := .drop ((l : Int) - i)) (0 : ℝ) (p + l) w.cols
    (by rw [PySlice.lo_drop, hpl, clampBound_nat]; omega) (by rw [PySlice.hi_drop]; omega)
  have hBr : B.rows = R := by omega
  have hBc : B.cols = w.cols := by omega
  obtain ⟨X, x1, x2, x3, x4⟩ := broadcast_pick (A := x.slice .all (.range 0 (l : Int))) (r := B.rows - 0) (c := p + l - p)
    (by rw [Mat.slice_rows, PySlice.count_all]; omega)
    (by rw [Mat.slice_cols, PySlice.count_range, clampBound_nat, clampBound_zero]; omega)
  obtain ⟨V, v1, v2, v3, v4⟩ := broadcast_pick (A := w.slice .all (.range (-i) ((l : Int) - i))) (r := B.rows - 0)
    (c := p + l - p) (by rw [Mat.slice_rows, PySlice.count_all]; omega)
    (by rw [Mat.slice_cols, PySlice.count_range, hpl, hp, clampBound_nat, clampBound_nat]; omega)
  obtain ⟨C, c1, c2, c3, c4, c5⟩ := Mat.ufunc2_of_broadcast (f := fun a b : ℝ => a * b) (out := B) (r := .all)
    (c := .range (-i) ((l : Int) - i)) 0 B.rows p (p + l) rfl rfl
    (by rw [PySlice.lo_range, hp, clampBound_nat]; omega) (by rw [PySlice.hi_range, hpl, clampBound_nat]; omega) x1 v1
  refine ⟨C, ?_, by omega, by omega, ?_⟩
  · unfold leading
    dsimp only
    rw [hl, a1]
    show (Mat.assign _ _ _ _ >>= _) = _
    rw [b1]
    exact c1
  · intro c j hcR hj
    unfold extended
    rcases Nat.lt_or_ge j p with h | h
    · rw [if_neg (by omega), zero_mul, c5 c j (by omega), b5 c j (by omega), a4 c j (by omega) (by omega) h]
    · rcases Nat.lt_or_ge j (p + l) with h' | h'
      · rw [if_pos (by omega), c4 c j (by omega) (by omega) h h', x4 _ _ (by omega) (by omega), v4 _ _ (by omega) (by omega),
          Mat.slice_all_get, Mat.slice_all_get, PySlice.lo_range, PySlice.lo_range, clampBound_zero, hp, clampBound_nat]
        show x.get (pick x.rows (c - 0)) _ * w.get (pick w.rows (c - 0)) _ = _
        rw [show 0 + (j - p) = (i + j).toNat by omega, show min p w.cols + (j - p) = j by omega]
        rfl
      · rw [if_neg (by omega), zero_mul, c5 c j (by omega), b4 c j (by omega) h' hj]

theorem inside_frame {x w windowed : Mat ℝ} {R : Nat} {i : Int} (hx : x.rows = R ∨ x.rows = 1)
    (hw : w.rows = R ∨ w.rows = 1) (hr : windowed.rows = R) (hc : windowed.cols = w.cols) (h0 : 0 ≤ i)
    (h1 : i + w.cols ≤ x.cols) : ∃ A, inside x w windowed i = .ok A ∧ IsFrame x w R i A := by
  obtain ⟨p, hp⟩ : ∃ p : Nat, i = p := ⟨i.toNat, by omega⟩
  subst hp
  have he : (w.cols : Int) + p = ((w.cols + p : Nat) : Int) := by omega
  obtain ⟨X, x1, x2, x3, x4⟩ := broadcast_pick (A := x.slice .all (.range (p : Int) ((w.cols : Int) + p)))
    (r := windowed.rows - 0) (c := windowed.cols - 0)
    (by rw [Mat.slice_rows, PySlice.count_all]; omega)
    (by rw [Mat.slice_cols, PySlice.count_range, he, clampBound_nat, clampBound_nat]; omega)
  obtain ⟨V, v1, v2, v3, v4⟩ := broadcast_pick (A := w) (r := windowed.rows - 0) (c := windowed.cols - 0) (by omega) (by omega)
  obtain ⟨C, c1, c2, c3, c4, c5⟩ := Mat.ufunc2_of_broadcast (f := fun a b : ℝ => a * b) (out := windowed) (r := .all)
    (c := .all) 0 windowed.rows 0 windowed.cols rfl rfl rfl rfl x1 v1
  refine ⟨C, c1, by omega, by omega, ?_⟩
  intro c j hcR hj
  unfold extended
  rw [if_pos (by omega), c4 c j (by omega) (by omega) (by omega) (by omega), x4 _ _ (by omega) (by omega),
    v4 _ _ (by omega) (by omega), Mat.slice_all_get, PySlice.lo_range, clampBound_nat]
  show x.get (pick x.rows (c - 0)) _ * w.get (pick w.rows (c - 0)) (j - 0) = _
  rw [show min p x.cols + (j - 0) = ((p : Int) + j).toNat by omega]
  rfl

theorem trailing_frame {x w windowed : Mat ℝ} {R : Nat} {i : Int} (hx : x.rows = R ∨ x.rows = 1)
    (hw : w.rows = R ∨ w.rows = 1) (hr : windowed.rows = R) (hc : windowed.cols = w.cols) (h0 : 0 ≤ i) (h1 : i < x.cols)
    (h2 : (x.cols : Int) - i ≤ w.cols) : ∃ A, trailing x w windowed i = .ok A ∧ IsFrame x w R i A := by
  obtain ⟨p, hp⟩ : ∃ p : Nat, i = p := ⟨i.toNat, by omega⟩
  subst hp
  obtain ⟨k, hk⟩ : ∃ k : Nat, (x.cols : Int) - p = k := ⟨x.cols - p, by omega⟩
  have hkw : k ≤ w.cols := by omega
  obtain ⟨A, a1, a2, a3, a4, a5⟩ := Mat.assign_cols_scalar (A := windowed) (c := .drop (k : Int)) (0 : ℝ) k w.cols
    (by rw [PySlice.lo_drop, clampBound_nat]; omega) (by rw [PySlice.hi_drop]; omega)
  obtain ⟨X, x1, x2, x3, x4⟩ := broadcast_pick (A := x.slice .all (.drop (p : Int)))
    (r := A.rows - 0) (c := k - 0)
    (by rw [Mat.slice_rows, PySlice.count_all]; omega)
    (by rw [Mat.slice_cols, PySlice.count_drop, clampBound_nat]; omega)
  obtain ⟨V, v1, v2, v3, v4⟩ := broadcast_pick (A := w.slice .all (.range 0 (k : Int))) (r := A.rows - 0) (c := k - 0)
    (by rw [Mat.slice_rows, PySlice.count_all]; omega)
    (by rw [Mat.slice_cols, PySlice.count_range, clampBound_nat, clampBound_zero]; omega)
  obtain ⟨C, c1, c2, c3, c4, c5⟩ := Mat.ufunc2_of_broadcast (f := fun a b : ℝ => a * b) (out := A) (r := .all)
    (c := .range 0 (k : Int)) 0 A.rows 0 k rfl rfl (by simp) (by rw [PySlice.hi_range, clampBound_nat]; omega) x1 v1
  refine ⟨C, ?_, by omega, by omega, ?_⟩
  · unfold trailing
    dsimp only
    rw [hk, a1]
    exact c1
  · intro c j hcR hj
    unfold extended
    rcases Nat.lt_or_ge j k with h | h
    · rw [if_pos (by omega), c4 c j (by omega) (by omega) (by omega) h, x4 _ _ (by omega) (by omega),
        v4 _ _ (by omega) (by omega), Mat.slice_all_get, Mat.slice_all_get, PySlice.lo_drop, PySlice.lo_range,
        clampBound_zero, clampBound_nat]
      show x.get (pick x.rows (c - 0)) _ * w.get (pick w.rows (c - 0)) _ = _
      rw [show min p x.cols + (j - 0) = ((p : Int) + j).toNat by omega, show 0 + (j - 0) = j by omega]
      rfl
    · rw [if_neg (by omega), zero_mul, c5 c j (by omega), a4 c j (by omega) h hj]

/-! ### Spectrums of the frames -/

/-- the transform of the segment, that starts at the sample `i` and is weighted with the window -/
noncomputable def segmentTransform (x w : Mat ℝ) (offset : Int) (c k : Nat) (i : Int) : ℂ :=
  ∑ j ∈ range w.cols, ((extended x c (i + j) * w.get (pick w.rows c) j : ℝ) : ℂ) *
    Complex.exp (-2 * Real.pi * Complex.I * k * (offset + i + j) / w.cols)

theorem addSpectrum_value (mem : Nat → Nat → ℂ) {x w A : Mat ℝ} {R : Nat} {i offset : Int} {rate : ℝ} {channels : Mat ℂ}
    (hA : IsFrame x w R i A) (hW : 1 ≤ w.cols) (hr : rate ≠ 0) (hrows : channels.rows = R)
    (hcols : channels.cols = w.cols / 2 + 1) :
    ∃ D, addSpectrum mem offset rate (rate / w.cols) (w.cols / 2 + 1) A channels i = .ok D ∧ D.rows = R ∧
      D.cols = w.cols / 2 + 1 ∧ ∀ c k, c < R → k ≤ w.cols / 2 →
        D.get c k = channels.get c k + segmentTransform x w offset c k i := by
  obtain ⟨f1, f2, f3⟩ := hA
  have hrfft : A.rfft = .ok ⟨A.rows, A.cols / 2 + 1, fun i k => dft A.cols (A.get i) k⟩ := by
    unfold Mat.rfft
    rw [if_neg (by omega)]
  obtain ⟨C, hC, hC2, hC3, hC4⟩ := Fourier.compensation_value w.cols rate (offset + i) hr (by omega)
  obtain ⟨E, e1, e2, e3, e4⟩ := Mat.broadcastTo_row (A := C) (r := channels.rows - 0) (c := channels.cols - 0) hC2 (by omega)
  obtain ⟨F, g1, g2, g3, g4, _⟩ := Mat.assign_of_broadcast (A := alloc mem channels.rows channels.cols) (S := C) (B := E)
    (r := .all) (c := .all) e1
  have g2' : F.rows = channels.rows := g2
  have g3' : F.cols = channels.cols := g3
  obtain ⟨G, k1, k2, k3, k4⟩ := Mat.broadcastTo_self (A := F) (r := F.rows - 0) (c := F.cols - 0) (by omega) (by omega)
  obtain ⟨S, s1, s2, s3, s4⟩ := Mat.broadcastTo_self
    (A := (⟨A.rows, A.cols / 2 + 1, fun i k => dft A.cols (A.get i) k⟩ : Mat ℂ)) (r := F.rows - 0) (c := F.cols - 0)
    (by show A.rows = _; omega) (by show A.cols / 2 + 1 = _; rw [f2]; omega)
  obtain ⟨H, h1, h2, h3, h4, _⟩ := Mat.ufunc2_of_broadcast (f := fun a b : ℂ => a * b) (out := F) (r := .all)
    (c := .all) 0 F.rows 0 F.cols rfl rfl rfl rfl k1 s1
  obtain ⟨P, p1, p2, p3, p4⟩ := Mat.broadcastTo_self (A := channels) (r := channels.rows - 0) (c := channels.cols - 0) rfl rfl
  obtain ⟨Q, q1, q2, q3, q4⟩ := Mat.broadcastTo_self (A := H) (r := channels.rows - 0) (c := channels.cols - 0)
    (by omega) (by omega)
  obtain ⟨D, d1, d2, d3, d4, _⟩ := Mat.ufunc2_of_broadcast (f := fun a b : ℂ => a + b) (out := channels) (r := .all)
    (c := .all) 0 channels.rows 0 channels.cols rfl rfl rfl rfl p1 q1
  refine ⟨D, ?_, by omega, by omega, ?_⟩
  · unfold addSpectrum
    rw [hrfft]
    show (if rate = 0 then _ else _) = _
    rw [if_neg hr, hC, g1]
    show (Mat.ufunc2 _ _ _ _ _ _ >>= _) = _
    rw [h1]
    exact d1
  · intro c k hc hk
    rw [d4 c k (by omega) (by omega) (by omega) (by omega), p4 _ _ (by omega) (by omega), q4 _ _ (by omega) (by omega)]
    simp only [Nat.sub_zero]
    rw [h4 c k (by omega) (by omega) (by omega) (by omega)]
    simp only [Nat.sub_zero]
    rw [k4 _ _ (by omega) (by omega), s4 _ _ (by omega) (by omega),
      g4 c k (by simp) (by show c < channels.rows; omega) (by simp) (by show k < channels.cols; omega)]
    simp only [PySlice.lo_all, Nat.sub_zero]
    rw [e4 _ _ (by omega) (by omega), hC4 k hk]
    congr 1
    have hL : (w.cols : ℂ) ≠ 0 := Nat.cast_ne_zero.mpr (by omega)
    unfold segmentTransform dft
    rw [f2, Finset.mul_sum]
    refine Finset.sum_congr rfl fun j hj => ?_
    rw [mem_range] at hj
    rw [f3 c j hc hj, Fourier.omega_zpow, Fourier.omega_zpow, mul_left_comm, ← Complex.exp_add]
    congr 2
    push_cast
    field_simp
    ring

/-- the loops -/
theorem loop_value (mem : Nat → Nat → ℂ) (s : Signal ℝ ℝ) (w : Mat ℝ) (R : Nat)
    (segment : Mat ℝ → Mat ℝ → Mat ℝ → Int → Py (Mat ℝ)) (hW : 1 ≤ w.cols) (hr : s.rate ≠ 0) (l : List Int) :
    ∀ (windowed : Mat ℝ) (channels : Mat ℂ), windowed.rows = R → windowed.cols = w.cols → channels.rows = R →
    channels.cols = w.cols / 2 + 1 →
    (∀ i ∈ l, ∀ v : Mat ℝ, v.rows = R → v.cols = w.cols → ∃ A, segment s.channels w v i = .ok A ∧
      IsFrame s.channels w R i A) →
    ∃ windowed' channels', pyFor (step mem s w (s.rate / w.cols) (w.cols / 2 + 1) segment) l (windowed, channels) =
      .ok (windowed', channels') ∧ windowed'.rows = R ∧ windowed'.cols = w.cols ∧ channels'.rows = R ∧
      channels'.cols = w.cols / 2 + 1 ∧ ∀ c k, c < R → k ≤ w.cols / 2 →
        channels'.get c k = channels.get c k + (l.map (segmentTransform s.channels w s.offset c k)).sum := by
  induction l with
  | nil =>
    intro windowed channels h1 h2 h3 h4 _
    exact ⟨windowed, channels, rfl, h1, h2, h3, h4, fun c k _ _ => by simp⟩
  | cons i l ih =>
    intro windowed channels h1 h2 h3 h4 hseg
    obtain ⟨A, hA, hF⟩ := hseg i List.mem_cons_self windowed h1 h2
    obtain ⟨D, d1, d2, d3, d4⟩ := addSpectrum_value mem (offset := s.offset) hF hW hr h3 h4
    obtain ⟨W', C', g1, g2, g3, g4, g5, g6⟩ := ih A D hF.1 hF.2.1 d2 d3 fun i hi => hseg i (List.mem_cons_of_mem _ hi)
    refine ⟨W', C', ?_, g2, g3, g4, g5, ?_⟩
    · have : step mem s w (s.rate / w.cols) (w.cols / 2 + 1) segment (windowed, channels) i = .ok (A, D) := by
        unfold step
        dsimp only
        rw [hA]
        show (addSpectrum _ _ _ _ _ _ _ _ >>= _) = _
        rw [d1]
        rfl
      unfold pyFor
      rw [this]
      exact g1
    · intro c k hc hk
      rw [g6 c k hc hk, d4 c k hc hk, List.map_cons, List.sum_cons, add_assoc]

/-! ### The positions -/

/-- the positions of all segments -/
def positions (L W step : Int) (pad : Bool) : List Int :=
  (if pad then leadingPositions W step else []) ++ insidePositions L W step ++
    (if pad then trailingPositions L W step else [])

theorem last_inside (L W s : Int) (hs : 0 < s) (hL : W ≤ L) :
    ∃ m : Nat, (insidePositions L W s).getLastD 0 = m * s ∧ m * s ≤ L - W ∧ L - W < (m + 1) * s := by
  unfold insidePositions pyRange
  rw [if_pos hs]
  obtain ⟨n, hn⟩ : ∃ n : Nat, (L - W + 1 - 0 + s - 1) / s = n + 1 := by
    have : 1 ≤ (L - W + 1 - 0 + s - 1) / s := by
      rw [Int.le_ediv_iff_mul_le hs]
      omega
    exact ⟨((L - W + 1 - 0 + s - 1) / s - 1).toNat, by omega⟩
  refine ⟨n, ?_, ?_, ?_⟩
  · rw [hn, show ((n : Int) + 1).toNat = n + 1 by omega, List.range_succ, List.map_append]
    simp
  · have := (Int.le_ediv_iff_mul_le (a := (n : Int) + 1) (b := L - W + 1 - 0 + s - 1) hs).mp (by omega)
    nlinarith
  · have : (L - W + 1 - 0 + s - 1) / s < (n : Int) + 2 := by omega
    have := (Int.ediv_lt_iff_lt_mul hs).mp this
    nlinarith

theorem inside_empty (L W s : Int) (hs : 0 < s) (hL : L < W) : insidePositions L W s = [] := by
  rw [List.eq_nil_iff_forall_not_mem]
  intro i hi
  unfold insidePositions at hi
  rw [mem_pyRange_pos hs] at hi
  obtain ⟨k, h1, h2⟩ := hi
  have : 0 ≤ (k : Int) * s := by positivity
  omega

theorem mem_leading (W s i : Int) (hs : 0 < s) : i ∈ leadingPositions W s ↔ s ∣ i ∧ i < 0 ∧ -W < i := by
  unfold leadingPositions
  rw [mem_pyRange_neg (by omega)]
  constructor
  · rintro ⟨k, h1, h2⟩
    have : 0 ≤ (k : Int) * s := by positivity
    exact ⟨⟨-(k + 1), by rw [h1]; ring⟩, by rw [h1, mul_neg]; omega, h2⟩
  · rintro ⟨⟨q, rfl⟩, h1, h2⟩
    have : q < 0 := by
      by_contra h
      have : 0 ≤ s * q := mul_nonneg (by omega) (by omega)
      omega
    refine ⟨(-q - 1).toNat, ?_, h2⟩
    rw [Int.toNat_of_nonneg (by omega)]
    ring

theorem mem_inside (L W s i : Int) (hs : 0 < s) : i ∈ insidePositions L W s ↔ s ∣ i ∧ 0 ≤ i ∧ i ≤ L - W := by
  unfold insidePositions
  rw [mem_pyRange_pos hs]
  constructor
  · rintro ⟨k, h1, h2⟩
    have : 0 ≤ (k : Int) * s := by positivity
    exact ⟨⟨k, by rw [h1]; ring⟩, by omega, by omega⟩
  · rintro ⟨⟨q, rfl⟩, h1, h2⟩
    have : 0 ≤ q := by
      by_contra h
      have : s * q < 0 := mul_neg_of_pos_of_neg hs (by omega)
      omega
    refine ⟨q.toNat, ?_, by omega⟩
    rw [Int.toNat_of_nonneg this]
    ring

theorem mem_trailing (L W s i : Int) (hs : 0 < s) (hL : W ≤ L) :
    i ∈ trailingPositions L W s ↔ s ∣ i ∧ L - W < i ∧ i < L := by
  obtain ⟨m, h1, h2, h3⟩ := last_inside L W s hs hL
  unfold trailingPositions
  rw [h1, mem_pyRange_pos hs]
  constructor
  · rintro ⟨k, g1, g2⟩
    have : 0 ≤ (k : Int) * s := by positivity
    exact ⟨⟨m + 1 + k, by rw [g1]; ring⟩, by nlinarith, g2⟩
  · rintro ⟨⟨q, rfl⟩, g1, g2⟩
    have : (m : Int) < q := by
      by_contra h
      have : s * q ≤ s * m := mul_le_mul_of_nonneg_left (by omega) (by omega)
      nlinarith
    refine ⟨(q - m - 1).toNat, ?_, g2⟩
    rw [Int.toNat_of_nonneg (by omega)]
    ring

theorem mem_trailing_short (L W s i : Int) (hs : 0 < s) (hL : L < W) :
    i ∈ trailingPositions L W s ↔ s ∣ i ∧ 0 < i ∧ i < L := by
  unfold trailingPositions
  rw [inside_empty L W s hs hL, mem_pyRange_pos hs]
  show (∃ k : Nat, i = 0 + s + k * s ∧ i < L) ↔ _
  constructor
  · rintro ⟨k, g1, g2⟩
    have : 0 ≤ (k : Int) * s := by positivity
    exact ⟨⟨1 + k, by rw [g1]; ring⟩, by omega, g2⟩
  · rintro ⟨⟨q, rfl⟩, g1, g2⟩
    have : 0 < q := by
      by_contra h
      have : s * q ≤ 0 := mul_nonpos_of_nonneg_of_nonpos (by omega) (by omega)
      omega
    refine ⟨(q - 1).toNat, ?_, g2⟩
    rw [Int.toNat_of_nonneg (by omega)]
    ring

/-- C30: If the signal is at least as long as the window, the segments with padding are located at all multiples of the
step size, for which the segment overlaps with the signal. -/
theorem C30_positions_padded (L W s i : Int) (hs : 0 < s) (hW : 0 < W) (hL : W ≤ L) :
    i ∈ positions L W s true ↔ s ∣ i ∧ -W < i ∧ i < L := by
  unfold positions
  rw [if_pos rfl, if_pos rfl, List.mem_append, List.mem_append, mem_leading _ _ _ hs, mem_inside _ _ _ _ hs,
    mem_trailing _ _ _ _ hs hL]
  constructor
  · rintro ((⟨h, _, _⟩ | ⟨h, _, _⟩) | ⟨h, _, _⟩)
    · exact ⟨h, by omega, by omega⟩
    · exact ⟨h, by omega, by omega⟩
    · exact ⟨h, by omega, by omega⟩
  · rintro ⟨h1, h2, h3⟩
    by_cases g : i < 0
    · exact Or.inl (Or.inl ⟨h1, g, h2⟩)
    · by_cases g' : i ≤ L - W
      · exact Or.inl (Or.inr ⟨h1, by omega, g'⟩)
      · exact Or.inr ⟨h1, by omega, h3⟩

/-- C30: Without padding, the segments are located at all multiples of the step size, for which the segment is covered by
the signal. -/
theorem C30_positions_cropped (L W s i : Int) (hs : 0 < s) :
    i ∈ positions L W s false ↔ s ∣ i ∧ 0 ≤ i ∧ i + W ≤ L := by
  unfold positions
  rw [if_neg (by decide), if_neg (by decide), List.nil_append, List.append_nil, mem_inside _ _ _ _ hs]
  constructor
  · rintro ⟨h1, h2, h3⟩
    exact ⟨h1, h2, by omega⟩
  · rintro ⟨h1, h2, h3⟩
    exact ⟨h1, h2, by omega⟩

/-- C30: If the signal is shorter than the window, the segment at the first sample is missing. -/
theorem C30_positions_short (L W s i : Int) (hs : 0 < s) (hL0 : 0 ≤ L) (hL : L < W) :
    i ∈ positions L W s true ↔ s ∣ i ∧ -W < i ∧ i < L ∧ i ≠ 0 := by
  unfold positions
  rw [if_pos rfl, if_pos rfl, List.mem_append, List.mem_append, mem_leading _ _ _ hs, inside_empty _ _ _ hs hL,
    mem_trailing_short _ _ _ _ hs hL]
  constructor
  · rintro ((⟨h, _, _⟩ | h) | ⟨h, _, _⟩)
    · exact ⟨h, by omega, by omega, by omega⟩
    · cases h
    · exact ⟨h, by omega, by omega, by omega⟩
  · rintro ⟨h1, h2, h3, h4⟩
    by_cases g : i < 0
    · exact Or.inl (Or.inl ⟨h1, g, h2⟩)
    · exact Or.inr ⟨h1, by omega, h3⟩

/-- C30: No segment is processed twice. -/
theorem C30_distinct (L W s : Int) (pad : Bool) (hs : 0 < s) : (positions L W s pad).Nodup := by
  have h1 : (leadingPositions W s).Nodup := nodup_pyRange (by omega)
  have h2 : (insidePositions L W s).Nodup := nodup_pyRange (by omega)
  have h3 : (trailingPositions L W s).Nodup := nodup_pyRange (by omega)
  unfold positions
  cases pad with
  | false => simpa using h2
  | true =>
    rw [if_pos rfl, if_pos rfl, List.nodup_append, List.nodup_append]
    refine ⟨⟨h1, h2, ?_⟩, h3, ?_⟩
    · intro a ha b hb
      rw [mem_leading _ _ _ hs] at ha
      rw [mem_inside _ _ _ _ hs] at hb
      omega
    · intro a ha b hb
      rw [List.mem_append, mem_leading _ _ _ hs, mem_inside _ _ _ _ hs] at ha
      rcases lt_or_ge L W with hL | hL
      · rw [mem_trailing_short _ _ _ _ hs hL] at hb
        omega
      · rw [mem_trailing _ _ _ _ hs hL] at hb
        omega

/-- C30: With padding, every sample of the signal is covered by a segment, if the signal is at least as long as the window
and the step is not larger than the window. -/
theorem C30_covered (L W s n : Int) (hs : 0 < s) (hsW : s ≤ W) (hL : W ≤ L) (h0 : 0 ≤ n) (h1 : n < L) :
    ∃ i ∈ positions L W s true, i ≤ n ∧ n < i + W := by
  refine ⟨s * (n / s), ?_, ?_, ?_⟩
  · have := Int.mul_ediv_self_le (x := n) (k := s) (by omega)
    rw [C30_positions_padded _ _ _ _ hs (by omega) hL]
    have : 0 ≤ s * (n / s) := mul_nonneg (by omega) (Int.ediv_nonneg h0 (by omega))
    exact ⟨⟨_, rfl⟩, by omega, by omega⟩
  · exact Int.mul_ediv_self_le (by omega)
  · have := Int.emod_lt_of_pos n hs
    have := Int.emod_add_mul_ediv n s
    omega

/-- a window with seven samples, steps of three samples and a signal with ten samples -/
example : positions 10 7 3 true = [-3, -6, 0, 3, 6, 9] ∧ positions 10 7 3 false = [0, 3] := by decide

/-! ### The transform -/

/-- C30: The block-wise Fourier transform adds the transforms of the weighted segments at these positions and multiplies
them with the scaling factor of the window. -/
theorem C30_transform (mem : Nat → Nat → ℂ) (mem' : Nat → Nat → ℝ) (s window : Signal ℝ ℝ) (overlap : Idx) (pad : Bool)
    (o : Nat) (hs : 1 ≤ s.channels.rows) (hw : 1 ≤ window.channels.rows) (hW : 1 ≤ window.channels.cols)
    (hb : s.channels.rows = window.channels.rows ∨ s.channels.rows = 1 ∨ window.channels.rows = 1)
    (hi : index window.channels.cols overlap = some (o : Int)) (ho : o < window.channels.cols)
    (hrate : window.rate = s.rate) (hr : s.rate ≠ 0) :
    ∃ A, blockwise mem mem' s window overlap pad = some (.ok (A, s.rate / window.channels.cols)) ∧
      A.rows = max s.channels.rows window.channels.rows ∧ A.cols = window.channels.cols / 2 + 1 ∧
      ∀ c k, c < A.rows → k < A.cols → A.get c k =
        ((positions s.channels.cols window.channels.cols (window.channels.cols - o) pad).map
          (segmentTransform s.channels window.channels s.offset c k)).sum *
        (((Windows.scalingFactor window.channels (pick window.channels.rows c) (.int o)).getD 0 : ℝ) : ℂ) := by
  obtain ⟨R, hR⟩ : ∃ R, max s.channels.rows window.channels.rows = R := ⟨_, rfl⟩
  have hsR : s.channels.rows = R ∨ s.channels.rows = 1 := by omega
  have hwR : window.channels.rows = R ∨ window.channels.rows = 1 := by omega
  have hstep : 0 < (window.channels.cols : Int) - o := by omega
  -- the initial state
  obtain ⟨Z, z1, z2, z3, z4, _⟩ := Mat.assign_cols_scalar (A := alloc mem R (window.channels.cols / 2 + 1)) (c := .all)
    (0 : ℂ) 0 (window.channels.cols / 2 + 1) rfl rfl
  have z2' : Z.rows = R := z2
  have z3' : Z.cols = window.channels.cols / 2 + 1 := z3
  -- the first loop
  obtain ⟨v1, c1, a1, a2, a3, a4, a5, a6⟩ : ∃ v c,
      ifPad pad (step mem s window.channels (s.rate / window.channels.cols) (window.channels.cols / 2 + 1) leading)
        (leadingPositions window.channels.cols (window.channels.cols - o)) (alloc mem' R window.channels.cols, Z) =
        .ok (v, c) ∧ v.rows = R ∧ v.cols = window.channels.cols ∧
      c.rows = R ∧ c.cols = window.channels.cols / 2 + 1 ∧ ∀ i k, i < R → k ≤ window.channels.cols / 2 →
        c.get i k = ((if pad then leadingPositions window.channels.cols (window.channels.cols - o) else []).map
          (segmentTransform s.channels window.channels s.offset i k)).sum := by
    cases pad with
    | false =>
      refine ⟨_, _, rfl, rfl, rfl, z2', z3', ?_⟩
      intro i k hi hk
      rw [z4 i k hi (by omega) (by omega)]
      simp
    | true =>
      obtain ⟨v, c, h1, h2, h3, h4, h5, h6⟩ := loop_value mem s window.channels R leading hW hr
        (leadingPositions window.channels.cols (window.channels.cols - o)) (alloc mem' R window.channels.cols) Z rfl rfl z2' z3' (by
          intro i hi v hv hv'
          rw [mem_leading _ _ _ hstep] at hi
          exact leading_frame hsR hwR hv hv' hi.2.1 hi.2.2)
      refine ⟨v, c, h1, h2, h3, h4, h5, ?_⟩
      intro i k hi hk
      rw [h6 i k hi hk, z4 i k hi (by omega) (by omega), zero_add, if_pos rfl]
  -- the second loop
  obtain ⟨v2, c2, b1, b2, b3, b4, b5, b6⟩ := loop_value mem s window.channels R inside hW hr
    (insidePositions s.channels.cols window.channels.cols (window.channels.cols - o)) v1 c1 a2 a3 a4 a5 (by
      intro i hi v hv hv'
      rw [mem_inside _ _ _ _ hstep] at hi
      exact inside_frame hsR hwR hv hv' hi.2.1 (by omega))
  -- the third loop
  obtain ⟨v3, c3, d1, d2, d3, d4, d5, d6⟩ : ∃ v c,
      ifPad pad (step mem s window.channels (s.rate / window.channels.cols) (window.channels.cols / 2 + 1) trailing)
        (trailingPositions s.channels.cols window.channels.cols (window.channels.cols - o)) (v2, c2) = .ok (v, c) ∧ v.rows = R ∧ v.cols = window.channels.cols ∧
      c.rows = R ∧ c.cols = window.channels.cols / 2 + 1 ∧ ∀ i k, i < R → k ≤ window.channels.cols / 2 →
        c.get i k = c2.get i k + ((if pad then trailingPositions s.channels.cols window.channels.cols
          (window.channels.cols - o) else []).map (segmentTransform s.channels window.channels s.offset i k)).sum := by
    cases pad with
    | false => exact ⟨_, _, rfl, b2, b3, b4, b5, fun i k _ _ => by simp⟩
    | true =>
      obtain ⟨v, c, h1, h2, h3, h4, h5, h6⟩ := loop_value mem s window.channels R trailing hW hr
        (trailingPositions s.channels.cols window.channels.cols (window.channels.cols - o)) v2 c2 b2 b3 b4 b5 (by
          intro i hi v hv hv'
          rcases lt_or_ge (s.channels.cols : Int) window.channels.cols with hL | hL
          · rw [mem_trailing_short _ _ _ _ hstep hL] at hi
            exact trailing_frame hsR hwR hv hv' (by omega) (by omega) (by omega)
          · rw [mem_trailing _ _ _ _ hstep hL] at hi
            exact trailing_frame hsR hwR hv hv' (by omega) (by omega) (by omega))
      exact ⟨v, c, h1, h2, h3, h4, h5, h6⟩
  -- the scaling
  obtain ⟨P, p1, p2, p3, p4⟩ := Mat.broadcastTo_self (A := c3) (r := c3.rows - 0) (c := c3.cols - 0) rfl rfl
  obtain ⟨Q, q1, q4⟩ : ∃ Q, (factors window.channels o).broadcastTo (c3.rows - 0) (c3.cols - 0) = .ok Q ∧
      ∀ i j, Q.get i j = (((Windows.scalingFactor window.channels (pick window.channels.rows i) (.int o)).getD 0 : ℝ) : ℂ) := by
    unfold Mat.broadcastTo
    rw [if_pos ⟨by show window.channels.rows = _ ∨ window.channels.rows = 1; omega, Or.inr rfl⟩]
    exact ⟨_, rfl, fun i j => rfl⟩
  obtain ⟨A, e1, e2, e3, e4, _⟩ := Mat.ufunc2_of_broadcast (f := fun a b : ℂ => a * b) (out := c3) (r := .all)
    (c := .all) 0 c3.rows 0 c3.cols rfl rfl rfl rfl p1 q1
  refine ⟨A, ?_, by omega, by omega, ?_⟩
  · unfold blockwise
    dsimp only
    rw [if_neg (show ¬(s.count = 0 ∨ window.count = 0 ∨ window.length = 0) by
      unfold Signal.count Signal.length; omega)]
    show (index window.channels.cols overlap >>= _) = _
    rw [hi]
    show some _ = some _
    congr 1
    show (Mat.assign (alloc mem (max s.channels.rows window.channels.rows) (window.channels.cols / 2 + 1)) _ _ _ >>= _) = _
    rw [hR, z1]
    show (if (window.channels.cols : Int) - o = 0 then _ else _) = _
    rw [if_neg (by omega), hrate]
    show (ifPad pad (step mem s window.channels (s.rate / window.channels.cols) (window.channels.cols / 2 + 1) leading)
        (leadingPositions window.channels.cols (window.channels.cols - o))
        (alloc mem' (max s.channels.rows window.channels.rows) window.channels.cols, Z) >>= _) = _
    rw [hR, a1]
    show (pyFor (step mem s window.channels (s.rate / window.channels.cols) (window.channels.cols / 2 + 1) inside)
        (insidePositions s.channels.cols window.channels.cols (window.channels.cols - o)) (v1, c1) >>= _) = _
    rw [b1]
    show (ifPad pad (step mem s window.channels (s.rate / window.channels.cols) (window.channels.cols / 2 + 1)
        trailing) (trailingPositions s.channels.cols window.channels.cols (window.channels.cols - o)) (v2, c2) >>= _) = _
    rw [d1]
    show (Mat.ufunc2 _ c3 (factors window.channels o) c3 .all .all >>= _) = _
    rw [e1]
    rfl
  · intro c k hc hk
    rw [e4 c k (by omega) (by omega) (by omega) (by omega), p4 _ _ (by omega) (by omega), q4]
    simp only [Nat.sub_zero]
    rw [d6 c k (by omega) (by omega), b6 c k (by omega) (by omega), a6 c k (by omega) (by omega)]
    congr 1
    unfold positions
    rw [List.map_append, List.map_append, List.sum_append, List.sum_append]

/-- a signal with two channels and a window with one channel -/
example : ∃ (s window : Signal ℝ ℝ) (overlap : Idx) (o : Nat), 1 ≤ s.channels.rows ∧ 1 ≤ window.channels.rows ∧
    1 ≤ window.channels.cols ∧
    (s.channels.rows = window.channels.rows ∨ s.channels.rows = 1 ∨ window.channels.rows = 1) ∧
    index window.channels.cols overlap = some (o : Int) ∧ o < window.channels.cols ∧ window.rate = s.rate ∧ s.rate ≠ 0 :=
  ⟨⟨⟨2, 9, fun c i => c + i⟩, 48000, 3, ["a", "b"]⟩, ⟨⟨1, 4, fun _ i => i⟩, 48000, 0, ["w"]⟩, .int 2, 2,
    by decide, by decide, by decide, Or.inr (Or.inr rfl), rfl, by decide, rfl, by norm_num⟩

/-- C30 is violated for signals, that are shorter than the window: the samples of the following signal are not processed, so
that its transform is zero, although padding is requested. -/
theorem C30_short_violated (mem : Nat → Nat → ℂ) (mem' : Nat → Nat → ℝ) :
    ∃ s window : Signal ℝ ℝ, s.channels.cols = 1 ∧ s.channels.get 0 0 = 1 ∧ window.channels.cols = 2 ∧
      (∀ j, window.channels.get 0 j = 1) ∧
      ∃ A, blockwise mem mem' s window (.int 0) true = some (.ok (A, 1)) ∧ A.rows = 1 ∧ A.cols = 2 ∧
        ∀ k, k < 2 → A.get 0 k = 0 := by
  refine ⟨⟨⟨1, 1, fun _ _ => 1⟩, 2, 0, [""]⟩, ⟨⟨1, 2, fun _ _ => 1⟩, 2, 0, [""]⟩, rfl, rfl, rfl, fun _ => rfl, ?_⟩
  obtain ⟨A, h1, h2, h3, h4⟩ := C30_transform mem mem' ⟨⟨1, 1, fun _ _ => 1⟩, 2, 0, [""]⟩
    ⟨⟨1, 2, fun _ _ => 1⟩, 2, 0, [""]⟩ (.int 0) true 0 (by decide) (by decide) (by decide) (Or.inl rfl) rfl (by decide)
    rfl (by norm_num)
  refine ⟨A, ?_, h2, h3, ?_⟩
  · rw [h1]
    norm_num
  · intro k hk
    rw [h4 0 k (by rw [h2]; decide) (by rw [h3]; exact hk)]
    have : positions 1 2 2 true = [] := by decide
    show ((positions 1 2 2 true).map _).sum * _ = 0
    rw [this]
    simp

/-! ### C67 -/

theorem overlapSum_int (w : Nat → ℝ) (W s n : Nat) :
    Windows.overlapSum w W s n = ∑ j ∈ range W, if (s : Int) ∣ (n : Int) - j then w j else 0 := by
  unfold Windows.overlapSum
  rw [Finset.sum_filter]
  refine Finset.sum_congr rfl fun j _ => ?_
  have : j % s = n % s ↔ (s : Int) ∣ (n : Int) - j := Nat.modEq_iff_dvd (a := j) (b := n) (n := s)
  simp only [this]

/-- the contributions of the `j`-th samples of all segments -/
theorem sum_positions (P : Finset Int) (L W s j : Nat) (hj : j < W)
    (hP : ∀ i, i ∈ P ↔ (s : Int) ∣ i ∧ -(W : Int) < i ∧ i < L) (f : Int → ℂ)
    (hf : ∀ n, ¬(0 ≤ n ∧ n < (L : Int)) → f n = 0) :
    ∑ i ∈ P, f (i + j) = ∑ n ∈ range L, if (s : Int) ∣ (n : Int) - j then f n else 0 := by
  rw [← Finset.sum_filter]
  have : ∑ i ∈ P, f (i + j) = ∑ i ∈ P.filter fun i : Int => 0 ≤ i + j ∧ i + j < (L : Int), f (i + j) := by
    rw [Finset.sum_filter]
    refine Finset.sum_congr rfl fun i _ => ?_
    split
    · rfl
    next h => rw [hf _ h]
  rw [this]
  refine Finset.sum_nbij' (fun i : Int => (i + j).toNat) (fun n : Nat => (n : Int) - j) ?_ ?_ ?_ ?_ ?_
  · intro i hi
    rw [mem_filter, hP] at hi
    rw [mem_filter, mem_range]
    obtain ⟨⟨h1, _, _⟩, h2, h3⟩ := hi
    refine ⟨by omega, ?_⟩
    rw [Int.toNat_of_nonneg h2, add_sub_cancel_right]
    exact h1
  · intro n hn
    rw [mem_filter, mem_range] at hn
    rw [mem_filter, hP]
    exact ⟨⟨hn.2, by omega, by omega⟩, by omega, by omega⟩
  · intro i hi
    rw [mem_filter] at hi
    omega
  · intro n _
    omega
  · intro i hi
    rw [mem_filter] at hi
    rw [Int.toNat_of_nonneg hi.2.1]

/-- C67: With padding, the block-wise Fourier transform is the transform of the whole signal at the frequencies of the
shorter spectrum, in which each sample is weighted with the sum of the overlapping windows and the scaling factor. -/
theorem C67_weighted (mem : Nat → Nat → ℂ) (mem' : Nat → Nat → ℝ) (s window : Signal ℝ ℝ) (overlap : Idx)
    (o : Nat) (hs : 1 ≤ s.channels.rows) (hw : 1 ≤ window.channels.rows) (hW : 1 ≤ window.channels.cols)
    (hb : s.channels.rows = window.channels.rows ∨ s.channels.rows = 1 ∨ window.channels.rows = 1)
    (hi : index window.channels.cols overlap = some (o : Int)) (ho : o < window.channels.cols)
    (hrate : window.rate = s.rate) (hr : s.rate ≠ 0) (hL : window.channels.cols ≤ s.channels.cols) :
    ∃ A res, blockwise mem mem' s window overlap true = some (.ok (A, res)) ∧ res = s.rate / window.channels.cols ∧
      A.rows = max s.channels.rows window.channels.rows ∧ A.cols = window.channels.cols / 2 + 1 ∧
      ∀ c k, c < A.rows → k < A.cols → A.get c k =
        ∑ n ∈ range s.channels.cols, (s.channels.get (pick s.channels.rows c) n : ℂ) *
          Complex.exp (-2 * Real.pi * Complex.I * ((k * res : ℝ) : ℂ) * (((s.offset + n) / s.rate : ℝ) : ℂ)) *
          ((Windows.overlapSum (window.channels.get (pick window.channels.rows c)) window.channels.cols
              (window.channels.cols - o) n *
            (Windows.scalingFactor window.channels (pick window.channels.rows c) (.int o)).getD 0 : ℝ) : ℂ) := by
  obtain ⟨A, h1, h2, h3, h4⟩ := C30_transform mem mem' s window overlap true o hs hw hW hb hi ho hrate hr
  refine ⟨A, _, h1, rfl, h2, h3, ?_⟩
  intro c k hc hk
  rw [h4 c k hc hk]
  obtain ⟨st, hst⟩ : ∃ st : Nat, window.channels.cols - o = st := ⟨_, rfl⟩
  have hsti : (window.channels.cols : Int) - o = st := by omega
  rw [hst, hsti]
  have hnd := C30_distinct s.channels.cols window.channels.cols st true (by omega)
  have hmem := fun i => C30_positions_padded s.channels.cols window.channels.cols st i (by omega) (by omega) (by omega)
  generalize hfac : ((Windows.scalingFactor window.channels (pick window.channels.rows c) (.int o)).getD 0 : ℝ) = fac
  generalize positions s.channels.cols window.channels.cols st true = pos at hnd hmem
  rw [← List.sum_toFinset _ hnd]
  have hWc : (window.channels.cols : ℂ) ≠ 0 := Nat.cast_ne_zero.mpr (by omega)
  have hrc : (s.rate : ℂ) ≠ 0 := Complex.ofReal_ne_zero.mpr hr
  -- exchange the sums
  unfold segmentTransform
  rw [Finset.sum_comm]
  have inner : ∀ j ∈ range window.channels.cols,
      ∑ i ∈ pos.toFinset, ((extended s.channels c (i + j) * window.channels.get (pick window.channels.rows c) j : ℝ) : ℂ) *
        Complex.exp (-2 * Real.pi * Complex.I * k * (s.offset + i + j) / window.channels.cols) =
      ∑ n ∈ range s.channels.cols, (s.channels.get (pick s.channels.rows c) n : ℂ) *
        Complex.exp (-2 * Real.pi * Complex.I * k * (s.offset + n) / window.channels.cols) *
        (if (st : Int) ∣ (n : Int) - j then (window.channels.get (pick window.channels.rows c) j : ℂ) else 0) := by
    intro j hj
    rw [mem_range] at hj
    have := sum_positions pos.toFinset s.channels.cols window.channels.cols st j hj
      (by intro i; rw [List.mem_toFinset]; exact hmem i)
      (fun n => ((extended s.channels c n * window.channels.get (pick window.channels.rows c) j : ℝ) : ℂ) *
        Complex.exp (-2 * Real.pi * Complex.I * k * (s.offset + n) / window.channels.cols))
      (by
        intro n hn
        unfold extended
        rw [if_neg hn]
        simp)
    refine Eq.trans (Finset.sum_congr rfl fun i _ => ?_) (this.trans ?_)
    · rw [show (s.offset : ℂ) + i + j = s.offset + ((i + j : Int) : ℂ) by push_cast; ring]
    · refine Finset.sum_congr rfl fun n hn => ?_
      rw [mem_range] at hn
      split
      · unfold extended
        rw [if_pos (by omega), Int.toNat_natCast]
        push_cast
        ring
      · rw [mul_zero]
  rw [Finset.sum_congr rfl inner, Finset.sum_comm, Finset.sum_mul]
  refine Finset.sum_congr rfl fun n _ => ?_
  rw [← Finset.mul_sum, overlapSum_int, mul_assoc]
  have hexp : (-2 * Real.pi * Complex.I * k * (s.offset + n) / window.channels.cols : ℂ) =
      -2 * Real.pi * Complex.I * ((k * (s.rate / window.channels.cols) : ℝ) : ℂ) *
        (((s.offset + n) / s.rate : ℝ) : ℂ) := by
    push_cast
    field_simp
  rw [hexp]
  congr 1
  rw [Complex.ofReal_mul, Complex.ofReal_sum]
  congr 1
  refine Finset.sum_congr rfl fun j _ => ?_
  split <;> simp

/-- C67: If the overlapping windows add up to a constant, the block-wise Fourier transform with padding is the transform of
the whole signal at the frequencies of the shorter spectrum. -/
theorem C67_constant (mem : Nat → Nat → ℂ) (mem' : Nat → Nat → ℝ) (s window : Signal ℝ ℝ) (overlap : Idx)
    (o : Nat) (v : Nat → ℝ) (hs : 1 ≤ s.channels.rows) (hw : 1 ≤ window.channels.rows) (hW : 1 ≤ window.channels.cols)
    (hb : s.channels.rows = window.channels.rows ∨ s.channels.rows = 1 ∨ window.channels.rows = 1)
    (hi : index window.channels.cols overlap = some (o : Int)) (ho : o < window.channels.cols)
    (hrate : window.rate = s.rate) (hr : s.rate ≠ 0) (hL : window.channels.cols ≤ s.channels.cols)
    (hv : ∀ c, c < window.channels.rows → v c ≠ 0 ∧
      ∀ n, Windows.overlapSum (window.channels.get c) window.channels.cols (window.channels.cols - o) n = v c) :
    ∃ A res, blockwise mem mem' s window overlap true = some (.ok (A, res)) ∧ res = s.rate / window.channels.cols ∧
      A.rows = max s.channels.rows window.channels.rows ∧ A.cols = window.channels.cols / 2 + 1 ∧
      ∀ c k, c < A.rows → k < A.cols → A.get c k =
        ∑ n ∈ range s.channels.cols, (s.channels.get (pick s.channels.rows c) n : ℂ) *
          Complex.exp (-2 * Real.pi * Complex.I * ((k * res : ℝ) : ℂ) * (((s.offset + n) / s.rate : ℝ) : ℂ)) := by
  obtain ⟨A, res, h1, h2, h3, h4, h5⟩ := C67_weighted mem mem' s window overlap o hs hw hW hb hi ho hrate hr hL
  refine ⟨A, res, h1, h2, h3, h4, ?_⟩
  intro c k hc hk
  rw [h5 c k hc hk]
  refine Finset.sum_congr rfl fun n _ => ?_
  have hp : pick window.channels.rows c < window.channels.rows := by
    unfold pick
    split <;> omega
  obtain ⟨g1, g2⟩ := hv _ hp
  rw [Windows.C43_constant window.channels _ (.int o) o (v (pick window.channels.rows c)) (by
    unfold index Idx.start
    dsimp only
    rw [if_pos (by omega)]) ho (fun t _ => g2 t), g2 n]
  simp [g1]

/-- C67: If the window is given by its length, and the segments do not overlap, a rectangular window is used, no matter if the
overlap is an integer or a float. -/
theorem C67_rectangular_window (mem : Nat → Nat → ℝ) (L : Nat) (overlap : Idx) (symmetric : Bool) (rate : ℝ)
    (ho : overlap = .int 0 ∨ overlap = .float 0) :
    ∃ w, getWindow mem (.int L) overlap symmetric rate = some (.ok w) ∧ w.rate = rate ∧ w.channels.rows = 1 ∧
      w.channels.cols = L ∧ w.labels = ["Rectangular window"] ∧ ∀ i, i < L → w.channels.get 0 i = 1 := by
  obtain ⟨w, h1, h2, _, h3, h4, h5, h6⟩ := Windows.C42_samples mem Windows.rectangular "Rectangular window" (.int 0) rate 0 L
    symmetric rfl (by omega)
  refine ⟨w, ?_, h2, h4, h5, h3, fun i hi => ?_⟩
  · rcases ho with rfl | rfl <;> (unfold getWindow isZero; dsimp only; rw [if_pos (by simp), h1]; rfl)
  · rw [h6 i hi]
    unfold Windows.expected Windows.rectangular
    simp

/-- C67: The block-wise Fourier transform with an integer window length and the default values of the other parameters is
the transform of the whole signal at the frequencies of the shorter spectrum, if the length of the window is even and not
larger than that of the signal. -/
theorem C67_hann (mem : Nat → Nat → ℂ) (mem' : Nat → Nat → ℝ) (s : Signal ℝ ℝ) (m : Nat)
    (hl : s.labels.length = s.channels.rows) (hs : 1 ≤ s.channels.rows) (hm : 0 < m) (hr : s.rate ≠ 0)
    (hL : 2 * m ≤ s.channels.cols) :
    ∃ b, fourierTransform mem mem' s (.int (2 * m)) (.float (1 / 2)) true = some (.ok b) ∧
      b.channels.rows = s.channels.rows ∧ b.channels.cols = m + 1 ∧ b.resolution = s.rate / (2 * m : Nat) ∧
      b.labels = s.labels ∧ ∀ c k, c < s.channels.rows → k < m + 1 → b.channels.get c k =
        ∑ n ∈ range s.channels.cols, (s.channels.get c n : ℂ) *
          Complex.exp (-2 * Real.pi * Complex.I * ((k * b.resolution : ℝ) : ℂ) * (((s.offset + n) / s.rate : ℝ) : ℂ)) := by
  obtain ⟨w, h1, h2, h3⟩ := Windows.C43_hann_overlap (R := ℝ) mem' m hm s.rate
  obtain ⟨w', h1', g1, _, _, g2, _⟩ := Windows.C42_samples mem' Windows.hanning "Hann window" (.int 0) s.rate 0 (2 * m)
    false rfl (by omega)
  rw [h1] at h1'
  cases h1'
  have hi : index w.channels.cols (.float (1 / 2)) = some (m : Int) := by
    rw [h2]
    unfold index Idx.start
    dsimp only
    have : (1 / 2 * (((2 * m : Nat) : Int) : ℚ)) = ((m : Int) : ℚ) := by
      push_cast
      ring
    rw [this, show pyRound ((m : Int) : ℚ) = m by unfold pyRound; simp, if_pos (by omega)]
  obtain ⟨A, res, a1, a2, a3, a4, a5⟩ := C67_constant mem mem' s w (.float (1 / 2)) m (fun _ => 1) hs (by omega) (by omega)
    (Or.inr (Or.inr g2)) hi (by omega) g1 hr (by omega) (by
      intro c hc
      refine ⟨one_ne_zero, fun n => ?_⟩
      rw [show c = 0 by omega, h2, show 2 * m - m = m by omega]
      exact h3 n)
  rw [g2, Nat.max_eq_left hs] at a3
  rw [h2] at a2 a4
  refine ⟨Spectrum.new A res (some s.labels), ?_, a3, by show A.cols = _; omega, a2, ?_, ?_⟩
  · unfold fourierTransform getWindow
    dsimp only
    rw [if_neg (by unfold isZero; norm_num), h1]
    show (blockwise mem mem' s w (.float (1 / 2)) true >>= _) = _
    rw [a1]
    rfl
  · show sanitizeLabels (some s.labels) A.rows = _
    exact Signal.sanitize_self (by rw [a3]; exact hl)
  · intro c k hc hk
    show A.get c k = _
    rw [a5 c k (by omega) (by omega)]
    have : pick s.channels.rows c = c := by
      unfold pick
      split <;> omega
    rw [this]
    rfl

example : ∃ (s : Signal ℝ ℝ) (m : Nat), s.labels.length = s.channels.rows ∧ 1 ≤ s.channels.rows ∧ 0 < m ∧ s.rate ≠ 0 ∧
    2 * m ≤ s.channels.cols ∧ s.offset = -5 :=
  ⟨⟨⟨2, 9, fun c i => c + i⟩, 48000, -5, ["a", "b"]⟩, 3, rfl, by decide, by decide, by norm_num, by decide, rfl⟩

end Blockwise
end Verif
