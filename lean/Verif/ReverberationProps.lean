import Verif.Reverberation
import Verif.EnergyDecayProps
import Verif.InterpolationProps
import Verif.WindowsFlatnessProps
import Mathlib.Analysis.InnerProductSpace.Projection.Minimal
import Mathlib.Analysis.InnerProductSpace.PiL2

/-
C58: reverberation time and decay model.
-/

namespace Verif
namespace EnergyDecay

open Indexing

/-! ### Specification -/

/-- the squared error of the linear model `y = m * x₀ + n * x₁` -/
def residual (x : List (ℝ × ℝ)) (y : List ℝ) (p : ℝ × ℝ) : ℝ :=
  ((x.zip y).map fun q => (p.1 * q.1.1 + p.2 * q.1.2 - q.2) ^ 2).sum

/-- the documented result of `numpy.linalg.lstsq`: it minimises the squared error -/
def LeastSquares (lstsq : Lstsq) : Prop :=
  ∀ x y p, x.length = y.length → residual x y (lstsq x y) ≤ residual x y p

/-- The channel `c` decays exponentially from the sample `a` to the sample before `b`: its level in dB is
`m * i + n`. -/
def Exponential (s : Signal ℝ ℝ) (c a b : Nat) (m n : ℝ) : Prop :=
  ∀ i, a ≤ i → i < b → s.channels.get c i = (10 : ℝ) ^ ((m * i + n) / 10)

/-! ### Helpers -/

theorem residual_nonneg (x : List (ℝ × ℝ)) (y : List ℝ) (p : ℝ × ℝ) : 0 ≤ residual x y p := by
  unfold residual
  apply List.sum_nonneg
  intro z hz
  obtain ⟨q, _, rfl⟩ := List.mem_map.mp hz
  exact sq_nonneg _

theorem residual_zero (x : List (ℝ × ℝ)) (y : List ℝ) (p : ℝ × ℝ) (h : residual x y p = 0) :
    ∀ q ∈ x.zip y, p.1 * q.1.1 + p.2 * q.1.2 = q.2 := by
  unfold residual at h
  intro q hq
  have hle : (p.1 * q.1.1 + p.2 * q.1.2 - q.2) ^ 2 ≤ 0 := by
    rw [← h]
    apply List.single_le_sum (l := (x.zip y).map fun q => (p.1 * q.1.1 + p.2 * q.1.2 - q.2) ^ 2)
    · intro z hz
      obtain ⟨q, _, rfl⟩ := List.mem_map.mp hz
      exact sq_nonneg _
    · exact List.mem_map.mpr ⟨q, hq, rfl⟩
  have := pow_eq_zero_iff (two_ne_zero) |>.mp (le_antisymm hle (sq_nonneg _))
  linarith

/-- a least squares solution of a solvable system with the positions `a, a + 1, …` is the solution -/
theorem lstsq_exact (lstsq : Lstsq) (hl : LeastSquares lstsq) (x : List (ℝ × ℝ)) (y : List ℝ)
    (a k : Nat) (hk : 2 ≤ k) (hx : x = (List.range k).map fun i => (((a + i : Nat) : ℝ), (1 : ℝ))) (m n : ℝ)
    (hy : y = (List.range k).map fun i => m * ((a + i : Nat) : ℝ) + n) : lstsq x y = (m, n) := by
  have hlen : x.length = y.length := by rw [hx, hy]; simp
  have hzip : x.zip y = (List.range k).map fun i =>
      ((((a + i : Nat) : ℝ), (1 : ℝ)), m * ((a + i : Nat) : ℝ) + n) := by
    rw [hx, hy, List.zip_map']
  have h0 : residual x y (m, n) = 0 := by
    unfold residual
    rw [hzip, List.map_map]
    apply List.sum_eq_zero
    intro z hz
    obtain ⟨i, _, rfl⟩ := List.mem_map.mp hz
    simp
  have h1 : residual x y (lstsq x y) = 0 :=
    le_antisymm ((hl x y (m, n) hlen).trans h0.le) (residual_nonneg _ _ _)
  have h2 := residual_zero x y _ h1
  rw [hzip] at h2
  have e0 := h2 _ (List.mem_map.mpr ⟨0, List.mem_range.mpr (by omega), rfl⟩)
  have e1 := h2 _ (List.mem_map.mpr ⟨1, List.mem_range.mpr (by omega), rfl⟩)
  obtain ⟨p, hp⟩ : ∃ p, lstsq x y = p := ⟨_, rfl⟩
  rw [hp] at e0 e1 ⊢
  simp only [Nat.cast_add, Nat.cast_zero, Nat.cast_one, add_zero, mul_one] at e0 e1
  have hm : p.1 = m := by linarith
  have hn : p.2 = n := by rw [hm] at e0; linarith
  exact Prod.ext hm hn

theorem pyRange_one (a b : Nat) (h : a ≤ b) : pyRange (a : Nat) (b : Nat) 1 =
    (List.range (b - a)).map fun i => ((a + i : Nat) : Int) := by
  unfold pyRange
  rw [if_pos (by omega)]
  rw [show (((b : Nat) : Int) - (a : Nat) + 1 - 1) / 1 = ((b - a : Nat) : Int) by omega, Int.toNat_natCast]
  apply List.map_congr_left
  intro i _
  omega

theorem solveChannel_ok (lstsq : Lstsq) (hl : LeastSquares lstsq) (s : Signal ℝ ℝ) (c a b : Nat) (hab : a + 2 ≤ b)
    (hb : b ≤ s.length) (m n : ℝ) (h : Exponential s c a b m n) :
    solveChannel lstsq s.channels (a : Nat) (b : Nat) c = .ok (m, n) := by
  have hb' : b ≤ s.channels.cols := hb
  have hdb : decibels s.channels c (a : Nat) (b : Nat) =
      (List.range (b - a)).map fun i => m * ((a + i : Nat) : ℝ) + n := by
    unfold decibels
    rw [Mat.slice_cols, PySlice.count_range, clampBound_nat, clampBound_nat, show min b s.channels.cols = b by omega,
      show min a s.channels.cols = a by omega]
    apply List.map_congr_left
    intro i hi
    have := List.mem_range.mp hi
    rw [Mat.slice_all_get, PySlice.lo_range, clampBound_nat, show min a s.channels.cols = a by omega]
    rw [h (a + i) (by omega) (by omega), Real.logb_rpow (by norm_num) (by norm_num)]
    ring
  unfold solveChannel
  rw [hdb, pyRange_one a b (by omega), if_pos (by simp)]
  congr 1
  apply lstsq_exact lstsq hl _ _ a (b - a) (by omega) _ m n rfl
  rw [List.map_map]
  apply List.map_congr_left
  intro i _
  simp

theorem solve_ok (lstsq : Lstsq) (hl : LeastSquares lstsq) (s : Signal ℝ ℝ) (start stop : Idx) (a b : Nat)
    (ha : index s.length start = some (a : Int)) (hb : index s.length stop = some (b : Int)) (hab : a + 2 ≤ b)
    (hbl : b ≤ s.length) (m n : Nat → ℝ) (h : ∀ c, c < s.count → Exponential s c a b (m c) (n c)) :
    solve lstsq s start stop = some (.ok ((List.range s.count).map fun c => (m c, n c))) := by
  unfold solve
  rw [ha, hb]
  show some ((List.range s.count).mapM _) = _
  rw [Interpolation.mapM_ok]
  intro c hc
  exact solveChannel_ok lstsq hl s c a b hab hbl _ _ (h c (List.mem_range.mp hc))

/-! ### C58 -/

/-- C58: If the curve decays exponentially between the limits, the reverberation time of each channel is the time, in
which this exponential function decays by 60 dB. -/
theorem C58_reverberation_time (lstsq : Lstsq) (hl : LeastSquares lstsq) (s : Signal ℝ ℝ) (hr : s.rate ≠ 0)
    (start stop : Idx) (a b : Nat) (ha : index s.length start = some (a : Int))
    (hb : index s.length stop = some (b : Int)) (hab : a + 2 ≤ b) (hbl : b ≤ s.length) (m n : Nat → ℝ)
    (hm : ∀ c, c < s.count → m c ≠ 0) (h : ∀ c, c < s.count → Exponential s c a b (m c) (n c)) :
    ∃ times, reverberationTime lstsq s start stop = some (.ok times) ∧ times.length = s.count ∧
      ∀ (c : Nat) (T : ℝ), times[c]? = some T → ∀ t : ℝ,
        10 * Real.logb 10 ((10 : ℝ) ^ ((m c * ((t + T) * s.rate) + n c) / 10)) =
          10 * Real.logb 10 ((10 : ℝ) ^ ((m c * (t * s.rate) + n c) / 10)) - 60 := by
  unfold reverberationTime
  rw [solve_ok lstsq hl s start stop a b ha hb hab hbl m n h]
  refine ⟨_, rfl, by simp, ?_⟩
  intro c T hT t
  have hc : c < s.count := by
    have := (List.getElem?_eq_some_iff.mp hT).1
    simpa using this
  have hT' : -60 / m c / s.rate = T := by
    simpa [hc] using hT
  rw [Real.logb_rpow (by norm_num) (by norm_num), Real.logb_rpow (by norm_num) (by norm_num), ← hT']
  have := hm c hc
  field_simp
  ring

/-- C58: If the curve decays exponentially between the limits, the decay model is the same exponential function for all
samples; in particular it equals the curve between the limits. -/
theorem C58_decay_model (mem : Nat → Nat → ℝ) (lstsq : Lstsq) (hl : LeastSquares lstsq) (s : Signal ℝ ℝ)
    (hw : s.labels.length = s.count) (start stop : Idx) (a b : Nat) (ha : index s.length start = some (a : Int))
    (hb : index s.length stop = some (b : Int)) (hab : a + 2 ≤ b) (hbl : b ≤ s.length) (m n : Nat → ℝ)
    (h : ∀ c, c < s.count → Exponential s c a b (m c) (n c)) :
    ∃ r, decayModel mem lstsq s start stop = some (.ok r) ∧ r.count = s.count ∧ r.length = s.length ∧
      r.rate = s.rate ∧ r.offset = s.offset ∧ r.labels = s.labels ∧
      (∀ c i, c < s.count → i < s.length → r.channels.get c i = (10 : ℝ) ^ ((m c * i + n c) / 10)) ∧
      ∀ c i, c < s.count → a ≤ i → i < b → r.channels.get c i = s.channels.get c i := by
  have key : ∀ k, k ≤ s.count → ∃ A : Mat ℝ, pyFor (modelChannel s.length)
      ((List.range k).map fun c => (c, (m c, n c))) (alloc mem s.count s.length) = .ok A ∧ A.rows = s.count ∧
      A.cols = s.length ∧ ∀ c i, c < k → i < s.length → A.get c i = (10 : ℝ) ^ ((m c * i + n c) / 10) := by
    intro k
    induction k with
    | zero => exact fun _ => ⟨_, rfl, rfl, rfl, fun _ _ h => absurd h (by omega)⟩
    | succ k ih =>
      intro hk
      obtain ⟨A, a1, a2, a3, a4⟩ := ih (by omega)
      rw [List.range_succ, List.map_append, pyFor_append, a1]
      obtain ⟨B, b1, b2, b3, b4, b5⟩ := Mat.assign_ok (A := A)
        (S := ⟨1, s.length, fun _ i => (10 : ℝ) ^ ((m k / 10) * i + n k / 10)⟩) (r := .range (k : Nat) (k + 1 : Nat))
        (c := .all) k (k + 1) 0 s.length
        (by rw [PySlice.lo_range, clampBound_nat]; omega) (by rw [PySlice.hi_range, clampBound_nat]; omega) (by simp)
        (by simp [a3]) (by show 1 = k + 1 - k; omega) rfl
      refine ⟨B, ?_, b2.trans a2, b3.trans a3, ?_⟩
      · show (modelChannel s.length A (k, (m k, n k)) >>= _) = _
        unfold modelChannel
        rw [b1]
        rfl
      · intro c i hc hi
        by_cases hck : c = k
        · subst hck
          rw [b4 c i (le_refl _) (by omega) (by omega) hi]
          show (10 : ℝ) ^ ((m c / 10) * ((i - 0 : Nat) : ℝ) + n c / 10) = _
          congr 1
          rw [Nat.sub_zero]
          ring
        · rw [b5 c i (by omega)]
          exact a4 c i (by omega) hi
  obtain ⟨A, a1, a2, a3, a4⟩ := key s.count (le_refl _)
  unfold decayModel
  rw [solve_ok lstsq hl s start stop a b ha hb hab hbl m n h]
  have hz : (List.range s.count).zip ((List.range s.count).map fun c => (m c, n c)) =
      (List.range s.count).map fun c => (c, (m c, n c)) := by
    have := List.zip_map' (f := fun c : Nat => c) (g := fun c => (m c, n c)) (l := List.range s.count)
    rw [List.map_id' ] at this
    exact this
  refine ⟨Signal.new A s.rate s.offset (some s.labels), ?_, a2, a3, rfl, rfl,
    Signal.sanitize_self (by show s.labels.length = A.rows; omega), a4, ?_⟩
  · show some (pyFor (modelChannel s.length) ((List.range s.count).zip _) _ >>= _) = _
    rw [hz, a1]
    rfl
  · intro c i hc h1 h2
    rw [h c hc i h1 h2]
    exact a4 c i hc (by omega)

/-! ### The hypotheses can be satisfied -/

/-- A function, that minimises the squared error, exists. -/
theorem exists_leastSquares : ∃ lstsq : Lstsq, LeastSquares lstsq := by
  have : ∀ (x : List (ℝ × ℝ)) (y : List ℝ), ∃ q, ∀ p, residual x y q ≤ residual x y p := by
    intro x y
    obtain ⟨z, hz⟩ : ∃ z, x.zip y = z := ⟨_, rfl⟩
    let u : EuclideanSpace ℝ (Fin z.length) := WithLp.toLp 2 fun i => z[i.1].1.1
    let v : EuclideanSpace ℝ (Fin z.length) := WithLp.toLp 2 fun i => z[i.1].1.2
    let w : EuclideanSpace ℝ (Fin z.length) := WithLp.toLp 2 fun i => z[i.1].2
    have hres : ∀ p, residual x y p = ‖w - (p.1 • u + p.2 • v)‖ ^ 2 := by
      intro p
      unfold residual
      rw [hz, EuclideanSpace.norm_sq_eq, ← Fin.sum_univ_fun_getElem]
      apply Finset.sum_congr rfl
      intro i _
      simp only [u, v, w, PiLp.sub_apply, PiLp.add_apply, PiLp.smul_apply, smul_eq_mul, Real.norm_eq_abs, sq_abs]
      ring
    obtain ⟨q, hq, hmin⟩ := Submodule.exists_norm_eq_iInf_of_complete_subspace (𝕜 := ℝ) (Submodule.span ℝ {u, v})
      (Submodule.complete_of_finiteDimensional _) w
    obtain ⟨a, b, rfl⟩ := Submodule.mem_span_pair.mp hq
    refine ⟨(a, b), fun p => ?_⟩
    rw [hres, hres, hmin]
    apply pow_le_pow_left₀
    · rw [← hmin]
      exact norm_nonneg _
    · apply ciInf_le_of_le (f := fun r : (Submodule.span ℝ {u, v} : Set (EuclideanSpace ℝ (Fin z.length))) => ‖w - (r : EuclideanSpace ℝ (Fin z.length))‖)
        ⟨0, by rintro _ ⟨r, rfl⟩; exact norm_nonneg _⟩
        ⟨p.1 • u + p.2 • v, Submodule.mem_span_pair.mpr ⟨p.1, p.2, rfl⟩⟩
      exact le_refl _
  choose f hf using this
  exact ⟨f, fun x y p _ => hf x y p⟩

/-- a signal, that decays exponentially -/
noncomputable def decaying : Signal ℝ ℝ := ⟨⟨1, 8, fun _ i => (10 : ℝ) ^ ((-2 * i + 3) / 10 : ℝ)⟩, 48000, 0, ["x"]⟩

example : index decaying.length (.int 1) = some ((1 : Nat) : Int) ∧ index decaying.length (.int (-1)) = some ((7 : Nat) : Int) ∧
    1 + 2 ≤ 7 ∧ 7 ≤ decaying.length ∧ decaying.rate ≠ 0 ∧ ∀ c, c < decaying.count → Exponential decaying c 1 7 (-2) 3 :=
  ⟨rfl, rfl, by omega, by show 7 ≤ 8; omega, by norm_num [decaying], fun _ _ _ _ _ => rfl⟩

end EnergyDecay
end Verif
