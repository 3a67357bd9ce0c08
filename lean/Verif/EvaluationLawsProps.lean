import Verif.LevelProps
import Verif.ReverberationProps
import Verif.PowModProps
import Verif.JoinProps
import Mathlib.Algebra.Order.BigOperators.Ring.Finset
import Mathlib.Tactic.Linarith
import Mathlib.Tactic.FieldSimp
import Mathlib.Tactic.Ring
import Mathlib.Tactic.Positivity

/-
Property C108: the laws of the levels, the energy decay curves and the reverberation times.
-/

namespace Verif

open Finset

/-! ### levels -/

namespace Level

/-- a weighted sum of squares and its root -/
noncomputable def rootOfSquares (L : Nat) (q x : Nat → ℝ) : ℝ := Real.sqrt (∑ k ∈ range L, x k ^ 2 * q k)

theorem root_scale (L : Nat) (q x : Nat → ℝ) (g : ℝ) : rootOfSquares L q (fun k => g * x k) = |g| * rootOfSquares L q x := by
  unfold rootOfSquares
  rw [← Real.sqrt_sq_eq_abs, ← Real.sqrt_mul (sq_nonneg g), Finset.mul_sum]
  congr 1
  refine Finset.sum_congr rfl fun k _ => ?_
  ring

theorem root_congr {L : Nat} {q x y : Nat → ℝ} (h : ∀ k, k < L → x k = y k) : rootOfSquares L q x = rootOfSquares L q y := by
  unfold rootOfSquares
  congr 1
  refine Finset.sum_congr rfl fun k hk => ?_
  rw [h k (mem_range.mp hk)]

theorem root_mono {L : Nat} {q x y : Nat → ℝ} (hq : ∀ k, 0 ≤ q k) (h : ∀ k, k < L → |x k| ≤ |y k|) :
    rootOfSquares L q x ≤ rootOfSquares L q y := by
  unfold rootOfSquares
  refine Real.sqrt_le_sqrt (Finset.sum_le_sum fun k hk => ?_)
  exact mul_le_mul_of_nonneg_right (sq_le_sq.mpr (h k (mem_range.mp hk))) (hq k)

/-- Minkowski's inequality -/
theorem root_add (L : Nat) {q : Nat → ℝ} (x y : Nat → ℝ) (hq : ∀ k, 0 ≤ q k) :
    rootOfSquares L q (fun k => x k + y k) ≤ rootOfSquares L q x + rootOfSquares L q y := by
  unfold rootOfSquares
  have nn : ∀ z : Nat → ℝ, 0 ≤ ∑ k ∈ range L, z k ^ 2 * q k :=
    fun z => Finset.sum_nonneg fun k _ => mul_nonneg (sq_nonneg _) (hq k)
  rw [Real.sqrt_le_left (add_nonneg (Real.sqrt_nonneg _) (Real.sqrt_nonneg _))]
  have cs : ∑ k ∈ range L, x k * y k * q k ≤
      Real.sqrt (∑ k ∈ range L, x k ^ 2 * q k) * Real.sqrt (∑ k ∈ range L, y k ^ 2 * q k) := by
    rw [← Real.sqrt_mul (nn x)]
    refine Real.le_sqrt_of_sq_le ?_
    have := Finset.sum_mul_sq_le_sq_mul_sq (range L) (fun k => x k * Real.sqrt (q k)) (fun k => y k * Real.sqrt (q k))
    have e : ∀ (u v : Nat → ℝ) k, u k * Real.sqrt (q k) * (v k * Real.sqrt (q k)) = u k * v k * q k := by
      intro u v k
      rw [mul_mul_mul_comm, Real.mul_self_sqrt (hq k)]
    have e2 : ∀ (u : Nat → ℝ) k, (u k * Real.sqrt (q k)) ^ 2 = u k ^ 2 * q k := by
      intro u k
      rw [mul_pow, Real.sq_sqrt (hq k)]
    simp only [e, e2] at this
    exact this
  have e : ∑ k ∈ range L, (x k + y k) ^ 2 * q k =
      ∑ k ∈ range L, x k ^ 2 * q k + 2 * ∑ k ∈ range L, x k * y k * q k + ∑ k ∈ range L, y k ^ 2 * q k := by
    rw [Finset.mul_sum, ← Finset.sum_add_distrib, ← Finset.sum_add_distrib]
    refine Finset.sum_congr rfl fun k _ => ?_
    ring
  rw [e, add_sq, Real.sq_sqrt (nn x), Real.sq_sqrt (nn y)]
  linarith

/-- The levels of all signals with the same length are computed with the same weights. -/
structure Form (X : Signal ℝ ℝ → Py (Mat ℝ)) (L : Nat) (rate : ℝ) (K : Nat → ℝ) (q : Nat → Nat → ℝ) : Prop where
  factor : ∀ i, 0 ≤ K i
  weights : ∀ i k, 0 ≤ q i k
  value : ∀ s : Signal ℝ ℝ, s.channels.cols = L → s.rate = rate → ∃ C, X s = .ok C ∧ C.rows = s.channels.rows ∧ C.cols = L ∧
    ∀ c i, c < s.channels.rows → i < L → C.get c i = K i * rootOfSquares L (q i) (s.channels.get c)

/-- the weights of the convolution with the window -/
noncomputable def windowWeight (w : ℝ) (h i k : Nat) : ℝ :=
  if k ≤ i + h ∧ i + h - k < 1 + 2 * h then (window w ((w - 1) / 2) h).get 0 (i + h - k) else 0

theorem windowWeight_nonneg {w : ℝ} {h : Nat} (hw : 1 < w) (hh : IsHalf w h) (i k : Nat) : 0 ≤ windowWeight w h i k := by
  unfold windowWeight window
  dsimp only
  have := hh.1
  have h1 : (0 : ℝ) ≤ (h : ℝ) - (w - 1) / 2 := by linarith
  have h0 : (0 : ℝ) ≤ w := by linarith
  split
  · split
    · exact div_nonneg h1 h0
    · exact div_nonneg zero_le_one h0
  · exact le_refl _

theorem sqrt_full (A : Mat ℝ) (w : ℝ) (h c i : Nat) :
    Real.sqrt (npFull A.cols (1 + 2 * h) (((square A).row c).get 0) ((window w ((w - 1) / 2) h).get 0) (i + h)) =
      rootOfSquares A.cols (windowWeight w h i) (A.get c) := by
  unfold rootOfSquares npFull windowWeight
  congr 1
  refine Finset.sum_congr rfl fun k _ => ?_
  split
  · rfl
  · rw [mul_zero]

/-- The weights of the samples, that are more than `h` samples away, are zero. -/
def Narrow (L h : Nat) (q : Nat → Nat → ℝ) : Prop := ∀ i k, i < L → k < L → i + h < k ∨ k + h < i → q i k = 0

theorem windowWeight_narrow (L : Nat) (w : ℝ) (h : Nat) : Narrow L h (windowWeight w h) := by
  intro i k _ _ hk
  unfold windowWeight
  exact if_neg (by omega)

theorem constant_form (L h : Nat) (rate w : ℝ) (pad : Bool) (hL : L ≤ 1 + h) :
    ∃ K q, Narrow L h q ∧ ∀ mem', Form (fun s => constant mem' s w pad) L rate K q := by
  refine ⟨fun _ => 1 / Real.sqrt (if pad then w else L), fun _ _ => 1, fun _ _ _ _ _ => by omega, fun mem' => ⟨fun _ => by positivity,
    fun _ _ => zero_le_one, ?_⟩⟩
  intro s hs _
  obtain ⟨C, c1, c2, c3, c4⟩ := constant_value mem' s w pad
  refine ⟨C, c1, c2, by omega, fun c i hc hi => ?_⟩
  rw [c4 c i hc (by omega), hs]
  unfold rootOfSquares
  simp only [mul_one]
  rw [one_div, inv_mul_eq_div]

theorem short_form (L : Nat) (rate : ℝ) {w : ℝ} {h : Nat} (pad : Bool) (hw : 1 < w) (hh : IsHalf w h)
    (hL : 1 + 2 * h < L) : ∃ K q, Narrow L h q ∧ ∀ mem, Form (fun s => short mem s w ((w - 1) / 2) h pad) L rate K q := by
  have h1 := half_pos hw hh
  let e : Nat → ℝ := fun i => Real.sqrt (w / (effective ((w - 1) / 2) h).get 0 i)
  refine ⟨fun i => if pad then 1 else if i < h then e i else if i < L - h then 1 else e (h - 1 - (i - (L - h))),
    windowWeight w h, windowWeight_narrow L w h, fun mem => ⟨?_, windowWeight_nonneg hw hh, ?_⟩⟩
  · intro i
    dsimp only [e]
    split
    · exact zero_le_one
    · split
      · exact Real.sqrt_nonneg _
      · split
        · exact zero_le_one
        · exact Real.sqrt_nonneg _
  intro s hs _
  obtain ⟨A, a1, a2, a3, a4⟩ := short_filled mem s w h (by omega)
  have hA : ∀ c i, c < s.channels.rows → i < L → A.get c i = rootOfSquares L (windowWeight w h i) (s.channels.get c) := by
    intro c i hc hi
    rw [a4 c i hc (by omega), sqrt_full, hs]
  unfold short
  rw [a1]
  show ∃ C, compensateShort w ((w - 1) / 2) h pad A = .ok C ∧ _
  unfold compensateShort
  cases pad with
  | true =>
    rw [if_pos rfl]
    exact ⟨A, rfl, a2, by omega, fun c i hc hi => by rw [hA c i hc hi, if_pos rfl, one_mul]⟩
  | false =>
    rw [if_neg Bool.false_ne_true]
    have l0 : (PySlice.range 0 h).lo A.cols = 0 := by
      rw [PySlice.lo_range, clampBound_zero]
    have l1 : (PySlice.range 0 h).hi A.cols = h := by
      rw [PySlice.hi_range, clampBound_nat]
      omega
    obtain ⟨B, b1, b2, b3, b4, b5⟩ := scaleColumns_ok A (elementwise (fun x => Real.sqrt (w / x)) (effective ((w - 1) / 2) h))
      (.range 0 h) 0 h l0 l1 rfl (by show h = h - 0; omega)
    have l2 : (PySlice.drop (-(h : Int))).lo B.cols = L - h := by
      rw [PySlice.lo_drop, clampBound_neg (by omega)]
      omega
    have l3 : (PySlice.drop (-(h : Int))).hi B.cols = L := by
      rw [PySlice.hi_drop]
      omega
    obtain ⟨C, c1, c2, c3, c4, c5⟩ := scaleColumns_ok B
      (elementwise (fun x => Real.sqrt (w / x)) (effective ((w - 1) / 2) h)).reverse (.drop (-(h : Int))) _ _ l2 l3 rfl
      (by show h = _; omega)
    refine ⟨C, ?_, by omega, by omega, ?_⟩
    · show (do
        let channels ← scaleColumns A (.range 0 h) (elementwise (fun x => Real.sqrt (w / x)) (effective ((w - 1) / 2) h))
        scaleColumns channels (.drop (-(h : Int)))
          (elementwise (fun x => Real.sqrt (w / x)) (effective ((w - 1) / 2) h)).reverse) = _
      rw [b1]
      exact c1
    · intro c i hc hi
      rw [if_neg Bool.false_ne_true]
      by_cases i1 : i < h
      · rw [if_pos i1, c5 c i (by omega), b4 c i (by omega) (Nat.zero_le _) i1, hA c i hc hi, mul_comm]
        rfl
      · rw [if_neg i1]
        by_cases i2 : i < L - h
        · rw [if_pos i2, c5 c i (by omega), b5 c i (by omega), hA c i hc hi, one_mul]
        · rw [if_neg i2, c4 c i (by omega) (by omega) hi, b5 c i (by omega), hA c i hc hi, mul_comm]
          rfl

theorem long_form (empty : Nat → Nat → ℝ) (L : Nat) (rate : ℝ) {w : ℝ} {h : Nat} (pad : Bool) (hw : 1 < w) (hh : IsHalf w h)
    (h1 : 1 + h < L) (h2 : L ≤ 1 + 2 * h) :
    ∃ K q, Narrow L h q ∧ ∀ mem, Form (fun s => long mem empty s w ((w - 1) / 2) h pad) L rate K q := by
  obtain ⟨B, b1, b2, b3, b4⟩ := longCorrection_value empty L w h (by omega) _ (fun i => rfl)
  refine ⟨fun i => if pad then 1 else if i < L then B.get 0 i else 0, windowWeight w h,
    windowWeight_narrow L w h, fun mem => ⟨?_, windowWeight_nonneg hw hh, ?_⟩⟩
  · intro i
    split
    · exact zero_le_one
    · split
      · rename_i hi
        rw [b4 i hi]
        split <;> exact Real.sqrt_nonneg _
      · exact le_refl _
  intro s hs _
  obtain ⟨A, a1, a2, a3, a4⟩ := long_filled mem s w h (by omega) (by omega)
  have hA : ∀ c i, c < s.channels.rows → i < L → A.get c i = rootOfSquares L (windowWeight w h i) (s.channels.get c) := by
    intro c i hc hi
    rw [a4 c i hc (by omega), sqrt_full, hs]
  unfold long
  dsimp only
  rw [a1]
  show ∃ C, compensateLong empty w ((w - 1) / 2) h pad A = .ok C ∧ _
  unfold compensateLong
  cases pad with
  | true =>
    rw [if_pos rfl]
    exact ⟨A, rfl, a2, by omega, fun c i hc hi => by rw [hA c i hc hi, if_pos rfl, one_mul]⟩
  | false =>
    rw [if_neg Bool.false_ne_true, a3, hs, b1]
    obtain ⟨C, c1, c2, c3, c4, c5⟩ := scaleColumns_ok A B .all 0 A.cols rfl rfl b2 (by omega)
    refine ⟨C, c1, by omega, by omega, ?_⟩
    intro c i hc hi
    rw [if_neg Bool.false_ne_true, if_pos hi, c4 c i (by omega) (Nat.zero_le _) (by omega), hA c i hc hi, Nat.sub_zero, mul_comm]

/-- the level of all signals -/
theorem level_form (empty : Nat → Nat → ℝ) (L : Nat) (rate T : ℝ) (pad : Bool) :
    ∃ (K : Nat → ℝ) (q : Nat → Nat → ℝ), (∀ i, 0 ≤ K i) ∧ (∀ i k, 0 ≤ q i k) ∧
      Narrow L (if T * rate ≤ 1 then 0 else ⌈(T * rate - 1) / 2⌉.toNat) q ∧
      ∀ mem (s : Signal ℝ ℝ), s.length = L → s.rate = rate → s.labels.length = s.count →
        ∃ r, levelVsTime mem empty s T pad = .ok r ∧ r.count = s.count ∧ r.length = L ∧ r.rate = rate ∧
          r.offset = s.offset ∧ r.labels = s.labels ∧
          ∀ c i, c < s.count → i < L → r.channels.get c i = K i * rootOfSquares L (q i) (s.channels.get c) := by
  by_cases hw : T * rate ≤ 1
  · refine ⟨fun _ => 1, fun i k => if k = i then 1 else 0, fun _ => zero_le_one, fun i k => ?_, ?_, ?_⟩
    · dsimp only
      split
      · exact zero_le_one
      · exact le_refl _
    · intro i k _ _ hk
      rw [if_pos hw] at hk
      exact if_neg (by omega)
    intro mem s hs hr hl
    obtain ⟨r, r1, r2, r3, r4, r5, r6, r7⟩ := C54_abs mem empty s T pad (by rw [hr]; exact hw) hl
    refine ⟨r, r1, r2, r3.trans hs, r4.trans hr, r5, r6, fun c i hc hi => ?_⟩
    rw [r7, one_mul, ← Real.sqrt_sq_eq_abs]
    unfold rootOfSquares
    congr 1
    rw [Finset.sum_eq_single i]
    · simp
    · intro k _ hk
      simp [hk]
    · intro h
      exact absurd (mem_range.mpr hi) h
  · have hw' : 1 < T * rate := not_le.mp hw
    have hh := isHalf_ceil hw'
    have key : ∀ X : (Nat → Nat → ℝ) → Signal ℝ ℝ → Py (Mat ℝ), (∃ K q, Narrow L ⌈(T * rate - 1) / 2⌉.toNat q ∧
          ∀ mem, Form (X mem) L rate K q) →
        (∀ mem s, s.length = L → s.rate = rate → levelVsTime mem empty s T pad = (do
          let channels ← X mem s
          .ok (Signal.new channels s.rate s.offset (some s.labels)))) →
        ∃ (K : Nat → ℝ) (q : Nat → Nat → ℝ), (∀ i, 0 ≤ K i) ∧ (∀ i k, 0 ≤ q i k) ∧
          Narrow L (if T * rate ≤ 1 then 0 else ⌈(T * rate - 1) / 2⌉.toNat) q ∧
          ∀ mem (s : Signal ℝ ℝ), s.length = L → s.rate = rate → s.labels.length = s.count →
            ∃ r, levelVsTime mem empty s T pad = .ok r ∧ r.count = s.count ∧ r.length = L ∧ r.rate = rate ∧
              r.offset = s.offset ∧ r.labels = s.labels ∧
              ∀ c i, c < s.count → i < L → r.channels.get c i = K i * rootOfSquares L (q i) (s.channels.get c) := by
      rintro X ⟨K, q, hn, hX⟩ heq
      refine ⟨K, q, (hX empty).factor, (hX empty).weights, by rw [if_neg hw]; exact hn, ?_⟩
      intro mem s hs hr hl
      obtain ⟨C, c1, c2, c3, c4⟩ := (hX mem).value s hs hr
      refine ⟨Signal.new C s.rate s.offset (some s.labels), ?_, c2, c3, hr, rfl,
        Signal.sanitize_self (by rw [c2]; exact hl), c4⟩
      rw [heq mem s hs hr, c1]
      rfl
    by_cases e1 : 1 + ⌈(T * rate - 1) / 2⌉.toNat ≥ L
    · refine key _ (constant_form L _ rate (T * rate) pad e1) fun mem s hs hr => ?_
      rw [levelVsTime_eq mem empty s T pad (by rw [hr]; exact hw'), hr, hs, if_pos e1]
    · by_cases e2 : 1 + 2 * ⌈(T * rate - 1) / 2⌉.toNat < L
      · refine key _ (short_form L rate pad hw' hh e2) fun mem s hs hr => ?_
        rw [levelVsTime_eq mem empty s T pad (by rw [hr]; exact hw'), hr, hs, if_neg e1, if_pos e2]
      · refine key _ (long_form empty L rate pad hw' hh (by omega) (by omega)) fun mem s hs hr => ?_
        rw [levelVsTime_eq mem empty s T pad (by rw [hr]; exact hw'), hr, hs, if_neg e1, if_neg e2]

/-- C108: Multiplying a signal with a number multiplies its level over time with the magnitude of the number. -/
theorem C108_level_gain (mem1 mem2 mem3 empty : Nat → Nat → ℝ) (s : Signal ℝ ℝ) (hs : s.WF) (T g : ℝ) (pad : Bool) :
    ∃ p u v, Signal.rmulArray mem1 (.scalar g) s = .ok p ∧ levelVsTime mem2 empty s T pad = .ok u ∧
      levelVsTime mem3 empty p T pad = .ok v ∧ u.labels = s.labels ∧ Signal.Pointwise (fun x => |g| * x) u v := by
  obtain ⟨p, hp, p1, p2, p3⟩ := Signal.array_number_right mem1 (· * ·) s hs g
  obtain ⟨K, q, -, -, -, h⟩ := level_form empty s.length s.rate T pad
  obtain ⟨u, hu, u1, u2, u3, u4, u5, u6⟩ := h mem2 s rfl rfl hs
  obtain ⟨v, hv, v1, v2, v3, v4, v5, v6⟩ := h mem3 p p1.length p1.rate p3
  refine ⟨p, u, v, hp, hu, hv, u5, Signal.Pointwise.of_get (v3.trans u3.symm) (by rw [v4, u4, p1.offset])
    (by rw [v1, u1, p1.count]) (v2.trans u2.symm) ?_⟩
  intro c i hc hi
  rw [v6 c i (by rw [p1.count, ← u1]; exact hc) (by omega), u6 c i (by omega) (by omega),
    root_congr (y := fun k => g * s.channels.get c k) (fun k hk => p1.get (by omega) hk), root_scale]
  ring

/-- C108: The level over time of a sum of signals does not exceed the sum of the levels. -/
theorem C108_level_triangle (mem1 mem2 mem3 mem4 empty : Nat → Nat → ℝ) (s t : Signal ℝ ℝ) (hs : s.WF) (ht : t.WF)
    (h1 : s.rate = t.rate) (h2 : s.offset = t.offset) (h3 : s.count = t.count) (h4 : s.length = t.length) (T : ℝ)
    (pad : Bool) :
    ∃ p u v w, Signal.add mem1 s t = .ok p ∧ levelVsTime mem2 empty s T pad = .ok u ∧
      levelVsTime mem3 empty t T pad = .ok v ∧ levelVsTime mem4 empty p T pad = .ok w ∧ w.count = s.count ∧
      w.length = s.length ∧ ∀ c i, c < s.count → i < s.length →
        w.channels.get c i ≤ u.channels.get c i + v.channels.get c i := by
  obtain ⟨p, hp, p1, p2, p3, p4, p5, p6⟩ := Signal.algebra_aligned mem1 (· + ·) none "Sum" s t h2 h3 h4
  have hpl : p.labels.length = p.count := by rw [p5, p3]; simp
  obtain ⟨K, q, hK, hq, -, h⟩ := level_form empty s.length s.rate T pad
  obtain ⟨u, hu, -, -, -, -, -, u6⟩ := h mem2 s rfl rfl hs
  obtain ⟨v, hv, -, -, -, -, -, v6⟩ := h mem3 t h4.symm h1.symm ht
  obtain ⟨w, hw, w1, w2, -, -, -, w6⟩ := h mem4 p p4 p1 hpl
  refine ⟨p, u, v, w, hp, hu, hv, hw, w1.trans p3, w2, ?_⟩
  intro c i hc hi
  rw [u6 c i hc hi, v6 c i (by omega) hi, w6 c i (by omega) hi, ← mul_add,
    root_congr (y := fun k => s.channels.get c k + t.channels.get c k) (fun k hk => p6 c k hc hk)]
  exact mul_le_mul_of_nonneg_left (root_add _ _ _ (hq i)) (hK i)

/-- C108: The level over time is not negative and depends monotonically on the magnitude of the samples. -/
theorem C108_level_monotone (mem1 mem2 empty : Nat → Nat → ℝ) (s t : Signal ℝ ℝ) (hs : s.WF) (ht : t.WF)
    (h1 : s.rate = t.rate) (h3 : s.count = t.count) (h4 : s.length = t.length)
    (hst : ∀ c i, c < s.count → i < s.length → |s.channels.get c i| ≤ |t.channels.get c i|) (T : ℝ) (pad : Bool) :
    ∃ u v, levelVsTime mem1 empty s T pad = .ok u ∧ levelVsTime mem2 empty t T pad = .ok v ∧
      ∀ c i, c < s.count → i < s.length → 0 ≤ u.channels.get c i ∧ u.channels.get c i ≤ v.channels.get c i := by
  obtain ⟨K, q, hK, hq, -, h⟩ := level_form empty s.length s.rate T pad
  obtain ⟨u, hu, -, -, -, -, -, u6⟩ := h mem1 s rfl rfl hs
  obtain ⟨v, hv, -, -, -, -, -, v6⟩ := h mem2 t h4.symm h1.symm ht
  refine ⟨u, v, hu, hv, ?_⟩
  intro c i hc hi
  rw [u6 c i hc hi, v6 c i (by omega) hi]
  exact ⟨mul_nonneg (hK i) (Real.sqrt_nonneg _),
    mul_le_mul_of_nonneg_left (root_mono (hq i) fun k hk => hst c k hc hk) (hK i)⟩

theorem level_root (s : Signal ℝ ℝ) (c : Nat) :
    level s c = rootOfSquares s.length (fun _ => 1) (s.channels.get c) / Real.sqrt s.length := by
  unfold level norm rootOfSquares
  simp only [mul_one]
  rfl

/-- C108: The levels of the channels are multiplied with the magnitude of a gain and satisfy the triangle inequality. -/
theorem C108_channel_levels (mem1 mem2 : Nat → Nat → ℝ) (s t : Signal ℝ ℝ) (hs : s.WF) (h2 : s.offset = t.offset)
    (h3 : s.count = t.count) (h4 : s.length = t.length) (g : ℝ) :
    ∃ p q, Signal.rmulArray mem1 (.scalar g) s = .ok p ∧ Signal.add mem2 s t = .ok q ∧ p.count = s.count ∧
      q.count = s.count ∧ ∀ c, c < s.count → level p c = |g| * level s c ∧ level q c ≤ level s c + level t c := by
  obtain ⟨p, hp, p1, p2, p3⟩ := Signal.array_number_right mem1 (· * ·) s hs g
  obtain ⟨q, hq, q1, q2, q3, q4, q5, q6⟩ := Signal.algebra_aligned mem2 (· + ·) none "Sum" s t h2 h3 h4
  refine ⟨p, q, hp, hq, p1.count, q3, ?_⟩
  intro c hc
  rw [level_root, level_root, level_root, level_root, p1.length, q4, ← h4,
    root_congr (y := fun k => g * s.channels.get c k) (fun k hk => p1.get hc hk), root_scale,
    root_congr (x := q.channels.get c) (y := fun k => s.channels.get c k + t.channels.get c k) (fun k hk => q6 c k hc hk)]
  constructor
  · ring
  · rw [← add_div]
    exact div_le_div_of_nonneg_right (root_add _ _ _ fun _ => zero_le_one) (Real.sqrt_nonneg _)

/-- The hypotheses can be satisfied. -/
example : ∃ s t : Signal ℝ ℝ, s.WF ∧ t.WF ∧ s.rate = t.rate ∧ s.offset = t.offset ∧ s.count = t.count ∧ s.length = t.length ∧
    (∀ c i, c < s.count → i < s.length → |s.channels.get c i| ≤ |t.channels.get c i|) ∧ 2 ≤ s.count ∧ 5 ≤ s.length := by
  refine ⟨⟨⟨2, 6, fun c i => c + i⟩, 48000, 3, ["a", "b"]⟩, ⟨⟨2, 6, fun c i => -(2 * (c + i))⟩, 48000, 3, ["c", "d"]⟩, rfl, rfl,
    rfl, rfl, rfl, rfl, ?_, by decide, by decide⟩
  intro c i _ _
  show |(c : ℝ) + i| ≤ |-(2 * ((c : ℝ) + i))|
  have : (0 : ℝ) ≤ (c : ℝ) + i := by positivity
  rw [abs_neg, abs_of_nonneg this, abs_of_nonneg (by positivity)]
  linarith

end Level

/-! ### energy decay curves -/

namespace EnergyDecay

/-- C108: Multiplying an impulse response with a number multiplies its energy decay curve with the square of the number. -/
theorem C108_decay_gain (mem1 mem2 mem3 : Nat → Nat → ℝ) (s : Signal ℝ ℝ) (hs : s.WF) (g : ℝ) :
    ∃ p u v, Signal.rmulArray mem1 (.scalar g) s = .ok p ∧ new mem2 s = .ok u ∧ new mem3 p = .ok v ∧ u.WF ∧ v.WF ∧
      u.count = s.count ∧ u.length = s.length ∧ u.rate = s.rate ∧ Signal.Pointwise (fun x => g ^ 2 * x) u v := by
  obtain ⟨p, hp, p1, p2, p3⟩ := Signal.array_number_right mem1 (· * ·) s hs g
  obtain ⟨u, hu, u1, u2, u3, u4, u5, u6⟩ := C28_samples mem2 s hs
  obtain ⟨v, hv, v1, v2, v3, v4, v5, v6⟩ := C28_samples mem3 p p3
  refine ⟨p, u, v, hp, hu, hv, by unfold Signal.WF at *; rw [u5, hs, u1], by unfold Signal.WF at *; rw [v5, p3, v1], u1, u2, u3,
    Signal.Pointwise.of_get (by rw [v3, u3, p1.rate])
    (by rw [v4, u4, p1.offset]) (by rw [v1, u1, p1.count]) (by rw [v2, u2, p1.length]) ?_⟩
  intro c i hc hi
  have e1 := p1.count
  have e2 := p1.length
  rw [v6 c i (by omega) (by omega), u6 c i (by omega) (by omega)]
  unfold energyFrom
  rw [Finset.mul_sum, p1.length]
  refine Finset.sum_congr rfl fun k hk => ?_
  rw [p1.get (by omega) (Finset.mem_Ico.mp hk).2]
  ring

/-- C108: The energy decay curve of the end of an impulse response is the end of its energy decay curve. -/
theorem C108_decay_tail (mem1 mem2 : Nat → Nat → ℝ) (s : Signal ℝ ℝ) (hs : s.WF) (a : Nat) (ha : a ≤ s.length) :
    ∃ p u v q, s.getItem Signal.whole (Signal.fromTo a s.length) = some p ∧ new mem1 s = .ok u ∧ new mem2 p = .ok v ∧
      u.getItem Signal.whole (Signal.fromTo a s.length) = some q ∧ Signal.Same v q := by
  have sel : Signal.Selection s.length (Signal.fromTo a s.length) a (s.length - a) := by
    have := Signal.selection_fromTo (n := s.length) a (s.length - a) (by omega)
    rwa [show a + (s.length - a) = s.length by omega] at this
  obtain ⟨p, hp, cp⟩ := Signal.getItem_cut hs (Signal.selection_whole s.count) sel
  obtain ⟨u, hu, u1, u2, u3, u4, u5, u6⟩ := C28_samples mem1 s hs
  have hu' : u.WF := by unfold Signal.WF at *; rw [u5, hs, u1]
  obtain ⟨q, hq, cq⟩ := Signal.getItem_cut hu' (Signal.selection_whole u.count) (by rw [u2]; exact sel)
  obtain ⟨v, hv, v1, v2, v3, v4, v5, v6⟩ := C28_samples mem2 p cp.wf
  refine ⟨p, u, v, q, hp, hu, hv, hq, by rw [v3, cp.rate, cq.rate, u3], by rw [v4, cp.offset, cq.offset, u4],
    by rw [v5, cp.labels, cq.labels, u5, u1], ?_, ?_, ?_⟩
  · show v.count = q.count
    rw [v1, cp.count, cq.count, u1]
  · show v.length = q.length
    rw [v2, cp.length, cq.length]
  · intro c i hc hi
    have hc' : c < p.count := by rw [← v1]; exact hc
    have hi' : i < p.length := by rw [← v2]; exact hi
    have e1 := cp.count
    have e2 := cp.length
    rw [v6 c i hc' hi', cq.get, u6 _ _ (by omega) (by omega)]
    unfold energyFrom
    rw [Finset.sum_Ico_eq_sum_range, Finset.sum_Ico_eq_sum_range, e2, show s.length - a - i = s.length - (a + i) by omega]
    refine Finset.sum_congr rfl fun k _ => ?_
    rw [cp.get, Nat.add_assoc]

/-! ### reverberation times -/

/-- the slope of the regression line of the points `(0, y 0), …, (k - 1, y (k - 1))` -/
noncomputable def slope (k : Nat) (y : Nat → ℝ) : ℝ :=
  (k * ∑ i ∈ range k, (i : ℝ) * y i - (∑ i ∈ range k, (i : ℝ)) * ∑ i ∈ range k, y i) /
    (k * ∑ i ∈ range k, (i : ℝ) ^ 2 - (∑ i ∈ range k, (i : ℝ)) ^ 2)

/-- its value at zero -/
noncomputable def intercept (k : Nat) (y : Nat → ℝ) : ℝ :=
  (∑ i ∈ range k, y i - slope k y * ∑ i ∈ range k, (i : ℝ)) / k

theorem denominator (k : Nat) : (k : ℝ) * ∑ i ∈ range k, (i : ℝ) ^ 2 - (∑ i ∈ range k, (i : ℝ)) ^ 2 =
    (k : ℝ) ^ 2 * ((k : ℝ) ^ 2 - 1) / 12 := by
  have h1 : ∑ i ∈ range k, (i : ℝ) = (k : ℝ) * (k - 1) / 2 := by
    induction k with
    | zero => simp
    | succ k ih => rw [Finset.sum_range_succ, ih]; push_cast; ring
  have h2 : ∑ i ∈ range k, (i : ℝ) ^ 2 = (k : ℝ) * (k - 1) * (2 * k - 1) / 6 := by
    clear h1
    induction k with
    | zero => simp
    | succ k ih => rw [Finset.sum_range_succ, ih]; push_cast; ring
  rw [h1, h2]
  ring

theorem denominator_pos {k : Nat} (hk : 2 ≤ k) :
    0 < (k : ℝ) * ∑ i ∈ range k, (i : ℝ) ^ 2 - (∑ i ∈ range k, (i : ℝ)) ^ 2 := by
  rw [denominator]
  have : (2 : ℝ) ≤ k := by exact_mod_cast hk
  have h1 : 0 < (k : ℝ) ^ 2 := by positivity
  have h2 : 0 < (k : ℝ) ^ 2 - 1 := by nlinarith
  positivity

/-- the squared error of a line -/
noncomputable def squaredError (k a : Nat) (y : Nat → ℝ) (m n : ℝ) : ℝ :=
  ∑ i ∈ range k, (m * ((a + i : Nat) : ℝ) + n - y i) ^ 2

/-- a quadratic function, that is nowhere negative, has no linear part -/
theorem linear_part_zero {A B : ℝ} (hB : 0 ≤ B) (h : ∀ t : ℝ, 0 ≤ 2 * t * A + t ^ 2 * B) : A = 0 := by
  by_contra hA
  have h1 := h (-A / (B + 1))
  have hB1 : 0 < B + 1 := by linarith
  have e : 2 * (-A / (B + 1)) * A + (-A / (B + 1)) ^ 2 * B = -(A ^ 2 * (B + 2)) / (B + 1) ^ 2 := by
    field_simp
    ring
  rw [e] at h1
  have : 0 < A ^ 2 * (B + 2) / (B + 1) ^ 2 := by positivity
  rw [neg_div] at h1
  linarith

/-- The squared error is minimal only for the regression line. -/
theorem minimum (k a : Nat) (hk : 2 ≤ k) (y : Nat → ℝ) (m n : ℝ)
    (h : ∀ m' n', squaredError k a y m n ≤ squaredError k a y m' n') :
    m = slope k y ∧ n = intercept k y - slope k y * a := by
  have key : ∀ d e : ℝ, ∑ i ∈ range k, (m * ((a + i : Nat) : ℝ) + n - y i) * (d * ((a + i : Nat) : ℝ) + e) = 0 := by
    intro d e
    refine linear_part_zero (B := ∑ i ∈ range k, (d * ((a + i : Nat) : ℝ) + e) ^ 2)
      (Finset.sum_nonneg fun _ _ => sq_nonneg _) fun t => ?_
    have h1 := h (m + t * d) (n + t * e)
    have e1 : squaredError k a y (m + t * d) (n + t * e) = squaredError k a y m n +
        (2 * t * ∑ i ∈ range k, (m * ((a + i : Nat) : ℝ) + n - y i) * (d * ((a + i : Nat) : ℝ) + e) +
          t ^ 2 * ∑ i ∈ range k, (d * ((a + i : Nat) : ℝ) + e) ^ 2) := by
      unfold squaredError
      rw [Finset.mul_sum, Finset.mul_sum, ← Finset.sum_add_distrib, ← Finset.sum_add_distrib]
      refine Finset.sum_congr rfl fun i _ => ?_
      ring
    linarith
  have k1 := key 0 1
  have k2 := key 1 (-a)
  have hk0 : (k : ℝ) ≠ 0 := Nat.cast_ne_zero.mpr (by omega)
  have e1 : m * ∑ i ∈ range k, (i : ℝ) + (m * a + n) * k = ∑ i ∈ range k, y i := by
    have : ∑ i ∈ range k, (m * ((a + i : Nat) : ℝ) + n - y i) * (0 * ((a + i : Nat) : ℝ) + 1) =
        m * ∑ i ∈ range k, (i : ℝ) + (m * a + n) * k - ∑ i ∈ range k, y i := by
      rw [Finset.mul_sum, show (m * a + n) * (k : ℝ) = ∑ i ∈ range k, (m * a + n) by
        rw [Finset.sum_const, card_range, nsmul_eq_mul, mul_comm], ← Finset.sum_add_distrib, ← Finset.sum_sub_distrib]
      refine Finset.sum_congr rfl fun i _ => ?_
      push_cast
      ring
    linarith
  have e2 : m * ∑ i ∈ range k, (i : ℝ) ^ 2 + (m * a + n) * ∑ i ∈ range k, (i : ℝ) = ∑ i ∈ range k, (i : ℝ) * y i := by
    have : ∑ i ∈ range k, (m * ((a + i : Nat) : ℝ) + n - y i) * (1 * ((a + i : Nat) : ℝ) + (-a)) =
        m * ∑ i ∈ range k, (i : ℝ) ^ 2 + (m * a + n) * ∑ i ∈ range k, (i : ℝ) - ∑ i ∈ range k, (i : ℝ) * y i := by
      rw [Finset.mul_sum, Finset.mul_sum, ← Finset.sum_add_distrib, ← Finset.sum_sub_distrib]
      refine Finset.sum_congr rfl fun i _ => ?_
      push_cast
      ring
    linarith
  have hm : m = slope k y := by
    unfold slope
    rw [eq_div_iff (denominator_pos hk).ne', ← e1, ← e2]
    ring
  refine ⟨hm, ?_⟩
  unfold intercept
  rw [← hm, ← e1]
  field_simp
  ring

theorem residual_eq (k a : Nat) (y : Nat → ℝ) (m n : ℝ) :
    residual ((List.range k).map fun i => (((a + i : Nat) : ℝ), (1 : ℝ))) ((List.range k).map y) (m, n) =
      squaredError k a y m n := by
  unfold residual squaredError
  rw [List.zip_map', List.map_map, ← List.sum_toFinset _ List.nodup_range, List.toFinset_range]
  refine Finset.sum_congr rfl fun i _ => ?_
  simp

/-- the level of a sample in dB -/
noncomputable def dB (s : Signal ℝ ℝ) (c i : Nat) : ℝ := 10 * Real.logb 10 (s.channels.get c i)

theorem solveChannel_regression (lstsq : Lstsq) (hl : LeastSquares lstsq) (s : Signal ℝ ℝ) (c a b : Nat)
    (hab : a + 2 ≤ b) (hb : b ≤ s.length) : solveChannel lstsq s.channels (a : Nat) (b : Nat) c =
      .ok (slope (b - a) (fun i => dB s c (a + i)),
        intercept (b - a) (fun i => dB s c (a + i)) - slope (b - a) (fun i => dB s c (a + i)) * a) := by
  have hb' : b ≤ s.channels.cols := hb
  have hdb : decibels s.channels c (a : Nat) (b : Nat) = (List.range (b - a)).map fun i => dB s c (a + i) := by
    unfold decibels
    rw [Mat.slice_cols, PySlice.count_range, clampBound_nat, clampBound_nat, show min b s.channels.cols = b by omega,
      show min a s.channels.cols = a by omega]
    apply List.map_congr_left
    intro i hi
    have := List.mem_range.mp hi
    rw [Mat.slice_all_get, PySlice.lo_range, clampBound_nat, show min a s.channels.cols = a by omega]
    rfl
  have hx : (((List.range (b - a)).map fun i => ((a + i : Nat) : Int)).map fun i : Int => ((i : ℝ), (1 : ℝ))) =
      (List.range (b - a)).map fun i => (((a + i : Nat) : ℝ), (1 : ℝ)) := by
    rw [List.map_map]
    apply List.map_congr_left
    intro i _
    simp
  unfold solveChannel
  rw [hdb, pyRange_one a b (by omega), if_pos (by simp), hx]
  congr 1
  have h := hl ((List.range (b - a)).map fun i => (((a + i : Nat) : ℝ), (1 : ℝ))) ((List.range (b - a)).map fun i => dB s c (a + i))
  obtain ⟨⟨m, n⟩, hmn⟩ : ∃ p, lstsq ((List.range (b - a)).map fun i => (((a + i : Nat) : ℝ), (1 : ℝ)))
    ((List.range (b - a)).map fun i => dB s c (a + i)) = p := ⟨_, rfl⟩
  rw [hmn] at h ⊢
  obtain ⟨e1, e2⟩ := minimum (b - a) a (by omega) (fun i => dB s c (a + i)) m n fun m' n' => by
    have := h (m', n') (by simp)
    rwa [residual_eq, residual_eq] at this
  rw [e1, e2]

theorem regression (lstsq : Lstsq) (hl : LeastSquares lstsq) (s : Signal ℝ ℝ) (start stop : Indexing.Idx) (a b : Nat)
    (ha : Indexing.index s.length start = some (a : Int)) (hb : Indexing.index s.length stop = some (b : Int))
    (hab : a + 2 ≤ b) (hbl : b ≤ s.length) :
    solve lstsq s start stop = some (.ok ((List.range s.count).map fun c =>
      (slope (b - a) (fun i => dB s c (a + i)),
        intercept (b - a) (fun i => dB s c (a + i)) - slope (b - a) (fun i => dB s c (a + i)) * a))) ∧
    reverberationTime lstsq s start stop = some (.ok ((List.range s.count).map fun c =>
      -60 / slope (b - a) (fun i => dB s c (a + i)) / s.rate)) := by
  have h : solve lstsq s start stop = some (.ok ((List.range s.count).map fun c =>
      (slope (b - a) (fun i => dB s c (a + i)),
        intercept (b - a) (fun i => dB s c (a + i)) - slope (b - a) (fun i => dB s c (a + i)) * a))) := by
    unfold solve
    rw [ha, hb]
    show some ((List.range s.count).mapM _) = _
    rw [Interpolation.mapM_ok]
    intro c _
    exact solveChannel_regression lstsq hl s c a b hab hbl
  refine ⟨h, ?_⟩
  unfold reverberationTime
  rw [h]
  show some (Except.ok (List.map (fun p : ℝ × ℝ => -60 / p.1 / s.rate) _)) = _
  rw [List.map_map]
  rfl

/-- C108: The reverberation time is computed from the slope of the regression line of the levels in dB, for every curve with
positive samples between the limits.  (The logarithm of other samples is not finite in the code, which is not modelled.) -/
theorem C108_regression (lstsq : Lstsq) (hl : LeastSquares lstsq) (s : Signal ℝ ℝ) (start stop : Indexing.Idx) (a b : Nat)
    (ha : Indexing.index s.length start = some (a : Int)) (hb : Indexing.index s.length stop = some (b : Int))
    (hab : a + 2 ≤ b) (hbl : b ≤ s.length)
    (_hpos : ∀ c i, c < s.count → a ≤ i → i < b → 0 < s.channels.get c i) :
    reverberationTime lstsq s start stop = some (.ok ((List.range s.count).map fun c =>
      -60 / slope (b - a) (fun i => dB s c (a + i)) / s.rate)) :=
  (regression lstsq hl s start stop a b ha hb hab hbl).2

/-- The hypotheses can be satisfied. -/
example : ∃ (s : Signal ℝ ℝ) (start stop : Indexing.Idx) (a b : Nat), Indexing.index s.length start = some (a : Int) ∧
    Indexing.index s.length stop = some (b : Int) ∧ a + 2 ≤ b ∧ b ≤ s.length ∧ 2 ≤ s.count ∧
    ∀ c i, c < s.count → a ≤ i → i < b → 0 < s.channels.get c i := by
  refine ⟨⟨⟨2, 6, fun c i => c + i⟩, 48000, 3, ["a", "b"]⟩, .int 1, .int 4, 1, 4, rfl, rfl, by decide, by decide, le_refl _, ?_⟩
  intro c i _ hi _
  show (0 : ℝ) < (c : ℝ) + i
  have : (1 : ℝ) ≤ i := by exact_mod_cast hi
  positivity

theorem slope_affine (k : Nat) (hk : 2 ≤ k) (y : Nat → ℝ) (d e : ℝ) :
    slope k (fun i => y i + (d * i + e)) = slope k y + d := by
  unfold slope
  have h := denominator_pos hk
  have e1 : ∑ i ∈ range k, (i : ℝ) * (y i + (d * i + e)) =
      ∑ i ∈ range k, (i : ℝ) * y i + (d * ∑ i ∈ range k, (i : ℝ) ^ 2 + e * ∑ i ∈ range k, (i : ℝ)) := by
    rw [Finset.mul_sum, Finset.mul_sum, ← Finset.sum_add_distrib, ← Finset.sum_add_distrib]
    exact Finset.sum_congr rfl fun i _ => by ring
  have e2 : ∑ i ∈ range k, (y i + (d * i + e)) = ∑ i ∈ range k, y i + (d * ∑ i ∈ range k, (i : ℝ) + e * k) := by
    rw [Finset.mul_sum, show e * (k : ℝ) = ∑ i ∈ range k, e by
      rw [Finset.sum_const, card_range, nsmul_eq_mul, mul_comm], ← Finset.sum_add_distrib, ← Finset.sum_add_distrib]
  rw [e1, e2, div_add' _ _ _ h.ne']
  congr 1
  ring

theorem intercept_affine (k : Nat) (hk : 2 ≤ k) (y : Nat → ℝ) (d e : ℝ) :
    intercept k (fun i => y i + (d * i + e)) = intercept k y + e := by
  unfold intercept
  have hk0 : (k : ℝ) ≠ 0 := Nat.cast_ne_zero.mpr (by omega)
  have e2 : ∑ i ∈ range k, (y i + (d * i + e)) = ∑ i ∈ range k, y i + (d * ∑ i ∈ range k, (i : ℝ) + e * k) := by
    rw [Finset.mul_sum, show e * (k : ℝ) = ∑ i ∈ range k, e by
      rw [Finset.sum_const, card_range, nsmul_eq_mul, mul_comm], ← Finset.sum_add_distrib, ← Finset.sum_add_distrib]
  rw [slope_affine k hk, e2]
  field_simp
  ring

theorem slope_congr {k : Nat} {y z : Nat → ℝ} (h : ∀ i, i < k → y i = z i) : slope k y = slope k z := by
  unfold slope
  rw [show ∑ i ∈ range k, (i : ℝ) * y i = ∑ i ∈ range k, (i : ℝ) * z i from
    Finset.sum_congr rfl fun i hi => by rw [h i (mem_range.mp hi)],
    Finset.sum_congr rfl (f := y) (g := z) fun i hi => h i (mem_range.mp hi)]

theorem intercept_congr {k : Nat} {y z : Nat → ℝ} (h : ∀ i, i < k → y i = z i) : intercept k y = intercept k z := by
  unfold intercept
  rw [slope_congr h, Finset.sum_congr rfl (f := y) (g := z) fun i hi => h i (mem_range.mp hi)]

/-- the line through the points of a line -/
theorem slope_line (k : Nat) (hk : 2 ≤ k) (d e : ℝ) : slope k (fun i => d * i + e) = d := by
  have := slope_affine k hk (fun _ => 0) d e
  simp only [zero_add] at this
  rw [this]
  unfold slope
  simp

theorem intercept_line (k : Nat) (hk : 2 ≤ k) (d e : ℝ) : intercept k (fun i => d * i + e) = e := by
  have := intercept_affine k hk (fun _ => 0) d e
  simp only [zero_add] at this
  rw [this]
  unfold intercept slope
  simp

/-- the samples of the decay model -/
theorem model_of_solution (mem : Nat → Nat → ℝ) (lstsq : Lstsq) (s : Signal ℝ ℝ) (hw : s.labels.length = s.count)
    (start stop : Indexing.Idx) (m n : Nat → ℝ)
    (h : solve lstsq s start stop = some (.ok ((List.range s.count).map fun c => (m c, n c)))) :
    ∃ r, decayModel mem lstsq s start stop = some (.ok r) ∧ r.count = s.count ∧ r.length = s.length ∧
      r.rate = s.rate ∧ r.offset = s.offset ∧ r.labels = s.labels ∧
      ∀ c i, c < s.count → i < s.length → r.channels.get c i = (10 : ℝ) ^ ((m c * i + n c) / 10) := by
  have key : ∀ k, k ≤ s.count → ∃ A : Mat ℝ, pyFor (modelChannel s.length)
      ((List.range k).map fun c => (c, (m c, n c))) (alloc mem s.count s.length) = .ok A ∧ A.rows = s.count ∧
      A.cols = s.length ∧ ∀ c i, c < k → i < s.length → A.get c i = (10 : ℝ) ^ ((m c * i + n c) / 10) := by
    intro k
    induction k with
    | zero => exact fun _ => ⟨_, rfl, rfl, rfl, fun _ _ h => absurd h (by omega)⟩
    | succ k ih =>
      intro hk
      obtain ⟨A, a1, a2, a3, a4⟩ := ih (by omega)
      rw [List.range_succ, List.map_append, pyFor_append, a1]
      obtain ⟨B, b1, b2, b3, b4, b5⟩ := Mat.assign_ok (A := A)
        (S := ⟨1, s.length, fun _ i => (10 : ℝ) ^ ((m k / 10) * i + n k / 10)⟩) (r := .range (k : Nat) (k + 1 : Nat))
        (c := .all) k (k + 1) 0 s.length
        (by rw [PySlice.lo_range, clampBound_nat]; omega) (by rw [PySlice.hi_range, clampBound_nat]; omega) (by simp)
        (by simp [a3]) (by show 1 = k + 1 - k; omega) rfl
      refine ⟨B, ?_, b2.trans a2, b3.trans a3, ?_⟩
      · show (modelChannel s.length A (k, (m k, n k)) >>= _) = _
        unfold modelChannel
        rw [b1]
        rfl
      · intro c i hc hi
        by_cases hck : c = k
        · subst hck
          rw [b4 c i (le_refl _) (by omega) (by omega) hi]
          show (10 : ℝ) ^ ((m c / 10) * ((i - 0 : Nat) : ℝ) + n c / 10) = _
          congr 1
          rw [Nat.sub_zero]
          ring
        · rw [b5 c i (by omega)]
          exact a4 c i (by omega) hi
  obtain ⟨A, a1, a2, a3, a4⟩ := key s.count (le_refl _)
  unfold decayModel
  rw [h]
  have hz : (List.range s.count).zip ((List.range s.count).map fun c => (m c, n c)) =
      (List.range s.count).map fun c => (c, (m c, n c)) := by
    have := List.zip_map' (f := fun c : Nat => c) (g := fun c => (m c, n c)) (l := List.range s.count)
    rw [List.map_id' ] at this
    exact this
  refine ⟨Signal.new A s.rate s.offset (some s.labels), ?_, a2, a3, rfl, rfl,
    Signal.sanitize_self (by show s.labels.length = A.rows; omega), a4⟩
  show some (pyFor (modelChannel s.length) ((List.range s.count).zip _) _ >>= _) = _
  rw [hz, a1]
  rfl

/-- C108: The reverberation time of an impulse response does not change, when the impulse response is multiplied with a number,
and the decay model is multiplied with the square of the number. -/
theorem C108_reverberation_gain (lstsq : Lstsq) (hl : LeastSquares lstsq) (mem1 mem2 mem3 mem4 mem5 : Nat → Nat → ℝ)
    (s : Signal ℝ ℝ) (hs : s.WF) (g : ℝ) (hg : g ≠ 0) (start stop : Indexing.Idx) (a b : Nat)
    (ha : Indexing.index s.length start = some (a : Int)) (hb : Indexing.index s.length stop = some (b : Int))
    (hab : a + 2 ≤ b) (hbl : b ≤ s.length)
    (hpos : ∀ c i, c < s.count → i < b → ∃ j, i ≤ j ∧ j < s.length ∧ s.channels.get c j ≠ 0) :
    ∃ p u v q r, Signal.rmulArray mem1 (.scalar g) s = .ok p ∧ new mem2 s = .ok u ∧ new mem3 p = .ok v ∧
      reverberationTime lstsq v start stop = reverberationTime lstsq u start stop ∧
      decayModel mem4 lstsq u start stop = some (.ok q) ∧ decayModel mem5 lstsq v start stop = some (.ok r) ∧
      Signal.Pointwise (fun x => g ^ 2 * x) q r := by
  obtain ⟨p, u, v, hp, hu, hv, wu, wv, u1, u2, u3, huv⟩ := C108_decay_gain mem1 mem2 mem3 s hs g
  have v1 : v.count = u.count := huv.count
  have v2 : v.length = u.length := huv.length
  have hg2 : 0 < g ^ 2 := by positivity
  have upos : ∀ c i, c < s.count → i < b → 0 < u.channels.get c i := by
    intro c i hc hi
    obtain ⟨u', hu', -, -, -, -, -, u6⟩ := C28_samples mem2 s hs
    rw [hu] at hu'
    cases hu'
    rw [u6 c i hc (by omega)]
    obtain ⟨j, j1, j2, j3⟩ := hpos c i hc hi
    unfold energyFrom
    refine lt_of_lt_of_le (mul_self_pos.mpr j3) ?_
    exact Finset.single_le_sum (f := fun t => s.channels.get c t * s.channels.get c t) (fun t _ => mul_self_nonneg _)
      (Finset.mem_Ico.mpr ⟨j1, j2⟩)
  have hdB : ∀ c i, c < s.count → i < b - a → dB v c (a + i) = dB u c (a + i) + (0 * i + 10 * Real.logb 10 (g ^ 2)) := by
    intro c i hc hi
    have h1 := upos c (a + i) hc (by omega)
    unfold dB
    rw [huv.get (by omega) (by omega), Real.logb_mul hg2.ne' h1.ne']
    ring
  have hslope : ∀ c, c < s.count → slope (b - a) (fun i => dB v c (a + i)) = slope (b - a) (fun i => dB u c (a + i)) := by
    intro c hc
    rw [slope_congr fun i hi => hdB c i hc hi, slope_affine _ (by omega), add_zero]
  have hinter : ∀ c, c < s.count → intercept (b - a) (fun i => dB v c (a + i)) =
      intercept (b - a) (fun i => dB u c (a + i)) + 10 * Real.logb 10 (g ^ 2) := by
    intro c hc
    rw [intercept_congr fun i hi => hdB c i hc hi, intercept_affine _ (by omega)]
  obtain ⟨su, ru⟩ := regression lstsq hl u start stop a b (by rw [u2]; exact ha) (by rw [u2]; exact hb) hab (by omega)
  obtain ⟨sv, rv⟩ := regression lstsq hl v start stop a b (by rw [v2, u2]; exact ha) (by rw [v2, u2]; exact hb) hab
    (by omega)
  obtain ⟨q, hq, q1, q2, q3, q4, -, q6⟩ := model_of_solution mem4 lstsq u wu start stop _ _ su
  obtain ⟨r, hr, r1, r2, r3, r4, -, r6⟩ := model_of_solution mem5 lstsq v wv start stop _ _ sv
  refine ⟨p, u, v, q, r, hp, hu, hv, ?_, hq, hr, Signal.Pointwise.of_get (by rw [r3, q3, huv.rate])
    (by rw [r4, q4, huv.offset]) (by omega) (by omega) ?_⟩
  · rw [ru, rv, v1, huv.rate]
    congr 2
    apply List.map_congr_left
    intro c hc
    rw [hslope c (by rw [← u1]; exact List.mem_range.mp hc)]
  · intro c i hc hi
    rw [q6 c i (by omega) (by omega), r6 c i (by omega) (by omega), hslope c (by omega), hinter c (by omega)]
    rw [show ∀ m k n A l : ℝ, (m * k + (n + 10 * l - A)) / 10 = l + (m * k + (n - A)) / 10 by intros; ring,
      Real.rpow_add (by norm_num), Real.rpow_logb (by norm_num) (by norm_num) hg2]

/-- C108: The decay model of a curve has the same reverberation time as the curve and is its own decay model. -/
theorem C108_decay_model (lstsq : Lstsq) (hl : LeastSquares lstsq) (mem1 mem2 : Nat → Nat → ℝ) (s : Signal ℝ ℝ) (hs : s.WF)
    (start stop : Indexing.Idx) (a b : Nat)
    (ha : Indexing.index s.length start = some (a : Int)) (hb : Indexing.index s.length stop = some (b : Int))
    (hab : a + 2 ≤ b) (hbl : b ≤ s.length)
    (_hpos : ∀ c i, c < s.count → a ≤ i → i < b → 0 < s.channels.get c i) :
    ∃ r q, decayModel mem1 lstsq s start stop = some (.ok r) ∧ r.labels = s.labels ∧
      reverberationTime lstsq r start stop = reverberationTime lstsq s start stop ∧
      decayModel mem2 lstsq r start stop = some (.ok q) ∧ Signal.Same q r := by
  obtain ⟨ss, rs⟩ := regression lstsq hl s start stop a b ha hb hab hbl
  obtain ⟨r, hr, r1, r2, r3, r4, r5, r6⟩ := model_of_solution mem1 lstsq s hs start stop _ _ ss
  have wr : r.labels.length = r.count := by rw [r5, r1]; exact hs
  have hdB : ∀ c i, c < s.count → i < b - a → dB r c (a + i) =
      slope (b - a) (fun i => dB s c (a + i)) * i + intercept (b - a) (fun i => dB s c (a + i)) := by
    intro c i hc hi
    unfold dB
    rw [r6 c (a + i) hc (by omega), Real.logb_rpow (by norm_num) (by norm_num)]
    push_cast
    unfold dB
    ring
  have e1 : ∀ c, c < s.count → slope (b - a) (fun i => dB r c (a + i)) = slope (b - a) (fun i => dB s c (a + i)) := by
    intro c hc
    rw [slope_congr fun i hi => hdB c i hc hi, slope_line _ (by omega)]
  have e2 : ∀ c, c < s.count → intercept (b - a) (fun i => dB r c (a + i)) = intercept (b - a) (fun i => dB s c (a + i)) := by
    intro c hc
    rw [intercept_congr fun i hi => hdB c i hc hi, intercept_line _ (by omega)]
  obtain ⟨sr, rr⟩ := regression lstsq hl r start stop a b (by rw [r2]; exact ha) (by rw [r2]; exact hb) hab (by omega)
  obtain ⟨q, hq, q1, q2, q3, q4, q5, q6⟩ := model_of_solution mem2 lstsq r wr start stop _ _ sr
  refine ⟨r, q, hr, r5, ?_, hq, q3, q4, q5, q1, q2, ?_⟩
  · rw [rr, rs, r1, r3]
    congr 2
    apply List.map_congr_left
    intro c hc
    rw [e1 c (List.mem_range.mp hc)]
  · intro c i hc hi
    have hc' : c < r.count := by rw [← q1]; exact hc
    have hi' : i < r.length := by rw [← q2]; exact hi
    rw [q6 c i hc' hi', r6 c i (by omega) (by omega), e1 c (by omega), e2 c (by omega)]

/-- The hypotheses can be satisfied. -/
example : ∃ (s : Signal ℝ ℝ) (start stop : Indexing.Idx) (a b : Nat), s.WF ∧
    Indexing.index s.length start = some (a : Int) ∧ Indexing.index s.length stop = some (b : Int) ∧ a + 2 ≤ b ∧
    b ≤ s.length ∧ 2 ≤ s.count ∧
    ∀ c i, c < s.count → i < b → ∃ j, i ≤ j ∧ j < s.length ∧ s.channels.get c j ≠ 0 := by
  refine ⟨⟨⟨2, 6, fun c i => c + i⟩, 48000, 3, ["a", "b"]⟩, .int 1, .int 4, 1, 4, rfl, rfl, rfl, by decide, by decide, le_refl _, ?_⟩
  intro c i _ hi
  refine ⟨5, by omega, by decide, ?_⟩
  show (c : ℝ) + (5 : Nat) ≠ 0
  positivity

example : ∃ lstsq : Lstsq, LeastSquares lstsq := exists_leastSquares

end EnergyDecay
end Verif
