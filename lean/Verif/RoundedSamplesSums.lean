import Verif.RoundedSamples
import Verif.RoundingProps
import Mathlib.Algebra.BigOperators.Group.Finset.Basic
import Mathlib.Algebra.Order.BigOperators.Group.Finset
import Mathlib.Algebra.Order.BigOperators.Group.List
import Mathlib.Algebra.BigOperators.Ring.Finset
import Mathlib.Algebra.Order.Ring.Pow
import Mathlib.Tactic.GCongr
import Mathlib.Tactic.Linarith

/-
Properties of the rounding and of rounded sums, which are needed for `RoundedSamplesProps.lean`.
-/

namespace Verif
namespace Double

open Indexing

/-! ### rounding is odd, monotone and idempotent -/

theorem pyRound_neg (q : ℚ) : pyRound (-q) = -pyRound q := by
  by_cases h : |q - pyRound q| < 1 / 2
  · apply pyRound_near
    rw [show -q - ((-pyRound q : Int) : ℚ) = -(q - pyRound q) by push_cast; ring, abs_neg]
    exact h
  · -- the fractional part is one half
    have h1 : q - ⌊q⌋ = 1 / 2 := by
      by_contra hne
      apply h
      have f1 := Int.floor_le q
      have f2 := Int.lt_floor_add_one q
      unfold pyRound
      dsimp only
      rcases lt_or_gt_of_ne hne with hl | hl
      · rw [if_pos hl, abs_lt]
        constructor <;> linarith
      · rw [if_neg (by linarith), if_pos hl, abs_lt]
        push_cast
        constructor <;> linarith
    have h2 : ⌊-q⌋ = -⌊q⌋ - 1 := by
      rw [Int.floor_eq_iff]
      push_cast
      constructor <;> linarith
    unfold pyRound
    dsimp only
    rw [h2, h1]
    push_cast
    rw [show -q - (-(⌊q⌋ : ℚ) - 1) = 1 / 2 by linarith]
    simp only [lt_irrefl, if_false]
    split_ifs <;> omega

theorem ulp_neg (x : ℚ) : ulp (-x) = ulp x := by
  unfold ulp
  rw [abs_neg]

theorem fl_neg (x : ℚ) : fl (-x) = -fl x := by
  unfold fl
  rw [ulp_neg, neg_div, pyRound_neg]
  push_cast
  ring

theorem fl_zero : fl 0 = 0 := by
  have := fl_error 0
  simpa using this

theorem fl_nonneg {x : ℚ} (h : 0 ≤ x) : 0 ≤ fl x := by
  obtain ⟨e, he, h'⟩ := fl_rel x
  rw [h']
  have := abs_le.1 he
  apply mul_nonneg h
  norm_num at this ⊢
  linarith

theorem log_bounds {x : ℚ} (hx : 0 < x) : (2 : ℚ) ^ Int.log 2 x ≤ x ∧ x < (2 : ℚ) ^ (Int.log 2 x + 1) :=
  ⟨by exact_mod_cast Int.zpow_log_le_self (b := 2) one_lt_two hx,
    by exact_mod_cast Int.lt_zpow_succ_log_self (b := 2) one_lt_two x⟩

theorem fl_bounds {x : ℚ} (hx : 0 < x) : (2 : ℚ) ^ Int.log 2 x ≤ fl x ∧ fl x ≤ (2 : ℚ) ^ (Int.log 2 x + 1) := by
  obtain ⟨h1, h2⟩ := log_bounds hx
  have hp := ulp_pos x
  have hu : ulp x = 2 ^ (Int.log 2 x - 52) := by unfold ulp; rw [abs_of_pos hx]
  have e1 : (2 : ℚ) ^ Int.log 2 x = ((2 ^ 52 : Int) : ℚ) * ulp x := by
    rw [hu, zpow_sub₀ two_ne_zero]
    push_cast
    ring
  have e2 : (2 : ℚ) ^ (Int.log 2 x + 1) = ((2 ^ 53 : Int) : ℚ) * ulp x := by
    rw [zpow_add₀ two_ne_zero, e1]
    push_cast
    ring
  rw [e1] at h1
  rw [e2] at h2
  rw [e1, e2]
  unfold fl
  constructor
  · gcongr
    rw [← pyRound_int (2 ^ 52)]
    apply pyRound_mono
    rwa [le_div_iff₀ hp]
  · gcongr
    rw [← pyRound_int (2 ^ 53)]
    apply pyRound_mono
    rw [div_le_iff₀ hp]
    exact h2.le

theorem fl_mono_pos {x y : ℚ} (hx : 0 < x) (h : x ≤ y) : fl x ≤ fl y := by
  have hy := lt_of_lt_of_le hx h
  rcases (Int.log_mono_right (b := 2) hx h).lt_or_eq with hl | hl
  · refine (fl_bounds hx).2.trans (le_trans ?_ (fl_bounds hy).1)
    exact zpow_le_zpow_right₀ (by norm_num) (by omega)
  · have hu : ulp x = ulp y := by
      unfold ulp
      rw [abs_of_pos hx, abs_of_pos hy, hl]
    unfold fl
    have hp := ulp_pos y
    rw [hu]
    gcongr
    apply pyRound_mono
    gcongr

theorem fl_mono {x y : ℚ} (h : x ≤ y) : fl x ≤ fl y := by
  rcases lt_or_ge 0 x with hx | hx
  · exact fl_mono_pos hx h
  · rcases le_or_gt 0 y with hy | hy
    · have := fl_nonneg hy
      have := fl_nonneg (neg_nonneg.2 hx)
      rw [fl_neg] at this
      linarith
    · have := fl_mono_pos (neg_pos.2 hy) (neg_le_neg h)
      rw [fl_neg, fl_neg] at this
      linarith

theorem ulp_scale {x : ℚ} (hx : x ≠ 0) (k : Int) : ulp (x * 2 ^ k) = ulp x * 2 ^ k := by
  obtain ⟨h1, h2⟩ := log_bounds (abs_pos.2 hx)
  have hk : (0 : ℚ) < 2 ^ k := by positivity
  have h3 : |x * 2 ^ k| = |x| * 2 ^ k := by rw [abs_mul, abs_of_pos hk]
  have h4 : Int.log 2 |x * 2 ^ k| = Int.log 2 |x| + k := by
    apply log_unique
    · rw [h3, zpow_add₀ two_ne_zero]
      gcongr
    · rw [h3, show Int.log 2 |x| + k + 1 = Int.log 2 |x| + 1 + k by ring, zpow_add₀ two_ne_zero]
      gcongr
  unfold ulp
  rw [h4, show Int.log 2 |x| + k - 52 = Int.log 2 |x| - 52 + k by ring, zpow_add₀ two_ne_zero]

theorem fl_scale (x : ℚ) (k : Int) : fl (x * 2 ^ k) = fl x * 2 ^ k := by
  by_cases hx : x = 0
  · subst hx
    rw [zero_mul, fl_zero, zero_mul]
  · have hp := ulp_pos x
    have hk : (0 : ℚ) < 2 ^ k := by positivity
    unfold fl
    rw [ulp_scale hx, mul_div_mul_right _ _ hk.ne']
    ring

theorem fl_idem (x : ℚ) : fl (fl x) = fl x := by
  by_cases hx : x = 0
  · subst hx
    rw [fl_zero, fl_zero]
  · have hp := ulp_pos x
    have h2 := (log_bounds (abs_pos.2 hx)).2
    have e2 : (2 : ℚ) ^ (Int.log 2 |x| + 1) = 2 ^ 53 * ulp x := by
      unfold ulp
      rw [zpow_add₀ two_ne_zero, zpow_sub₀ two_ne_zero]
      norm_num
      ring
    rw [e2] at h2
    have h3 := abs_lt.1 h2
    have hm : |pyRound (x / ulp x)| ≤ 2 ^ 53 := by
      rw [abs_le]
      constructor
      · rw [← pyRound_int (-2 ^ 53)]
        apply pyRound_mono
        rw [le_div_iff₀ hp]
        push_cast
        linarith
      · rw [← pyRound_int (2 ^ 53)]
        apply pyRound_mono
        rw [div_le_iff₀ hp]
        push_cast
        linarith
    have e : fl x = (pyRound (x / ulp x) : ℚ) * 2 ^ (Int.log 2 |x| - 52) := rfl
    rw [e, fl_scale, fl_int _ hm]

/-- adding a number, which is not negative, to a floating point number does not decrease it -/
theorem le_fl_add {a b : ℚ} (ha : fl a = a) (hb : 0 ≤ b) : a ≤ fl (a + b) := by
  have := fl_mono (show a ≤ a + b by linarith)
  rwa [ha] at this

/-! ### the growth of rounding errors -/

/-- the relative error after `m` roundings -/
def growth (m : Nat) : ℚ := (1 + 1 / 2 ^ 53) ^ m - 1

theorem growth_nonneg (m : Nat) : 0 ≤ growth m := by
  unfold growth
  have : (1 : ℚ) ≤ (1 + 1 / 2 ^ 53) ^ m := one_le_pow₀ (by norm_num)
  linarith

theorem growth_mono {m n : Nat} (h : m ≤ n) : growth m ≤ growth n := by
  unfold growth
  have : (1 + 1 / 2 ^ 53 : ℚ) ^ m ≤ (1 + 1 / 2 ^ 53) ^ n := pow_le_pow_right₀ (by norm_num) h
  linarith

theorem growth_succ (m : Nat) : growth (m + 1) = (1 + 1 / 2 ^ 53) * growth m + 1 / 2 ^ 53 := by
  unfold growth
  rw [pow_succ]
  ring

theorem growth_le (m : Nat) (hm : m ≤ 2 ^ 52) : growth m ≤ m / 2 ^ 52 := by
  unfold growth
  have hm' : (m : ℚ) ≤ 2 ^ 52 := by exact_mod_cast hm
  have h1 : 1 + (m : ℚ) * (-(1 / 2 ^ 53)) ≤ (1 + -(1 / 2 ^ 53)) ^ m := one_add_mul_le_pow (by norm_num) m
  have h2 : (1 + 1 / 2 ^ 53 : ℚ) ^ m * (1 + -(1 / 2 ^ 53)) ^ m ≤ 1 := by
    rw [← mul_pow]
    exact pow_le_one₀ (by norm_num) (by norm_num)
  obtain ⟨p, hp⟩ : ∃ p, p = (1 + 1 / 2 ^ 53 : ℚ) ^ m := ⟨_, rfl⟩
  rw [← hp] at h2 ⊢
  have hp0 : 0 < p := by rw [hp]; positivity
  have h3 : p * (1 + (m : ℚ) * (-(1 / 2 ^ 53))) ≤ 1 := le_trans (by gcongr) h2
  have hm0 : (0 : ℚ) ≤ m := by positivity
  -- `p * (1 - e) ≤ 1` with `e ≤ 1/2`, so `p ≤ 2` and `p - 1 ≤ p * e ≤ 2 * e`
  have h4 : p ≤ 2 := by
    have : p * (1 / 2) ≤ p * (1 + (m : ℚ) * (-(1 / 2 ^ 53))) := by
      gcongr
      have : (m : ℚ) * (1 / 2 ^ 53) ≤ 2 ^ 52 * (1 / 2 ^ 53) := by gcongr
      norm_num at this ⊢
      linarith
    linarith
  have h5 : p * ((m : ℚ) * (1 / 2 ^ 53)) ≤ 2 * ((m : ℚ) * (1 / 2 ^ 53)) := by gcongr
  have h6 : p * (1 + (m : ℚ) * (-(1 / 2 ^ 53))) = p - p * ((m : ℚ) * (1 / 2 ^ 53)) := by ring
  have h7 : 2 * ((m : ℚ) * (1 / 2 ^ 53)) = m / 2 ^ 52 := by ring
  linarith

/-- rounding a number, that has an error already -/
theorem fl_growth {x y s : ℚ} {m : Nat} (h : |y - x| ≤ growth m * s) (hs : |x| ≤ s) : |fl y - x| ≤ growth (m + 1) * s := by
  have h1 := fl_error y
  have h2 : |y| ≤ |y - x| + |x| := by
    calc |y| = |(y - x) + x| := by ring_nf
      _ ≤ _ := abs_add_le _ _
  have h3 : |fl y - x| ≤ |fl y - y| + |y - x| := by
    calc |fl y - x| = |(fl y - y) + (y - x)| := by ring_nf
      _ ≤ _ := abs_add_le _ _
  rw [growth_succ]
  have : |y| / 2 ^ 53 ≤ (growth m * s + s) / 2 ^ 53 := by
    gcongr
    linarith
  calc _ ≤ (growth m * s + s) / 2 ^ 53 + growth m * s := by linarith
    _ = _ := by ring

/-! ### sums in an arbitrary order -/

namespace Order

/-- the exact sum -/
def exact (x : Nat → ℚ) (t : Order) : ℚ := (t.leaves.map x).sum

theorem exact_node (x : Nat → ℚ) (l r : Order) : (node l r).exact x = l.exact x + r.exact x := by
  simp [exact, leaves]

theorem leaves_pos (t : Order) : 0 < t.leaves.length := by
  induction t with
  | leaf i => simp [leaves]
  | node l r ihl ihr => simp only [leaves, List.length_append]; omega

theorem abs_exact (x : Nat → ℚ) (t : Order) : |t.exact x| ≤ t.exact fun i => |x i| := by
  induction t with
  | leaf i => simp [exact, leaves]
  | node l r ihl ihr =>
    rw [exact_node, exact_node]
    exact (abs_add_le _ _).trans (add_le_add ihl ihr)

theorem exact_mono {x y : Nat → ℚ} (h : ∀ i, x i ≤ y i) (t : Order) : t.exact x ≤ t.exact y := by
  induction t with
  | leaf i => simpa [exact, leaves] using h i
  | node l r ihl ihr =>
    rw [exact_node, exact_node]
    exact add_le_add ihl ihr

theorem exact_nonneg {x : Nat → ℚ} (h : ∀ i, 0 ≤ x i) (t : Order) : 0 ≤ t.exact x := by
  induction t with
  | leaf i => simpa [exact, leaves] using h i
  | node l r ihl ihr =>
    rw [exact_node]
    exact add_nonneg ihl ihr

theorem exact_mul (x : Nat → ℚ) (a : ℚ) (t : Order) : (t.exact fun i => a * x i) = a * t.exact x := by
  induction t with
  | leaf i => simp [exact, leaves]
  | node l r ihl ihr =>
    rw [exact_node, exact_node, ihl, ihr]
    ring

/-- the error of a rounded sum, whose terms have been rounded `m` times -/
theorem sum_error (x y : Nat → ℚ) (m : Nat) (h : ∀ i, |y i - x i| ≤ growth m * |x i|) (t : Order) :
    |t.sum y - t.exact x| ≤ growth (m + (t.leaves.length - 1)) * t.exact fun i => |x i| := by
  induction t with
  | leaf i => simpa [exact, leaves, sum] using h i
  | node l r ihl ihr =>
    have pl := l.leaves_pos
    have pr := r.leaves_pos
    have e : m + ((node l r).leaves.length - 1) = m + (l.leaves.length + r.leaves.length - 2) + 1 := by
      simp only [leaves, List.length_append]
      omega
    rw [e, exact_node, exact_node]
    have al := exact_nonneg (x := fun i => |x i|) (fun i => abs_nonneg _) l
    have ar := exact_nonneg (x := fun i => |x i|) (fun i => abs_nonneg _) r
    apply fl_growth
    · have gl : growth (m + (l.leaves.length - 1)) ≤ growth (m + (l.leaves.length + r.leaves.length - 2)) :=
        growth_mono (by omega)
      have gr : growth (m + (r.leaves.length - 1)) ≤ growth (m + (l.leaves.length + r.leaves.length - 2)) :=
        growth_mono (by omega)
      have bl := ihl.trans (mul_le_mul_of_nonneg_right gl al)
      have br := ihr.trans (mul_le_mul_of_nonneg_right gr ar)
      calc _ = |(l.sum y - l.exact x) + (r.sum y - r.exact x)| := by
            congr 1
            ring
        _ ≤ _ := abs_add_le _ _
        _ ≤ _ := add_le_add bl br
        _ = _ := by ring
    · exact (abs_add_le _ _).trans (add_le_add (abs_exact x l) (abs_exact x r))

/-- sums of integers are exact, as long as they do not exceed the largest number, up to which all integers are floating
point numbers -/
theorem sum_int (x : Nat → ℤ) (t : Order) (h : (t.exact fun i => |(x i : ℚ)|) ≤ 2 ^ 53) :
    t.sum (fun i => (x i : ℚ)) = t.exact (fun i => (x i : ℚ)) := by
  have cast : ∀ t : Order, t.exact (fun i => (x i : ℚ)) = (((t.leaves.map x).sum : ℤ) : ℚ) := by
    intro t
    induction t with
    | leaf i => simp [exact, leaves]
    | node l r ihl ihr => rw [exact_node, ihl, ihr]; simp [leaves]
  induction t with
  | leaf i => simp [exact, leaves, sum]
  | node l r ihl ihr =>
    have a := abs_exact (fun i => (x i : ℚ)) (node l r)
    rw [exact_node] at h
    have al := exact_nonneg (x := fun i => |(x i : ℚ)|) (fun i => abs_nonneg _) l
    have ar := exact_nonneg (x := fun i => |(x i : ℚ)|) (fun i => abs_nonneg _) r
    show fl (l.sum _ + r.sum _) = _
    rw [ihl (by linarith), ihr (by linarith), ← exact_node, cast]
    apply fl_int
    rw [exact_node (fun i => |(x i : ℚ)|), cast] at a
    exact_mod_cast a.trans h

/-- the sum of numbers, which are not negative, is not negative -/
theorem sum_nonneg {x : Nat → ℚ} (h : ∀ i, 0 ≤ x i) (t : Order) : 0 ≤ t.sum x := by
  induction t with
  | leaf i => exact h i
  | node l r ihl ihr => exact fl_nonneg (add_nonneg ihl ihr)

end Order

end Double
end Verif
