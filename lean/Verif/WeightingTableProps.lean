import Verif.WeightingTable
import Verif.FilterLevelProps
import Mathlib.Data.List.GetD

/-
Property C137: the weighting filters follow the tables of the standards.
-/

namespace Verif
namespace Filter

/-! ### certificates -/

/-- The quotients of the bounds are rounded to 20 digits and compared to the bounds, that are given by the table. `k` is the
number of the frequency band and `m` is the level in tenths of a decibel. -/
def certificate (w : Weighting) (k : Nat) (m : Int) : Bool :=
  match (numerator w).ival curveIntervals (squareInterval k), (denominator w).ival curveIntervals (squareInterval k),
    (numerator w).ival curveIntervals (squareInterval 30), (denominator w).ival curveIntervals (squareInterval 30) with
  | some n, some d, some n0, some d0 =>
    let l := n.1 * d0.1 / (d.2 * n0.2)
    let u := n.2 * d0.2 / (d.1 * n0.1)
    decide (0 < d.1) && decide (0 < n0.1) && decide (0 < d0.1) && decide (0 < n.1) && decide (-1500 < m) &&
      decide (10 ^ (4000 + (2 * m - 1)).toNat ≤ (l.num.toNat * 10 ^ 20 / l.den) ^ 200) &&
      decide ((u.num.toNat * 10 ^ 20 / u.den + 1) ^ 200 ≤ 10 ^ (4000 + (2 * m + 1)).toNat)
  | _, _, _, _ => false

theorem round_down {l : ℚ} (hl : 0 ≤ l) (D : Nat) : ((l.num.toNat * D / l.den : Nat) : ℝ) ≤ l * D := by
  have h1 : ((l.num.toNat * D / l.den : Nat) : ℝ) ≤ ((l.num.toNat * D : Nat) : ℝ) / l.den := Nat.cast_div_le
  refine h1.trans (le_of_eq ?_)
  have h2 : ((l.num.toNat : Nat) : ℝ) = (l.num : ℝ) := by
    have := Int.toNat_of_nonneg (Rat.num_nonneg.mpr hl)
    exact_mod_cast this
  have h3 : (l : ℝ) = l.num / l.den := Rat.cast_def l
  push_cast
  rw [h2, h3]
  ring

theorem round_up {u : ℚ} (hu : 0 ≤ u) (D : Nat) : u * D ≤ ((u.num.toNat * D / u.den + 1 : Nat) : ℝ) := by
  have h2 : ((u.num.toNat : Nat) : ℝ) = (u.num : ℝ) := by
    have := Int.toNat_of_nonneg (Rat.num_nonneg.mpr hu)
    exact_mod_cast this
  have h3 : (u : ℝ) = u.num / u.den := Rat.cast_def u
  have hd : (0 : ℝ) < u.den := Nat.cast_pos.mpr u.den_pos
  have h4 : u.num.toNat * D < u.den * (u.num.toNat * D / u.den + 1) := Nat.lt_mul_div_succ _ u.den_pos
  have h5 : ((u.num.toNat * D : Nat) : ℝ) ≤ ((u.den * (u.num.toNat * D / u.den + 1) : Nat) : ℝ) := Nat.cast_le.mpr h4.le
  rw [h3, div_mul_eq_mul_div, div_le_iff₀ hd, ← h2]
  push_cast at h5 ⊢
  linarith

theorem level_bounds {R : ℝ} (hpos : 0 < R) {A B : Nat} {m : Int} (hm : -1500 < m)
    (c1 : 10 ^ (4000 + (2 * m - 1)).toNat ≤ A ^ 200) (c2 : B ^ 200 ≤ 10 ^ (4000 + (2 * m + 1)).toNat)
    (r1 : (A : ℝ) ≤ R * 10 ^ 20) (r2 : R * 10 ^ 20 ≤ B) : |10 * Real.logb 10 R - m / 10| ≤ 1 / 20 := by
  have ten : ∀ z : Int, 0 ≤ z → (((10 ^ z.toNat : Nat)) : ℝ) = (10 : ℝ) ^ (z : ℝ) := by
    intro z hz
    rw [Nat.cast_pow, Nat.cast_ofNat, ← Real.rpow_natCast]
    congr 1
    have := Int.toNat_of_nonneg hz
    exact_mod_cast this
  have hlog : Real.logb 10 ((R * 10 ^ 20) ^ 200) = 200 * Real.logb 10 R + 4000 := by
    rw [Real.logb_pow, Real.logb_mul hpos.ne' (by positivity), Real.logb_pow, Real.logb_self_eq_one (by norm_num)]
    push_cast
    ring
  have b1 : (10 : ℝ) ^ ((4000 + (2 * m - 1) : Int) : ℝ) ≤ (R * 10 ^ 20) ^ 200 := by
    rw [← ten _ (by omega)]
    refine (Nat.cast_le.mpr c1).trans ?_
    rw [Nat.cast_pow]
    exact pow_le_pow_left₀ (by positivity) r1 200
  have b2 : (R * 10 ^ 20) ^ 200 ≤ (10 : ℝ) ^ ((4000 + (2 * m + 1) : Int) : ℝ) := by
    rw [← ten _ (by omega)]
    refine le_trans ?_ (Nat.cast_le.mpr c2)
    rw [Nat.cast_pow]
    exact pow_le_pow_left₀ (by positivity) r2 200
  have h1 : ((4000 + (2 * m - 1) : Int) : ℝ) ≤ 200 * Real.logb 10 R + 4000 := by
    rw [← hlog, Real.le_logb_iff_rpow_le (by norm_num) (by positivity)]
    exact b1
  have h2 : 200 * Real.logb 10 R + 4000 ≤ ((4000 + (2 * m + 1) : Int) : ℝ) := by
    rw [← hlog, Real.logb_le_iff_le_rpow (by norm_num) (by positivity)]
    exact b2
  push_cast at h1 h2
  rw [abs_le]
  constructor <;> linarith

/-- the level, that is computed from the squared magnitude -/
theorem certificate_sound {w : Weighting} {k : Nat} {m : Int} (h : certificate w k m = true) :
    0 < weightingSpec w ((10 : ℝ) ^ ((k : ℝ) / 10)) / weightingSpec w 1000 ∧
    |10 * Real.logb 10 (weightingSpec w ((10 : ℝ) ^ ((k : ℝ) / 10)) / weightingSpec w 1000) - m / 10| ≤ 1 / 20 := by
  unfold certificate at h
  split at h
  swap
  · cases h
  rename_i n d n0 d0 hn hd hn0 hd0
  simp only [Bool.and_eq_true, decide_eq_true_eq] at h
  obtain ⟨⟨⟨⟨⟨⟨p1, p2⟩, p3⟩, p4⟩, hm⟩, c1⟩, c2⟩ := h
  obtain ⟨-, n1, n2⟩ := PExp.sound constants_within (square_within k) _ _ hn
  obtain ⟨-, d1, d2⟩ := PExp.sound constants_within (square_within k) _ _ hd
  obtain ⟨-, n3, n4⟩ := PExp.sound constants_within (square_within 30) _ _ hn0
  obtain ⟨-, d3, d4⟩ := PExp.sound constants_within (square_within 30) _ _ hd0
  have e30 : (10 : ℝ) ^ (((30 : Nat) : ℝ) / 10) = 1000 := by
    norm_num
  rw [e30] at n3 n4 d3 d4
  rw [spec_expression, spec_expression, div_div_div_eq]
  set N := (numerator w).real curveEnv (((10 : ℝ) ^ ((k : ℝ) / 10)) ^ 2)
  set Dn := (denominator w).real curveEnv (((10 : ℝ) ^ ((k : ℝ) / 10)) ^ 2)
  set N0 := (numerator w).real curveEnv (1000 ^ 2)
  set D0 := (denominator w).real curveEnv (1000 ^ 2)
  have q1 : (0 : ℝ) < d.1 := by exact_mod_cast p1
  have q2 : (0 : ℝ) < n0.1 := by exact_mod_cast p2
  have q3 : (0 : ℝ) < d0.1 := by exact_mod_cast p3
  have q4 : (0 : ℝ) < n.1 := by exact_mod_cast p4
  have hN : 0 < N := q4.trans_le n1
  have hD : 0 < Dn := q1.trans_le d1
  have hN0 : 0 < N0 := q2.trans_le n3
  have hD0 : 0 < D0 := q3.trans_le d3
  have hl : ((n.1 * d0.1 / (d.2 * n0.2) : ℚ) : ℝ) ≤ N * D0 / (Dn * N0) := by
    push_cast
    refine div_le_div₀ (by positivity) (mul_le_mul n1 d3 q3.le hN.le) (by positivity) (mul_le_mul d2 n4 hN0.le ?_)
    exact hD.le.trans d2
  have hu : N * D0 / (Dn * N0) ≤ ((n.2 * d0.2 / (d.1 * n0.1) : ℚ) : ℝ) := by
    push_cast
    have : (0 : ℝ) ≤ n.2 := hN.le.trans n2
    have : (0 : ℝ) ≤ d0.2 := hD0.le.trans d4
    exact div_le_div₀ (by positivity) (mul_le_mul n2 d4 hD0.le (by assumption)) (by positivity) (mul_le_mul d1 n3 q2.le hD.le)
  have hpos : 0 < N * D0 / (Dn * N0) := by positivity
  set R := N * D0 / (Dn * N0)
  have l0 : 0 ≤ n.1 * d0.1 / (d.2 * n0.2) := by
    have a1 : 0 ≤ d.2 := by exact_mod_cast hD.le.trans d2
    have a2 : 0 ≤ n0.2 := by exact_mod_cast hN0.le.trans n4
    positivity
  have u0 : 0 ≤ n.2 * d0.2 / (d.1 * n0.1) := by exact_mod_cast hpos.le.trans hu
  generalize n.1 * d0.1 / (d.2 * n0.2) = l at *
  generalize n.2 * d0.2 / (d.1 * n0.1) = u at *
  refine ⟨hpos, level_bounds hpos hm c1 c2 ((round_down l0 _).trans ?_) (le_trans ?_ (round_up u0 _))⟩
  · rw [Nat.cast_pow, Nat.cast_ofNat]
    exact mul_le_mul_of_nonneg_right hl (by positivity)
  · rw [Nat.cast_pow, Nat.cast_ofNat]
    exact mul_le_mul_of_nonneg_right hu (by positivity)

/-! ### the tables -/

/-- the levels in tenths of a decibel, that are tabulated in ANSI S1.4, IEC 537 and IEC 61012 for the frequencies
`10 ** (k / 10)` with `k` starting at 10 -/
def table : Weighting → List Int
  | .a => [-704, -634, -567, -505, -447, -394, -346, -302, -262, -225, -191, -161, -134, -109, -86, -66, -48,
      -32, -19, -8, 0, 6, 10, 12, 13, 12, 10, 5, -1, -11, -25, -43, -66, -93]
  | .b => [-382, -332, -285, -242, -204, -171, -142, -116, -93, -74, -56, -42, -30, -20, -13, -8, -5, -3, -1,
      0, 0, 0, 0, -1, -2, -4, -7, -12, -19, -29, -43, -61, -84, -111]
  | .c => [-143, -112, -85, -62, -44, -30, -20, -13, -8, -5, -3, -2, -1, 0, 0, 0, 0, 0, 0, 0, 0, 0, -1, -2,
      -3, -5, -8, -13, -20, -30, -44, -62, -85, -112]
  | .d => [-266, -246, -226, -206, -187, -167, -147, -128, -109, -90, -72, -55, -40, -26, -16, -8, -4, -3, -5,
      -6, 0, 20, 49, 79, 104, 115, 111, 96, 76, 55, 34, 14, -7, -27]
  | .u => [0, 0, 0, 0, 0, 0, 0, 0, 0, 0, 0, 0, 0, 0, 0, 0, 0, 0, 0, 0, 0, 0, 0, 0, 0, 0, 0, 0, 0, 1, 0, -28,
      -130, -253, -376, -497, -618]

/-- the largest level of the table -/
def largest : Weighting → Int
  | .a => 13
  | _ => 0

/-- the table with values for the frequencies before the first one and after the last one -/
def extended : Weighting → List Int
  | .a => -778 :: table .a ++ [-124]
  | .b => -436 :: table .b ++ [-142]
  | .c => -177 :: table .c ++ [-143]
  | _ => []

theorem table_certificates :
    ∀ w ∈ [Weighting.a, .b, .c, .d, .u], ∀ i ∈ List.range (table w).length, certificate w (10 + i) ((table w).getD i 0) = true := by
  decide +kernel

theorem extended_certificates :
    ∀ w ∈ [Weighting.a, .b, .c], certificate w 9 ((extended w).getD 0 0) = true ∧
      certificate w 44 ((extended w).getD 35 0) = true := by
  decide +kernel

/-! ### C137 -/

/-- the level in decibels of a value of a transfer function -/
noncomputable def decibels (z : ℂ) : ℝ := 20 * Real.logb 10 ‖z‖

theorem decibels_eq {z : ℂ} {R : ℝ} (h : ‖z‖ ^ 2 = R) : decibels z = 10 * Real.logb 10 R := by
  unfold decibels
  rw [← h, Real.logb_pow]
  push_cast
  ring

theorem table_value (w : Weighting) {i : Nat} (hi : i < (table w).length) :
    certificate w (10 + i) ((table w).getD i 0) = true :=
  table_certificates w (by cases w <;> simp) i (List.mem_range.mpr hi)

/-- C137: The levels of the weighting filters at the frequencies of the tables are the tabulated ones, if they are rounded to
tenths of a decibel. -/
theorem C137_table (w : Weighting) (mem : ℂ) :
    ∃ a, w.filter complexEnv = .ok a ∧ ∀ i, (hi : i < (table w).length) → ∃ z,
      a.call complexEnv mem ((10 : ℝ) ^ ((10 + i : ℝ) / 10)) = [some z] ∧ |decibels z - ((table w)[i] : ℝ) / 10| ≤ 1 / 20 := by
  obtain ⟨a, h1, -, -, h2⟩ := C40_weighting w mem
  refine ⟨a, h1, fun i hi => ?_⟩
  obtain ⟨z, hz, hn⟩ := h2 ((10 : ℝ) ^ ((10 + i : ℝ) / 10)) (Real.rpow_nonneg (by norm_num) _)
  refine ⟨z, hz, ?_⟩
  have := (certificate_sound (table_value w hi)).2
  rw [List.getD_eq_getElem _ _ hi] at this
  rw [decibels_eq hn]
  push_cast at this
  exact this

example : (table .a)[24]? = some 13 ∧ (table .u).length = 37 := by decide

/-- the level at the frequency `10 ** (y / 10)` -/
noncomputable def levelAt (H : ℝ → ℂ) (y : ℝ) : ℝ := decibels (H ((10 : ℝ) ^ (y / 10)))

theorem levelAt_concave {w : Weighting} (hw : w = .a ∨ w = .b ∨ w = .c) {H : ℝ → ℂ}
    (h : ∀ f, 0 < f → ‖H f‖ ^ 2 = weightingSpec w f / weightingSpec w 1000) {a b y : ℝ} (hab : a ≤ b) (hby : b ≤ y)
    (hay : a < y) : (y - b) * levelAt H a + (b - a) * levelAt H y ≤ (y - a) * levelAt H b := by
  have hpos : ∀ x : ℝ, 0 < (10 : ℝ) ^ (x / 10) := fun x => Real.rpow_pos_of_pos (by norm_num) _
  have hn : ∀ x : ℝ, 0 < ‖H ((10 : ℝ) ^ (x / 10))‖ := by
    intro x
    have h1 := spec_pos hw (hpos x)
    have h2 := spec_pos hw (f := 1000) (by norm_num)
    have h3 := h _ (hpos x)
    have h4 : 0 < ‖H ((10 : ℝ) ^ (x / 10))‖ ^ 2 := by
      rw [h3]
      positivity
    exact lt_of_le_of_ne (norm_nonneg _) fun e => by rw [← e] at h4; norm_num at h4
  have hd : 0 < y - a := by linarith
  have hc := magnitude_concave hw h _ _ ((b - a) / (y - a)) (hpos a) (hpos y) (div_nonneg (by linarith) hd.le)
    ((div_le_one hd).mpr (by linarith))
  dsimp only at hc
  rw [← Real.rpow_mul (by norm_num), ← Real.rpow_mul (by norm_num), ← Real.rpow_add (by norm_num),
    show a / 10 * (1 - (b - a) / (y - a)) + y / 10 * ((b - a) / (y - a)) = b / 10 by field_simp; ring] at hc
  have hl := Real.logb_le_logb_of_le (b := 10) (by norm_num)
    (mul_pos (Real.rpow_pos_of_pos (hn a) _) (Real.rpow_pos_of_pos (hn y) _)) hc
  rw [Real.logb_mul (Real.rpow_pos_of_pos (hn a) _).ne' (Real.rpow_pos_of_pos (hn y) _).ne', Real.logb_rpow_eq_mul_logb_of_pos (hn a),
    Real.logb_rpow_eq_mul_logb_of_pos (hn y)] at hl
  unfold levelAt decibels
  generalize Real.logb 10 ‖H ((10 : ℝ) ^ (a / 10))‖ = A at *
  generalize Real.logb 10 ‖H ((10 : ℝ) ^ (b / 10))‖ = B at *
  generalize Real.logb 10 ‖H ((10 : ℝ) ^ (y / 10))‖ = Y at *
  have := mul_le_mul_of_nonneg_left hl hd.le
  have e : (y - a) * ((1 - (b - a) / (y - a)) * A + (b - a) / (y - a) * Y) = (y - b) * A + (b - a) * Y := by
    field_simp
    ring
  rw [e] at this
  linarith

/-- the levels at the frequencies of the extended table -/
theorem levelAt_extended {w : Weighting} (hw : w = .a ∨ w = .b ∨ w = .c) {H : ℝ → ℂ}
    (h : ∀ f, 0 < f → ‖H f‖ ^ 2 = weightingSpec w f / weightingSpec w 1000) {j : Nat} (hj : j < 36) :
    |levelAt H (9 + j : ℝ) - ((extended w).getD j 0 : ℝ) / 10| ≤ 1 / 20 := by
  have hlen : (table w).length = 34 := by rcases hw with rfl | rfl | rfl <;> rfl
  have hcert : certificate w (9 + j) ((extended w).getD j 0) = true := by
    by_cases h0 : j = 0
    · subst h0
      exact (extended_certificates w (by rcases hw with rfl | rfl | rfl <;> simp)).1
    · by_cases h1 : j = 35
      · subst h1
        exact (extended_certificates w (by rcases hw with rfl | rfl | rfl <;> simp)).2
      · obtain ⟨i, rfl⟩ : ∃ i, j = i + 1 := ⟨j - 1, by omega⟩
        have hi : i < (table w).length := by omega
        have := table_value w hi
        rw [show 9 + (i + 1) = 10 + i by omega]
        have e : (extended w).getD (i + 1) 0 = (table w).getD i 0 := by
          rcases hw with rfl | rfl | rfl <;>
          · simp only [extended, List.cons_append, List.getD_cons_succ]
            rw [List.getD_append _ _ _ _ hi]
        rw [e]
        exact this
  have := (certificate_sound hcert).2
  unfold levelAt
  rw [decibels_eq (h _ (Real.rpow_pos_of_pos (by norm_num) _))]
  push_cast at this
  exact this

/-- the table is smooth -/
theorem extended_smooth : ∀ w ∈ [Weighting.a, .b, .c], ∀ j ∈ List.range 33,
    ((extended w).getD (j + 1) 0 - (extended w).getD j 0) - ((extended w).getD (j + 3) 0 - (extended w).getD (j + 2) 0) ≤ 10 := by
  decide +kernel

theorem extended_maximum : ∀ w ∈ [Weighting.a, .b, .c], ∀ j ∈ List.range 34,
    (extended w).getD (j + 1) 0 ≤ largest w := by
  decide +kernel

theorem levelAt_between {w : Weighting} (hw : w = .a ∨ w = .b ∨ w = .c) {H : ℝ → ℂ}
    (h : ∀ f, 0 < f → ‖H f‖ ^ 2 = weightingSpec w f / weightingSpec w 1000) {j : Nat} (hj : j < 33) {t : ℝ} (h0 : 0 ≤ t)
    (h1 : t ≤ 1) :
    -(1 / 20) ≤ levelAt H (10 + j + t) -
      ((1 - t) * ((extended w).getD (j + 1) 0 : ℝ) + t * ((extended w).getD (j + 2) 0 : ℝ)) / 10 ∧
    levelAt H (10 + j + t) -
      ((1 - t) * ((extended w).getD (j + 1) 0 : ℝ) + t * ((extended w).getD (j + 2) 0 : ℝ)) / 10 ≤ 7 / 20 := by
  have v0 := abs_le.mp (levelAt_extended hw h (j := j) (by omega))
  have v1 := abs_le.mp (levelAt_extended hw h (j := j + 1) (by omega))
  have v2 := abs_le.mp (levelAt_extended hw h (j := j + 2) (by omega))
  have v3 := abs_le.mp (levelAt_extended hw h (j := j + 3) (by omega))
  have hs := extended_smooth w (by rcases hw with rfl | rfl | rfl <;> simp) j (List.mem_range.mpr hj)
  have hs' : (((extended w).getD (j + 1) 0 : ℝ) - ((extended w).getD j 0 : ℝ)) -
    (((extended w).getD (j + 3) 0 : ℝ) - ((extended w).getD (j + 2) 0 : ℝ)) ≤ 10 := by exact_mod_cast hs
  have c1 := levelAt_concave hw h (a := 10 + j) (b := 10 + j + t) (y := 11 + j) (by linarith) (by linarith) (by linarith)
  have c2 := levelAt_concave hw h (a := 9 + j) (b := 10 + j) (y := 10 + j + t) (by linarith) (by linarith) (by linarith)
  have c3 := levelAt_concave hw h (a := 10 + j + t) (b := 11 + j) (y := 12 + j) (by linarith) (by linarith) (by linarith)
  push_cast at v0 v1 v2 v3
  rw [show (9 + (j + 1) : ℝ) = 10 + j by ring] at v1
  rw [show (9 + (j + 2) : ℝ) = 11 + j by ring] at v2
  rw [show (9 + (j + 3) : ℝ) = 12 + j by ring] at v3
  generalize ((extended w).getD j 0 : ℝ) = e0 at *
  generalize ((extended w).getD (j + 1) 0 : ℝ) = e1 at *
  generalize ((extended w).getD (j + 2) 0 : ℝ) = e2 at *
  generalize ((extended w).getD (j + 3) 0 : ℝ) = e3 at *
  generalize levelAt H (10 + j + t) = Y at *
  generalize levelAt H (9 + j) = g0 at *
  generalize levelAt H (10 + j) = g1 at *
  generalize levelAt H (11 + j) = g2 at *
  generalize levelAt H (12 + j) = g3 at *
  obtain ⟨v01, v02⟩ := v0
  obtain ⟨v11, v12⟩ := v1
  obtain ⟨v21, v22⟩ := v2
  obtain ⟨v31, v32⟩ := v3
  have k1 : (1 - t) * g1 + t * g2 ≤ Y := by linarith
  have k2 : t * g0 + Y ≤ (1 + t) * g1 := by linarith
  have k3 : Y + (1 - t) * g3 ≤ (2 - t) * g2 := by linarith
  have ht : 0 ≤ 1 - t := by linarith
  constructor
  · have a1 := mul_le_mul_of_nonneg_left v11 ht
    have a2 := mul_le_mul_of_nonneg_left v21 h0
    linarith
  · have a1 := mul_le_mul_of_nonneg_left v12 ht
    have a2 := mul_le_mul_of_nonneg_left v22 h0
    have b1 := mul_le_mul_of_nonneg_left k2 ht
    have b2 := mul_le_mul_of_nonneg_left k3 h0
    have hq : t * (1 - t) ≤ 1 / 4 := by nlinarith [sq_nonneg (t - 1 / 2)]
    have hq0 : 0 ≤ t * (1 - t) := mul_nonneg h0 ht
    have hd : (g1 - g0) - (g3 - g2) ≤ 6 / 5 := by linarith
    have hm := mul_le_mul_of_nonneg_left hd hq0
    nlinarith

/-- C137: Between the frequencies of the table, the levels of the A-, B- and C-weighting are also those of the table, which is
interpolated linearly on the logarithmic frequency axis. The deviation is between -0.05 and 0.35 decibels. -/
theorem C137_between {w : Weighting} (hw : w = .a ∨ w = .b ∨ w = .c) (mem : ℂ) :
    ∃ a H, w.filter complexEnv = .ok a ∧ HasTransfer mem a H ∧
      ∀ i, (hi : i + 1 < (table w).length) → ∀ t : ℝ, 0 ≤ t → t ≤ 1 →
        decibels (H ((10 : ℝ) ^ ((10 + i + t) / 10))) - ((1 - t) * ((table w)[i] : ℝ) + t * ((table w)[i + 1] : ℝ)) / 10 ∈
          Set.Icc (-(1 / 20) : ℝ) (7 / 20) := by
  obtain ⟨a, H, h1, h2, h3⟩ := weighting_transfer w mem
  refine ⟨a, H, h1, h2, fun i hi t ht0 ht1 => ?_⟩
  have hlen : (table w).length = 34 := by rcases hw with rfl | rfl | rfl <;> rfl
  have := levelAt_between hw h3 (j := i) (by omega) ht0 ht1
  have e : ∀ k, (hk : k < (table w).length) → (extended w).getD (k + 1) 0 = (table w)[k] := by
    intro k hk
    rw [← List.getD_eq_getElem _ 0 hk]
    rcases hw with rfl | rfl | rfl <;>
    · simp only [extended, List.cons_append, List.getD_cons_succ]
      rw [List.getD_append _ _ _ _ hk]
  rw [e i (by omega), e (i + 1) (by omega)] at this
  exact this

/-- C137: The A-weighting does not amplify by more than 1.65 decibels at any frequency, the B- and the C-weighting do not
amplify by more than 0.35 decibels, which are 0.35 decibels more than the largest tabulated levels. -/
theorem C137_maximum {w : Weighting} (hw : w = .a ∨ w = .b ∨ w = .c) (mem : ℂ) :
    ∃ a H, w.filter complexEnv = .ok a ∧ HasTransfer mem a H ∧
      ∀ f, 0 < f → decibels (H f) ≤ largest w / 10 + 7 / 20 := by
  obtain ⟨a, H, h1, h2, h3⟩ := weighting_transfer w mem
  refine ⟨a, H, h1, h2, fun f hf => ?_⟩
  have hf' : (10 : ℝ) ^ (10 * Real.logb 10 f / 10) = f := by
    rw [mul_div_cancel_left₀ _ (by norm_num), Real.rpow_logb (by norm_num) (by norm_num) hf]
  have hmem : w ∈ [Weighting.a, .b, .c] := by rcases hw with rfl | rfl | rfl <;> simp
  have hmax : ∀ j, j < 34 → ((extended w).getD (j + 1) 0 : ℝ) ≤ largest w := by
    intro j hj
    have := extended_maximum w hmem j (List.mem_range.mpr hj)
    exact_mod_cast this
  have hl : (0 : ℝ) ≤ largest w := by
    rcases hw with rfl | rfl | rfl <;> norm_num [largest]
  rw [← hf']
  change levelAt H (10 * Real.logb 10 f) ≤ _
  generalize 10 * Real.logb 10 f = y
  have val : ∀ j : Nat, j < 36 → _ := fun j hj => abs_le.mp (levelAt_extended hw h3 (j := j) hj)
  by_cases hy1 : y < 10
  · have c := levelAt_concave hw h3 (a := y) (b := 10) (y := 11) hy1.le (by norm_num) (by linarith)
    have v1 := val 1 (by norm_num)
    have v2 := val 2 (by norm_num)
    norm_num at v1 v2
    have e : (extended w).getD 1 0 + 20 ≤ (extended w).getD 2 0 ∧ (extended w).getD 1 0 ≤ -100 := by
      rcases hw with rfl | rfl | rfl <;> decide
    have e1 : ((extended w).getD 1 0 : ℝ) + 20 ≤ (extended w).getD 2 0 := by exact_mod_cast e.1
    have e2 : ((extended w).getD 1 0 : ℝ) ≤ -100 := by exact_mod_cast e.2
    simp only [List.getD_eq_getElem?_getD] at e1 e2
    have : 0 ≤ (10 - y) * (levelAt H 11 - levelAt H 10) := mul_nonneg (by linarith) (by linarith)
    nlinarith
  · by_cases hy2 : 43 ≤ y
    · rcases hy2.lt_or_eq with hy2 | hy2
      · have c := levelAt_concave hw h3 (a := 42) (b := 43) (y := y) (by norm_num) hy2.le (by linarith)
        have v1 := val 33 (by norm_num)
        have v2 := val 34 (by norm_num)
        norm_num at v1 v2
        have e : (extended w).getD 34 0 + 20 ≤ (extended w).getD 33 0 ∧ (extended w).getD 33 0 ≤ -50 := by
          rcases hw with rfl | rfl | rfl <;> decide
        have e1 : ((extended w).getD 34 0 : ℝ) + 20 ≤ (extended w).getD 33 0 := by exact_mod_cast e.1
        have e2 : ((extended w).getD 33 0 : ℝ) ≤ -50 := by exact_mod_cast e.2
        simp only [List.getD_eq_getElem?_getD] at e1 e2
        have : 0 ≤ (y - 43) * (levelAt H 42 - levelAt H 43) := mul_nonneg (by linarith) (by linarith)
        nlinarith
      · subst hy2
        have v2 := val 34 (by norm_num)
        have m2 : ((extended w).getD 34 0 : ℝ) ≤ largest w := hmax 33 (by norm_num)
        norm_num at v2
        simp only [List.getD_eq_getElem?_getD] at m2
        linarith
    · obtain ⟨n, hn⟩ : ∃ n : Nat, n = ⌊y - 10⌋₊ := ⟨_, rfl⟩
      have hge : 0 ≤ y - 10 := by linarith
      have n1 : (n : ℝ) ≤ y - 10 := by rw [hn]; exact Nat.floor_le hge
      have n2 : y - 10 < n + 1 := by rw [hn]; exact Nat.lt_floor_add_one _
      have n3 : n < 33 := by
        have : (n : ℝ) < 33 := by linarith
        exact_mod_cast this
      have b := (levelAt_between hw h3 n3 (t := y - 10 - n) (by linarith) (by linarith)).2
      rw [show (10 + n + (y - 10 - n) : ℝ) = y by ring] at b
      have m1 := hmax n (by omega)
      have m2 := hmax (n + 1) (by omega)
      have q1 := mul_le_mul_of_nonneg_left m1 (show 0 ≤ 1 - (y - 10 - n) by linarith)
      have q2 := mul_le_mul_of_nonneg_left m2 (show 0 ≤ y - 10 - n by linarith)
      linarith

/-- C137: Therefore the A-, B- and C-weighted level of a signal is not larger than its level by more than these values. -/
theorem C137_level {w : Weighting} (hw : w = .a ∨ w = .b ∨ w = .c) (mem : FilterApply.Memory) :
    ∃ a, w.filter complexEnv = .ok a ∧
      FilterApply.LevelBound mem a ((10 : ℝ) ^ ((largest w / 10 + 7 / 20) / 20 : ℝ)) := by
  obtain ⟨a, h1, -, -, h2⟩ := C40_weighting w mem.s
  obtain ⟨a', H, h1', h3, h4⟩ := C137_maximum hw mem.s
  rw [h1] at h1'
  cases h1'
  refine ⟨a, h1, FilterApply.single_bound mem a _ (Real.rpow_nonneg (by norm_num) _) fun f hf => ?_⟩
  rcases hf.lt_or_eq with hf | hf
  · refine ⟨H f, h3 f hf, ?_⟩
    by_cases h0 : ‖H f‖ = 0
    · rw [h0]
      exact Real.rpow_nonneg (by norm_num) _
    · have hp : 0 < ‖H f‖ := lt_of_le_of_ne (norm_nonneg _) (Ne.symm h0)
      rw [← Real.logb_le_iff_le_rpow (by norm_num) hp]
      have := h4 f hf
      unfold decibels at this
      linarith
  · subst hf
    obtain ⟨x, hx, hn⟩ := h2 0 le_rfl
    refine ⟨x, hx, ?_⟩
    have : weightingSpec w 0 = 0 := by
      rcases hw with rfl | rfl | rfl <;> simp [weightingSpec]
    rw [this, zero_div] at hn
    rw [pow_eq_zero_iff (by norm_num)] at hn
    rw [hn]
    exact Real.rpow_nonneg (by norm_num) _

end Filter
end Verif
