import Verif.InterpolationProps
import Verif.TermSound
import Mathlib.Analysis.Complex.Norm

/-
C121: the shape of interpolated curves: interpolating is linear in the values, the interpolated values are between the
neighbouring supporting points, monotonic values lead to monotonic curves, the slopes of the curve are bounded by the slopes
between the supporting points, and exchanging the axes leads to the inverse function.
-/

namespace Verif
namespace Interpolation

/-! ### Linear interpolation -/

section Linear

variable {α β : Type} [Field α] [LinearOrder α] [IsStrictOrderedRing α] [AddCommGroup β] [Module α β]

/-- the supporting points `i` and `i + 1` are used for interpolating or extrapolating the value at `x` -/
def Seg (xs : List α) (x : α) (i : Nat) : Prop :=
  ∃ hi : i + 1 < xs.length, (xs[i] ≤ x ∨ i = 0) ∧ (x ≤ xs[i + 1] ∨ i + 2 = xs.length)

omit [Field α] [IsStrictOrderedRing α] in
theorem sorted_lt {xs : List α} (hs : xs.Pairwise (· < ·)) {i j : Nat} (hij : i < j) (hj : j < xs.length) :
    xs[i] < xs[j] := List.pairwise_iff_getElem.mp hs i j (by omega) hj hij

omit [Field α] [IsStrictOrderedRing α] in
theorem sorted_le {xs : List α} (hs : xs.Pairwise (· < ·)) {i j : Nat} (hij : i ≤ j) (hj : j < xs.length) :
    xs[i] ≤ xs[j] := by
  rcases Nat.lt_or_ge i j with h | h
  · exact (sorted_lt hs h hj).le
  · obtain rfl : i = j := by omega
    exact le_refl _

omit [Field α] [IsStrictOrderedRing α] in
theorem sorted_inj {xs : List α} (hs : xs.Pairwise (· < ·)) {i j : Nat} (hi : i < xs.length) (hj : j < xs.length)
    (h : xs[i] = xs[j]) : i = j := by
  rcases Nat.lt_trichotomy i j with h' | h' | h'
  · exact absurd h (sorted_lt hs h' hj).ne
  · exact h'
  · exact absurd h.symm (sorted_lt hs h' hi).ne

/-- the value of the straight line through two neighbouring supporting points -/
def lineAt (xs : List α) (ys : List β) (h : xs.length = ys.length) (x : α) (i : Nat) (hi : i + 1 < xs.length) : β :=
  ys[i]'(by omega) + ((x - xs[i]) / (xs[i + 1] - xs[i])) • (ys[i + 1]'(by omega) - ys[i]'(by omega))

omit [LinearOrder α] [IsStrictOrderedRing α] in
theorem lineAt_left (xs : List α) (ys : List β) (h : xs.length = ys.length) (i : Nat) (hi : i + 1 < xs.length) {x : α}
    (hx : x = xs[i]) : lineAt xs ys h x i hi = ys[i]'(by omega) := by
  unfold lineAt
  rw [hx, sub_self, zero_div, zero_smul, add_zero]

omit [IsStrictOrderedRing α] in
theorem lineAt_right (xs : List α) (ys : List β) (h : xs.length = ys.length) (hs : xs.Pairwise (· < ·)) (i : Nat)
    (hi : i + 1 < xs.length) {x : α} (hx : x = xs[i + 1]) : lineAt xs ys h x i hi = ys[i + 1]'(by omega) := by
  have := sorted_lt hs (Nat.lt_succ_self i) hi
  unfold lineAt
  rw [hx, div_self (sub_ne_zero.mpr this.ne'), one_smul]
  abel

theorem exists_seg (xs : List α) (h2 : 1 < xs.length) (hs : xs.Pairwise (· < ·)) (x : α) : ∃ i, Seg xs x i := by
  obtain ⟨i, hi, hx, -⟩ := C29_linear (β := α) ⟨id, id, id⟩ x xs xs rfl h2 hs
  refine ⟨i, hi, ?_⟩
  have := sorted_lt hs (Nat.lt_succ_self i) hi
  rcases hx with ⟨h3, h4⟩ | ⟨h3, h4⟩ | ⟨h3, h4⟩
  · exact ⟨.inl h3, .inl h4⟩
  · exact ⟨.inr h3, .inl (h4.le.trans this.le)⟩
  · exact ⟨.inl (this.le.trans h4.le), .inr h3⟩

/-- The linear interpolation is given by each pair of supporting points, that can be used. -/
theorem linear_on [One β] (log : Logs α β) (x : α) (xs : List α) (ys : List β) (h : xs.length = ys.length)
    (hs : xs.Pairwise (· < ·)) (i : Nat) (hseg : Seg xs x i) (hi : i + 1 < xs.length) :
    scalar log .linear x xs ys = .ok (lineAt xs ys h x i hi) := by
  obtain ⟨j, hj, hx, hv⟩ := C29_linear log x xs ys h (by omega) hs
  rw [hv]
  congr 1
  show lineAt xs ys h x j hj = _
  obtain ⟨_, a1, a2⟩ := hseg
  have key : ∀ (p q : Nat) (hp : p + 1 < xs.length) (hq : q + 1 < xs.length), p < q → x ≤ xs[p + 1] → xs[q] ≤ x →
      lineAt xs ys h x p hp = lineAt xs ys h x q hq := by
    intro p q hp hq hpq h1 h2
    have h3 := sorted_le hs (show p + 1 ≤ q by omega) (by omega)
    have h4 : xs[p + 1] = xs[q] := le_antisymm h3 (h2.trans h1)
    obtain rfl : p + 1 = q := sorted_inj hs hp (by omega) h4
    have h5 : x = xs[p + 1] := le_antisymm h1 h2
    rw [lineAt_right xs ys h hs p hp h5, lineAt_left xs ys h (p + 1) hq h5]
  rcases Nat.lt_trichotomy i j with hij | hij | hij
  · refine (key i j hi hj hij ?_ ?_).symm
    · rcases a2 with a2 | a2
      · exact a2
      · omega
    · rcases hx with hx | hx | hx
      · exact hx.1
      · omega
      · exact ((sorted_lt hs (Nat.lt_succ_self j) hj).trans hx.2).le
  · subst hij
    rfl
  · refine key j i hj hi hij ?_ ?_
    · rcases hx with hx | hx | hx
      · exact hx.2
      · exact (hx.2.trans (sorted_lt hs (Nat.lt_succ_self j) hj)).le
      · omega
    · rcases a1 with a1 | a1
      · exact a1
      · omega

/-- C121: the linear interpolation is linear in the values of the supporting points. -/
theorem C121_linear [One β] (log : Logs α β) (x : α) (xs : List α) (ys zs : List β) (a b : α)
    (h : xs.length = ys.length) (h' : xs.length = zs.length) (h0 : 0 < xs.length) (hs : xs.Pairwise (· < ·)) :
    ∃ y z, scalar log .linear x xs ys = .ok y ∧ scalar log .linear x xs zs = .ok z ∧
      scalar log .linear x xs (List.zipWith (fun y z => a • y + b • z) ys zs) = .ok (a • y + b • z) := by
  by_cases h2 : 1 < xs.length
  · obtain ⟨i, hi⟩ := exists_seg xs h2 hs x
    have hl := hi.choose
    refine ⟨_, _, linear_on log x xs ys h hs i hi hl, linear_on log x xs zs h' hs i hi hl, ?_⟩
    rw [linear_on log x xs _ (by simp; omega) hs i hi hl]
    congr 1
    unfold lineAt
    rw [List.getElem_zipWith, List.getElem_zipWith]
    module
  · match xs, ys, zs, h, h' with
    | [x0], [y0], [z0], _, _ =>
      exact ⟨y0, z0, C29_single log x x0 y0, C29_single log x x0 z0, C29_single log x x0 _⟩
    | [], _, _, _, _ => simp at h0
    | _ :: _ :: _, _, _, _, _ => simp at h2

end Linear

/-! ### Order -/

section Order

variable {α : Type} [Field α] [LinearOrder α] [IsStrictOrderedRing α]

theorem slope_nonneg {xs : List α} (hs : xs.Pairwise (· < ·)) {x y : α} (i : Nat) (hi : i + 1 < xs.length) (h : x ≤ y) :
    (x - xs[i]) / (xs[i + 1] - xs[i]) ≤ (y - xs[i]) / (xs[i + 1] - xs[i]) := by
  have := sorted_lt hs (Nat.lt_succ_self i) hi
  exact div_le_div_of_nonneg_right (by linarith) (by linarith)

theorem lineAt_mono (xs ys : List α) (h : xs.length = ys.length) (hs : xs.Pairwise (· < ·)) (i : Nat)
    (hi : i + 1 < xs.length) (hy : ys[i]'(by omega) ≤ ys[i + 1]'(by omega)) {x x' : α} (hx : x ≤ x') :
    lineAt xs ys h x i hi ≤ lineAt xs ys h x' i hi := by
  unfold lineAt
  rw [smul_eq_mul, smul_eq_mul]
  have := mul_le_mul_of_nonneg_right (slope_nonneg hs i hi hx) (sub_nonneg.mpr hy)
  linarith

/-- C121: between two supporting points, the interpolated values are between the values of these points. -/
theorem C121_between (log : Logs α α) (x : α) (xs ys : List α) (h : xs.length = ys.length) (hs : xs.Pairwise (· < ·))
    (i : Nat) (hi : i + 1 < xs.length) (h1 : xs[i] ≤ x) (h2 : x ≤ xs[i + 1]) :
    ∃ y, scalar log .linear x xs ys = .ok y ∧ min (ys[i]'(by omega)) (ys[i + 1]'(by omega)) ≤ y ∧
      y ≤ max (ys[i]'(by omega)) (ys[i + 1]'(by omega)) := by
  refine ⟨_, linear_on log x xs ys h hs i ⟨hi, .inl h1, .inl h2⟩ hi, ?_⟩
  have := sorted_lt hs (Nat.lt_succ_self i) hi
  have t0 : 0 ≤ (x - xs[i]) / (xs[i + 1] - xs[i]) := div_nonneg (by linarith) (by linarith)
  have t1 : (x - xs[i]) / (xs[i + 1] - xs[i]) ≤ 1 := by
    rw [div_le_one (by linarith)]
    linarith
  unfold lineAt
  rw [smul_eq_mul]
  obtain ⟨t, ht⟩ : ∃ t, (x - xs[i]) / (xs[i + 1] - xs[i]) = t := ⟨_, rfl⟩
  rw [ht] at t0 t1 ⊢
  obtain ⟨a, ha⟩ : ∃ a, ys[i]'(by omega) = a := ⟨_, rfl⟩
  obtain ⟨b, hb⟩ : ∃ b, ys[i + 1]'(by omega) = b := ⟨_, rfl⟩
  rw [ha, hb]
  rcases le_total a b with hab | hab
  · rw [min_eq_left hab, max_eq_right hab]
    constructor <;> nlinarith
  · rw [min_eq_right hab, max_eq_left hab]
    constructor <;> nlinarith

/-- C121: if the values of the supporting points do not fall, then the interpolated and extrapolated curve does not fall. -/
theorem C121_monotone (log : Logs α α) (xs ys : List α) (h : xs.length = ys.length) (h0 : 0 < xs.length)
    (hs : xs.Pairwise (· < ·)) (hy : ys.Pairwise (· ≤ ·)) (x x' : α) (hx : x ≤ x') :
    ∃ y y', scalar log .linear x xs ys = .ok y ∧ scalar log .linear x' xs ys = .ok y' ∧ y ≤ y' := by
  by_cases h2 : 1 < xs.length
  · obtain ⟨i, hi⟩ := exists_seg xs h2 hs x
    obtain ⟨j, hj⟩ := exists_seg xs h2 hs x'
    have hil := hi.choose
    have hjl := hj.choose
    refine ⟨_, _, linear_on log x xs ys h hs i hi hil, linear_on log x' xs ys h hs j hj hjl, ?_⟩
    have hyle : ∀ (p q : Nat) (hpq : p ≤ q) (hq : q < ys.length), ys[p] ≤ ys[q] := by
      intro p q hpq hq
      rcases Nat.lt_or_ge p q with h' | h'
      · exact List.pairwise_iff_getElem.mp hy p q (by omega) hq h'
      · obtain rfl : p = q := by omega
        exact le_refl _
    obtain ⟨_, a1, a2⟩ := hi
    obtain ⟨_, b1, b2⟩ := hj
    rcases Nat.lt_trichotomy i j with hij | hij | hij
    · have e1 : x ≤ xs[i + 1] := by
        rcases a2 with a2 | a2
        · exact a2
        · omega
      have e2 : xs[j] ≤ x' := by
        rcases b1 with b1 | b1
        · exact b1
        · omega
      calc lineAt xs ys h x i hil ≤ lineAt xs ys h xs[i + 1] i hil :=
            lineAt_mono xs ys h hs i hil (hyle i (i + 1) (by omega) (by omega)) e1
        _ = ys[i + 1]'(by omega) := lineAt_right xs ys h hs i hil rfl
        _ ≤ ys[j]'(by omega) := hyle _ _ (by omega) (by omega)
        _ = lineAt xs ys h xs[j] j hjl := (lineAt_left xs ys h j hjl rfl).symm
        _ ≤ lineAt xs ys h x' j hjl := lineAt_mono xs ys h hs j hjl (hyle j (j + 1) (by omega) (by omega)) e2
    · subst hij
      exact lineAt_mono xs ys h hs i hil (hyle i (i + 1) (by omega) (by omega)) hx
    · have e1 : xs[i] ≤ x := by
        rcases a1 with a1 | a1
        · exact a1
        · omega
      have e2 : x' ≤ xs[j + 1] := by
        rcases b2 with b2 | b2
        · exact b2
        · omega
      have e3 := sorted_le hs (show j + 1 ≤ i by omega) (by omega)
      have e4 : xs[j + 1] = xs[i] := le_antisymm e3 (e1.trans (hx.trans e2))
      obtain rfl : j + 1 = i := sorted_inj hs hjl (by omega) e4
      rw [lineAt_left xs ys h (j + 1) hil (le_antisymm (hx.trans e2) e1),
        lineAt_right xs ys h hs j hjl (le_antisymm e2 (e1.trans hx))]
  · match xs, ys, h with
    | [x0], [y0], _ => exact ⟨y0, y0, C29_single log x x0 y0, C29_single log x' x0 y0, le_refl _⟩
    | [], _, _ => simp at h0
    | _ :: _ :: _, _, _ => simp at h2

/-- C121: the interpolated and extrapolated curve is nowhere steeper than the steepest line between two neighbouring
supporting points. So it is continuous. -/
theorem C121_slope (log : Logs α α) (xs ys : List α) (h : xs.length = ys.length) (h2 : 1 < xs.length)
    (hs : xs.Pairwise (· < ·)) (K : α)
    (hK : ∀ (i : Nat) (hi : i + 1 < xs.length), |ys[i + 1]'(by omega) - ys[i]'(by omega)| ≤ K * (xs[i + 1] - xs[i]))
    (x x' : α) :
    ∃ y y', scalar log .linear x xs ys = .ok y ∧ scalar log .linear x' xs ys = .ok y' ∧ |y' - y| ≤ K * |x' - x| := by
  have hmono : ∀ s : α, |s| = 1 → ∀ u v : α, u ≤ v → ∃ y y', scalar log .linear u xs ys = .ok y ∧
      scalar log .linear v xs ys = .ok y' ∧ K * u + s * y ≤ K * v + s * y' := by
    intro s hs1 u v huv
    have hz : (List.zipWith (fun y z => s • y + K • z) ys xs).Pairwise (· ≤ ·) := by
      rw [← List.isChain_iff_pairwise, List.isChain_iff_getElem]
      intro i hi
      rw [List.getElem_zipWith, List.getElem_zipWith, smul_eq_mul, smul_eq_mul, smul_eq_mul, smul_eq_mul]
      have hlen : i + 1 < xs.length := by
        rw [List.length_zipWith] at hi
        omega
      have h1 := hK i hlen
      have h3 : -(s * (ys[i + 1]'(by omega) - ys[i]'(by omega))) ≤ |ys[i + 1]'(by omega) - ys[i]'(by omega)| := by
        refine (neg_le_abs _).trans ?_
        rw [abs_mul, hs1, one_mul]
      linarith
    obtain ⟨a, b, e1, e2, e3⟩ := C121_monotone log xs _ (by simp; omega) (by omega) hs hz u v huv
    obtain ⟨y, z, f1, f2, f3⟩ := C121_linear log u xs ys xs s K h rfl (by omega) hs
    obtain ⟨y', z', g1, g2, g3⟩ := C121_linear log v xs ys xs s K h rfl (by omega) hs
    have hid : ∀ t, scalar log .linear t xs xs = .ok t := by
      intro t
      have := C29_linear_reproduces log t xs h2 hs (1 : α) 0
      simpa using this
    rw [hid] at f2 g2
    cases f2
    cases g2
    rw [f3] at e1
    rw [g3] at e2
    cases e1
    cases e2
    refine ⟨y, y', f1, g1, ?_⟩
    simp only [smul_eq_mul] at e3
    linarith
  rcases le_total x x' with hx | hx
  · obtain ⟨y, y', a1, a2, a3⟩ := hmono 1 (by simp) x x' hx
    obtain ⟨z, z', b1, b2, b3⟩ := hmono (-1) (by simp) x x' hx
    rw [a1] at b1
    rw [a2] at b2
    cases b1
    cases b2
    refine ⟨y, y', a1, a2, ?_⟩
    rw [abs_of_nonneg (sub_nonneg.mpr hx), abs_le]
    constructor <;> linarith
  · obtain ⟨y, y', a1, a2, a3⟩ := hmono 1 (by simp) x' x hx
    obtain ⟨z, z', b1, b2, b3⟩ := hmono (-1) (by simp) x' x hx
    rw [a1] at b1
    rw [a2] at b2
    cases b1
    cases b2
    refine ⟨y', y, a2, a1, ?_⟩
    rw [abs_of_nonpos (sub_nonpos.mpr hx), abs_le]
    constructor <;> linarith

/-- C121: if the values of the supporting points rise, then the linear interpolation with exchanged axes is the inverse
function. -/
theorem C121_inverse (log : Logs α α) (xs ys : List α) (h : xs.length = ys.length) (h2 : 1 < xs.length)
    (hs : xs.Pairwise (· < ·)) (hy : ys.Pairwise (· < ·)) (x : α) :
    ∃ y, scalar log .linear x xs ys = .ok y ∧ scalar log .linear y ys xs = .ok x := by
  obtain ⟨i, hi⟩ := exists_seg xs h2 hs x
  have hl := hi.choose
  refine ⟨_, linear_on log x xs ys h hs i hi hl, ?_⟩
  have hly : i + 1 < ys.length := by omega
  have dx := sorted_lt hs (Nat.lt_succ_self i) hl
  have dy := sorted_lt hy (Nat.lt_succ_self i) hly
  have hx' : x = xs[i] + (x - xs[i]) / (xs[i + 1] - xs[i]) * (xs[i + 1] - xs[i]) := by
    rw [div_mul_cancel₀ _ (sub_ne_zero.mpr dx.ne')]
    ring
  have hv : lineAt xs ys h x i hl = ys[i] + (x - xs[i]) / (xs[i + 1] - xs[i]) * (ys[i + 1] - ys[i]) := rfl
  obtain ⟨t, ht⟩ : ∃ t, (x - xs[i]) / (xs[i + 1] - xs[i]) = t := ⟨_, rfl⟩
  rw [ht] at hx' hv
  obtain ⟨_, a1, a2⟩ := hi
  rw [linear_on log _ ys xs h.symm hy i ⟨hly, ?_, ?_⟩ hly]
  · congr 1
    show xs[i] + (lineAt xs ys h x i hl - ys[i]) / (ys[i + 1] - ys[i]) * (xs[i + 1] - xs[i]) = x
    rw [hv, add_sub_cancel_left, mul_div_assoc, div_self (sub_ne_zero.mpr dy.ne'), mul_one]
    exact hx'.symm
  · refine a1.imp_left fun h1 => ?_
    rw [hv]
    have : 0 ≤ t := by rw [← ht]; exact div_nonneg (by linarith) (by linarith)
    nlinarith
  · refine a2.imp ?_ (fun h1 => by omega)
    intro h1
    rw [hv]
    have : t ≤ 1 := by rw [← ht, div_le_one (by linarith)]; linarith
    nlinarith

end Order

/-! ### Logarithmic interpolation -/

section Log

theorem logb_pow {y : ℝ} (hy : 0 < y) : (2 : ℝ) ^ Real.logb 2 y = y :=
  Real.rpow_logb (by norm_num) (by norm_num) hy

/-- The logarithmic interpolations are linear interpolations of logarithms, also at the supporting points. -/
theorem log_eq (x : ℝ) (hx : 0 < x) (xs ys : List ℝ) (h : xs.length = ys.length) (hpos : ∀ t ∈ xs, 0 < t) :
    (∀ v, scalar realLogs .linear (Real.logb 2 x) (xs.map (Real.logb 2)) ys = .ok v →
      scalar realLogs .logX x xs ys = .ok v) ∧
    ((∀ t ∈ ys, 0 < t) → ∀ v, scalar realLogs .linear (Real.logb 2 x) (xs.map (Real.logb 2)) (ys.map (Real.logb 2)) = .ok v →
      scalar realLogs .logarithmic x xs ys = .ok (2 ^ v)) := by
  by_cases hm : x ∈ xs
  · obtain ⟨i, hi, p2, p3⟩ := exists_first x xs hm
    have p2' : (xs.map (Real.logb 2))[i]? = some (Real.logb 2 x) := by rw [List.getElem?_map, p2]; rfl
    have p3' : ∀ j, j < i → (xs.map (Real.logb 2))[j]? ≠ some (Real.logb 2 x) := by
      intro j hj hcon
      have hjl : j < xs.length := by omega
      rw [List.getElem?_map, List.getElem?_eq_getElem hjl] at hcon
      have : Real.logb 2 xs[j] = Real.logb 2 x := Option.some.inj hcon
      have : xs[j] = x := Real.logb_injOn_pos (by norm_num) (hpos _ (List.getElem_mem hjl)) hx this
      exact p3 j hj (by rw [List.getElem?_eq_getElem hjl, this])
    have hiy : i < ys.length := by omega
    constructor
    · intro v hv
      rw [C29_supporting_points realLogs _ _ ys (by simpa using h) i _ _ p2' (List.getElem?_eq_getElem hiy) p3'] at hv
      rw [← hv]
      exact C29_supporting_points realLogs _ xs ys h i x _ p2 (List.getElem?_eq_getElem hiy) p3
    · intro hposy v hv
      rw [C29_supporting_points realLogs _ _ (ys.map (Real.logb 2)) (by simpa using h) i _ (Real.logb 2 ys[i]) p2'
        (by rw [List.getElem?_map, List.getElem?_eq_getElem hiy]; rfl) p3'] at hv
      cases hv
      rw [logb_pow (hposy _ (List.getElem_mem hiy))]
      exact C29_supporting_points realLogs _ xs ys h i x _ p2 (List.getElem?_eq_getElem hiy) p3
  · have hm' : Real.logb 2 x ∉ xs.map (Real.logb 2) := log_notMem hpos hx hm
    constructor
    · intro v hv
      unfold scalar decorateScalar at hv ⊢
      rw [if_neg hm'] at hv
      rw [if_neg hm]
      exact hv
    · intro hposy v hv
      unfold scalar decorateScalar at hv ⊢
      rw [if_neg hm'] at hv
      rw [if_neg hm]
      show (linearScalar (realLogs.x x) (xs.map realLogs.x) (ys.map realLogs.y) >>= _) = _
      have hv' : linearScalar (realLogs.x x) (xs.map realLogs.x) (ys.map realLogs.y) = .ok v := hv
      rw [hv']
      rfl

theorem log_y_eq (x : ℝ) (xs ys : List ℝ) (h : xs.length = ys.length) (hposy : ∀ t ∈ ys, 0 < t) (v : ℝ)
    (hv : scalar realLogs .linear x xs (ys.map (Real.logb 2)) = .ok v) :
    scalar realLogs .logY x xs ys = .ok (2 ^ v) := by
  by_cases hm : x ∈ xs
  · obtain ⟨i, hi, p2, p3⟩ := exists_first x xs hm
    have hiy : i < ys.length := by omega
    rw [C29_supporting_points realLogs _ _ (ys.map (Real.logb 2)) (by simpa using h) i _ (Real.logb 2 ys[i]) p2
      (by rw [List.getElem?_map, List.getElem?_eq_getElem hiy]; rfl) p3] at hv
    cases hv
    rw [logb_pow (hposy _ (List.getElem_mem hiy))]
    exact C29_supporting_points realLogs _ xs ys h i x _ p2 (List.getElem?_eq_getElem hiy) p3
  · unfold scalar decorateScalar at hv ⊢
    rw [if_neg hm] at hv ⊢
    show (linearScalar x xs (ys.map realLogs.y) >>= _) = _
    have hv' : linearScalar x xs (ys.map realLogs.y) = .ok v := hv
    rw [hv']
    rfl

/-- the interpolations, that are linear for the logarithms of the x values or the y values -/
def IsLog (mode : Mode) : Prop := mode = .logarithmic ∨ mode = .logX ∨ mode = .logY

/-- C121: if the values of the supporting points are positive and do not fall, then the curve of each logarithmic
interpolation does not fall. -/
theorem C121_log_monotone (mode : Mode) (hmode : IsLog mode) (xs ys : List ℝ) (h : xs.length = ys.length)
    (h0 : 0 < xs.length) (hpos : ∀ t ∈ xs, 0 < t) (hposy : ∀ t ∈ ys, 0 < t) (hs : xs.Pairwise (· < ·))
    (hy : ys.Pairwise (· ≤ ·)) (x x' : ℝ) (hx0 : 0 < x) (hx : x ≤ x') :
    ∃ y y', scalar realLogs mode x xs ys = .ok y ∧ scalar realLogs mode x' xs ys = .ok y' ∧ y ≤ y' := by
  have hlx : Real.logb 2 x ≤ Real.logb 2 x' := Real.logb_le_logb_of_le (by norm_num) hx0 hx
  have hsl : (xs.map (Real.logb 2)).Pairwise (· < ·) := sorted_log hpos hs
  have hyl : (ys.map (Real.logb 2)).Pairwise (· ≤ ·) := by
    rw [List.pairwise_map]
    exact List.Pairwise.imp_of_mem (fun ha _ hab => Real.logb_le_logb_of_le (by norm_num) (hposy _ ha) hab) hy
  have hpow : ∀ {a b : ℝ}, a ≤ b → (2 : ℝ) ^ a ≤ 2 ^ b := fun hab => Real.rpow_le_rpow_of_exponent_le (by norm_num) hab
  rcases hmode with rfl | rfl | rfl
  · obtain ⟨v, v', v1, v2, v3⟩ := C121_monotone realLogs _ _ (by simpa using h) (by simpa using h0) hsl hyl _ _ hlx
    exact ⟨_, _, (log_eq x hx0 xs ys h hpos).2 hposy v v1, (log_eq x' (by linarith) xs ys h hpos).2 hposy v' v2, hpow v3⟩
  · obtain ⟨v, v', v1, v2, v3⟩ := C121_monotone realLogs _ _ (by simpa using h) (by simpa using h0) hsl hy _ _ hlx
    exact ⟨_, _, (log_eq x hx0 xs ys h hpos).1 v v1, (log_eq x' (by linarith) xs ys h hpos).1 v' v2, v3⟩
  · obtain ⟨v, v', v1, v2, v3⟩ := C121_monotone realLogs xs _ (by simpa using h) h0 hs hyl _ _ hx
    exact ⟨_, _, log_y_eq x xs ys h hposy v v1, log_y_eq x' xs ys h hposy v' v2, hpow v3⟩

/-- C121: between two supporting points, the values of each logarithmic interpolation are between the values of these
points. -/
theorem C121_log_between (mode : Mode) (hmode : IsLog mode) (x : ℝ) (xs ys : List ℝ) (h : xs.length = ys.length)
    (hpos : ∀ t ∈ xs, 0 < t) (hposy : ∀ t ∈ ys, 0 < t) (hs : xs.Pairwise (· < ·)) (i : Nat) (hi : i + 1 < xs.length)
    (h1 : xs[i] ≤ x) (h2 : x ≤ xs[i + 1]) :
    ∃ y, scalar realLogs mode x xs ys = .ok y ∧ min (ys[i]'(by omega)) (ys[i + 1]'(by omega)) ≤ y ∧
      y ≤ max (ys[i]'(by omega)) (ys[i + 1]'(by omega)) := by
  have hxi : 0 < xs[i] := hpos _ (List.getElem_mem _)
  have hx0 : 0 < x := by linarith
  have hsl : (xs.map (Real.logb 2)).Pairwise (· < ·) := sorted_log hpos hs
  have g1 : (xs.map (Real.logb 2))[i]'(by simp; omega) ≤ Real.logb 2 x := by
    rw [List.getElem_map]
    exact Real.logb_le_logb_of_le (by norm_num) hxi h1
  have g2 : Real.logb 2 x ≤ (xs.map (Real.logb 2))[i + 1]'(by simp; omega) := by
    rw [List.getElem_map]
    exact Real.logb_le_logb_of_le (by norm_num) hx0 h2
  have hpow : ∀ {a b : ℝ}, a ≤ b → (2 : ℝ) ^ a ≤ 2 ^ b := fun hab => Real.rpow_le_rpow_of_exponent_le (by norm_num) hab
  have hmono : Monotone fun a : ℝ => (2 : ℝ) ^ a := fun a b hab => hpow hab
  have p1 := hposy _ (List.getElem_mem (show i < ys.length by omega))
  have p2 := hposy _ (List.getElem_mem (show i + 1 < ys.length by omega))
  have back : ∀ v : ℝ, min ((ys.map (Real.logb 2))[i]'(by simp; omega)) ((ys.map (Real.logb 2))[i + 1]'(by simp; omega)) ≤ v →
      v ≤ max ((ys.map (Real.logb 2))[i]'(by simp; omega)) ((ys.map (Real.logb 2))[i + 1]'(by simp; omega)) →
      min (ys[i]'(by omega)) (ys[i + 1]'(by omega)) ≤ (2 : ℝ) ^ v ∧
        (2 : ℝ) ^ v ≤ max (ys[i]'(by omega)) (ys[i + 1]'(by omega)) := by
    intro v a b
    have a' := hpow a
    have b' := hpow b
    rw [List.getElem_map, List.getElem_map, hmono.map_min, logb_pow p1, logb_pow p2] at a'
    rw [List.getElem_map, List.getElem_map, hmono.map_max, logb_pow p1, logb_pow p2] at b'
    exact ⟨a', b'⟩
  rcases hmode with rfl | rfl | rfl
  · obtain ⟨v, v1, v2, v3⟩ := C121_between realLogs _ _ (ys.map (Real.logb 2)) (by simpa using h) hsl i (by simpa using hi)
      g1 g2
    exact ⟨_, (log_eq x hx0 xs ys h hpos).2 hposy v v1, back v v2 v3⟩
  · obtain ⟨v, v1, v2, v3⟩ := C121_between realLogs _ _ ys (by simpa using h) hsl i (by simpa using hi) g1 g2
    exact ⟨_, (log_eq x hx0 xs ys h hpos).1 v v1, v2, v3⟩
  · obtain ⟨v, v1, v2, v3⟩ := C121_between realLogs x xs (ys.map (Real.logb 2)) (by simpa using h) hs i hi h1 h2
    exact ⟨_, log_y_eq x xs ys h hposy v v1, back v v2 v3⟩

/-- C121: the logarithmic interpolation of a product is the product of the interpolations, so cascading filters and then
interpolating their magnitudes leads to the same result as interpolating first. -/
theorem C121_product (xs ys zs : List ℝ) (h : xs.length = ys.length) (h' : xs.length = zs.length) (h0 : 0 < xs.length)
    (hpos : ∀ t ∈ xs, 0 < t) (hposy : ∀ t ∈ ys, 0 < t) (hposz : ∀ t ∈ zs, 0 < t) (hs : xs.Pairwise (· < ·)) (x : ℝ)
    (hx0 : 0 < x) :
    ∃ y z, scalar realLogs .logarithmic x xs ys = .ok y ∧ scalar realLogs .logarithmic x xs zs = .ok z ∧
      scalar realLogs .logarithmic x xs (List.zipWith (· * ·) ys zs) = .ok (y * z) := by
  have hsl : (xs.map (Real.logb 2)).Pairwise (· < ·) := sorted_log hpos hs
  obtain ⟨v, w, a1, a2, a3⟩ := C121_linear realLogs (Real.logb 2 x) (xs.map (Real.logb 2)) (ys.map (Real.logb 2))
    (zs.map (Real.logb 2)) (1 : ℝ) 1 (by simpa using h) (by simpa using h') (by simpa using h0) hsl
  refine ⟨_, _, (log_eq x hx0 xs ys h hpos).2 hposy v a1, (log_eq x hx0 xs zs h' hpos).2 hposz w a2, ?_⟩
  rw [← Real.rpow_add (by norm_num)]
  refine (log_eq x hx0 xs _ (by simp; omega) hpos).2 ?_ (v + w) ?_
  · intro t ht
    obtain ⟨i, hi, rfl⟩ := List.getElem_of_mem ht
    rw [List.getElem_zipWith]
    exact mul_pos (hposy _ (List.getElem_mem _)) (hposz _ (List.getElem_mem _))
  · rw [one_smul, one_smul] at a3
    rw [← a3]
    congr 1
    refine List.ext_getElem (by simp) fun i hi _ => ?_
    rw [List.getElem_map, List.getElem_zipWith, List.getElem_zipWith, List.getElem_map, List.getElem_map, one_smul, one_smul,
      Real.logb_mul (hposy _ (List.getElem_mem _)).ne' (hposz _ (List.getElem_mem _)).ne']

example : ∃ (xs ys : List ℝ), xs.length = ys.length ∧ 1 < xs.length ∧ (∀ t ∈ xs, 0 < t) ∧ (∀ t ∈ ys, 0 < t) ∧
    xs.Pairwise (· < ·) ∧ ys.Pairwise (· < ·) :=
  ⟨[1, 2, 4], [1, 4, 5], rfl, by decide, by simp, by simp, by simp; norm_num, by simp; norm_num⟩

end Log

/-! ### Bands -/

section Bands

/-- C121: between two frequencies of a bands filter, the magnitude of the transfer function with linear interpolation is not
greater than the magnitudes at these frequencies and its real part and imaginary part are between those at these
frequencies. -/
theorem C121_bands (E : Filter.Env ℝ ℂ) (b : Bool) (f : ℝ) (xs : List ℝ) (ys : List ℂ) (extrapolation : Mode)
    (h : xs.length = ys.length) (hs : xs.Pairwise (· < ·)) (i : Nat) (hi : i + 1 < xs.length) (h1 : xs[i] ≤ f)
    (h2 : f ≤ xs[i + 1]) :
    ∃ y, Filter.eval E f b (.bands xs ys .linear extrapolation) = some y ∧
      ‖y‖ ≤ max ‖ys[i]'(by omega)‖ ‖ys[i + 1]'(by omega)‖ ∧
      min (ys[i]'(by omega)).re (ys[i + 1]'(by omega)).re ≤ y.re ∧
      y.re ≤ max (ys[i]'(by omega)).re (ys[i + 1]'(by omega)).re ∧
      min (ys[i]'(by omega)).im (ys[i + 1]'(by omega)).im ≤ y.im ∧
      y.im ≤ max (ys[i]'(by omega)).im (ys[i + 1]'(by omega)).im := by
  have hlin := linear_on E.log f xs ys h hs i ⟨hi, .inl h1, .inl h2⟩ hi
  refine ⟨lineAt xs ys h f i hi, ?_, ?_⟩
  · rw [Filter.eval_bands]
    revert hlin
    generalize lineAt xs ys h f i hi = y
    intro hlin
    cases xs with
    | nil => exact absurd hi (Nat.not_lt_zero _)
    | cons x l =>
      unfold Filter.bandsAt
      dsimp only
      rw [if_neg, hlin]
      · rfl
      · rintro (h3 | h3)
        · have := sorted_le hs (Nat.zero_le i) (show i < (x :: l).length by omega)
          rw [List.getElem_cons_zero] at this
          linarith
        · rw [List.getLast_eq_getElem] at h3
          have := sorted_le hs (show i + 1 ≤ (x :: l).length - 1 by omega) (by omega)
          linarith
  · have := sorted_lt hs (Nat.lt_succ_self i) hi
    have t0 : 0 ≤ (f - xs[i]) / (xs[i + 1] - xs[i]) := div_nonneg (by linarith) (by linarith)
    have t1 : (f - xs[i]) / (xs[i + 1] - xs[i]) ≤ 1 := by
      rw [div_le_one (by linarith)]
      linarith
    unfold lineAt
    obtain ⟨t, ht⟩ : ∃ t, (f - xs[i]) / (xs[i + 1] - xs[i]) = t := ⟨_, rfl⟩
    rw [ht] at t0 t1 ⊢
    obtain ⟨u, hu⟩ : ∃ a, ys[i]'(by omega) = a := ⟨_, rfl⟩
    obtain ⟨v, hv⟩ : ∃ b, ys[i + 1]'(by omega) = b := ⟨_, rfl⟩
    rw [hu, hv]
    have key : ∀ p q : ℝ, min p q ≤ p + t * (q - p) ∧ p + t * (q - p) ≤ max p q := by
      intro p q
      rcases le_total p q with hab | hab
      · rw [min_eq_left hab, max_eq_right hab]
        constructor <;> nlinarith
      · rw [min_eq_right hab, max_eq_left hab]
        constructor <;> nlinarith
    have hre : (u + t • (v - u)).re = u.re + t * (v.re - u.re) := by simp
    have him : (u + t • (v - u)).im = u.im + t * (v.im - u.im) := by simp
    refine ⟨?_, ?_⟩
    · have e : u + t • (v - u) = (1 - t) • u + t • v := by module
      rw [e]
      refine (norm_add_le _ _).trans ?_
      rw [norm_smul, norm_smul, Real.norm_of_nonneg t0, Real.norm_of_nonneg (by linarith)]
      have := (key ‖u‖ ‖v‖).2
      linarith
    · rw [hre, him]
      exact ⟨(key _ _).1, (key _ _).2, (key _ _).1, (key _ _).2⟩

example : ∃ (xs : List ℝ) (ys : List ℂ) (f : ℝ) (i : Nat) (hi : i + 1 < xs.length), xs.length = ys.length ∧
    xs.Pairwise (· < ·) ∧ xs[i] ≤ f ∧ f ≤ xs[i + 1] :=
  ⟨[100, 200, 300], [1, Complex.I, 2], 250, 1, by decide, rfl, by simp; norm_num, by norm_num, by norm_num⟩

end Bands

end Interpolation
end Verif
