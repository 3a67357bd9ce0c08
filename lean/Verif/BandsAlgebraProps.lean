import Verif.TermProps

/-
C129: arithmetic with bands, that have the same frequencies and interpolations, is arithmetic with the values of the
supporting points. This is exact between the supporting points, if the interpolation fits to the operation.
-/

namespace Verif
namespace Filter

open Interpolation (Mode Logs)

section Shape

variable {α K : Type} [Field α] [LinearOrder α] [Field K] [Module α K]

/-- the value on the straight line through two of the supporting points -/
def onLine {n : Nat} (k l : Nat) (w : α) (hk : k < n) (hl : l < n) (ys : List K) (h : n = ys.length) : K :=
  ys[k]'(h ▸ hk) + w • (ys[l]'(h ▸ hl) - ys[k]'(h ▸ hk))

omit [LinearOrder α] in
theorem line_eq (x x0 x1 : α) (y0 y1 : K) :
    x • ((x1 - x0)⁻¹ • (y1 - y0)) + (y0 - x0 • ((x1 - x0)⁻¹ • (y1 - y0))) = y0 + ((x - x0) * (x1 - x0)⁻¹) • (y1 - y0) := by
  rw [mul_smul, sub_smul]
  abel

theorem item_last {β : Type} (l : List β) (n k : Nat) (h : n = l.length) (h0 : 0 < k) (hk : k ≤ n) :
    Interpolation.item l (-(k : Int)) = .ok (l[n - k]'(by omega)) := by
  subst h
  exact Interpolation.item_neg l k h0 hk

theorem linear_line (x : α) (xs : List α) (h0 : 0 < xs.length) :
    ∃ (k l : Nat) (w : α) (hk : k < xs.length) (hl : l < xs.length), ∀ (ys : List K) (h : xs.length = ys.length),
      Interpolation.linearScalar x xs ys = .ok (onLine k l w hk hl ys h) := by
  unfold Interpolation.linearScalar
  by_cases h1 : xs.length = 1
  · refine ⟨0, 0, 0, h0, h0, fun ys h => ?_⟩
    rw [if_pos h1, Interpolation.item_zero ys (by omega)]
    simp [onLine]
  · simp only [if_neg h1]
    rw [Interpolation.item_zero xs h0, show ((-1 : Int)) = -((1 : Nat) : Int) by rfl,
      item_last xs xs.length 1 rfl (by omega) (by omega)]
    by_cases c1 : x < xs[0]
    · refine ⟨0, 1, (x - xs[0]) * (xs[1] - xs[0])⁻¹, h0, by omega, fun ys h => ?_⟩
      show (if x < xs[0] then _ else _) = _
      rw [if_pos c1]
      unfold Interpolation.below
      rw [Interpolation.item_one ys (by omega), Interpolation.item_zero ys (by omega), Interpolation.item_one xs (by omega),
        Interpolation.item_zero xs h0]
      show Except.ok _ = _
      rw [Interpolation.line, line_eq]
      rfl
    · by_cases c2 : xs[xs.length - 1]'(by omega) < x
      · refine ⟨xs.length - 1, xs.length - 2,
          -((x - xs[xs.length - 1]'(by omega)) * (xs[xs.length - 1]'(by omega) - xs[xs.length - 2]'(by omega))⁻¹),
          by omega, by omega, fun ys h => ?_⟩
        show (if x < xs[0] then _ else if xs[xs.length - 1]'(by omega) < x then _ else _) = _
        rw [if_neg c1, if_pos c2]
        unfold Interpolation.above
        rw [show ((-1 : Int)) = -((1 : Nat) : Int) by rfl, show ((-2 : Int)) = -((2 : Nat) : Int) by rfl,
          item_last xs xs.length 1 rfl (by omega) (by omega), item_last xs xs.length 2 rfl (by omega) (by omega),
          item_last ys xs.length 1 h (by omega) (by omega), item_last ys xs.length 2 h (by omega) (by omega)]
        show Except.ok _ = _
        unfold onLine
        congr 1
        rw [neg_smul, ← smul_neg, neg_sub, mul_smul, sub_smul]
        abel
      · have hle := Interpolation.takeWhile_length_le (· ≤ x) xs
        obtain ⟨m, hm⟩ : ∃ m, (xs.takeWhile (· ≤ x)).length = m := ⟨_, rfl⟩
        have key : ∀ (ys : List K), (if x < xs[0] then Interpolation.below x xs ys else
            if xs[xs.length - 1]'(by omega) < x then Interpolation.above x xs ys else Interpolation.interp x xs ys) =
              Interpolation.interp x xs ys := fun ys => by rw [if_neg c1, if_neg c2]
        by_cases d1 : m = 0
        · refine ⟨0, 0, 0, h0, h0, fun ys h => (key ys).trans ?_⟩
          unfold Interpolation.interp
          rw [if_neg (by omega), if_neg (by omega), hm, if_pos d1, Interpolation.item_zero ys (by omega)]
          simp [onLine]
        · by_cases d2 : m = xs.length
          · refine ⟨xs.length - 1, 0, 0, by omega, h0, fun ys h => (key ys).trans ?_⟩
            unfold Interpolation.interp
            rw [if_neg (by omega), if_neg (by omega), hm, if_neg d1, if_pos d2, show ((-1 : Int)) = -((1 : Nat) : Int) by rfl,
              item_last ys xs.length 1 h (by omega) (by omega)]
            simp [onLine]
          · refine ⟨m - 1, m, (x - xs[m - 1]'(by omega)) * (xs[m]'(by omega) - xs[m - 1]'(by omega))⁻¹, by omega, by omega,
              fun ys h => (key ys).trans ?_⟩
            unfold Interpolation.interp
            rw [if_neg (by omega), if_neg (by omega), hm, if_neg d1, if_neg d2,
              show ((m : Int) - 1) = ((m - 1 : Nat) : Int) by omega, Interpolation.item_nat xs (m - 1) (by omega),
              Interpolation.item_nat xs m (by omega), Interpolation.item_nat ys (m - 1) (by omega),
              Interpolation.item_nat ys m (by omega)]
            show Except.ok _ = _
            unfold onLine
            rw [mul_smul, add_comm]

/-- the possible values of bands at a frequency, as functions of the values of the supporting points -/
inductive Shape (log : Logs α K) (n : Nat) (F : List K → Option K) : Mode → Prop where
  | index (m : Mode) (k : Nat) (hk : k < n) (h : ∀ ys : List K, n = ys.length → F ys = ys[k]?) : Shape log n F m
  | zero (h : ∀ ys : List K, n = ys.length → F ys = some 0) : Shape log n F .zero
  | one (h : ∀ ys : List K, n = ys.length → F ys = some 1) : Shape log n F .one
  | line (m : Mode) (hm : m = .linear ∨ m = .logX) (k l : Nat) (w : α) (hk : k < n) (hl : l < n)
      (h : ∀ (ys : List K) (h : n = ys.length), F ys = some (onLine k l w hk hl ys h)) : Shape log n F m
  | log (m : Mode) (hm : m = .logarithmic ∨ m = .logY) (k l : Nat) (w : α) (hk : k < n) (hl : l < n)
      (h : ∀ (ys : List K) (h : n = ys.length),
        F ys = some (log.exp (onLine k l w hk hl (ys.map log.y) (by simpa using h)))) : Shape log n F m

theorem scalar_shape (log : Logs α K) (m : Mode) (x : α) (xs : List α) (h0 : 0 < xs.length) :
    Shape log xs.length (fun ys => value (Interpolation.scalar log m x xs ys)) m := by
  by_cases hx : x ∈ xs
  · obtain ⟨k, hk, e⟩ := lookup_index (β := K) x xs hx
    refine .index _ k hk fun ys hys => ?_
    unfold Interpolation.scalar Interpolation.decorateScalar
    rw [if_pos hx]
    exact e ys hys
  · unfold Interpolation.scalar Interpolation.decorateScalar
    simp only [if_neg hx]
    cases m with
    | zero => exact .zero fun ys _ => rfl
    | one => exact .one fun ys _ => rfl
    | linear =>
      obtain ⟨k, l, w, hk, hl, e⟩ := linear_line (K := K) x xs h0
      refine .line _ (.inl rfl) k l w hk hl fun ys h => ?_
      show value (Interpolation.linearScalar _ _ _) = _
      rw [e ys h, value]
    | logX =>
      obtain ⟨k, l, w, hk, hl, e⟩ := linear_line (K := K) (log.x x) (xs.map log.x) (by simpa using h0)
      refine .line _ (.inr rfl) k l w (by simpa using hk) (by simpa using hl) fun ys h => ?_
      show value (Interpolation.linearScalar _ _ _) = _
      rw [e ys (by simpa using h), value]
      rfl
    | logarithmic =>
      obtain ⟨k, l, w, hk, hl, e⟩ := linear_line (K := K) (log.x x) (xs.map log.x) (by simpa using h0)
      refine .log _ (.inl rfl) k l w (by simpa using hk) (by simpa using hl) fun ys h => ?_
      show value (Interpolation.linearScalar _ _ _ >>= _) = _
      rw [e (ys.map log.y) (by simpa using h)]
      rfl
    | logY =>
      obtain ⟨k, l, w, hk, hl, e⟩ := linear_line (K := K) x xs h0
      refine .log _ (.inr rfl) k l w hk hl fun ys h => ?_
      show value (Interpolation.linearScalar _ _ _ >>= _) = _
      rw [e (ys.map log.y) (by simpa using h)]
      rfl
    | stairsLin =>
      obtain ⟨k, hk, e⟩ := stairs_index (β := K) x xs h0
      exact .index _ k hk e
    | stairsLog =>
      obtain ⟨k, hk, e⟩ := stairsLog_index (β := K) log.x x xs h0
      exact .index _ k hk e

theorem bands_shape (E : Env α K) (f : α) (xs : List α) (i e : Mode) (hx : xs ≠ []) :
    ∃ m, (m = i ∨ m = e) ∧ Shape E.log xs.length (fun ys => bandsAt E f xs ys i e) m := by
  cases xs with
  | nil => exact absurd rfl hx
  | cons x l =>
    unfold bandsAt
    by_cases c : f < x ∨ (x :: l).getLast (List.cons_ne_nil x l) < f
    · simp only [if_pos c]
      exact ⟨e, .inr rfl, scalar_shape E.log e f (x :: l) (by simp)⟩
    · simp only [if_neg c]
      exact ⟨i, .inl rfl, scalar_shape E.log i f (x :: l) (by simp)⟩

/-- an operation, that is exchangeable with the linear interpolation -/
def Affine (α : Type) {K : Type} [Field α] [Field K] [Module α K] (g : K → K → K) : Prop :=
  ∀ (a b c d : K) (w : α), g (a + w • (b - a)) (c + w • (d - c)) = g a c + w • (g b d - g a c)

omit [LinearOrder α] in
theorem onLine_zip {n : Nat} {g : K → K → K} (hg : Affine α g) (k l : Nat) (w : α) (hk : k < n) (hl : l < n) (ys zs : List K)
    (h : n = ys.length) (h' : n = zs.length) (h'' : n = (List.zipWith g ys zs).length) :
    onLine k l w hk hl (List.zipWith g ys zs) h'' = g (onLine k l w hk hl ys h) (onLine k l w hk hl zs h') := by
  unfold onLine
  rw [hg, List.getElem_zipWith, List.getElem_zipWith]

omit [LinearOrder α] in
theorem zip_value {log : Logs α K} {n : Nat} {F : List K → Option K} {m : Mode} (hS : Shape log n F m) (g : K → K → K)
    (ys zs : List K) (hl : n = ys.length) (hl' : n = zs.length) (hz : m = .zero → g 0 0 = 0) (ho : m = .one → g 1 1 = 1)
    (hlin : m = .linear ∨ m = .logX → Affine α g)
    (hlog : m = .logarithmic ∨ m = .logY → ∃ h : K → K → K, Affine α h ∧
      (∀ u v, log.exp (h u v) = g (log.exp u) (log.exp v)) ∧
      ∀ (j : Nat) (h1 : j < ys.length) (h2 : j < zs.length), log.y (g ys[j] zs[j]) = h (log.y ys[j]) (log.y zs[j])) :
    ∃ y z, F ys = some y ∧ F zs = some z ∧ F (List.zipWith g ys zs) = some (g y z) := by
  have hl'' : n = (List.zipWith g ys zs).length := by rw [List.length_zipWith]; omega
  cases hS with
  | index _ k hk h =>
    refine ⟨ys[k], zs[k], ?_, ?_, ?_⟩
    · rw [h ys hl, List.getElem?_eq_getElem]
    · rw [h zs hl', List.getElem?_eq_getElem]
    · rw [h _ hl'', List.getElem?_eq_getElem (by omega), List.getElem_zipWith]
  | zero h => exact ⟨0, 0, h ys hl, h zs hl', by rw [h _ hl'', hz rfl]⟩
  | one h => exact ⟨1, 1, h ys hl, h zs hl', by rw [h _ hl'', ho rfl]⟩
  | line _ hm k l w hk hk' h =>
    refine ⟨_, _, h ys hl, h zs hl', ?_⟩
    rw [h _ hl'', onLine_zip (hlin hm) k l w hk hk' ys zs hl hl']
  | log _ hm k l w hk hk' h =>
    refine ⟨_, _, h ys hl, h zs hl', ?_⟩
    obtain ⟨q, q1, q2, q3⟩ := hlog hm
    rw [h _ hl'', ← q2]
    congr 2
    have e : (List.zipWith g ys zs).map log.y = List.zipWith q (ys.map log.y) (zs.map log.y) := by
      apply List.ext_getElem
      · simp
      · intro j h1 h2
        simp only [List.getElem_map, List.getElem_zipWith]
        exact q3 j _ _
    rw [← onLine_zip q1 k l w hk hk' (ys.map log.y) (zs.map log.y) (by simpa using hl) (by simpa using hl')
      (by simp; omega)]
    unfold onLine
    simp only [e]

omit [LinearOrder α] in
theorem map_value {log : Logs α K} {n : Nat} {F : List K → Option K} {m : Mode} (hS : Shape log n F m) (g : K → K)
    (ys : List K) (hl : n = ys.length) (hz : m = .zero → g 0 = 0) (ho : m = .one → g 1 = 1)
    (hlin : m = .linear ∨ m = .logX → Affine α fun y _ => g y)
    (hlog : m = .logarithmic ∨ m = .logY → ∃ h : K → K, Affine α (fun y _ => h y) ∧
      (∀ u, log.exp (h u) = g (log.exp u)) ∧ ∀ y ∈ ys, log.y (g y) = h (log.y y)) :
    ∃ y, F ys = some y ∧ F (ys.map g) = some (g y) := by
  obtain ⟨y, z, h1, h2, h3⟩ := zip_value hS (fun y _ => g y) ys ys hl hl hz ho hlin (fun hm => by
    obtain ⟨h, h1, h2, h3⟩ := hlog hm
    exact ⟨fun y _ => h y, h1, fun u _ => h2 u, fun j hj _ => h3 _ (List.getElem_mem hj)⟩)
  rw [List.zipWith_self] at h3
  exact ⟨y, h1, h3⟩

end Shape

/-! ### The operators -/

/-- the modes, for which the sum of the interpolated values is the interpolation of the sums -/
def Additive (m : Mode) : Prop := m ≠ .one ∧ m ≠ .logarithmic ∧ m ≠ .logY

/-- the modes, for which the product of the interpolated values is the interpolation of the products -/
def Multiplicative (m : Mode) : Prop := m ≠ .linear ∧ m ≠ .logX

/-- the mode computes with the logarithm of the values -/
def Logarithmic (m : Mode) : Prop := m = .logarithmic ∨ m = .logY

/-- `mkBands` replaces one mode by another, for which the same laws hold -/
theorem mkBands_mode (xs : List ℝ) (ys : List ℂ) (i e : Mode) :
    mkBands xs ys i e = .bands xs ys i (if e = .stairsLog then .stairsLin else e) := rfl

theorem additive_mode {e : Mode} (h : Additive e) : Additive (if e = .stairsLog then .stairsLin else e) := by
  split
  · exact ⟨by decide, by decide, by decide⟩
  · exact h

theorem multiplicative_mode {e : Mode} (h : Multiplicative e) :
    Multiplicative (if e = .stairsLog then .stairsLin else e) := by
  split
  · exact ⟨by decide, by decide⟩
  · exact h

theorem logarithmic_mode {e : Mode} (h : Logarithmic (if e = .stairsLog then .stairsLin else e)) : Logarithmic e := by
  split at h
  · rcases h with h | h <;> cases h
  · exact h

theorem bandsOp_eq (g : ℂ → ℂ → ℂ) (xs : List ℝ) (ys zs : List ℂ) (i e : Mode) (h : ys.length = zs.length) :
    bandsOp g xs ys i e zs = .ok (mkBands xs (List.zipWith g ys zs) i e) := by
  unfold bandsOp broadcast
  rw [if_pos h]
  rfl

theorem mode_twice (e : Mode) : (if (if e = .stairsLog then Mode.stairsLin else e) = .stairsLog then Mode.stairsLin else
    (if e = .stairsLog then Mode.stairsLin else e)) = if e = .stairsLog then Mode.stairsLin else e := by
  cases e <;> rfl

theorem affine_add : Affine ℝ (fun y z : ℂ => y + z) := by
  intro a b c d w
  simp only [Complex.real_smul]
  ring

theorem affine_sub : Affine ℝ (fun y z : ℂ => y - z) := by
  intro a b c d w
  simp only [Complex.real_smul]
  ring

/-- C129: The sum and the difference of bands with the same frequencies have the sums and the differences of the values at
all frequencies, if the interpolation and the extrapolation are linear in the values. -/
theorem C129_sum (n : Nat) (xs : List ℝ) (ys zs : List ℂ) (i e : Mode) (hx : xs ≠ []) (hy : xs.length = ys.length)
    (hz : xs.length = zs.length) (hi : Additive i) (he : Additive e) :
    ∃ r r', add complexEnv (n + 1) (mkBands xs ys i e) (mkBands xs zs i e) = .ok r ∧
      sub complexEnv (n + 1) (mkBands xs ys i e) (mkBands xs zs i e) = .ok r' ∧
      ∀ f t, ∃ y z, eval complexEnv f t (mkBands xs ys i e) = some y ∧ eval complexEnv f t (mkBands xs zs i e) = some z ∧
        eval complexEnv f t r = some (y + z) ∧ eval complexEnv f t r' = some (y - z) := by
  refine ⟨mkBands xs (List.zipWith (· + ·) ys zs) i e, mkBands xs (List.zipWith (· - ·) ys zs) i e, ?_, ?_, ?_⟩
  · simp only [mkBands_mode, add, true_and, if_true, bandsOp_eq _ _ _ _ _ _ (hy.symm.trans hz), mode_twice]
  · simp only [mkBands_mode, sub, true_and, if_true, bandsOp_eq _ _ _ _ _ _ (hy.symm.trans hz), mode_twice]
  · intro f t
    simp only [mkBands_mode, eval_bands]
    obtain ⟨m, hm, hS⟩ := bands_shape complexEnv f xs i (if e = .stairsLog then .stairsLin else e) hx
    have hm : Additive m := by
      rcases hm with rfl | rfl
      · exact hi
      · exact additive_mode he
    have hlog : ∀ {p : Prop}, m = .logarithmic ∨ m = .logY → p := fun h => absurd h (by simp [hm.2.1, hm.2.2])
    obtain ⟨y, z, h1, h2, h3⟩ := zip_value hS (· + ·) ys zs hy hz (by simp) (fun h => absurd h hm.1) (fun _ => affine_add)
      hlog
    obtain ⟨y', z', h1', h2', h3'⟩ := zip_value hS (· - ·) ys zs hy hz (by simp) (fun h => absurd h hm.1)
      (fun _ => affine_sub) hlog
    rw [h1] at h1'
    rw [h2] at h2'
    cases h1'
    cases h2'
    exact ⟨y, z, h1, h2, h3, h3'⟩

/-- C129: The negation of bands changes the sign of the values at all frequencies, with every interpolation and
extrapolation. -/
theorem C129_negate (n : Nat) (xs : List ℝ) (ys : List ℂ) (i e : Mode) (hx : xs ≠ []) (hy : xs.length = ys.length) :
    ∃ r, negate complexEnv (n + 1) (mkBands xs ys i e) = .ok r ∧
      ∀ f t, ∃ y, eval complexEnv f t (mkBands xs ys i e) = some y ∧ eval complexEnv f t r = some (-y) := by
  rw [mkBands_mode]
  generalize he' : (if e = .stairsLog then Mode.stairsLin else e) = e'
  have hne : e' ≠ .stairsLog := by
    rw [← he']
    cases e <;> decide
  have hval : ∀ f, ∃ y, bandsAt complexEnv f xs ys i e' = some y := by
    intro f
    obtain ⟨m, -, hS⟩ := bands_shape complexEnv f xs i e' hx
    cases hS with
    | index _ k hk h => exact ⟨_, (h ys hy).trans (List.getElem?_eq_getElem (by omega))⟩
    | zero h => exact ⟨_, h ys hy⟩
    | one h => exact ⟨_, h ys hy⟩
    | line _ _ k l w hk hl h => exact ⟨_, h ys hy⟩
    | log _ _ k l w hk hl h => exact ⟨_, h ys hy⟩
  by_cases hn : nonNegative i ∨ nonNegative e'
  · refine ⟨.difference (.constant 0) (.bands xs ys i e') false, by simp only [negate, if_pos hn], fun f t => ?_⟩
    obtain ⟨y, h⟩ := hval f
    refine ⟨y, by rw [eval_bands]; exact h, ?_⟩
    rw [eval_difference]
    refine ⟨0, y, by rw [eval_constant], by rw [eval_bands]; exact h, by ring⟩
  · refine ⟨.bands xs (ys.map fun y => -y) i e', by
      simp only [negate, if_neg hn, mkBands_mode, if_neg hne], fun f t => ?_⟩
    obtain ⟨m, hm, hS⟩ := bands_shape complexEnv f xs i e' hx
    have hm : nonNegative m = false := by
      rw [not_or] at hn
      rcases hm with rfl | rfl
      · simpa using hn.1
      · simpa using hn.2
    obtain ⟨y, h1, h2⟩ := map_value hS (fun y => -y) ys hy (by simp) (by rintro rfl; simp [nonNegative] at hm)
      (fun _ => by
        intro a b c d w
        simp only [Complex.real_smul]
        ring)
      (by rintro (rfl | rfl) <;> simp [nonNegative] at hm)
    exact ⟨y, by rw [eval_bands]; exact h1, by rw [eval_bands]; exact h2⟩

theorem exp_log_add (u v : ℂ) :
    complexEnv.log.exp (u + v) = complexEnv.log.exp u * complexEnv.log.exp v := by
  show Complex.exp ((u + v) * Complex.log 2) = Complex.exp (u * Complex.log 2) * Complex.exp (v * Complex.log 2)
  rw [← Complex.exp_add]
  ring_nf

theorem exp_log_sub (u v : ℂ) :
    complexEnv.log.exp (u - v) = complexEnv.log.exp u / complexEnv.log.exp v := by
  show Complex.exp ((u - v) * Complex.log 2) = Complex.exp (u * Complex.log 2) / Complex.exp (v * Complex.log 2)
  rw [← Complex.exp_sub]
  ring_nf

/-- C129: The product of bands with the same frequencies has the products of the values at all frequencies, if the
interpolation and the extrapolation are not linear in the values. With the logarithmic interpolations, the values must not
be zero and the sums of the phases at the supporting points must be in the range of the phases. -/
theorem C129_product (n : Nat) (xs : List ℝ) (ys zs : List ℂ) (i e : Mode) (hx : xs ≠ []) (hy : xs.length = ys.length)
    (hz : xs.length = zs.length) (hi : Multiplicative i) (he : Multiplicative e)
    (hl : Logarithmic i ∨ Logarithmic e → ∀ (j : Nat) (h1 : j < ys.length) (h2 : j < zs.length), ys[j] ≠ 0 ∧ zs[j] ≠ 0 ∧
      ys[j].arg + zs[j].arg ∈ Set.Ioc (-Real.pi) Real.pi) :
    ∃ r, mul complexEnv (n + 1) (mkBands xs ys i e) (mkBands xs zs i e) = .ok r ∧
      ∀ f t, ∃ y z, eval complexEnv f t (mkBands xs ys i e) = some y ∧ eval complexEnv f t (mkBands xs zs i e) = some z ∧
        eval complexEnv f t r = some (y * z) := by
  refine ⟨mkBands xs (List.zipWith (· * ·) ys zs) i e, ?_, ?_⟩
  · simp only [mkBands_mode, mul, true_and, if_true, bandsOp_eq _ _ _ _ _ _ (hy.symm.trans hz), mode_twice]
  · intro f t
    simp only [mkBands_mode, eval_bands]
    obtain ⟨m, hm, hS⟩ := bands_shape complexEnv f xs i (if e = .stairsLog then .stairsLin else e) hx
    have hm' : Multiplicative m := by
      rcases hm with rfl | rfl
      · exact hi
      · exact multiplicative_mode he
    have hl' : Logarithmic m → Logarithmic i ∨ Logarithmic e := by
      rcases hm with rfl | rfl
      · exact .inl
      · exact fun h => .inr (logarithmic_mode h)
    refine zip_value hS (· * ·) ys zs hy hz (by simp) (by simp) (fun h => absurd h (by simp [hm'.1, hm'.2])) ?_
    intro h
    refine ⟨(· + ·), affine_add, exp_log_add, fun j h1 h2 => ?_⟩
    obtain ⟨a, b, c⟩ := hl (hl' h) j h1 h2
    show Complex.log _ / Complex.log 2 = Complex.log _ / Complex.log 2 + Complex.log _ / Complex.log 2
    rw [Complex.log_mul a b c]
    ring

theorem log_div {x y : ℂ} (hx : x ≠ 0) (hy : y ≠ 0) (h : x.arg - y.arg ∈ Set.Ioc (-Real.pi) Real.pi) :
    Complex.log (x / y) = Complex.log x - Complex.log y := by
  have h1 := Complex.log_im x
  have h2 := Complex.log_im y
  rw [← Complex.log_exp (x := Complex.log x - Complex.log y), Complex.exp_sub, Complex.exp_log hx, Complex.exp_log hy]
  · rw [Complex.sub_im, h1, h2]
    exact h.1
  · rw [Complex.sub_im, h1, h2]
    exact h.2

/-- C129: The quotient of bands with the same frequencies has the quotients of the values at all frequencies, where the
divisor is not zero, under the same conditions as the product. -/
theorem C129_quotient (xs : List ℝ) (ys zs : List ℂ) (i e : Mode) (hx : xs ≠ []) (hy : xs.length = ys.length)
    (hz : xs.length = zs.length) (h0 : ¬ 0 ∈ zs) (hi : Multiplicative i) (he : Multiplicative e)
    (hl : Logarithmic i ∨ Logarithmic e → ∀ (j : Nat) (h1 : j < ys.length) (h2 : j < zs.length), ys[j] ≠ 0 ∧
      ys[j].arg - zs[j].arg ∈ Set.Ioc (-Real.pi) Real.pi) :
    ∃ r, div (mkBands xs ys i e) (mkBands xs zs i e) = .ok r ∧
      ∀ f t, ∃ y z, eval complexEnv f t (mkBands xs ys i e) = some y ∧ eval complexEnv f t (mkBands xs zs i e) = some z ∧
        eval complexEnv f t r = some (y / z) := by
  refine ⟨mkBands xs (List.zipWith (· / ·) ys zs) i e, ?_, ?_⟩
  · simp only [mkBands_mode, div, true_and, if_true, if_neg h0, bandsOp_eq _ _ _ _ _ _ (hy.symm.trans hz), mode_twice]
  · intro f t
    simp only [mkBands_mode, eval_bands]
    obtain ⟨m, hm, hS⟩ := bands_shape complexEnv f xs i (if e = .stairsLog then .stairsLin else e) hx
    have hm' : Multiplicative m := by
      rcases hm with rfl | rfl
      · exact hi
      · exact multiplicative_mode he
    have hl' : Logarithmic m → Logarithmic i ∨ Logarithmic e := by
      rcases hm with rfl | rfl
      · exact .inl
      · exact fun h => .inr (logarithmic_mode h)
    refine zip_value hS (· / ·) ys zs hy hz (by simp) (by simp) (fun h => absurd h (by simp [hm'.1, hm'.2])) ?_
    intro h
    refine ⟨(· - ·), affine_sub, exp_log_sub, fun j h1 h2 => ?_⟩
    obtain ⟨a, c⟩ := hl (hl' h) j h1 h2
    show Complex.log _ / Complex.log 2 = Complex.log _ / Complex.log 2 - Complex.log _ / Complex.log 2
    rw [log_div a (fun h => h0 (h ▸ List.getElem_mem h2)) c]
    ring

/-- C129: The inverse of bands has the inverse values at all frequencies under the same conditions. -/
theorem C129_inverse (xs : List ℝ) (ys : List ℂ) (i e : Mode) (hx : xs ≠ []) (hy : xs.length = ys.length) (h0 : ¬ 0 ∈ ys)
    (hi : Multiplicative i) (he : Multiplicative e)
    (hl : Logarithmic i ∨ Logarithmic e → ∀ y ∈ ys, y.arg ≠ Real.pi) :
    ∃ r, (mkBands xs ys i e).invert = .ok r ∧
      ∀ f t, ∃ y, eval complexEnv f t (mkBands xs ys i e) = some y ∧ eval complexEnv f t r = some (1 / y) := by
  refine ⟨mkBands xs (ys.map fun y => 1 / y) i e, ?_, ?_⟩
  · simp only [mkBands_mode, Term.invert, if_neg h0, mode_twice]
  · intro f t
    simp only [mkBands_mode, eval_bands]
    obtain ⟨m, hm, hS⟩ := bands_shape complexEnv f xs i (if e = .stairsLog then .stairsLin else e) hx
    have hm' : Multiplicative m := by
      rcases hm with rfl | rfl
      · exact hi
      · exact multiplicative_mode he
    have hl' : Logarithmic m → Logarithmic i ∨ Logarithmic e := by
      rcases hm with rfl | rfl
      · exact .inl
      · exact fun h => .inr (logarithmic_mode h)
    refine map_value hS (fun y => 1 / y) ys hy (by simp) (by simp) (fun h => absurd h (by simp [hm'.1, hm'.2])) ?_
    intro h
    refine ⟨fun u => -u, ?_, ?_, fun y hy => ?_⟩
    · intro a b c d w
      simp only [Complex.real_smul]
      ring
    · intro u
      show Complex.exp (-u * Complex.log 2) = 1 / Complex.exp (u * Complex.log 2)
      rw [neg_mul, Complex.exp_neg, one_div]
    · show Complex.log _ / Complex.log 2 = -(Complex.log _ / Complex.log 2)
      rw [one_div, Complex.log_inv y (hl (hl' h) y hy)]
      ring

/-- C129: The magnitude of bands has the magnitudes of the values at all frequencies, if the interpolation and the
extrapolation are not linear in the values. (With the logarithmic interpolations, this has a meaning only for values other
than zero, because the logarithm of zero is infinite in the implementation, but not in the model.) -/
theorem C129_magnitude (xs : List ℝ) (ys : List ℂ) (i e : Mode) (hx : xs ≠ []) (hy : xs.length = ys.length)
    (hi : Multiplicative i) (he : Multiplicative e) (f : ℝ) (t : Bool) :
    ∃ y, eval complexEnv f t (mkBands xs ys i e) = some y ∧
      eval complexEnv f t ((mkBands xs ys i e).abs complexEnv) = some ((‖y‖ : ℝ) : ℂ) := by
  have hr : (mkBands xs ys i e).abs complexEnv = mkBands xs (ys.map complexEnv.abs) i e := by
    simp only [mkBands_mode, Term.abs, mode_twice]
  rw [hr]
  simp only [mkBands_mode, eval_bands]
  obtain ⟨m, hm, hS⟩ := bands_shape complexEnv f xs i (if e = .stairsLog then .stairsLin else e) hx
  have hm' : Multiplicative m := by
    rcases hm with rfl | rfl
    · exact hi
    · exact multiplicative_mode he
  refine map_value hS complexEnv.abs ys hy (by simp [complexEnv]) (by simp [complexEnv])
    (fun h => absurd h (by simp [hm'.1, hm'.2])) ?_
  intro h
  have l2 : Complex.log 2 = ((Real.log 2 : ℝ) : ℂ) := by
    rw [Complex.ofReal_log (by norm_num)]
    simp
  refine ⟨fun u => (u.re : ℂ), ?_, ?_, fun y hy => ?_⟩
  · intro a b c d w
    simp
  · intro u
    show Complex.exp (u.re * Complex.log 2) = ((‖Complex.exp (u * Complex.log 2)‖ : ℝ) : ℂ)
    rw [l2, Complex.norm_exp, Complex.re_mul_ofReal]
    push_cast
    rfl
  · show Complex.log ((‖y‖ : ℝ) : ℂ) / Complex.log 2 = (((Complex.log y / Complex.log 2).re : ℝ) : ℂ)
    rw [l2, ← Complex.ofReal_log (norm_nonneg y), Complex.div_ofReal_re, Complex.log_re]
    push_cast
    rfl

theorem at_point (E : Env ℝ ℂ) (xs : List ℝ) (i e : Mode) (f : ℝ) (hf : f ∈ xs) :
    ∃ k, k < xs.length ∧ ∀ ys : List ℂ, xs.length = ys.length → bandsAt E f xs ys i e = ys[k]? := by
  obtain ⟨k, hk, h⟩ := lookup_index (β := ℂ) f xs hf
  refine ⟨k, hk, fun ys hy => ?_⟩
  cases xs with
  | nil => cases hf
  | cons x l =>
    have hs : ∀ m, Interpolation.scalar E.log m f (x :: l) ys = Interpolation.lookup f (x :: l) ys := by
      intro m
      unfold Interpolation.scalar Interpolation.decorateScalar
      rw [if_pos hf]
    unfold bandsAt
    simp only [hs, ite_self]
    exact h ys hy

/-- C129: At the supporting points, the sum, the difference, the product and the quotient of bands with the same frequencies
have the results of the operations with the values, with every interpolation and extrapolation. -/
theorem C129_points (n : Nat) (xs : List ℝ) (ys zs : List ℂ) (i e : Mode) (hy : xs.length = ys.length)
    (hz : xs.length = zs.length) (h0 : ¬ 0 ∈ zs) :
    ∃ s d p q, add complexEnv (n + 1) (mkBands xs ys i e) (mkBands xs zs i e) = .ok s ∧
      sub complexEnv (n + 1) (mkBands xs ys i e) (mkBands xs zs i e) = .ok d ∧
      mul complexEnv (n + 1) (mkBands xs ys i e) (mkBands xs zs i e) = .ok p ∧
      div (mkBands xs ys i e) (mkBands xs zs i e) = .ok q ∧
      ∀ f ∈ xs, ∀ t, ∃ y z, eval complexEnv f t (mkBands xs ys i e) = some y ∧
        eval complexEnv f t (mkBands xs zs i e) = some z ∧ eval complexEnv f t s = some (y + z) ∧
        eval complexEnv f t d = some (y - z) ∧ eval complexEnv f t p = some (y * z) ∧
        eval complexEnv f t q = some (y / z) := by
  refine ⟨mkBands xs (List.zipWith (· + ·) ys zs) i e, mkBands xs (List.zipWith (· - ·) ys zs) i e,
    mkBands xs (List.zipWith (· * ·) ys zs) i e, mkBands xs (List.zipWith (· / ·) ys zs) i e, ?_, ?_, ?_, ?_, ?_⟩
  · simp only [mkBands_mode, add, true_and, if_true, bandsOp_eq _ _ _ _ _ _ (hy.symm.trans hz), mode_twice]
  · simp only [mkBands_mode, sub, true_and, if_true, bandsOp_eq _ _ _ _ _ _ (hy.symm.trans hz), mode_twice]
  · simp only [mkBands_mode, mul, true_and, if_true, bandsOp_eq _ _ _ _ _ _ (hy.symm.trans hz), mode_twice]
  · simp only [mkBands_mode, div, true_and, if_true, if_neg h0, bandsOp_eq _ _ _ _ _ _ (hy.symm.trans hz), mode_twice]
  · intro f hf t
    simp only [mkBands_mode, eval_bands]
    obtain ⟨k, hk, h⟩ := at_point complexEnv xs i (if e = .stairsLog then .stairsLin else e) f hf
    have hg : ∀ g : ℂ → ℂ → ℂ, bandsAt complexEnv f xs (List.zipWith g ys zs) i (if e = .stairsLog then .stairsLin else e) =
        some (g ys[k] zs[k]) := by
      intro g
      rw [h _ (by rw [List.length_zipWith]; omega), List.getElem?_eq_getElem (by rw [List.length_zipWith]; omega),
        List.getElem_zipWith]
    exact ⟨ys[k], zs[k], (h ys hy).trans (List.getElem?_eq_getElem _), (h zs hz).trans (List.getElem?_eq_getElem _),
      hg _, hg _, hg _, hg _⟩

/-- C129: Bands, which have only one value for all of their frequencies, are combined with each value of the other bands.
The order of the operands is preserved. -/
theorem C129_single (n : Nat) (xs : List ℝ) (y : ℂ) (zs : List ℂ) (i e : Mode) (hz : zs.length ≠ 1) :
    sub complexEnv (n + 1) (mkBands xs [y] i e) (mkBands xs zs i e) = .ok (mkBands xs (zs.map fun z => y - z) i e) ∧
    sub complexEnv (n + 1) (mkBands xs zs i e) (mkBands xs [y] i e) = .ok (mkBands xs (zs.map fun z => z - y) i e) ∧
    (¬ 0 ∈ zs → div (mkBands xs [y] i e) (mkBands xs zs i e) = .ok (mkBands xs (zs.map fun z => y / z) i e)) ∧
    (y ≠ 0 → div (mkBands xs zs i e) (mkBands xs [y] i e) = .ok (mkBands xs (zs.map fun z => z / y) i e)) := by
  have h1 : ∀ g : ℂ → ℂ → ℂ, broadcast g [y] zs = .ok (zs.map fun z => g y z) := by
    intro g
    unfold broadcast
    rw [if_neg (by simpa using Ne.symm hz)]
  have h2 : ∀ g : ℂ → ℂ → ℂ, broadcast g zs [y] = .ok (zs.map fun z => g z y) := by
    intro g
    unfold broadcast
    rw [if_neg (by simpa using hz)]
    match zs with
    | [] => rfl
    | [z] => exact absurd rfl hz
    | _ :: _ :: _ => rfl
  refine ⟨?_, ?_, fun h0 => ?_, fun h0 => ?_⟩
  · simp only [mkBands_mode, sub, true_and, if_true, bandsOp, h1, mode_twice]
    rfl
  · simp only [mkBands_mode, sub, true_and, if_true, bandsOp, h2, mode_twice]
    rfl
  · simp only [mkBands_mode, div, true_and, if_true, if_neg h0, bandsOp, h1, mode_twice]
    rfl
  · simp only [mkBands_mode, div, true_and, if_true, List.mem_singleton, if_neg (Ne.symm h0), bandsOp, h2, mode_twice]
    rfl

/-! ### Violations -/

theorem logY_between (a b : ℂ) : bandsAt complexEnv 2 [1, 3] [a, b] .logY .zero =
    some (Complex.exp ((Complex.log a + Complex.log b) / 2)) := by
  have h2 : Complex.log 2 ≠ 0 := by
    have : Complex.log 2 = ((Real.log 2 : ℝ) : ℂ) := by
      rw [Complex.ofReal_log (by norm_num)]
      simp
    rw [this]
    exact_mod_cast (Real.log_pos (by norm_num)).ne'
  simp [bandsAt, Interpolation.scalar, Interpolation.decorateScalar, Interpolation.funcScalar,
    Interpolation.linearScalar, Interpolation.interp, Interpolation.item, Bind.bind, Except.bind, value]
  norm_num
  simp only [Pure.pure, Except.pure]
  congr 1
  show Complex.exp _ = _
  congr 1
  simp only [complexEnv]
  field_simp
  ring

/-- C129 is violated by sums with a logarithmic interpolation: between the values 1 and 4 and the values 1 and 1, the values
are 2 and 1, but that of the sum is the square root of 10. -/
theorem C129_logarithmic_sum_violated (n : Nat) :
    ∃ r, add complexEnv (n + 1) (.bands [1, 3] [1, 4] .logY .zero) (.bands [1, 3] [1, 1] .logY .zero) = .ok r ∧
      eval complexEnv 2 false (.bands [1, 3] [1, 4] .logY .zero) = some 2 ∧
      eval complexEnv 2 false (.bands [1, 3] [1, 1] .logY .zero) = some 1 ∧
      ∃ x, eval complexEnv 2 false r = some x ∧ x ^ 2 = 10 := by
  refine ⟨.bands [1, 3] [1 + 1, 4 + 1] .logY .zero, ?_, ?_, ?_, ?_⟩
  · simp [add, bandsOp, broadcast, mkBands, Bind.bind, Except.bind]
  · rw [eval_bands, logY_between]
    have : (Complex.log 1 + Complex.log 4) / 2 = Complex.log 2 := by
      have h4 : (4 : ℂ) = ((2 : ℝ) : ℂ) * (2 : ℂ) := by norm_num
      rw [h4, Complex.log_ofReal_mul (by norm_num) (by norm_num), Complex.log_one, Complex.ofReal_log (by norm_num)]
      push_cast
      ring
    rw [this, Complex.exp_log (by norm_num)]
  · rw [eval_bands, logY_between]
    simp
  · rw [eval_bands, logY_between]
    refine ⟨_, rfl, ?_⟩
    rw [← Complex.exp_nat_mul]
    have : ((2 : Nat) : ℂ) * ((Complex.log (1 + 1) + Complex.log (4 + 1)) / 2) = Complex.log (1 + 1) + Complex.log (4 + 1) := by
      push_cast
      ring
    rw [this, Complex.exp_add, Complex.exp_log (by norm_num), Complex.exp_log (by norm_num)]
    norm_num

/-- C129 is violated by products with a logarithmic interpolation, if the phases leave their range: between the values 1 and
-1, the value is `1j`, so the product of two such bands has the value -1 there, but that of the product is 1. -/
theorem C129_phase_violated (n : Nat) :
    ∃ r, mul complexEnv (n + 1) (.bands [1, 3] [1, -1] .logY .zero) (.bands [1, 3] [1, -1] .logY .zero) = .ok r ∧
      eval complexEnv 2 false (.bands [1, 3] [1, -1] .logY .zero) = some Complex.I ∧
      eval complexEnv 2 false r = some 1 := by
  refine ⟨.bands [1, 3] [1 * 1, -1 * -1] .logY .zero, ?_, ?_, ?_⟩
  · simp [mul, bandsOp, broadcast, mkBands, Bind.bind, Except.bind]
  · rw [eval_bands, logY_between, Complex.log_one, Complex.log_neg_one, zero_add,
      show (Real.pi : ℂ) * Complex.I / 2 = (Real.pi / 2 : ℝ) * Complex.I by push_cast; ring, Complex.exp_mul_I]
    simp
  · rw [eval_bands, logY_between]
    simp

/-- C129 is violated by the magnitudes with linear interpolation: between the values 1 and -1, the value is zero, but that of
the magnitude is 1. -/
theorem C129_linear_magnitude_violated :
    eval complexEnv 2 false (.bands [1, 3] [1, -1] .linear .zero) = some 0 ∧
      eval complexEnv 2 false (Term.abs complexEnv (.bands [1, 3] [1, -1] .linear .zero)) = some 1 := by
  have h : ∀ a b : ℂ, bandsAt complexEnv 2 [1, 3] [a, b] .linear .zero = some ((a + b) / 2) := by
    intro a b
    simp [bandsAt, Interpolation.scalar, Interpolation.decorateScalar, Interpolation.funcScalar,
      Interpolation.linearScalar, Interpolation.interp, Interpolation.item, Bind.bind, Except.bind, value]
    norm_num
    show some ((1 / 2 : ℂ) * (b - a) + a) = _
    congr 1
    ring
  have ha : Term.abs complexEnv (.bands [1, 3] [1, -1] .linear .zero) =
      (.bands [1, 3] [complexEnv.abs 1, complexEnv.abs (-1)] .linear .zero : Term ℝ ℂ) := by
    simp [Term.abs, mkBands]
  rw [ha]
  simp only [eval_bands, h]
  simp [complexEnv]

/-! ### Examples -/

example : Additive .linear ∧ Additive .stairsLog ∧ Multiplicative .logY ∧ Multiplicative .zero ∧ Logarithmic .logY := by
  refine ⟨?_, ?_, ?_, ?_, .inr rfl⟩ <;> simp [Additive, Multiplicative]

example : (2 : ℂ).arg + Complex.I.arg ∈ Set.Ioc (-Real.pi) Real.pi ∧ (2 : ℂ).arg - Complex.I.arg ∈ Set.Ioc (-Real.pi) Real.pi ∧
    Complex.I.arg ≠ Real.pi := by
  have h2 : (2 : ℂ).arg = 0 := by
    simp
  rw [h2, Complex.arg_I]
  have := Real.pi_pos
  refine ⟨⟨?_, ?_⟩, ⟨?_, ?_⟩, ?_⟩ <;> linarith

end Filter
end Verif
