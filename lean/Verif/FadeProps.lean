import Verif.Fade
import Verif.NumpyLemmas
import Verif.SignalProps
import Mathlib.Algebra.Ring.Defs
import Mathlib.Algebra.Order.Ring.Defs
import Mathlib.Algebra.Order.Field.Basic
import Mathlib.Data.Rat.Cast.Order
import Mathlib.Tactic.NormNum

/-
C27: fade signals.
-/

namespace Verif
namespace Fade

variable {α R : Type}

/-! ### Specification -/

/-- a fade in during the samples `a ≤ t < b` -/
def riseAt [Zero α] [One α] (function : Nat → Nat → α) (a b t : Nat) : α :=
  if t < a then 0 else if t < b then function (2 * (b - a)) (t - a) else 1

/-- a fade out during the samples `a ≤ t < b` -/
def fallAt [Zero α] [One α] (function : Nat → Nat → α) (a b t : Nat) : α :=
  if t < a then 1 else if t < b then function (2 * (b - a)) (b - a + (t - a)) else 0

/-! ### Assignments to a single row -/

theorem put {A S : Mat α} (a b : Nat) (hab : a ≤ b) (hb : b ≤ A.cols) (hr : A.rows = 1) (hS : S.rows = 1)
    (hc : S.cols = b - a) : ∃ C, A.assign .all (.range (a : Nat) (b : Nat)) S = .ok C ∧ C.rows = 1 ∧
      C.cols = A.cols ∧ ∀ j, C.get 0 j = if a ≤ j ∧ j < b then S.get 0 (j - a) else A.get 0 j := by
  obtain ⟨C, c1, c2, c3, c4, c5⟩ := Mat.assign_cols (A := A) (S := S) (c := .range (a : Nat) (b : Nat)) a b
    (by simp; omega) (by simp; omega) (by omega) hc
  refine ⟨C, c1, c2.trans hr, c3, ?_⟩
  intro j
  split
  · exact c4 0 j (by omega) (by omega) (by omega)
  · exact c5 0 j (by omega)

theorem putTail {A S : Mat α} (a : Nat) (ha : a ≤ A.cols) (hr : A.rows = 1) (hS : S.rows = 1)
    (hc : S.cols = A.cols - a) : ∃ C, A.assign .all (.drop (a : Nat)) S = .ok C ∧ C.rows = 1 ∧
      C.cols = A.cols ∧ ∀ j, j < A.cols → C.get 0 j = if a ≤ j then S.get 0 (j - a) else A.get 0 j := by
  obtain ⟨C, c1, c2, c3, c4, c5⟩ := Mat.assign_cols (A := A) (S := S) (c := .drop (a : Nat)) a A.cols
    (by simp; omega) (by simp) (by omega) hc
  refine ⟨C, c1, c2.trans hr, c3, ?_⟩
  intro j hj
  split
  · exact c4 0 j (by omega) (by omega) (by omega)
  · exact c5 0 j (by omega)

theorem putScalar {A : Mat α} (v : α) (a b : Nat) (hb : b ≤ A.cols) (hr : A.rows = 1) :
    ∃ C, A.assign .all (.range (a : Nat) (b : Nat)) (.scalar v) = .ok C ∧ C.rows = 1 ∧
      C.cols = A.cols ∧ ∀ j, C.get 0 j = if a ≤ j ∧ j < b then v else A.get 0 j := by
  obtain ⟨C, c1, c2, c3, c4, c5⟩ := Mat.assign_cols_scalar (A := A) (c := .range (a : Nat) (b : Nat)) v
    (min a A.cols) b (by simp) (by simp; omega)
  refine ⟨C, c1, c2.trans hr, c3, ?_⟩
  intro j
  split
  · exact c4 0 j (by omega) (by omega) (by omega)
  · exact c5 0 j (by omega)

theorem putScalarTail {A : Mat α} (v : α) (a : Nat) (ha : a ≤ A.cols) (hr : A.rows = 1) :
    ∃ C, A.assign .all (.drop (a : Nat)) (.scalar v) = .ok C ∧ C.rows = 1 ∧
      C.cols = A.cols ∧ ∀ j, j < A.cols → C.get 0 j = if a ≤ j then v else A.get 0 j := by
  obtain ⟨C, c1, c2, c3, c4, c5⟩ := Mat.assign_cols_scalar (A := A) (c := .drop (a : Nat)) v
    a A.cols (by simp; omega) (by simp)
  refine ⟨C, c1, c2.trans hr, c3, ?_⟩
  intro j hj
  split
  · exact c4 0 j (by omega) (by omega) (by omega)
  · exact c5 0 j (by omega)

/-- the row contains the given function, for `n` samples -/
def Row (A : Mat α) (n : Nat) (f : Nat → α) : Prop := A.rows = 1 ∧ A.cols = n ∧ ∀ j, j < n → A.get 0 j = f j

theorem row_slice {A : Mat α} {n : Nat} {f : Nat → α} (h : Row A n f) (a b : Nat) (hb : b ≤ n) :
    Row (A.slice .all (.range (a : Nat) (b : Nat))) (b - a) fun j => f (a + j) := by
  obtain ⟨h1, h2, h3⟩ := h
  refine ⟨by simp [h1], by simp; omega, ?_⟩
  intro j hj
  rw [Mat.slice_all_get, PySlice.lo_range, clampBound_nat, show min a A.cols + j = a + j by omega, h3 _ (by omega)]

theorem row_drop {A : Mat α} {n : Nat} {f : Nat → α} (h : Row A n f) (a : Nat) :
    Row (A.slice .all (.drop (a : Nat))) (n - a) fun j => f (a + j) := by
  obtain ⟨h1, h2, h3⟩ := h
  refine ⟨by simp [h1], by simp; omega, ?_⟩
  intro j hj
  rw [Mat.slice_all_get, PySlice.lo_drop, clampBound_nat, show min a A.cols + j = a + j by omega, h3 _ (by omega)]

theorem row_binary {A B : Mat α} {n : Nat} {f g : Nat → α} (op : α → α → α) (hA : Row A n f) (hB : Row B n g) :
    ∃ C, binary op A B = .ok C ∧ Row C n fun j => op (f j) (g j) := by
  unfold binary
  rw [if_pos (hA.2.1.trans hB.2.1.symm)]
  refine ⟨_, rfl, rfl, hA.2.1, ?_⟩
  intro j hj
  show op (A.get 0 j) (B.get 0 j) = _
  rw [hA.2.2 j hj, hB.2.2 j hj]

theorem row_window (function : Nat → Nat → α) (n : Nat) : Row (window function (n : Nat)) n (function n) :=
  ⟨rfl, by simp [window], fun j _ => by simp [window]⟩

theorem row_firstHalf (function : Nat → Nat → α) (n : Nat) :
    Row (firstHalf function (n : Nat)) n fun j => function (2 * n) j := by
  have := row_slice (row_window function (2 * n)) 0 n (by omega)
  unfold firstHalf
  rw [show (2 : Int) * (n : Nat) = ((2 * n : Nat) : Int) by omega]
  simpa using this

theorem row_lastHalf (function : Nat → Nat → α) (n : Nat) :
    Row (lastHalf function (n : Nat)) n fun j => function (2 * n) (n + j) := by
  have := row_drop (row_window function (2 * n)) n
  unfold lastHalf
  rw [show (2 : Int) * (n : Nat) = ((2 * n : Nat) : Int) by omega]
  rwa [show 2 * n - n = n by omega] at this

/-! ### Both slopes -/

theorem placeInOut_ok [Semiring α] (function : Nat → Nat → α) (p q l : Nat) (fadeIn fadeOut out : Mat α)
    (hI : Row fadeIn p fun j => function (2 * p) j) (hO : Row fadeOut l fun j => function (2 * l) (l + j))
    (hr : out.rows = 1) (hc : out.cols = max p (q + l)) :
    ∃ C, placeInOut fadeIn fadeOut (p : Nat) (q : Nat) (l : Nat) out = .ok C ∧
      Row C out.cols fun t => riseAt function 0 p t * fallAt function q (q + l) t := by
  unfold placeInOut
  by_cases hpq : p ≤ q
  · rw [if_pos (by omega)]
    obtain ⟨A, a1, a2, a3, a4⟩ := put (A := out) (S := fadeIn) 0 p (by omega) (by omega) hr hI.1 hI.2.1
    obtain ⟨B, b1, b2, b3, b4⟩ := putScalar (A := A) (1 : α) p q (by omega) a2
    obtain ⟨C, c1, c2, c3, c4⟩ := putTail (A := B) (S := fadeOut) q (by omega) b2 hO.1 (by rw [hO.2.1]; omega)
    rw [show ((0 : Int)) = ((0 : Nat) : Int) by rfl, a1]
    show ∃ C', (A.assign _ _ _ >>= _) = _ ∧ _
    rw [b1]
    show ∃ C', B.assign _ _ _ = _ ∧ _
    refine ⟨C, c1, c2, by omega, ?_⟩
    intro t ht
    rw [c4 t (by omega), b4, a4]
    unfold riseAt fallAt
    beta_reduce
    by_cases h1 : q ≤ t
    · rw [if_pos h1, if_neg (show ¬ t < 0 by omega), if_neg (show ¬ t < p by omega), if_neg (show ¬ t < q by omega),
        if_pos (show t < q + l by omega), one_mul, hO.2.2 _ (by omega)]
      simp
    · rw [if_neg h1, if_pos (show t < q by omega), mul_one, if_neg (show ¬ t < 0 by omega)]
      by_cases h2 : p ≤ t
      · rw [if_pos (by omega), if_neg (by omega)]
      · rw [if_neg (by omega), if_pos (by omega), if_pos (by omega), hI.2.2 _ (by omega)]
        simp
  · rw [if_neg (by omega)]
    have hs := row_slice hI 0 q (by omega)
    obtain ⟨A, a1, a2, a3, a4⟩ := put (A := out) (S := fadeIn.slice .all (.range 0 (q : Nat))) 0 q (by omega)
      (by omega) hr hs.1 hs.2.1
    dsimp only
    change out.assign .all (.range 0 (q : Nat)) _ = .ok A at a1
    rw [a1]
    show ∃ C, (if ((q : Int) + l) ≥ A.cols then _ else _) = _ ∧ _
    have hAget : ∀ j, j < q → A.get 0 j = function (2 * p) j := by
      intro j hj
      rw [a4 j, if_pos (by omega)]
      have := hs.2.2 j (by omega)
      simp only [Nat.zero_add] at this
      simpa using this
    by_cases hqp : (q : Int) + l ≥ A.cols
    · rw [if_pos hqp]
      have hle : p ≤ q + l := by omega
      have r1 := row_slice hI q p (by omega)
      have r2 := row_slice hO 0 (p - q) (by omega)
      rw [show p - q - 0 = p - q by omega] at r2
      obtain ⟨P, p1, p2⟩ := row_binary (· * ·) r1 r2
      rw [show (p : Int) - q = ((p - q : Nat) : Int) by omega]
      obtain ⟨B, b1, b2, b3, b4⟩ := put (A := A) (S := P) q p (by omega) (by omega) a2 p2.1 p2.2.1
      have r3 := row_drop hO (p - q)
      obtain ⟨C, c1, c2, c3, c4⟩ := putTail (A := B) (S := fadeOut.slice .all (.drop (p - q : Nat))) p (by omega) b2
        r3.1 (by rw [r3.2.1]; omega)
      change binary _ (fadeIn.slice .all (.range (q : Nat) (p : Nat)))
        (fadeOut.slice .all (.range 0 (p - q : Nat))) = _ at p1
      rw [p1]
      show ∃ C', (A.assign _ _ _ >>= _) = _ ∧ _
      rw [b1]
      show ∃ C', B.assign _ _ _ = _ ∧ _
      refine ⟨C, c1, c2, by omega, ?_⟩
      intro t ht
      rw [c4 t (by omega)]
      unfold riseAt fallAt
      beta_reduce
      rw [if_neg (show ¬ t < 0 by omega)]
      by_cases h1 : p ≤ t
      · rw [if_pos h1, if_neg (by omega), if_neg (by omega), if_pos (by omega), one_mul, r3.2.2 _ (by omega)]
        beta_reduce
        rw [show q + l - q = l by omega, show p - q + (t - p) = t - q by omega]
      · rw [if_neg h1, b4, if_pos (show t < p by omega)]
        by_cases h2 : q ≤ t
        · rw [if_pos (by omega), p2.2.2 _ (by omega), if_neg (by omega), if_pos (by omega)]
          simp only [Nat.sub_zero, Nat.zero_add]
          rw [show q + (t - q) = t by omega, show q + l - q = l by omega]
        · rw [if_neg (by omega), if_pos (by omega), mul_one, hAget t (by omega)]
          simp
    · rw [if_neg hqp]
      have hlt : q + l < p := by omega
      have r1 := row_slice hI q (q + l) (by omega)
      rw [show q + l - q = l by omega] at r1
      obtain ⟨P, p1, p2⟩ := row_binary (· * ·) r1 hO
      rw [show (q : Int) + l = ((q + l : Nat) : Int) by omega]
      obtain ⟨B, b1, b2, b3, b4⟩ := put (A := A) (S := P) q (q + l) (by omega) (by omega) a2 p2.1
        (by rw [p2.2.1]; omega)
      obtain ⟨C, c1, c2, c3, c4⟩ := putScalarTail (A := B) (0 : α) (q + l) (by omega) b2
      rw [p1]
      show ∃ C', (A.assign _ _ _ >>= _) = _ ∧ _
      rw [b1]
      show ∃ C', B.assign _ _ _ = _ ∧ _
      refine ⟨C, c1, c2, by omega, ?_⟩
      intro t ht
      rw [c4 t (by omega)]
      unfold riseAt fallAt
      beta_reduce
      rw [if_neg (show ¬ t < 0 by omega)]
      by_cases h1 : q + l ≤ t
      · rw [if_pos h1, if_neg (show ¬ t < q by omega), if_neg (show ¬ t < q + l by omega), mul_zero]
      · rw [if_neg h1, b4, if_pos (show t < p by omega)]
        by_cases h2 : q ≤ t
        · rw [if_pos (by omega), p2.2.2 _ (by omega), if_neg (by omega), if_pos (by omega)]
          simp only [Nat.sub_zero]
          rw [show q + (t - q) = t by omega, show q + l - q = l by omega]
        · rw [if_neg (by omega), if_pos (by omega), mul_one, hAget t (by omega)]
          simp

theorem fadeInOut_ok [Semiring α] (function : Nat → Nat → α) (p q l : Nat) (out : Mat α)
    (hr : out.rows = 1) (hc : out.cols = max p (q + l)) :
    ∃ C, fadeInOut function (p : Nat) (q : Nat) (l : Nat) out = .ok C ∧
      Row C out.cols fun t => riseAt function 0 p t * fallAt function q (q + l) t := by
  unfold fadeInOut
  have hF := row_firstHalf function p
  have hL := row_lastHalf function l
  by_cases hpq : p = q
  · subst hpq
    rw [if_pos rfl]
    by_cases hpl : p = l
    · subst hpl
      rw [if_pos rfl]
      have hw := row_window function out.cols
      obtain ⟨C, c1, c2, c3, c4⟩ := putTail (A := out) (S := window function (out.cols : Nat)) 0 (by omega) hr
        hw.1 (by rw [hw.2.1]; omega)
      obtain ⟨C, d1, d2, d3, d4, _⟩ := Mat.assign_cols (A := out) (S := window function (out.cols : Nat)) (c := .all)
        0 out.cols rfl rfl (by rw [hw.1, hr]) (by rw [hw.2.1]; omega)
      refine ⟨C, d1, d2.trans hr, d3, ?_⟩
      intro t ht
      rw [d4 0 t (by omega) (by omega) ht, hw.2.2 _ (by omega), hc, show max p (p + p) = 2 * p by omega]
      unfold riseAt fallAt
      beta_reduce
      rw [if_neg (show ¬ t < 0 by omega)]
      by_cases h : t < p
      · rw [if_pos h, if_pos h, mul_one]
        simp
      · rw [if_neg h, if_neg h, if_pos (by omega), one_mul]
        rw [show p + p - p = p by omega, show p + (t - p) = t by omega]
        simp
    · rw [if_neg (by omega)]
      obtain ⟨A, a1, a2, a3, a4⟩ := put (A := out) (S := firstHalf function (p : Nat)) 0 p (by omega) (by omega) hr
        hF.1 hF.2.1
      obtain ⟨C, c1, c2, c3, c4⟩ := putTail (A := A) (S := lastHalf function (l : Nat)) p (by omega) a2 hL.1
        (by rw [hL.2.1]; omega)
      change out.assign .all (.range 0 (p : Nat)) _ = _ at a1
      rw [a1]
      show ∃ C', A.assign _ _ _ = _ ∧ _
      refine ⟨C, c1, c2, by omega, ?_⟩
      intro t ht
      rw [c4 t (by omega), a4]
      unfold riseAt fallAt
      beta_reduce
      rw [if_neg (show ¬ t < 0 by omega)]
      by_cases h : p ≤ t
      · rw [if_pos h, if_neg (by omega), if_neg (by omega), if_pos (by omega), one_mul, hL.2.2 _ (by omega)]
        rw [show p + l - p = l by omega]
      · rw [if_neg h, if_pos (by omega), if_pos (by omega), if_pos (by omega), mul_one, hF.2.2 _ (by omega)]
        simp
  · rw [if_neg (by omega)]
    by_cases hpl : p = l
    · subst hpl
      rw [if_pos rfl]
      have hw := row_window function (p + p)
      have h1 := row_slice hw 0 p (by omega)
      have h2 := row_drop hw p
      rw [show (p : Int) + p = ((p + p : Nat) : Int) by omega]
      refine placeInOut_ok function p q p _ _ out ?_ ?_ hr hc
      · rw [show 2 * p = p + p by omega]
        simpa using h1
      · rw [show 2 * p = p + p by omega]
        rwa [show p + p - p = p by omega] at h2
    · rw [if_neg (by omega)]
      exact placeInOut_ok function p q l _ _ out hF hL hr hc

theorem row_map {A : Mat α} {n : Nat} {f : Nat → α} (h : Row A n f) (g : α → α) :
    Row (A.map g) n fun j => g (f j) := by
  refine ⟨h.1, h.2.1, ?_⟩
  intro j hj
  show g (A.get 0 j) = _
  rw [h.2.2 j hj]

theorem placeOutIn_ok [Semiring α] (function : Nat → Nat → α) (p q l : Nat) (fadeOut fadeIn out : Mat α)
    (hO : Row fadeOut p fun j => function (2 * p) (p + j)) (hI : Row fadeIn l fun j => function (2 * l) j)
    (hr : out.rows = 1) (hc : out.cols = max p (q + l)) :
    ∃ C, placeOutIn fadeOut fadeIn (p : Nat) (q : Nat) (l : Nat) out = .ok C ∧
      Row C out.cols fun t => riseAt function q (q + l) t + fallAt function 0 p t := by
  unfold placeOutIn
  by_cases hpq : p ≤ q
  · rw [if_pos (by omega)]
    obtain ⟨A, a1, a2, a3, a4⟩ := put (A := out) (S := fadeOut) 0 p (by omega) (by omega) hr hO.1 hO.2.1
    obtain ⟨B, b1, b2, b3, b4⟩ := putScalar (A := A) (0 : α) p q (by omega) a2
    obtain ⟨C, c1, c2, c3, c4⟩ := putTail (A := B) (S := fadeIn) q (by omega) b2 hI.1 (by rw [hI.2.1]; omega)
    change out.assign .all (.range 0 (p : Nat)) _ = _ at a1
    rw [a1]
    show ∃ C', (A.assign _ _ _ >>= _) = _ ∧ _
    rw [b1]
    show ∃ C', B.assign _ _ _ = _ ∧ _
    refine ⟨C, c1, c2, by omega, ?_⟩
    intro t ht
    rw [c4 t (by omega), b4, a4]
    unfold riseAt fallAt
    beta_reduce
    rw [if_neg (show ¬ t < 0 by omega)]
    by_cases h1 : q ≤ t
    · rw [if_pos h1, if_neg (by omega), if_pos (by omega), if_neg (show ¬ t < p by omega), add_zero,
        hI.2.2 _ (by omega), show q + l - q = l by omega]
    · rw [if_neg h1, if_pos (show t < q by omega), zero_add]
      by_cases h2 : p ≤ t
      · rw [if_pos (by omega), if_neg (by omega)]
      · rw [if_neg (by omega), if_pos (by omega), if_pos (by omega), hO.2.2 _ (by omega)]
        simp
  · rw [if_neg (by omega)]
    have hs := row_slice hO 0 q (by omega)
    obtain ⟨A, a1, a2, a3, a4⟩ := put (A := out) (S := fadeOut.slice .all (.range 0 (q : Nat))) 0 q (by omega)
      (by omega) hr hs.1 hs.2.1
    dsimp only
    change out.assign .all (.range 0 (q : Nat)) _ = .ok A at a1
    rw [a1]
    show ∃ C, (if ((q : Int) + l) ≥ A.cols then _ else _) = _ ∧ _
    have hAget : ∀ j, j < q → A.get 0 j = function (2 * p) (p + j) := by
      intro j hj
      rw [a4 j, if_pos (by omega)]
      have := hs.2.2 j (by omega)
      simp only [Nat.zero_add] at this
      simpa using this
    by_cases hqp : (q : Int) + l ≥ A.cols
    · rw [if_pos hqp]
      have hle : p ≤ q + l := by omega
      have r1 := row_slice hO q p (by omega)
      have r2 := row_slice hI 0 (p - q) (by omega)
      rw [show p - q - 0 = p - q by omega] at r2
      obtain ⟨P, p1, p2⟩ := row_binary (· + ·) r1 r2
      rw [show (p : Int) - q = ((p - q : Nat) : Int) by omega]
      obtain ⟨B, b1, b2, b3, b4⟩ := put (A := A) (S := P) q p (by omega) (by omega) a2 p2.1 p2.2.1
      have r3 := row_drop hI (p - q)
      obtain ⟨C, c1, c2, c3, c4⟩ := putTail (A := B) (S := fadeIn.slice .all (.drop (p - q : Nat))) p (by omega) b2
        r3.1 (by rw [r3.2.1]; omega)
      change binary _ (fadeOut.slice .all (.range (q : Nat) (p : Nat)))
        (fadeIn.slice .all (.range 0 (p - q : Nat))) = _ at p1
      rw [p1]
      show ∃ C', (A.assign _ _ _ >>= _) = _ ∧ _
      rw [b1]
      show ∃ C', B.assign _ _ _ = _ ∧ _
      refine ⟨C, c1, c2, by omega, ?_⟩
      intro t ht
      rw [c4 t (by omega)]
      unfold riseAt fallAt
      beta_reduce
      rw [if_neg (show ¬ t < 0 by omega)]
      by_cases h1 : p ≤ t
      · rw [if_pos h1, if_neg (show ¬ t < q by omega), if_pos (show t < q + l by omega),
          if_neg (show ¬ t < p by omega), add_zero, r3.2.2 _ (by omega)]
        beta_reduce
        rw [show q + l - q = l by omega, show p - q + (t - p) = t - q by omega]
      · rw [if_neg h1, b4, if_pos (show t < p by omega)]
        by_cases h2 : q ≤ t
        · rw [if_pos (by omega), p2.2.2 _ (by omega), if_neg (by omega), if_pos (by omega)]
          simp only [Nat.sub_zero, Nat.zero_add]
          rw [show q + (t - q) = t by omega, show q + l - q = l by omega]
          exact add_comm _ _
        · rw [if_neg (by omega), if_pos (show t < q by omega), zero_add, hAget t (by omega)]
          simp
    · rw [if_neg hqp]
      have hlt : q + l < p := by omega
      have r1 := row_slice hO q (q + l) (by omega)
      rw [show q + l - q = l by omega] at r1
      obtain ⟨P, p1, p2⟩ := row_binary (· + ·) r1 hI
      rw [show (q : Int) + l = ((q + l : Nat) : Int) by omega]
      obtain ⟨B, b1, b2, b3, b4⟩ := put (A := A) (S := P) q (q + l) (by omega) (by omega) a2 p2.1
        (by rw [p2.2.1]; omega)
      have r3 := row_map (row_drop hO (q + l)) (· + 1)
      obtain ⟨C, c1, c2, c3, c4⟩ := putTail (A := B)
        (S := (fadeOut.slice .all (.drop (q + l : Nat))).map (· + 1)) (q + l) (by omega) b2
        r3.1 (by rw [r3.2.1]; omega)
      rw [p1]
      show ∃ C', (A.assign _ _ _ >>= _) = _ ∧ _
      rw [b1]
      show ∃ C', B.assign _ _ _ = _ ∧ _
      refine ⟨C, c1, c2, by omega, ?_⟩
      intro t ht
      rw [c4 t (by omega)]
      unfold riseAt fallAt
      beta_reduce
      rw [if_neg (show ¬ t < 0 by omega)]
      by_cases h1 : q + l ≤ t
      · rw [if_pos h1, if_neg (show ¬ t < q by omega), if_neg (show ¬ t < q + l by omega), r3.2.2 _ (by omega),
          if_pos (by omega)]
        simp only [Nat.sub_zero]
        rw [show q + l + (t - (q + l)) = t by omega]
        exact add_comm _ _
      · rw [if_neg h1, b4, if_pos (show t < p by omega)]
        by_cases h2 : q ≤ t
        · rw [if_pos (by omega), p2.2.2 _ (by omega), if_neg (by omega), if_pos (by omega)]
          simp only [Nat.sub_zero]
          rw [show q + (t - q) = t by omega, show q + l - q = l by omega]
          exact add_comm _ _
        · rw [if_neg (by omega), if_pos (show t < q by omega), zero_add, hAget t (by omega)]
          simp

theorem fadeOutIn_ok [Semiring α] (function : Nat → Nat → α) (p q l : Nat) (out : Mat α)
    (hr : out.rows = 1) (hc : out.cols = max p (q + l)) :
    ∃ C, fadeOutIn function (p : Nat) (q : Nat) (l : Nat) out = .ok C ∧
      Row C out.cols fun t => riseAt function q (q + l) t + fallAt function 0 p t := by
  unfold fadeOutIn
  by_cases hpl : p = l
  · subst hpl
    rw [if_pos rfl]
    have hw := row_window function (p + p)
    have h1 := row_slice hw 0 p (by omega)
    have h2 := row_drop hw p
    rw [show (p : Int) + p = ((p + p : Nat) : Int) by omega]
    refine placeOutIn_ok function p q p _ _ out ?_ ?_ hr hc
    · rw [show 2 * p = p + p by omega]
      rwa [show p + p - p = p by omega] at h2
    · rw [show 2 * p = p + p by omega]
      simpa using h1
  · rw [if_neg (by omega)]
    exact placeOutIn_ok function p q l _ _ out (row_lastHalf function p) (row_firstHalf function l) hr hc

theorem riseAt_shift [Zero α] [One α] (function : Nat → Nat → α) (s a b t : Nat) (h : s ≤ a) (hb : a ≤ b)
    (ht : s ≤ t) : riseAt function (a - s) (b - s) (t - s) = riseAt function a b t := by
  unfold riseAt
  rw [show b - s - (a - s) = b - a by omega, show t - s - (a - s) = t - a by omega]
  by_cases h1 : t < a
  · rw [if_pos (by omega), if_pos h1]
  · rw [if_neg (by omega), if_neg h1]
    by_cases h2 : t < b
    · rw [if_pos (by omega), if_pos h2]
    · rw [if_neg (by omega), if_neg h2]

theorem fallAt_shift [Zero α] [One α] (function : Nat → Nat → α) (s a b t : Nat) (h : s ≤ a) (hb : a ≤ b)
    (ht : s ≤ t) : fallAt function (a - s) (b - s) (t - s) = fallAt function a b t := by
  unfold fallAt
  rw [show b - s - (a - s) = b - a by omega, show t - s - (a - s) = t - a by omega]
  by_cases h1 : t < a
  · rw [if_pos (by omega), if_pos h1]
  · rw [if_neg (by omega), if_neg h1]
    by_cases h2 : t < b
    · rw [if_pos (by omega), if_pos h2]
    · rw [if_neg (by omega), if_neg h2]

/-- start of the code, that is shared by the two combinations: constant, both slopes, constant -/
theorem frame (v : α) (label : String) (work : Mat α → Py (Mat α)) (start stop : Nat) (f : Nat → α) (channel : Mat α)
    (hr : channel.rows = 1) (h1 : start ≤ stop) (h2 : stop ≤ channel.cols)
    (hw : ∀ out : Mat α, out.rows = 1 → out.cols = stop - start → ∃ C, work out = .ok C ∧ Row C out.cols f) :
    ∃ C, (do
      let channel ← channel.assign .all (.range 0 (start : Nat)) (.scalar v)
      let out ← work (channel.slice .all (.range (start : Nat) (stop : Nat)))
      let channel ← channel.assign .all (.range (start : Nat) (stop : Nat)) out
      let channel ← channel.assign .all (.drop (stop : Nat)) (.scalar v)
      return (channel, label)) = .ok (C, label) ∧
    Row C channel.cols fun t => if t < start then v else if t < stop then f (t - start) else v := by
  obtain ⟨A, a1, a2, a3, a4⟩ := putScalar (A := channel) v 0 start (by omega) hr
  change channel.assign .all (.range 0 (start : Nat)) _ = _ at a1
  rw [a1]
  show ∃ C, (work (A.slice .all (.range (start : Nat) (stop : Nat))) >>= _) = _ ∧ _
  have hc : (A.slice .all (.range (start : Nat) (stop : Nat))).cols = stop - start := by simp; omega
  obtain ⟨W, w1, w2, w3, w4⟩ := hw (A.slice .all (.range (start : Nat) (stop : Nat))) (by simp [a2]) hc
  rw [w1]
  rw [hc] at w3 w4
  obtain ⟨B, b1, b2, b3, b4⟩ := put (A := A) (S := W) start stop h1 (by omega) a2 w2 w3
  show ∃ C, (A.assign _ _ _ >>= _) = _ ∧ _
  rw [b1]
  obtain ⟨C, c1, c2, c3, c4⟩ := putScalarTail (A := B) v stop (by omega) b2
  show ∃ C, (B.assign _ _ _ >>= _) = _ ∧ _
  rw [c1]
  refine ⟨C, rfl, c2, by omega, ?_⟩
  intro t ht
  rw [c4 t (by omega), b4, a4]
  beta_reduce
  by_cases h3 : t < start
  · rw [if_neg (by omega), if_neg (by omega), if_pos (by omega), if_pos h3]
  · rw [if_neg h3]
    by_cases h4 : t < stop
    · rw [if_neg (by omega), if_pos (by omega), if_pos h4, w4 _ (by omega)]
    · rw [if_pos (by omega), if_neg h4]

/-! ### C27 -/

/-- The intervals are given by samples `a ≤ b ≤ length`. -/
def Within (length : Nat) (i : Nat × Nat) : Prop := i.1 ≤ i.2 ∧ i.2 ≤ length

/-- the interval as the constructor's code sees it after computing the indices -/
def cast (i : Nat × Nat) : Int × Int := (i.1, i.2)

/-- the fade, that is documented: constantly one, if there are no intervals, a fade in, a fade out, the product of both
for a fade in, that starts before the fade out, and otherwise the sum of both -/
def expected [Semiring α] (function : Nat → Nat → α) : Option (Nat × Nat) → Option (Nat × Nat) → Nat → α
  | none, none, _ => 1
  | some r, none, t => riseAt function r.1 r.2 t
  | none, some f, t => fallAt function f.1 f.2 t
  | some r, some f, t =>
    if r.1 < f.1 ∨ (r.1 = r.2 ∧ r.2 = f.1 ∧ f.1 ≠ f.2) then riseAt function r.1 r.2 t * fallAt function f.1 f.2 t
    else riseAt function r.1 r.2 t + fallAt function f.1 f.2 t

/-- the label of the channel -/
def expectedLabel : Option (Nat × Nat) → Option (Nat × Nat) → String
  | none, none => "Fade"
  | some _, none => "Fade in"
  | none, some _ => "Fade out"
  | some r, some f =>
    if r.1 < f.1 ∨ (r.1 = r.2 ∧ r.2 = f.1 ∧ f.1 ≠ f.2) then "Fade in-out" else "Fade out-in"

theorem samples_ok [Semiring α] (function : Nat → Nat → α) (rise fall : Option (Nat × Nat)) (channel : Mat α)
    (hr : channel.rows = 1) (h1 : ∀ r ∈ rise, Within channel.cols r) (h2 : ∀ f ∈ fall, Within channel.cols f) :
    ∃ C, samples function (rise.map cast) (fall.map cast) channel = .ok (C, expectedLabel rise fall) ∧
      Row C channel.cols (expected function rise fall) := by
  cases rise with
  | none =>
    cases fall with
    | none =>
      obtain ⟨A, a1, a2, a3, a4, _⟩ := Mat.assign_cols_scalar (A := channel) (c := .all) (1 : α) 0 channel.cols rfl rfl
      show ∃ C, (channel.assign .all .all (.scalar 1) >>= _) = _ ∧ _
      rw [a1]
      refine ⟨A, rfl, a2.trans hr, a3, ?_⟩
      intro t ht
      exact a4 0 t (by omega) (by omega) ht
    | some f =>
      obtain ⟨a, b⟩ := f
      obtain ⟨hab, hb⟩ := h2 (a, b) rfl
      dsimp only at hab hb
      show ∃ C, (channel.assign .all (.range 0 (a : Nat)) (.scalar 1) >>= _) = _ ∧ _
      obtain ⟨A, a1, a2, a3, a4⟩ := putScalar (A := channel) (1 : α) 0 a (by omega) hr
      change channel.assign .all (.range 0 (a : Nat)) _ = _ at a1
      rw [a1]
      show ∃ C, (A.assign .all (.range (a : Nat) (b : Nat)) (lastHalf function ((b : Nat) - (a : Nat))) >>= _) = _ ∧ _
      have hL := row_lastHalf function (b - a)
      rw [show (b : Int) - a = ((b - a : Nat) : Int) by omega]
      obtain ⟨B, b1, b2, b3, b4⟩ := put (A := A) (S := lastHalf function (b - a : Nat)) a b hab (by omega) a2 hL.1 hL.2.1
      rw [b1]
      show ∃ C, (B.assign .all (.drop (b : Nat)) (.scalar 0) >>= _) = _ ∧ _
      obtain ⟨C, c1, c2, c3, c4⟩ := putScalarTail (A := B) (0 : α) b (by omega) b2
      rw [c1]
      refine ⟨C, rfl, c2, by omega, ?_⟩
      intro t ht
      rw [c4 t (by omega), b4, a4]
      show _ = fallAt function a b t
      unfold fallAt
      by_cases h3 : t < a
      · rw [if_neg (by omega), if_neg (by omega), if_pos (by omega), if_pos h3]
      · rw [if_neg h3]
        by_cases h4 : t < b
        · rw [if_neg (by omega), if_pos (by omega), if_pos h4, hL.2.2 _ (by omega)]
        · rw [if_pos (by omega), if_neg h4]
  | some r =>
    obtain ⟨a, b⟩ := r
    obtain ⟨hab, hb⟩ := h1 (a, b) rfl
    dsimp only at hab hb
    cases fall with
    | none =>
      show ∃ C, (channel.assign .all (.range 0 (a : Nat)) (.scalar 0) >>= _) = _ ∧ _
      obtain ⟨A, a1, a2, a3, a4⟩ := putScalar (A := channel) (0 : α) 0 a (by omega) hr
      change channel.assign .all (.range 0 (a : Nat)) _ = _ at a1
      rw [a1]
      show ∃ C, (A.assign .all (.range (a : Nat) (b : Nat)) (firstHalf function ((b : Nat) - (a : Nat))) >>= _) = _ ∧ _
      have hL := row_firstHalf function (b - a)
      rw [show (b : Int) - a = ((b - a : Nat) : Int) by omega]
      obtain ⟨B, b1, b2, b3, b4⟩ := put (A := A) (S := firstHalf function (b - a : Nat)) a b hab (by omega) a2 hL.1 hL.2.1
      rw [b1]
      show ∃ C, (B.assign .all (.drop (b : Nat)) (.scalar 1) >>= _) = _ ∧ _
      obtain ⟨C, c1, c2, c3, c4⟩ := putScalarTail (A := B) (1 : α) b (by omega) b2
      rw [c1]
      refine ⟨C, rfl, c2, by omega, ?_⟩
      intro t ht
      rw [c4 t (by omega), b4, a4]
      show _ = riseAt function a b t
      unfold riseAt
      by_cases h3 : t < a
      · rw [if_neg (by omega), if_neg (by omega), if_pos (by omega), if_pos h3]
      · rw [if_neg h3]
        by_cases h4 : t < b
        · rw [if_neg (by omega), if_pos (by omega), if_pos h4, hL.2.2 _ (by omega)]
        · rw [if_pos (by omega), if_neg h4]
    | some f =>
      obtain ⟨c, d⟩ := f
      obtain ⟨hcd, hd⟩ := h2 (c, d) rfl
      dsimp only at hcd hd
      show ∃ C, (if ((a : Nat) : Int) < (c : Nat) ∨ (((a : Nat) : Int) = (b : Nat) ∧ ((b : Nat) : Int) = (c : Nat) ∧
          ((c : Nat) : Int) ≠ (d : Nat)) then _ else _) = Except.ok (C, if a < c ∨ (a = b ∧ b = c ∧ c ≠ d) then _ else _) ∧
        Row C channel.cols fun t => if a < c ∨ (a = b ∧ b = c ∧ c ≠ d) then
          riseAt function a b t * fallAt function c d t else riseAt function a b t + fallAt function c d t
      by_cases h : a < c ∨ (a = b ∧ b = c ∧ c ≠ d)
      · rw [if_pos h, if_pos (by omega)]
        simp only [if_pos h]
        obtain ⟨stop, hstop⟩ : ∃ m : Nat, max b d = m := ⟨_, rfl⟩
        obtain ⟨C, c1, c2⟩ := frame (0 : α) "Fade in-out"
          (fadeInOut function (b - a : Nat) (c - a : Nat) (d - c : Nat)) a stop
          (fun t => riseAt function 0 (b - a) t * fallAt function (c - a) (c - a + (d - c)) t) channel hr
          (by omega) (by omega) (by
            intro out o1 o2
            exact fadeInOut_ok function (b - a) (c - a) (d - c) out o1 (by omega))
        refine ⟨C, ?_, ?_⟩
        · show (channel.assign .all (.range 0 (min ((a : Nat) : Int) (c : Nat))) (.scalar 0) >>= _) = _
          simp only [show min ((a : Nat) : Int) (c : Nat) = (a : Nat) by omega,
            show max ((b : Nat) : Int) (d : Nat) = (stop : Nat) by omega,
            show ((b : Nat) : Int) - (a : Nat) = (b - a : Nat) by omega,
            show ((c : Nat) : Int) - (a : Nat) = (c - a : Nat) by omega,
            show ((d : Nat) : Int) - (c : Nat) = (d - c : Nat) by omega]
          exact c1
        · refine ⟨c2.1, c2.2.1, ?_⟩
          intro t ht
          rw [c2.2.2 t ht]
          beta_reduce
          by_cases t1 : t < a
          · rw [if_pos t1]
            unfold riseAt
            rw [if_pos t1, zero_mul]
          · rw [if_neg t1]
            by_cases t2 : t < stop
            · rw [if_pos t2]
              rw [← riseAt_shift function a a b t (by omega) (by omega) (by omega),
                ← fallAt_shift function a c d t (by omega) (by omega) (by omega)]
              rw [show a - a = 0 by omega, show c - a + (d - c) = d - a by omega]
            · rw [if_neg t2]
              unfold fallAt
              rw [if_neg (show ¬ t < c by omega), if_neg (show ¬ t < d by omega), mul_zero]
      · rw [if_neg h, if_neg (by omega)]
        simp only [if_neg h]
        obtain ⟨stop, hstop⟩ : ∃ m : Nat, max d b = m := ⟨_, rfl⟩
        obtain ⟨C, c1, c2⟩ := frame (1 : α) "Fade out-in"
          (fadeOutIn function (d - c : Nat) (a - c : Nat) (b - a : Nat)) c stop
          (fun t => riseAt function (a - c) (a - c + (b - a)) t + fallAt function 0 (d - c) t) channel hr
          (by omega) (by omega) (by
            intro out o1 o2
            exact fadeOutIn_ok function (d - c) (a - c) (b - a) out o1 (by omega))
        refine ⟨C, ?_, ?_⟩
        · show (channel.assign .all (.range 0 (min ((c : Nat) : Int) (a : Nat))) (.scalar 1) >>= _) = _
          simp only [show min ((c : Nat) : Int) (a : Nat) = (c : Nat) by omega,
            show max ((d : Nat) : Int) (b : Nat) = (stop : Nat) by omega,
            show ((d : Nat) : Int) - (c : Nat) = (d - c : Nat) by omega,
            show ((a : Nat) : Int) - (c : Nat) = (a - c : Nat) by omega,
            show ((b : Nat) : Int) - (a : Nat) = (b - a : Nat) by omega]
          exact c1
        · refine ⟨c2.1, c2.2.1, ?_⟩
          intro t ht
          rw [c2.2.2 t ht]
          beta_reduce
          by_cases t1 : t < c
          · rw [if_pos t1]
            unfold riseAt fallAt
            rw [if_pos t1, if_pos (show t < a by omega), zero_add]
          · rw [if_neg t1]
            by_cases t2 : t < stop
            · rw [if_pos t2]
              rw [← riseAt_shift function c a b t (by omega) (by omega) (by omega),
                ← fallAt_shift function c c d t (by omega) (by omega) (by omega)]
              rw [show c - c = 0 by omega, show a - c + (b - a) = b - c by omega]
            · rw [if_neg t2]
              unfold fallAt riseAt
              rw [if_neg (show ¬ t < c by omega), if_neg (show ¬ t < d by omega), if_neg (show ¬ t < a by omega),
                if_neg (show ¬ t < b by omega), add_zero]

/-- the intervals of the constructor describe the given samples -/
def ParsesTo (length : Nat) (single : Nat → Nat × Nat) : Interval → Option (Nat × Nat) → Prop
  | .none, none => True
  | .single i, some r => ∃ k : Nat, Indexing.index length i = some k ∧ r = single k
  | .pair i j, some r => Indexing.index length i = some r.1 ∧ Indexing.index length j = some r.2
  | _, _ => False

theorem parseRise_eq {length : Nat} {i : Interval} {r : Option (Nat × Nat)}
    (h : ParsesTo length (fun k => (0, k)) i r) : parseRise length i = some (r.map cast) := by
  cases i <;> cases r <;> simp only [ParsesTo] at h
  · rfl
  · obtain ⟨k, h1, h2⟩ := h
    subst h2
    simp [parseRise, h1, cast]
  · simp [parseRise, h.1, h.2, cast]

theorem parseFall_eq {length : Nat} {i : Interval} {r : Option (Nat × Nat)}
    (h : ParsesTo length (fun k => (k, length)) i r) : parseFall length i = some (r.map cast) := by
  cases i <;> cases r <;> simp only [ParsesTo] at h
  · rfl
  · obtain ⟨k, h1, h2⟩ := h
    subst h2
    simp [parseFall, h1, cast]
  · simp [parseFall, h.1, h.2, cast]

/-- C27: Every sample of a fade signal is given by the documented combination of the slopes, independently of the
content of the memory. -/
theorem C27_samples [Semiring α] (mem : Nat → Nat → α) (function : Nat → Nat → α) (rise fall : Interval)
    (rate : R) (length : Nat) (r f : Option (Nat × Nat)) (hr : ParsesTo length (fun k => (0, k)) rise r)
    (hf : ParsesTo length (fun k => (k, length)) fall f) (hr' : ∀ i ∈ r, Within length i)
    (hf' : ∀ i ∈ f, Within length i) :
    ∃ s : Signal α R, new mem function rise fall rate length = some (.ok s) ∧ s.rate = rate ∧ s.offset = 0 ∧
      s.channels.rows = 1 ∧ s.channels.cols = length ∧ s.labels = [expectedLabel r f] ∧
      ∀ t, t < length → s.channels.get 0 t = expected function r f t := by
  obtain ⟨C, c1, c2, c3, c4⟩ := samples_ok function r f (alloc mem 1 length) rfl hr' hf'
  refine ⟨Signal.new C rate 0 (some [expectedLabel r f]), ?_, rfl, rfl, c2, c3, ?_, c4⟩
  · unfold new
    rw [parseRise_eq hr, parseFall_eq hf]
    show some (samples function (r.map cast) (f.map cast) (alloc mem 1 length) >>= _) = _
    rw [c1]
    rfl
  · show sanitizeLabels (some [expectedLabel r f]) C.rows = _
    rw [c2]
    rfl

/-! #### Range of the samples -/

section Order

variable {K : Type} [Semiring K] [PartialOrder K] [IsOrderedRing K]

theorem riseAt_mem (function : Nat → Nat → K) (hw : ∀ n i, i < n → 0 ≤ function n i ∧ function n i ≤ 1)
    (a b t : Nat) : 0 ≤ riseAt function a b t ∧ riseAt function a b t ≤ 1 := by
  unfold riseAt
  by_cases h1 : t < a
  · rw [if_pos h1]
    exact ⟨le_refl _, zero_le_one⟩
  · rw [if_neg h1]
    by_cases h2 : t < b
    · rw [if_pos h2]
      exact hw _ _ (by omega)
    · rw [if_neg h2]
      exact ⟨zero_le_one, le_refl _⟩

theorem fallAt_mem (function : Nat → Nat → K) (hw : ∀ n i, i < n → 0 ≤ function n i ∧ function n i ≤ 1)
    (a b t : Nat) : 0 ≤ fallAt function a b t ∧ fallAt function a b t ≤ 1 := by
  unfold fallAt
  by_cases h1 : t < a
  · rw [if_pos h1]
    exact ⟨zero_le_one, le_refl _⟩
  · rw [if_neg h1]
    by_cases h2 : t < b
    · rw [if_pos h2]
      exact hw _ _ (by omega)
    · rw [if_neg h2]
      exact ⟨le_refl _, zero_le_one⟩

/-- The samples are between zero and one, if those of the window are, except for a fade out-in with slopes that
overlap. -/
theorem expected_range (function : Nat → Nat → K) (hw : ∀ n i, i < n → 0 ≤ function n i ∧ function n i ≤ 1)
    (r f : Option (Nat × Nat)) (h : ∀ i ∈ r, ∀ j ∈ f, i.1 < j.1 ∨ j.2 ≤ i.1) (t : Nat) :
    0 ≤ expected function r f t ∧ expected function r f t ≤ 1 := by
  cases r with
  | none =>
    cases f with
    | none => exact ⟨zero_le_one, le_refl _⟩
    | some f => exact fallAt_mem function hw f.1 f.2 t
  | some r =>
    cases f with
    | none => exact riseAt_mem function hw r.1 r.2 t
    | some f =>
      have h1 := riseAt_mem function hw r.1 r.2 t
      have h2 := fallAt_mem function hw f.1 f.2 t
      show 0 ≤ (if r.1 < f.1 ∨ (r.1 = r.2 ∧ r.2 = f.1 ∧ f.1 ≠ f.2) then _ else _) ∧
        (if r.1 < f.1 ∨ (r.1 = r.2 ∧ r.2 = f.1 ∧ f.1 ≠ f.2) then _ else _) ≤ _
      by_cases hc : r.1 < f.1 ∨ (r.1 = r.2 ∧ r.2 = f.1 ∧ f.1 ≠ f.2)
      · rw [if_pos hc]
        exact ⟨mul_nonneg h1.1 h2.1, mul_le_one₀ h1.2 h2.1 h2.2⟩
      · rw [if_neg hc]
        have := h r rfl f rfl
        by_cases ht : t < r.1
        · have : riseAt function r.1 r.2 t = 0 := if_pos ht
          rw [this, zero_add]
          exact h2
        · have : fallAt function f.1 f.2 t = 0 := by
            unfold fallAt
            by_cases h3 : t < f.1
            · omega
            · rw [if_neg h3, if_neg (by omega)]
          rw [this, add_zero]
          exact h1

/-- A fade in does not decrease, if the first half of the window does not. -/
theorem expected_monotone (function : Nat → Nat → K) (hw : ∀ n i, i < n → 0 ≤ function n i ∧ function n i ≤ 1)
    (hm : ∀ n i j, i ≤ j → j < n → function (2 * n) i ≤ function (2 * n) j) (a b t u : Nat) (h : t ≤ u) :
    expected function (some (a, b)) none t ≤ expected function (some (a, b)) none u := by
  show riseAt function a b t ≤ riseAt function a b u
  by_cases h1 : t < a
  · have : riseAt function a b t = 0 := if_pos h1
    rw [this]
    exact (riseAt_mem function hw a b u).1
  · by_cases h2 : u < b
    · unfold riseAt
      rw [if_neg h1, if_neg (show ¬ u < a by omega), if_pos (show t < b by omega), if_pos h2]
      exact hm _ _ _ (by omega) (by omega)
    · have : riseAt function a b u = 1 := by
        unfold riseAt
        rw [if_neg (by omega), if_neg h2]
      rw [this]
      exact (riseAt_mem function hw a b t).2

/-- A fade out does not increase, if the second half of the window does not. -/
theorem expected_antitone (function : Nat → Nat → K) (hw : ∀ n i, i < n → 0 ≤ function n i ∧ function n i ≤ 1)
    (hm : ∀ n i j, n ≤ i → i ≤ j → j < 2 * n → function (2 * n) j ≤ function (2 * n) i) (a b t u : Nat) (h : t ≤ u) :
    expected function none (some (a, b)) u ≤ expected function none (some (a, b)) t := by
  show fallAt function a b u ≤ fallAt function a b t
  by_cases h1 : t < a
  · have : fallAt function a b t = 1 := if_pos h1
    rw [this]
    exact (fallAt_mem function hw a b u).2
  · by_cases h2 : u < b
    · unfold fallAt
      rw [if_neg h1, if_neg (show ¬ u < a by omega), if_pos (show t < b by omega), if_pos h2]
      exact hm _ _ _ (by omega) (by omega) (by omega)
    · have : fallAt function a b u = 0 := by
        unfold fallAt
        rw [if_neg (by omega), if_neg h2]
      rw [this]
      exact (fallAt_mem function hw a b t).1

/-- C27: The samples of a fade signal are between zero and one, if those of the window are. Missing: a fade out-in with
slopes that overlap, see `C27_overlap_violated`. -/
theorem C27_range_partial (mem function : Nat → Nat → K) (rise fall : Interval) (rate : R) (length : Nat)
    (r f : Option (Nat × Nat)) (hr : ParsesTo length (fun k => (0, k)) rise r)
    (hf : ParsesTo length (fun k => (k, length)) fall f) (hr' : ∀ i ∈ r, Within length i)
    (hf' : ∀ i ∈ f, Within length i) (hw : ∀ n i, i < n → 0 ≤ function n i ∧ function n i ≤ 1)
    (h : ∀ i ∈ r, ∀ j ∈ f, i.1 < j.1 ∨ j.2 ≤ i.1) :
    ∃ s : Signal K R, new mem function rise fall rate length = some (.ok s) ∧ s.channels.cols = length ∧
      ∀ t, t < length → 0 ≤ s.channels.get 0 t ∧ s.channels.get 0 t ≤ 1 := by
  obtain ⟨s, h1, _, _, _, h2, _, h3⟩ := C27_samples mem function rise fall rate length r f hr hf hr' hf'
  refine ⟨s, h1, h2, ?_⟩
  intro t ht
  rw [h3 t ht]
  exact expected_range function hw r f h t

/-- C27: A fade in does not decrease, if the first half of the window does not. -/
theorem C27_fade_in_monotone (mem function : Nat → Nat → K) (rise : Interval) (rate : R) (length : Nat)
    (a b : Nat) (hr : ParsesTo length (fun k => (0, k)) rise (some (a, b))) (hab : a ≤ b) (hb : b ≤ length)
    (hw : ∀ n i, i < n → 0 ≤ function n i ∧ function n i ≤ 1)
    (hm : ∀ n i j, i ≤ j → j < n → function (2 * n) i ≤ function (2 * n) j) :
    ∃ s : Signal K R, new mem function rise .none rate length = some (.ok s) ∧ s.channels.cols = length ∧
      ∀ t u, t ≤ u → u < length → s.channels.get 0 t ≤ s.channels.get 0 u := by
  obtain ⟨s, h1, _, _, _, h2, _, h3⟩ := C27_samples mem function rise .none rate length (some (a, b)) none hr trivial
    (by rintro i ⟨⟩; exact ⟨hab, hb⟩) (by rintro i ⟨⟩)
  refine ⟨s, h1, h2, ?_⟩
  intro t u htu hu
  rw [h3 t (by omega), h3 u hu]
  exact expected_monotone function hw hm a b t u htu

/-- C27: A fade out does not increase, if the second half of the window does not. -/
theorem C27_fade_out_antitone (mem function : Nat → Nat → K) (fall : Interval) (rate : R) (length : Nat)
    (a b : Nat) (hf : ParsesTo length (fun k => (k, length)) fall (some (a, b))) (hab : a ≤ b) (hb : b ≤ length)
    (hw : ∀ n i, i < n → 0 ≤ function n i ∧ function n i ≤ 1)
    (hm : ∀ n i j, n ≤ i → i ≤ j → j < 2 * n → function (2 * n) j ≤ function (2 * n) i) :
    ∃ s : Signal K R, new mem function .none fall rate length = some (.ok s) ∧ s.channels.cols = length ∧
      ∀ t u, t ≤ u → u < length → s.channels.get 0 u ≤ s.channels.get 0 t := by
  obtain ⟨s, h1, _, _, _, h2, _, h3⟩ := C27_samples mem function .none fall rate length none (some (a, b)) trivial hf
    (by rintro i ⟨⟩) (by rintro i ⟨⟩; exact ⟨hab, hb⟩)
  refine ⟨s, h1, h2, ?_⟩
  intro t u htu hu
  rw [h3 t (by omega), h3 u hu]
  exact expected_antitone function hw hm a b t u htu

end Order

/-- a triangular window for the examples -/
def triangle (n i : Nat) : Rat := mkRat (2 * (min i (n - 1 - i)) + 1 : Nat) n

/-- the samples of a fade signal with the triangular window -/
def exampleFade (rise fall : Interval) (length : Nat) : Option (List Rat) := do
  let s ← new (R := Rat) (fun _ _ => 77) triangle rise fall 1 length
  match s with
  | .ok s => some ((List.range length).map (s.channels.get 0))
  | .error _ => none

/-- C27 (violation): In a fade out-in, whose slopes overlap, the samples can be greater than one. -/
theorem C27_overlap_violated :
    exampleFade (.pair (.int 2) (.int 4)) (.pair (.int 0) (.int 10)) 12 = some
      ([19, 17, 20, 28, 31, 29, 27, 25, 23, 21, 20, 20].map fun i => mkRat i 20) := by
  decide +kernel

-- the hypotheses of the theorems are satisfiable
example : ParsesTo 10 (fun k => (0, k)) (.single (.float (1/2))) (some (0, 5)) := ⟨5, by decide +kernel, rfl⟩
example : exampleFade (.single (.int 3)) (.single (.float (1/2))) 10 =
    some ([5, 15, 25, 30, 30, 27, 21, 15, 9, 3].map fun i => mkRat i 30) := by decide +kernel
example : ∀ n i, i < n → 0 ≤ triangle n i ∧ triangle n i ≤ 1 := by
  intro n i h
  unfold triangle
  rw [Rat.mkRat_eq_div]
  have hn : (0 : Rat) < (n : Nat) := by exact_mod_cast (by omega : 0 < n)
  constructor
  · exact div_nonneg (Nat.cast_nonneg _) hn.le
  · rw [div_le_one hn]
    exact_mod_cast (by omega : 2 * (min i (n - 1 - i)) + 1 ≤ n)

end Fade
end Verif
