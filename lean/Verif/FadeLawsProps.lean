import Verif.FadeProps
import Verif.WindowsProps
import Verif.SignalAlgebraProps

/-
C130: how fade signals are applied, combined and reversed, and how they relate to windows.
-/

namespace Verif
namespace Fade

open Indexing

variable {α R : Type}

/-! ### Specification -/

/-- the intervals, that are given to the constructor, are a pair of samples each -/
def pairOf : Option (Nat × Nat) → Interval
  | none => .none
  | some r => .pair (.int r.1) (.int r.2)

/-- The signals have the same sampling rate, the same offset, the same shape and the same samples. The labels may be
different. -/
def SameSamples (s r : Signal α R) : Prop :=
  s.rate = r.rate ∧ s.offset = r.offset ∧ s.channels.rows = r.channels.rows ∧ s.channels.cols = r.channels.cols ∧
    ∀ c t, c < s.channels.rows → t < s.channels.cols → s.channels.get c t = r.channels.get c t

/-! ### The constructor and the operators -/

theorem parses_pair (L : Nat) (single : Nat → Nat × Nat) (r : Option (Nat × Nat)) (h : ∀ i ∈ r, Within L i) :
    ParsesTo L single (pairOf r) r := by
  cases r with
  | none => trivial
  | some r =>
    have := h r rfl
    unfold Within at this
    have go : ∀ k : Nat, k ≤ L → index L (.int k) = some (k : Int) := by
      intro k hk
      unfold index Idx.start
      simp
    exact ⟨go _ (by omega), go _ (by omega)⟩

/-- A signal, whose samples have been computed with the given rule. -/
theorem make [Semiring α] (mem function : Nat → Nat → α) (rate : R) (L : Nat) (r f : Option (Nat × Nat))
    (hr : ∀ i ∈ r, Within L i) (hf : ∀ i ∈ f, Within L i) :
    ∃ s : Signal α R, new mem function (pairOf r) (pairOf f) rate L = some (.ok s) ∧ s.rate = rate ∧ s.offset = 0 ∧
      s.channels.rows = 1 ∧ s.channels.cols = L ∧ s.labels = [expectedLabel r f] ∧
      ∀ t, t < L → s.channels.get 0 t = expected function r f t :=
  C27_samples mem function _ _ rate L r f (parses_pair _ _ _ hr) (parses_pair _ _ _ hf) hr hf

/-- an operator for two signals with the same time range, of which the second has one channel -/
theorem operate [Zero α] (mem : Nat → Nat → α) (op : α → α → α) (label : String) (s o : Signal α R)
    (ho : o.channels.rows = 1) (hs : 0 < s.channels.rows) (h : s.offset = o.offset)
    (hL : s.channels.cols = o.channels.cols) :
    ∃ r, Signal.algebra mem op none label s o = .ok r ∧ r.rate = s.rate ∧ r.offset = s.offset ∧
      r.channels.rows = s.channels.rows ∧ r.channels.cols = s.channels.cols ∧
      r.labels = List.replicate s.channels.rows label ∧
      ∀ c t, c < s.channels.rows → t < s.channels.cols →
        r.channels.get c t = op (s.channels.get c t) (o.channels.get 0 t) := by
  have hsc : s.count = s.channels.rows := rfl
  have hoc : o.count = o.channels.rows := rfl
  have hsl : s.length = s.channels.cols := rfl
  have hol : o.length = o.channels.cols := rfl
  obtain ⟨r, h1, h2, h3, h4, h5, h6, h7⟩ := Signal.C10_pointwise_partial mem op none s o label
    ⟨by omega, by omega⟩
  have hrc : r.count = r.channels.rows := rfl
  have hrl : r.length = r.channels.cols := rfl
  have e1 : r.channels.rows = s.channels.rows := by omega
  have e2 : r.channels.cols = s.channels.cols := by omega
  refine ⟨r, h1, h3, by omega, e1, e2, by rw [h6, hrc, e1], ?_⟩
  intro c t hc ht
  have key := h7 c (r.offset + t) (by omega) (by omega) (by omega)
  have k1 : s.bcast c (r.offset + t) = some (s.channels.get c t) := by
    unfold Signal.bcast
    rw [Signal.at_eq_some]
    have : (r.offset + (t : Int) - s.offset).toNat = t := by omega
    rw [this]
    split
    · obtain rfl : c = 0 := by omega
      exact ⟨by omega, by omega, by omega, rfl⟩
    · exact ⟨by omega, by omega, by omega, rfl⟩
  have k2 : o.bcast c (r.offset + t) = some (o.channels.get 0 t) := by
    unfold Signal.bcast
    rw [Signal.at_eq_some, if_pos (by omega)]
    have : (r.offset + (t : Int) - o.offset).toNat = t := by omega
    rw [this]
    exact ⟨by omega, by omega, by omega, rfl⟩
  rw [k1, k2, Signal.at_eq_some] at key
  obtain ⟨_, _, _, k⟩ := key
  have : (r.offset + (t : Int) - r.offset).toNat = t := by omega
  rw [this] at k
  exact k

/-! ### C130 -/

/-- C130: A signal, that is multiplied with a fade in and out, is zero before the rise interval and after the fall
interval, and unchanged between the two intervals. Within the intervals, all channels are weighted in the same way with
the halves of the window. -/
theorem C130_applied [CommSemiring α] (mem mem' function : Nat → Nat → α) (s : Signal α R) (a b c d : Nat)
    (hab : a ≤ b) (hbc : b ≤ c) (hcd : c ≤ d) (hd : d ≤ s.length) (hac : a < c) (hs : 0 < s.count)
    (h0 : s.offset = 0) :
    ∃ w r, new mem function (.pair (.int a) (.int b)) (.pair (.int c) (.int d)) s.rate s.length = some (.ok w) ∧
      s.mul mem' w = .ok r ∧ r.rate = s.rate ∧ r.offset = 0 ∧ r.channels.rows = s.count ∧
      r.channels.cols = s.length ∧ r.labels = List.replicate s.count "Product" ∧
      ∀ k t, k < s.count → t < s.length → r.channels.get k t =
        if t < a then 0
        else if t < b then s.channels.get k t * function (2 * (b - a)) (t - a)
        else if t < c then s.channels.get k t
        else if t < d then s.channels.get k t * function (2 * (d - c)) (d - c + (t - c))
        else 0 := by
  obtain ⟨w, w1, w2, w3, w4, w5, _, w7⟩ := make mem function s.rate s.length (some (a, b)) (some (c, d))
    (by rintro i ⟨⟩; exact ⟨hab, by show b ≤ _; omega⟩) (by rintro i ⟨⟩; exact ⟨hcd, hd⟩)
  obtain ⟨r, r1, r2, r3, r4, r5, r6, r7⟩ := operate mem' (· * ·) "Product" s w w4 hs (by omega) (by rw [w5]; rfl)
  refine ⟨w, r, w1, r1, r2, by omega, r4, r5, r6, ?_⟩
  intro k t hk ht
  rw [r7 k t hk ht, w7 t ht]
  show s.channels.get k t * (if a < c ∨ _ then riseAt function a b t * fallAt function c d t else _) = _
  rw [if_pos (Or.inl hac)]
  unfold riseAt fallAt
  by_cases h1 : t < a
  · rw [if_pos h1, if_pos h1]
    simp
  · rw [if_neg h1, if_neg h1]
    by_cases h2 : t < b
    · rw [if_pos h2, if_pos h2, if_pos (show t < c by omega), mul_one]
    · rw [if_neg h2, if_neg h2, one_mul]
      by_cases h3 : t < c
      · rw [if_pos h3, if_pos h3, mul_one]
      · rw [if_neg h3, if_neg h3]
        by_cases h4 : t < d
        · rw [if_pos h4, if_pos h4]
        · rw [if_neg h4, if_neg h4, mul_zero]

/-- C130: Instead of a fade in and out, a separate fade in and a separate fade out can be multiplied. -/
theorem C130_product [CommSemiring α] (mem1 mem2 mem3 mem4 function : Nat → Nat → α) (rate : R) (L : Nat)
    (r f : Nat × Nat) (hr : Within L r) (hf : Within L f) (h : r.1 < f.1) :
    ∃ i o x p, new mem1 function (pairOf (some r)) .none rate L = some (.ok i) ∧
      new mem2 function .none (pairOf (some f)) rate L = some (.ok o) ∧
      new mem3 function (pairOf (some r)) (pairOf (some f)) rate L = some (.ok x) ∧
      i.mul mem4 o = .ok p ∧ SameSamples p x := by
  obtain ⟨i, i1, i2, i3, i4, i5, _, i7⟩ := make mem1 function rate L (some r) none (by rintro i ⟨⟩; exact hr)
    (by rintro i ⟨⟩)
  obtain ⟨o, o1, o2, o3, o4, o5, _, o7⟩ := make mem2 function rate L none (some f) (by rintro i ⟨⟩)
    (by rintro i ⟨⟩; exact hf)
  obtain ⟨x, x1, x2, x3, x4, x5, _, x7⟩ := make mem3 function rate L (some r) (some f) (by rintro i ⟨⟩; exact hr)
    (by rintro i ⟨⟩; exact hf)
  obtain ⟨p, p1, p2, p3, p4, p5, _, p7⟩ := operate mem4 (· * ·) "Product" i o o4 (by omega) (by omega) (by omega)
  refine ⟨i, o, x, p, i1, o1, x1, p1, by rw [p2, i2, x2], by omega, by omega, by omega, ?_⟩
  intro c t hc ht
  obtain rfl : c = 0 := by omega
  rw [p7 0 t (by omega) (by omega), i7 t (by omega), o7 t (by omega), x7 t (by omega)]
  show riseAt function r.1 r.2 t * fallAt function f.1 f.2 t = if _ then _ else _
  rw [if_pos (Or.inl h)]

/-- C130: Instead of a fade out and in, a separate fade out and a separate fade in can be added. -/
theorem C130_sum [CommSemiring α] (mem1 mem2 mem3 mem4 function : Nat → Nat → α) (rate : R) (L : Nat)
    (r f : Nat × Nat) (hr : Within L r) (hf : Within L f) (h : f.1 < r.1) :
    ∃ i o x p, new mem1 function (pairOf (some r)) .none rate L = some (.ok i) ∧
      new mem2 function .none (pairOf (some f)) rate L = some (.ok o) ∧
      new mem3 function (pairOf (some r)) (pairOf (some f)) rate L = some (.ok x) ∧
      i.add mem4 o = .ok p ∧ SameSamples p x := by
  obtain ⟨i, i1, i2, i3, i4, i5, _, i7⟩ := make mem1 function rate L (some r) none (by rintro i ⟨⟩; exact hr)
    (by rintro i ⟨⟩)
  obtain ⟨o, o1, o2, o3, o4, o5, _, o7⟩ := make mem2 function rate L none (some f) (by rintro i ⟨⟩)
    (by rintro i ⟨⟩; exact hf)
  obtain ⟨x, x1, x2, x3, x4, x5, _, x7⟩ := make mem3 function rate L (some r) (some f) (by rintro i ⟨⟩; exact hr)
    (by rintro i ⟨⟩; exact hf)
  obtain ⟨p, p1, p2, p3, p4, p5, _, p7⟩ := operate mem4 (· + ·) "Sum" i o o4 (by omega) (by omega) (by omega)
  refine ⟨i, o, x, p, i1, o1, x1, p1, by rw [p2, i2, x2], by omega, by omega, by omega, ?_⟩
  intro c t hc ht
  obtain rfl : c = 0 := by omega
  rw [p7 0 t (by omega) (by omega), i7 t (by omega), o7 t (by omega), x7 t (by omega)]
  show riseAt function r.1 r.2 t + fallAt function f.1 f.2 t = if _ then _ else _
  rw [if_neg (by omega)]

/-- C130: A fade in over the first `n` samples and a fade out over the last `n` samples is the same as a symmetric window
with a plateau between the two intervals. -/
theorem C130_window [CommSemiring α] (mem mem' function : Nat → Nat → α) (label : String) (rate : R) (n p : Nat)
    (hn : 0 < n) :
    ∃ x w, new mem function (.single (.int n)) (.pair (.int (n + p : Nat)) (.int (2 * n + p : Nat))) rate (2 * n + p) =
        some (.ok x) ∧
      Windows.new mem' function label (.int p) rate (2 * n + p) true = some (.ok (w, (p : Int))) ∧
      SameSamples x w := by
  have ix : ∀ L k : Nat, k ≤ L → index L (.int k) = some (k : Int) := by
    intro L k hk
    unfold index Idx.start
    simp
  obtain ⟨x, x1, x2, x3, x4, x5, _, x7⟩ := C27_samples (R := R) mem function (.single (.int n))
    (.pair (.int (n + p : Nat)) (.int (2 * n + p : Nat))) rate (2 * n + p) (some (0, n)) (some (n + p, 2 * n + p))
    ⟨n, ix _ _ (by omega), rfl⟩ ⟨ix _ _ (by omega), ix _ _ (by omega)⟩
    (by rintro i ⟨⟩; exact ⟨by show 0 ≤ n; omega, by show n ≤ _; omega⟩)
    (by rintro i ⟨⟩; exact ⟨by show n + p ≤ 2 * n + p; omega, le_refl _⟩)
  obtain ⟨w, w1, w2, w3, _, w5, w6, w7⟩ := Windows.C42_samples mem' function label (.int p) rate p (2 * n + p) true
    (ix _ _ (by omega)) (by omega)
  refine ⟨x, w, x1, w1, by rw [x2, w2], by omega, by omega, by omega, ?_⟩
  intro c t hc ht
  obtain rfl : c = 0 := by omega
  rw [x7 t (by omega), w7 t (by omega)]
  show (if 0 < n + p ∨ _ then riseAt function 0 n t * fallAt function (n + p) (2 * n + p) t else _) = _
  rw [if_pos (by omega)]
  have hf : Windows.fadeLength p (2 * n + p) = n := by
    unfold Windows.fadeLength
    omega
  unfold Windows.expected riseAt fallAt
  dsimp only
  rw [hf, if_neg (show ¬ t < 0 by omega), Nat.sub_zero, Nat.sub_zero, show 2 * n + p - (n + p) = n by omega]
  simp only [if_true]
  by_cases h0 : p = 0
  · subst p
    rw [if_pos rfl]
    by_cases h1 : t < n
    · rw [if_pos h1, if_pos (show t < n + 0 by omega), mul_one]
      rfl
    · rw [if_neg h1, one_mul, if_neg (show ¬ t < n + 0 by omega), if_pos (show t < 2 * n + 0 by omega)]
      congr 1
      omega
  · rw [if_neg h0]
    by_cases h1 : t < n
    · rw [if_pos h1, if_pos (show t < n + p by omega), mul_one, if_pos h1]
    · rw [if_neg h1, one_mul, if_neg h1]
      by_cases h2 : t < n + p
      · rw [if_pos h2, if_pos (show t < 2 * n + p - n by omega)]
      · rw [if_neg h2, if_pos (show t < 2 * n + p by omega), if_neg (show ¬ t < 2 * n + p - n by omega)]
        congr 1
        omega

/-- C130: If the window function is symmetric, then the reversed samples of a fade in are those of a fade out over the
mirrored interval. -/
theorem C130_reversed [CommSemiring α] (mem mem' function : Nat → Nat → α) (rate : R) (L a b : Nat) (hab : a ≤ b)
    (hb : b ≤ L) (hf : Windows.Symmetric function) :
    ∃ i o, new mem function (.pair (.int a) (.int b)) .none rate L = some (.ok i) ∧
      new mem' function .none (.pair (.int (L - b : Nat)) (.int (L - a : Nat))) rate L = some (.ok o) ∧
      o.rate = i.reversed.rate ∧ ∀ t, t < L → i.reversed.sample 0 t = o.sample 0 t := by
  obtain ⟨i, i1, i2, i3, i4, i5, _, i7⟩ := make mem function rate L (some (a, b)) none
    (by rintro i ⟨⟩; exact ⟨hab, hb⟩) (by rintro i ⟨⟩)
  obtain ⟨o, o1, o2, o3, o4, o5, _, o7⟩ := make mem' function rate L none (some (L - b, L - a)) (by rintro i ⟨⟩)
    (by rintro i ⟨⟩; exact ⟨by show L - b ≤ L - a; omega, by show L - a ≤ L; omega⟩)
  have hic : i.count = 1 := i4
  have hil : i.length = L := i5
  have hoc : o.count = 1 := o4
  have hol : o.length = L := o5
  refine ⟨i, o, i1, o1, by rw [o2, ← i2]; rfl, ?_⟩
  intro t ht
  rw [Signal.C09_reversed_samples i 0 t (by omega) (by omega), Signal.sample_of_lt (by omega) (by omega),
    Signal.sample_of_lt (by omega) (by omega), hil, i7 _ (by omega), o7 t ht]
  congr 1
  show riseAt function a b (L - 1 - t) = fallAt function (L - b) (L - a) t
  unfold riseAt fallAt
  by_cases h1 : L - 1 - t < a
  · rw [if_pos h1, if_neg (by omega), if_neg (by omega)]
  · rw [if_neg h1]
    by_cases h2 : L - 1 - t < b
    · rw [if_pos h2, if_neg (by omega), if_pos (by omega), show L - a - (L - b) = b - a by omega]
      rw [← hf (2 * (b - a)) (L - 1 - t - a) (by omega)]
      congr 1
      omega
    · rw [if_neg h2, if_pos (by omega)]

/-- C130: The fade in and the fade out over the same interval complement each other to one if and only if the two halves
of the window do. -/
theorem C130_crossfade [CommSemiring α] (mem1 mem2 mem3 function : Nat → Nat → α) (rate : R) (L a b : Nat)
    (hab : a ≤ b) (hb : b ≤ L) :
    ∃ i o p, new mem1 function (.pair (.int a) (.int b)) .none rate L = some (.ok i) ∧
      new mem2 function .none (.pair (.int a) (.int b)) rate L = some (.ok o) ∧ i.add mem3 o = .ok p ∧
      ((∀ t, t < L → p.channels.get 0 t = 1) ↔
        ∀ k, k < b - a → function (2 * (b - a)) k + function (2 * (b - a)) (b - a + k) = 1) := by
  obtain ⟨i, i1, i2, i3, i4, i5, _, i7⟩ := make mem1 function rate L (some (a, b)) none
    (by rintro i ⟨⟩; exact ⟨hab, hb⟩) (by rintro i ⟨⟩)
  obtain ⟨o, o1, o2, o3, o4, o5, _, o7⟩ := make mem2 function rate L none (some (a, b)) (by rintro i ⟨⟩)
    (by rintro i ⟨⟩; exact ⟨hab, hb⟩)
  obtain ⟨p, p1, p2, p3, p4, p5, _, p7⟩ := operate mem3 (· + ·) "Sum" i o o4 (by omega) (by omega) (by omega)
  have key : ∀ t, t < L → p.channels.get 0 t = riseAt function a b t + fallAt function a b t := by
    intro t ht
    rw [p7 0 t (by omega) (by omega), i7 t ht, o7 t ht]
    rfl
  refine ⟨i, o, p, i1, o1, p1, ?_, ?_⟩
  · intro h k hk
    have := h (a + k) (by omega)
    rw [key _ (by omega)] at this
    unfold riseAt fallAt at this
    rw [if_neg (by omega), if_pos (by omega), if_neg (by omega), if_pos (by omega), show a + k - a = k by omega] at this
    exact this
  · intro h t ht
    rw [key t ht]
    unfold riseAt fallAt
    by_cases h1 : t < a
    · rw [if_pos h1, if_pos h1, zero_add]
    · rw [if_neg h1, if_neg h1]
      by_cases h2 : t < b
      · rw [if_pos h2, if_pos h2]
        exact h (t - a) (by omega)
      · rw [if_neg h2, if_neg h2, add_zero]

/-- C130: With the triangular function of numpy, the fade in and the fade out over the same interval add up to a constant
less than one within the interval, so that the sum drops by `1 / (2 n - 1)` there. -/
theorem C130_crossfade_bartlett (mem1 mem2 mem3 : Nat → Nat → ℝ) (rate : R) (L a b : Nat) (hab : a < b) (hb : b ≤ L) :
    ∃ i o p, new mem1 Windows.bartlett (.pair (.int a) (.int b)) .none rate L = some (.ok i) ∧
      new mem2 Windows.bartlett .none (.pair (.int a) (.int b)) rate L = some (.ok o) ∧ i.add mem3 o = .ok p ∧
      ∀ t, a ≤ t → t < b → p.channels.get 0 t = 1 - 1 / (2 * ((b : ℝ) - a) - 1) := by
  obtain ⟨i, i1, i2, i3, i4, i5, _, i7⟩ := make mem1 Windows.bartlett rate L (some (a, b)) none
    (by rintro i ⟨⟩; exact ⟨hab.le, hb⟩) (by rintro i ⟨⟩)
  obtain ⟨o, o1, o2, o3, o4, o5, _, o7⟩ := make mem2 Windows.bartlett rate L none (some (a, b)) (by rintro i ⟨⟩)
    (by rintro i ⟨⟩; exact ⟨hab.le, hb⟩)
  obtain ⟨p, p1, p2, p3, p4, p5, _, p7⟩ := operate mem3 (· + ·) "Sum" i o o4 (by omega) (by omega) (by omega)
  refine ⟨i, o, p, i1, o1, p1, ?_⟩
  intro t hat htb
  rw [p7 0 t (by omega) (by omega), i7 t (by omega), o7 t (by omega)]
  show riseAt _ a b t + fallAt _ a b t = _
  unfold riseAt fallAt
  rw [if_neg (by omega), if_pos htb, if_neg (by omega), if_pos htb]
  obtain ⟨k, rfl⟩ : ∃ k, t = a + k := ⟨t - a, by omega⟩
  obtain ⟨n, rfl⟩ : ∃ n, b = a + n := ⟨b - a, by omega⟩
  rw [show a + n - a = n by omega, show a + k - a = k by omega]
  have hk : (k : ℝ) + 1 ≤ n := by exact_mod_cast (by omega : k + 1 ≤ n)
  have hk0 : (0 : ℝ) ≤ k := Nat.cast_nonneg k
  unfold Windows.bartlett
  dsimp only
  rw [if_neg (show ¬ 2 * n = 1 by omega), if_neg (show ¬ 2 * n = 1 by omega)]
  push_cast
  rw [if_pos (show 1 - 2 * (n : ℝ) + 2 * k ≤ 0 by linarith),
    if_neg (show ¬ 1 - 2 * (n : ℝ) + 2 * (n + k) ≤ 0 by linarith)]
  have : (2 * (n : ℝ) - 1) ≠ 0 := by linarith
  rw [show (a : ℝ) + n - a = n by ring]
  field_simp
  ring

-- the hypotheses of the theorems are satisfiable
example : Within 9 (1, 3) ∧ Within 9 (5, 8) ∧ (1, 3).1 < (5, 8).1 := ⟨⟨by decide, by decide⟩, ⟨by decide, by decide⟩,
  by decide⟩
example : Windows.Symmetric triangle := by
  intro n i h
  unfold triangle
  congr 3
  omega
example : ∀ k, k < 4 → triangle 8 k + triangle 8 (4 + k) = 1 := by decide +kernel
example : exampleFade (.pair (.int 1) (.int 3)) .none 5 = some ([0, 1, 3, 4, 4].map fun i => mkRat i 4) := by
  decide +kernel

end Fade
end Verif
