import Verif.Windows
import Verif.FadeProps
import Mathlib.Tactic.Linarith
import Mathlib.Tactic.Ring
import Mathlib.Tactic.FieldSimp

/-
C42: the samples of windows.
-/

namespace Verif
namespace Windows

open Indexing

variable {α R : Type}

/-! ### Specification -/

/-- the length of the fade in and the fade out -/
def fadeLength (p L : Nat) : Nat := (L - p) / 2

/-- the samples of a window with the plateau `p` and the length `L` -/
def expected [One α] (function : Nat → Nat → α) (p L : Nat) (symmetric : Bool) (i : Nat) : α :=
  let n := fadeLength p L
  if p = 0 then function (if symmetric then L else L + 1) i
  else if i < n then function (if symmetric then 2 * n else 2 * n + 1) i
  else if i < L - n then 1
  else function (if symmetric then 2 * n else 2 * n + 1) (i + 2 * n - L)

/-- the window function, which is passed to the constructor, is symmetric -/
def Symmetric (function : Nat → Nat → α) : Prop := ∀ n i, i < n → function n (n - 1 - i) = function n i

/-! ### The samples -/

theorem channels_ok [One α] (mem function : Nat → Nat → α) (p L : Nat) (symmetric : Bool) (hp : p ≤ L) :
    ∃ C, channels mem function p L symmetric = .ok C ∧ Fade.Row C L (expected function p L symmetric) := by
  unfold channels
  dsimp only
  by_cases h0 : p = 0
  · subst h0
    rw [if_pos (by omega)]
    have go : ∀ S : Mat α, ∀ f, Fade.Row S L f → ∃ C, (alloc mem 1 L).assign .all .all S = .ok C ∧ Fade.Row C L f := by
      intro S f hS
      obtain ⟨C, c1, c2, c3, c4, _⟩ := Mat.assign_cols (A := alloc mem 1 L) (S := S) (c := .all) 0 L rfl rfl hS.1
        (by rw [hS.2.1]; omega)
      refine ⟨C, c1, c2, c3, ?_⟩
      intro j hj
      rw [c4 0 j (by show 0 < 1; omega) (by omega) hj, Nat.sub_zero, hS.2.2 j hj]
    cases symmetric
    · rw [if_neg (by simp)]
      have hw := Fade.row_window function (L + 1)
      refine go _ _ ⟨?_, ?_, ?_⟩
      · simp [Fade.window]
      · show (PySlice.range 0 (-1)).count _ = L
        have : (Fade.window function (L + 1 : Int)).cols = L + 1 := hw.2.1
        rw [this]
        simp [clampBound]
      · intro j hj
        rw [Mat.slice_all_get, PySlice.lo_range, clampBound_zero, Nat.zero_add]
        exact hw.2.2 j (by omega)
    · rw [if_pos rfl]
      exact go _ _ (Fade.row_window function L)
  · rw [if_neg (by omega)]
    obtain ⟨n, hn⟩ : ∃ n, fadeLength p L = n := ⟨_, rfl⟩
    have hn' : (L - p) / 2 = n := hn
    rw [show ((L : Int) - p) / 2 = (n : Nat) by omega]
    obtain ⟨N, hN⟩ : ∃ N : Nat, (if symmetric then 2 * n else 2 * n + 1) = N := ⟨_, rfl⟩
    have hfade : (if symmetric = true then Fade.window function (2 * (n : Nat)) else
        Fade.window function (2 * (n : Nat) + 1)) = Fade.window function (N : Nat) := by
      cases symmetric <;> simp at hN ⊢ <;> rw [← hN] <;> rfl
    rw [hfade]
    have hw := Fade.row_window function N
    have hNn : 2 * n ≤ N := by
      rw [← hN]
      split <;> omega
    have r1 := Fade.row_slice hw 0 n (by omega)
    have r2 := Fade.row_slice hw n (2 * n) (by omega)
    obtain ⟨A, a1, a2, a3, a4⟩ := Fade.put (A := alloc mem 1 L)
      (S := (Fade.window function (N : Nat)).slice .all (.range 0 (n : Nat))) 0 n (by omega)
      (by show n ≤ L; omega) rfl r1.1 r1.2.1
    obtain ⟨B, b1, b2, b3, b4⟩ := Fade.putScalar (A := A) (1 : α) n (L - n) (by rw [a3]; show L - n ≤ L; omega) a2
    have hBL : B.cols = L := b3.trans a3
    obtain ⟨C, c1, c2, c3, c4⟩ := Fade.putTail (A := B)
      (S := (Fade.window function (N : Nat)).slice .all (.range (n : Nat) (2 * n : Nat))) (L - n) (by omega) b2 r2.1
      (by rw [r2.2.1]; omega)
    change (alloc mem 1 L).assign .all (.range 0 (n : Nat)) _ = _ at a1
    rw [a1]
    show ∃ C', (A.assign _ _ _ >>= _) = _ ∧ _
    rw [show (L : Int) - (n : Nat) = (L - n : Nat) by omega, b1]
    rw [show (2 : Int) * (n : Nat) = (2 * n : Nat) by omega]
    refine ⟨C, c1, c2, by omega, ?_⟩
    intro i hi
    unfold expected
    dsimp only
    rw [hn, if_neg h0, hN, c4 i (by omega), b4, a4]
    by_cases h1 : i < n
    · rw [if_neg (by omega), if_neg (by omega), if_pos (by omega), if_pos h1]
      have := r1.2.2 i (by omega)
      simp only [Nat.zero_add] at this
      simpa using this
    · rw [if_neg h1]
      by_cases h2 : i < L - n
      · rw [if_neg (by omega), if_pos (by omega), if_pos h2]
      · rw [if_pos (by omega), if_neg h2, r2.2.2 _ (by omega)]
        beta_reduce
        rw [show n + (i - (L - n)) = i + 2 * n - L by omega]

/-! ### C42 -/

/-- C42: Every sample of a window is defined, independently of the content of the memory. -/
theorem C42_samples [One α] (mem function : Nat → Nat → α) (label : String) (plateau : Idx) (rate : R) (p L : Nat)
    (symmetric : Bool) (hi : index L plateau = some (p : Int)) (hp : p ≤ L) :
    ∃ s : Signal α R, new mem function label plateau rate L symmetric = some (.ok (s, (p : Int))) ∧ s.rate = rate ∧
      s.offset = 0 ∧ s.labels = [label] ∧ s.channels.rows = 1 ∧ s.channels.cols = L ∧
      ∀ i, i < L → s.channels.get 0 i = expected function p L symmetric i := by
  obtain ⟨C, c1, c2, c3, c4⟩ := channels_ok mem function p L symmetric hp
  refine ⟨Signal.new C rate 0 (some [label]), ?_, rfl, rfl, ?_, c2, c3, c4⟩
  · unfold new
    rw [hi]
    show some (channels mem function p L symmetric >>= _) = _
    rw [c1]
    rfl
  · show sanitizeLabels (some [label]) C.rows = _
    rw [c2]
    rfl

/-- C42: A symmetric window is a palindrome. -/
theorem C42_palindrome [One α] (mem function : Nat → Nat → α) (label : String) (plateau : Idx) (rate : R) (p L : Nat)
    (hi : index L plateau = some (p : Int)) (hp : p ≤ L) (hf : Symmetric function) :
    ∃ s : Signal α R, new mem function label plateau rate L true = some (.ok (s, (p : Int))) ∧ s.channels.cols = L ∧
      ∀ i, i < L → s.channels.get 0 (L - 1 - i) = s.channels.get 0 i := by
  obtain ⟨s, h1, _, _, _, _, h2, h3⟩ := C42_samples mem function label plateau rate p L true hi hp
  refine ⟨s, h1, h2, ?_⟩
  intro i hi
  rw [h3 _ (by omega), h3 i hi]
  unfold expected
  dsimp only
  obtain ⟨n, hn⟩ : ∃ n, fadeLength p L = n := ⟨_, rfl⟩
  have hn' : (L - p) / 2 = n := hn
  rw [hn]
  simp only [if_true]
  by_cases h0 : p = 0
  · rw [if_pos h0, if_pos h0]
    exact hf L i hi
  · rw [if_neg h0, if_neg h0]
    by_cases c1 : i < n
    · rw [if_neg (by omega), if_neg (by omega), if_pos c1]
      rw [show L - 1 - i + 2 * n - L = 2 * n - 1 - i by omega]
      exact hf _ _ (by omega)
    · rw [if_neg c1]
      by_cases c2 : i < L - n
      · rw [if_neg (by omega), if_pos (by omega), if_pos c2]
      · rw [if_pos (by omega), if_neg c2]
        rw [← hf (2 * n) (i + 2 * n - L) (by omega)]
        rw [show 2 * n - 1 - (i + 2 * n - L) = L - 1 - i by omega]

/-- C42: A window, that is not symmetric, is the first period of a symmetric periodic function: the sample `i` equals
the sample `L - i`. A plateau requires, that the window function with an odd length is one in its middle. -/
theorem C42_periodic [One α] (mem function : Nat → Nat → α) (label : String) (plateau : Idx) (rate : R) (p L : Nat)
    (hi : index L plateau = some (p : Int)) (hp : p ≤ L) (hf : Symmetric function)
    (hone : p = 0 ∨ ∀ m, function (2 * m + 1) m = 1) :
    ∃ s : Signal α R, new mem function label plateau rate L false = some (.ok (s, (p : Int))) ∧ s.channels.cols = L ∧
      ∀ i, 0 < i → i < L → s.channels.get 0 (L - i) = s.channels.get 0 i := by
  obtain ⟨s, h1, _, _, _, _, h2, h3⟩ := C42_samples mem function label plateau rate p L false hi hp
  refine ⟨s, h1, h2, ?_⟩
  intro i hi0 hi
  rw [h3 _ (by omega), h3 i hi]
  unfold expected
  dsimp only
  obtain ⟨n, hn⟩ : ∃ n, fadeLength p L = n := ⟨_, rfl⟩
  have hn' : (L - p) / 2 = n := hn
  rw [hn]
  simp only [Bool.false_eq_true, if_false]
  by_cases h0 : p = 0
  · rw [if_pos h0, if_pos h0, ← hf (L + 1) i (by omega), show L + 1 - 1 - i = L - i by omega]
  · have hone := hone.resolve_left h0 n
    rw [if_neg h0, if_neg h0]
    by_cases c1 : i < n
    · rw [if_neg (by omega), if_neg (by omega), if_pos c1]
      rw [← hf (2 * n + 1) i (by omega)]
      rw [show L - i + 2 * n - L = 2 * n + 1 - 1 - i by omega]
    · rw [if_neg c1]
      by_cases c2 : i < L - n
      · rw [if_pos c2]
        by_cases c3 : i = n
        · rw [if_neg (by omega), if_neg (by omega), show L - i + 2 * n - L = n by omega, hone]
        · rw [if_neg (by omega), if_pos (by omega)]
      · rw [if_neg c2]
        by_cases c3 : i = L - n
        · rw [if_neg (by omega), if_pos (by omega), show i + 2 * n - L = n by omega, hone]
        · rw [if_pos (by omega), ← hf (2 * n + 1) (L - i) (by omega)]
          rw [show 2 * n + 1 - 1 - (L - i) = i + 2 * n - L by omega]

/-- C42: The samples of the plateau are one. The plateau is located in the middle and its length is the requested one.
Missing: plateaus, for which the rest of the signal has an odd length, see `C42_odd_rest_violated`. -/
theorem C42_plateau_partial [One α] (mem function : Nat → Nat → α) (label : String) (plateau : Idx) (rate : R)
    (p L : Nat) (symmetric : Bool) (hi : index L plateau = some (p : Int)) (hp : p ≤ L) (hp0 : 0 < p)
    (heven : (L - p) % 2 = 0) :
    ∃ s : Signal α R, new mem function label plateau rate L symmetric = some (.ok (s, (p : Int))) ∧
      ∃ n, n + p + n = L ∧ (∀ i, n ≤ i → i < n + p → s.channels.get 0 i = 1) ∧
      (∀ i, i < n → s.channels.get 0 i = function (if symmetric then 2 * n else 2 * n + 1) i) ∧
      ∀ i, i < n → s.channels.get 0 (n + p + i) = function (if symmetric then 2 * n else 2 * n + 1) (n + i) := by
  obtain ⟨s, h1, _, _, _, _, h2, h3⟩ := C42_samples mem function label plateau rate p L symmetric hi hp
  refine ⟨s, h1, fadeLength p L, ?_, ?_, ?_, ?_⟩
  · unfold fadeLength
    omega
  all_goals
    obtain ⟨n, hn⟩ : ∃ n, fadeLength p L = n := ⟨_, rfl⟩
    have hn' : (L - p) / 2 = n := hn
    rw [hn]
  · intro i i1 i2
    rw [h3 i (by omega)]
    unfold expected
    dsimp only
    rw [hn, if_neg (by omega), if_neg (by omega), if_pos (by omega)]
  · intro i i1
    rw [h3 i (by omega)]
    unfold expected
    dsimp only
    rw [hn, if_neg (by omega), if_pos (by omega)]
  · intro i i1
    rw [h3 _ (by omega)]
    unfold expected
    dsimp only
    rw [hn, if_neg (by omega), if_neg (by omega), if_neg (by omega)]
    rw [show n + p + i + 2 * n - L = n + i by omega]

/-- C42 (violation): If the rest of the signal has an odd length, the plateau has one sample more than requested and
than the method `plateau` returns. -/
theorem C42_odd_rest_violated :
    (new (fun _ _ => 77) Fade.triangle "Window" (.int 2) (48000 : Nat) 5 true).map
      (fun r => (Except.toOption r).map fun w => ((List.range 5).map (w.1.channels.get 0), w.2)) =
    some (some ([1/2, 1, 1, 1, 1/2], 2)) := by
  decide +kernel

example : index 8 (.float (1/2)) = some ((4 : Nat) : Int) := by decide +kernel
example : (new (fun _ _ => 77) Fade.triangle "Window" (.float (1/2)) (48000 : Nat) 8 false).map
      (fun r => (Except.toOption r).map fun w => ((List.range 8).map (w.1.channels.get 0), w.2)) =
    some (some ([mkRat 1 5, mkRat 3 5, 1, 1, 1, 1, 1, mkRat 3 5], 4)) := by
  decide +kernel
example : Symmetric Fade.triangle := by
  intro n i h
  unfold Fade.triangle
  rw [show n - 1 - (n - 1 - i) = i by omega, min_comm]

/-! ### The window functions of numpy -/

theorem angle_symm (n i : Nat) (h : i < n) : (1 - (n : ℝ) + 2 * (n - 1 - i : Nat)) = -(1 - (n : ℝ) + 2 * i) := by
  have : ((n - 1 - i : Nat) : ℝ) = n - 1 - i := by
    rw [Nat.cast_sub (by omega), Nat.cast_sub (by omega)]
    simp
  rw [this]
  ring

theorem angle_mid (m : Nat) : (1 - ((2 * m + 1 : Nat) : ℝ) + 2 * (m : Nat)) = 0 := by
  push_cast
  ring

theorem symmetric_rectangular : Symmetric (rectangular : Nat → Nat → ℝ) := fun _ _ _ => rfl

theorem symmetric_bartlett : Symmetric bartlett := by
  intro n i h
  unfold bartlett
  split
  · rfl
  · dsimp only
    rw [angle_symm n i h]
    rcases lt_trichotomy (1 - (n : ℝ) + 2 * i) 0 with hx | hx | hx
    · rw [if_neg (by linarith), if_pos hx.le, neg_div, sub_neg_eq_add]
    · rw [hx]
      simp
    · rw [if_pos (by linarith), if_neg (by linarith), neg_div]
      exact (sub_eq_add_neg _ _).symm

theorem symmetric_hanning : Symmetric hanning := by
  intro n i h
  unfold hanning
  rw [angle_symm n i h, mul_neg, neg_div, Real.cos_neg]

theorem symmetric_hamming : Symmetric hamming := by
  intro n i h
  unfold hamming
  rw [angle_symm n i h, mul_neg, neg_div, Real.cos_neg]

theorem symmetric_blackman : Symmetric blackman := by
  intro n i h
  unfold blackman
  rw [angle_symm n i h, mul_neg, mul_neg, neg_div, neg_div, Real.cos_neg, Real.cos_neg]

/-- C42: All window functions are symmetric, so that `C42_palindrome` and `C42_periodic` apply to them. -/
theorem C42_functions_symmetric : Symmetric (rectangular : Nat → Nat → ℝ) ∧ Symmetric bartlett ∧ Symmetric hanning ∧
    Symmetric hamming ∧ Symmetric blackman :=
  ⟨symmetric_rectangular, symmetric_bartlett, symmetric_hanning, symmetric_hamming, symmetric_blackman⟩

/-- C42: All window functions with an odd length are one in their middle. -/
theorem C42_functions_middle (m : Nat) : (rectangular (2 * m + 1) m : ℝ) = 1 ∧ bartlett (2 * m + 1) m = 1 ∧
    hanning (2 * m + 1) m = 1 ∧ hamming (2 * m + 1) m = 1 ∧ blackman (2 * m + 1) m = 1 := by
  refine ⟨rfl, ?_, ?_, ?_, ?_⟩
  · unfold bartlett
    split
    · rfl
    · dsimp only
      rw [angle_mid]
      simp
  · unfold hanning
    rw [angle_mid]
    split
    · rfl
    · simp; norm_num
  · unfold hamming
    rw [angle_mid]
    split
    · rfl
    · simp; norm_num
  · unfold blackman
    rw [angle_mid]
    split
    · rfl
    · simp; norm_num

/-- C42: The values of all window functions are between zero and one. -/
theorem C42_functions_range (n i : Nat) (h : i < n) : (0 ≤ bartlett n i ∧ bartlett n i ≤ 1) ∧
    (0 ≤ hanning n i ∧ hanning n i ≤ 1) ∧ (0 ≤ hamming n i ∧ hamming n i ≤ 1) ∧
    (0 ≤ blackman n i ∧ blackman n i ≤ 1) := by
  have hc := fun x => And.intro (Real.neg_one_le_cos x) (Real.cos_le_one x)
  refine ⟨?_, ?_, ?_, ?_⟩
  · unfold bartlett
    split
    · norm_num
    · dsimp only
      have hn : (0 : ℝ) < n - 1 := by
        have : (2 : ℝ) ≤ n := by exact_mod_cast (by omega : 2 ≤ n)
        linarith
      have h1 : (i : ℝ) ≤ n - 1 := by
        have : (i : ℝ) + 1 ≤ n := by exact_mod_cast (by omega : i + 1 ≤ n)
        linarith
      have h0 : (0 : ℝ) ≤ i := Nat.cast_nonneg i
      split
      · next hx =>
        constructor
        · rw [show (1 : ℝ) + (1 - n + 2 * i) / (n - 1) = (2 * i) / (n - 1) by field_simp; ring]
          positivity
        · have : (1 - (n : ℝ) + 2 * i) / (n - 1) ≤ 0 := div_nonpos_of_nonpos_of_nonneg hx hn.le
          linarith
      · next hx =>
        constructor
        · rw [show (1 : ℝ) - (1 - n + 2 * i) / (n - 1) = (2 * (n - 1 - i)) / (n - 1) by field_simp; ring]
          apply div_nonneg _ hn.le
          linarith
        · have : 0 ≤ (1 - (n : ℝ) + 2 * i) / (n - 1) := div_nonneg (by linarith) hn.le
          linarith
  · unfold hanning
    split
    · norm_num
    · have := hc (Real.pi * (1 - n + 2 * i) / (n - 1))
      constructor <;> linarith [this.1, this.2]
  · unfold hamming
    split
    · norm_num
    · have := hc (Real.pi * (1 - n + 2 * i) / (n - 1))
      constructor <;> linarith [this.1, this.2]
  · unfold blackman
    split
    · norm_num
    · have := hc (Real.pi * (1 - n + 2 * i) / (n - 1))
      have h2 : Real.cos (2 * Real.pi * (1 - n + 2 * i) / (n - 1)) =
          2 * Real.cos (Real.pi * (1 - n + 2 * i) / (n - 1)) ^ 2 - 1 := by
        rw [← Real.cos_two_mul]
        congr 1
        ring
      rw [h2]
      constructor <;> nlinarith [this.1, this.2]

end Windows
end Verif
