import Verif.Rounding
import Verif.IndexingProps
import Verif.LevelProps
import Verif.TableProps
import Mathlib.Tactic.NormNum.Pow
import Mathlib.Tactic.Positivity
import Mathlib.Tactic.FieldSimp

/-
C145: Rounding errors and indices
-/

namespace Verif
namespace Double

open Indexing

/-! ### rounding -/

theorem ulp_pos (x : ℚ) : 0 < ulp x := by
  unfold ulp
  positivity

theorem pyRound_near {q : ℚ} {k : Int} (h : |q - k| < 1 / 2) : pyRound q = k := by
  have h1 := abs_le.1 (pyRound_nearest q)
  have h2 := abs_lt.1 h
  have h3 : (pyRound q : ℚ) < k + 1 := by linarith
  have h4 : (k : ℚ) < pyRound q + 1 := by linarith
  have h5 : pyRound q < k + 1 := by exact_mod_cast h3
  have h6 : k < pyRound q + 1 := by exact_mod_cast h4
  omega

/-- the relative error of the rounding -/
theorem fl_error (x : ℚ) : |fl x - x| ≤ |x| / 2 ^ 53 := by
  by_cases hx : x = 0
  · subst hx
    unfold fl
    rw [zero_div, show pyRound (0 : ℚ) = 0 from by simpa using pyRound_int 0]
    simp
  · have hp := ulp_pos x
    have h1 := pyRound_nearest (x / ulp x)
    have h2 : (2 : ℚ) ^ Int.log 2 |x| ≤ |x| := by
      have := Int.zpow_log_le_self (b := 2) one_lt_two (abs_pos.2 hx)
      exact_mod_cast this
    have h3 : fl x - x = ((pyRound (x / ulp x) : ℚ) - x / ulp x) * ulp x := by
      unfold fl
      field_simp
    rw [h3, abs_mul, abs_of_pos hp]
    have h4 : ulp x = 2 ^ Int.log 2 |x| / 2 ^ 52 := by
      unfold ulp
      rw [zpow_sub₀ two_ne_zero]
      norm_num
    calc _ ≤ 1 / 2 * ulp x := by gcongr
      _ = 2 ^ Int.log 2 |x| / 2 ^ 53 := by rw [h4]; ring
      _ ≤ _ := by gcongr

theorem fl_rel (x : ℚ) : ∃ e, |e| ≤ 1 / 2 ^ 53 ∧ fl x = x * (1 + e) := by
  by_cases hx : x = 0
  · refine ⟨0, by norm_num, ?_⟩
    have := fl_error x
    rw [hx] at this ⊢
    simpa using this
  · refine ⟨(fl x - x) / x, ?_, by field_simp; ring⟩
    rw [abs_div, div_le_iff₀ (abs_pos.2 hx)]
    have := fl_error x
    linarith

theorem log_unique {x : ℚ} {e : Int} (h1 : 2 ^ e ≤ |x|) (h2 : |x| < 2 ^ (e + 1)) : Int.log 2 |x| = e := by
  have hx : 0 < |x| := lt_of_lt_of_le (by positivity) h1
  have a := (Int.zpow_le_iff_le_log (b := 2) one_lt_two hx (x := e)).1 (by exact_mod_cast h1)
  have b := (Int.lt_zpow_iff_log_lt (b := 2) one_lt_two hx (x := e + 1)).1 (by exact_mod_cast h2)
  omega

/-- the floating point number, that is nearest to a number -/
theorem fl_eq {x : ℚ} (e : Int) (m : Int) (h1 : 2 ^ e ≤ |x|) (h2 : |x| < 2 ^ (e + 1))
    (h3 : |x / 2 ^ (e - 52) - m| < 1 / 2) : fl x = m * 2 ^ (e - 52) := by
  unfold fl ulp
  rw [log_unique h1 h2, pyRound_near h3]

/-- multiples of the distance are not changed -/
theorem fl_multiple {x : ℚ} (m : Int) (h : x = m * ulp x) : fl x = x := by
  have hp := ulp_pos x
  have : x / ulp x = m := by
    rw [div_eq_iff hp.ne']
    exact h
  unfold fl
  rw [this, pyRound_int]
  exact h.symm

theorem fl_int (n : Int) (h : |n| ≤ 2 ^ 53) : fl n = n := by
  by_cases hn : n = 0
  · subst hn
    have := fl_error 0
    simpa using this
  · have hx : (0 : ℚ) < |(n : ℚ)| := by simpa using hn
    have hl : Int.log 2 |(n : ℚ)| ≤ 53 := by
      by_contra hc
      have : (54 : Int) ≤ Int.log 2 |(n : ℚ)| := by omega
      have := (Int.zpow_le_iff_le_log (b := 2) one_lt_two hx).2 this
      have h' : |(n : ℚ)| ≤ 2 ^ 53 := by exact_mod_cast h
      norm_num at this h'
      linarith
    by_cases hl' : Int.log 2 |(n : ℚ)| ≤ 52
    · obtain ⟨k, hk⟩ : ∃ k : Nat, (52 : Int) - Int.log 2 |(n : ℚ)| = k := ⟨_, (Int.toNat_of_nonneg (by omega)).symm⟩
      refine fl_multiple (n * 2 ^ k) ?_
      unfold ulp
      rw [show Int.log 2 |(n : ℚ)| - 52 = -(k : Int) by omega, zpow_neg, zpow_natCast]
      push_cast
      field_simp
    · have e : Int.log 2 |(n : ℚ)| = 53 := by omega
      have h1 : (2 : ℚ) ^ (53 : Int) ≤ |(n : ℚ)| := (Int.zpow_le_iff_le_log (b := 2) one_lt_two hx).2 e.ge
      have h2 : (2 : Int) ^ 53 ≤ |n| := by exact_mod_cast h1
      have h3 : |n| = 2 * 2 ^ 52 := by
        norm_num at h2 h ⊢
        omega
      rcases abs_choice n with hc | hc
      · refine fl_multiple (2 ^ 52) ?_
        unfold ulp
        rw [e]
        have : n = 2 * 2 ^ 52 := by omega
        rw [this]
        norm_num
      · refine fl_multiple (-2 ^ 52) ?_
        unfold ulp
        rw [e]
        have : n = -(2 * 2 ^ 52) := by omega
        rw [this]
        norm_num

theorem ulp_half (x : ℚ) (hx : x ≠ 0) : ulp (x / 2) = ulp x / 2 := by
  have h0 := abs_pos.2 hx
  have h1 : (2 : ℚ) ^ Int.log 2 |x| ≤ |x| := by exact_mod_cast Int.zpow_log_le_self (b := 2) one_lt_two h0
  have h2 : |x| < (2 : ℚ) ^ (Int.log 2 |x| + 1) := by exact_mod_cast Int.lt_zpow_succ_log_self (b := 2) one_lt_two |x|
  have h3 : |x / 2| = |x| / 2 := by rw [abs_div]; norm_num
  have h4 : Int.log 2 |x / 2| = Int.log 2 |x| - 1 := by
    apply log_unique
    · rw [h3, zpow_sub₀ two_ne_zero, zpow_one]
      linarith
    · rw [h3, sub_add_cancel]
      rw [zpow_add₀ two_ne_zero, zpow_one] at h2
      linarith
  unfold ulp
  rw [h4, show Int.log 2 |x| - 1 - 52 = Int.log 2 |x| - 52 - 1 by ring, zpow_sub₀ two_ne_zero, zpow_one]

theorem fl_half (x : ℚ) : fl (x / 2) = fl x / 2 := by
  by_cases hx : x = 0
  · subst hx
    have := fl_int 0 (by norm_num)
    simp only [Int.cast_zero] at this
    rw [zero_div, this, zero_div]
  · have hp := ulp_pos x
    unfold fl
    rw [ulp_half x hx, show x / 2 / (ulp x / 2) = x / ulp x by field_simp]
    ring

/-- an integer, to which relative rounding errors have been added, is restored by rounding it -/
theorem pyRound_two {k : Int} (hk : |k| ≤ 2 ^ 50) {a b : ℚ} (ha : |a| ≤ 1 / 2 ^ 53) (hb : |b| ≤ 1 / 2 ^ 53) :
    pyRound (k * ((1 + a) * (1 + b))) = k := by
  apply pyRound_near
  have hk' : |(k : ℚ)| ≤ 2 ^ 50 := by exact_mod_cast hk
  rw [show (k : ℚ) * ((1 + a) * (1 + b)) - k = k * (a + b + a * b) by ring, abs_mul]
  have h1 : |a + b + a * b| ≤ 3 / 2 ^ 53 := by
    have hab : |a * b| ≤ 1 / 2 ^ 53 * (1 / 2 ^ 53) := by
      rw [abs_mul]
      gcongr
    calc |a + b + a * b| ≤ |a| + |b| + |a * b| := (abs_add_le _ _).trans (by gcongr; exact abs_add_le _ _)
      _ ≤ 1 / 2 ^ 53 + 1 / 2 ^ 53 + 1 / 2 ^ 53 * (1 / 2 ^ 53) := by gcongr
      _ ≤ _ := by norm_num
  calc _ ≤ (2 ^ 50 : ℚ) * (3 / 2 ^ 53) := by gcongr
    _ < 1 / 2 := by norm_num

/-- the combination of three relative errors -/
theorem three_errors {u a b c : ℚ} (hu0 : 0 ≤ u) (hu' : u ≤ 1 / 16) (h₁ : |a| ≤ u) (h₄ : |b| ≤ u) (h₅ : |c| ≤ u) :
    |(1 + a) * (1 + b) * (1 + c) - 1| ≤ 4 * u := by
  have a1 := abs_le.1 h₁
  have a4 := abs_le.1 h₄
  have a5 := abs_le.1 h₅
  have b1 : |a + b + c| ≤ 3 * u := by
    rw [abs_le]
    constructor <;> linarith
  have b2 : |a * b| ≤ u * u := by rw [abs_mul]; gcongr
  have b3 : |a * c| ≤ u * u := by rw [abs_mul]; gcongr
  have b4 : |b * c| ≤ u * u := by rw [abs_mul]; gcongr
  have b5 : |a * b * c| ≤ u * u * u := by rw [abs_mul]; gcongr
  have e : (1 + a) * (1 + b) * (1 + c) - 1 = (a + b + c) + a * b + a * c + b * c + a * b * c := by ring
  have hsum : |(1 + a) * (1 + b) * (1 + c) - 1| ≤ 3 * u + u * u + u * u + u * u + u * u * u := by
    rw [e]
    refine (abs_add_le _ _).trans (add_le_add ?_ b5)
    refine (abs_add_le _ _).trans (add_le_add ?_ b4)
    refine (abs_add_le _ _).trans (add_le_add ?_ b3)
    exact (abs_add_le _ _).trans (add_le_add b1 b2)
  refine hsum.trans ?_
  nlinarith

/-! ### C145 -/

/-- C145: A sample is found with the float `k / n`, even though the division and the multiplication are rounded. -/
theorem C145_index (n : Nat) (hn : 0 < n) (k : Int) (hk : |k| ≤ 2 ^ 50) :
    start n (.float (fl (k / n))) = k ∧
    Double.index n (.float (fl (k / n))) = Indexing.index n (.float (k / n)) := by
  have hn' : (n : ℚ) ≠ 0 := by exact_mod_cast hn.ne'
  have h : start n (.float (fl (k / n))) = k := by
    obtain ⟨a, ha, ea⟩ := fl_rel (k / n)
    obtain ⟨b, hb, eb⟩ := fl_rel (fl (k / n) * n)
    show pyRound (fl (fl (k / n) * ((n : Int) : ℚ))) = k
    rw [Int.cast_natCast, eb, ea, show (k : ℚ) / n * (1 + a) * n * (1 + b) = k * ((1 + a) * (1 + b)) by field_simp]
    exact pyRound_two hk ha hb
  refine ⟨h, ?_⟩
  have h' : Idx.start n (.float ((k : ℚ) / n)) = k := by
    show pyRound ((k : ℚ) / n * ((n : Int) : ℚ)) = k
    rw [Int.cast_natCast, div_mul_cancel₀ _ hn']
    exact pyRound_int k
  unfold Double.index Indexing.index
  rw [h, h']

example : (0 : Nat) < 49 ∧ |(-13 : Int)| ≤ 2 ^ 50 ∧ (13 / 49 : ℚ) * 49 = 13 := by norm_num

/-- C145: The float key `k / (n - 1)` selects the sample `k` of `n` samples. -/
theorem C145_key (n : Nat) (hn : 2 ≤ n) (hn' : n ≤ 2 ^ 50) (k : Nat) (hk : k < n) :
    floatKey n (fl ((k : ℚ) / ((n : ℚ) - 1))) = some ⟨some k, some (k + 1)⟩ := by
  have h := (C145_index (n - 1) (by omega) k (by rw [abs_of_nonneg (by positivity)]; norm_cast; omega)).1
  have e : ((n - 1 : Nat) : ℚ) = (n : ℚ) - 1 := by
    rw [Nat.cast_sub (by omega)]
    simp
  have e' : ((n - 1 : Nat) : Int) = (n : Int) - 1 := by omega
  rw [e, e', Int.cast_natCast] at h
  unfold floatKey Double.index
  rw [h]
  simp

example : 2 ≤ 50 ∧ 50 ≤ 2 ^ 50 ∧ 13 < 50 := by norm_num

/-- C145: A multiple of the resolution is mapped to its bin. -/
theorem C145_bin (k : Int) (hk : |k| ≤ 2 ^ 50) (resolution : ℚ) (hr : resolution ≠ 0) :
    bin (fl (k * resolution)) resolution = k := by
  obtain ⟨a, ha, ea⟩ := fl_rel (k * resolution)
  obtain ⟨b, hb, eb⟩ := fl_rel (fl (k * resolution) / resolution)
  unfold bin
  rw [eb, ea, show (k : ℚ) * resolution * (1 + a) / resolution * (1 + b) = k * ((1 + a) * (1 + b)) by field_simp]
  exact pyRound_two hk ha hb

/-- C145: A point in time, that is computed from the index of a sample, is mapped to this index. -/
theorem C145_time (k : Int) (hk : |k| ≤ 2 ^ 50) (rate : ℚ) (hr : rate ≠ 0) : tableOffset (firstTime k rate) rate = k := by
  obtain ⟨a, ha, ea⟩ := fl_rel (k / rate)
  obtain ⟨b, hb, eb⟩ := fl_rel (fl (k / rate) * rate)
  unfold tableOffset firstTime
  rw [eb, ea, show (k : ℚ) / rate * (1 + a) * rate * (1 + b) = k * ((1 + a) * (1 + b)) by field_simp]
  exact pyRound_two hk ha hb

example : |(-7 : Int)| ≤ 2 ^ 50 ∧ (48000 / 4096 : ℚ) ≠ 0 := by norm_num

/-- C145: The rounding error of the division does not influence the offset of a short time Fourier transform. -/
theorem C145_stft (offset step : Int) (ho : |offset| ≤ 2 ^ 51) (hs : 0 < step) :
    stftOffset offset step = pyRound ((offset : ℚ) / step) := by
  have hs' : (0 : ℚ) < step := by exact_mod_cast hs
  set x : ℚ := (offset : ℚ) / step with hx
  set m := pyRound x with hm
  unfold stftOffset
  by_cases htie : ∃ t : Int, 2 * x = t
  · obtain ⟨t, ht⟩ := htie
    have hxt : x = (t : ℚ) / 2 := by linarith
    have hto : |t| ≤ 2 ^ 53 := by
      have h1 : (t : ℚ) * step = 2 * offset := by
        rw [← ht, hx]
        field_simp
      have h2 : t * step = 2 * offset := by exact_mod_cast h1
      have h3 : |t| * step = 2 * |offset| := by
        have := congrArg abs h2
        rw [abs_mul, abs_mul, abs_of_pos hs] at this
        exact this
      nlinarith [abs_nonneg t]
    rw [← hx, hm]
    congr 1
    rw [hxt, fl_half, fl_int t hto]
  · have hdist : |x - m| ≤ ((step : ℚ) - 1) / (2 * step) := by
      have h1 := pyRound_nearest x
      rw [abs_sub_comm] at h1
      have h2 : |2 * offset - 2 * m * step| ≤ step := by
        have : |(2 * offset - 2 * m * step : ℚ)| ≤ step := by
          have e : (2 * offset - 2 * m * step : ℚ) = 2 * step * (x - m) := by
            rw [hx]
            field_simp
          rw [e, abs_mul, abs_of_pos (by positivity)]
          calc _ ≤ 2 * (step : ℚ) * (1 / 2) := by gcongr
            _ = _ := by ring
        exact_mod_cast this
      have h3 : |2 * offset - 2 * m * step| ≠ step := by
        intro hc
        rcases abs_choice (2 * offset - 2 * m * step) with h | h
        · apply htie
          refine ⟨2 * m + 1, ?_⟩
          have : 2 * offset = (2 * m + 1) * step := by linarith
          have : (2 * offset : ℚ) = (2 * m + 1) * step := by exact_mod_cast this
          rw [hx]
          field_simp
          push_cast
          linarith
        · apply htie
          refine ⟨2 * m - 1, ?_⟩
          have : 2 * offset = (2 * m - 1) * step := by linarith
          have : (2 * offset : ℚ) = (2 * m - 1) * step := by exact_mod_cast this
          rw [hx]
          field_simp
          push_cast
          linarith
      have h4 : |2 * offset - 2 * m * step| ≤ step - 1 := by omega
      have h5 : |(2 * offset - 2 * m * step : ℚ)| ≤ step - 1 := by exact_mod_cast h4
      have e : x - m = (2 * offset - 2 * m * step : ℚ) / (2 * step) := by
        rw [hx]
        field_simp
      rw [e, abs_div, abs_of_pos (show (0 : ℚ) < 2 * step by positivity)]
      gcongr
    have herr : |fl x - x| ≤ 1 / (4 * step) := by
      refine (fl_error x).trans ?_
      have ho' : |(offset : ℚ)| ≤ 2 ^ 51 := by exact_mod_cast ho
      rw [hx, abs_div, abs_of_pos hs']
      rw [div_div, div_le_div_iff₀ (by positivity) (by positivity)]
      nlinarith
    apply pyRound_near
    calc |fl x - m| ≤ |fl x - x| + |x - m| := abs_sub_le _ _ _
      _ ≤ 1 / (4 * step) + ((step : ℚ) - 1) / (2 * step) := by gcongr
      _ < 1 / 2 := by
        rw [div_add_div _ _ (by positivity) (by positivity), div_lt_div_iff₀ (by positivity) (by positivity)]
        nlinarith

example : |(-1000 : Int)| ≤ 2 ^ 51 ∧ (0 : Int) < 3 := by norm_num

/-- the relative error of the quotient of a number and its approximation -/
theorem ratio_bound {N d e u o : ℚ} (hN1 : 1 ≤ N) (hu0 : 0 ≤ u) (hu' : u ≤ 1 / 16) (ho0 : 0 ≤ o)
    (hdb : |d| ≤ u * (2 * o + N)) (hdN : |d| ≤ N / 4) (he : |e| ≤ u) (η : ℚ) :
    0 < N + d ∧ 0 < 1 + e ∧
      |N * (1 + η) / ((N + d) * (1 + e)) - 1| ≤ 2 * |η| + u * (9 / 2 + 4 * (o / N)) := by
  have hd' := abs_le.1 hdN
  have he' := abs_le.1 he
  have k1 : 3 / 4 * N ≤ N + d := by linarith
  have k2 : (15 / 16 : ℚ) ≤ 1 + e := by linarith
  have h0 : 0 < N + d := by linarith
  have h1 : 0 < 1 + e := by linarith
  have hden : N / 2 ≤ (N + d) * (1 + e) := by nlinarith
  have hden0 : 0 < (N + d) * (1 + e) := by positivity
  refine ⟨h0, h1, ?_⟩
  have hNd : |N + d| ≤ 5 / 4 * N := by
    rw [abs_le]
    constructor <;> linarith
  have key : |N * (1 + η) - (N + d) * (1 + e)| ≤ |η| * N + u * (9 / 4 * N + 2 * o) := by
    have k1 : |N * η| = |η| * N := by rw [abs_mul, abs_of_pos (by linarith), mul_comm]
    have k2 : |(N + d) * e| ≤ 5 / 4 * N * u := by
      rw [abs_mul]
      gcongr
    calc |N * (1 + η) - (N + d) * (1 + e)| = |N * η + -d + -((N + d) * e)| := by congr 1; ring
      _ ≤ |N * η| + |d| + |(N + d) * e| := by
        refine (abs_add_le _ _).trans ?_
        rw [abs_neg]
        gcongr
        refine (abs_add_le _ _).trans ?_
        rw [abs_neg]
      _ ≤ |η| * N + u * (2 * o + N) + 5 / 4 * N * u := by rw [k1]; gcongr
      _ = _ := by ring
  have e1 : N * (1 + η) / ((N + d) * (1 + e)) - 1 = (N * (1 + η) - (N + d) * (1 + e)) / ((N + d) * (1 + e)) := by
    field_simp
  rw [e1, abs_div, abs_of_pos hden0, div_le_iff₀ hden0]
  refine key.trans ?_
  have e2 : |η| * N + u * (9 / 4 * N + 2 * o) = (2 * |η| + u * (9 / 2 + 4 * (o / N))) * (N / 2) := by
    field_simp
    ring
  rw [e2]
  gcongr

/-- the relative error of the restored sampling rate and the deviation of the restored offset -/
theorem table_bound (n : Nat) (hn : 2 ≤ n) (offset : Int) (ho : |offset| ≤ 2 ^ 24) (rate : ℚ) (hr : 0 < rate) :
    let r := tableRate n (firstTime offset rate) (lastTime n offset rate)
    |r - rate| ≤ rate * (8 + 8 * |(offset : ℚ)| / ((n : ℚ) - 1)) / 2 ^ 53 ∧
      tableOffset (firstTime offset rate) r = offset := by
  intro r
  obtain ⟨N, hN⟩ : ∃ N : ℚ, N = (n : ℚ) - 1 := ⟨_, rfl⟩
  have hN1 : 1 ≤ N := by
    have : (2 : ℚ) ≤ n := by exact_mod_cast hn
    rw [hN]
    linarith
  have ho' : |(offset : ℚ)| ≤ 2 ^ 24 := by exact_mod_cast ho
  obtain ⟨u, hu⟩ : ∃ u : ℚ, u = 1 / 2 ^ 53 := ⟨_, rfl⟩
  have hu' : u ≤ 1 / 16 := by rw [hu]; norm_num
  have hu0 : 0 ≤ u := by rw [hu]; positivity
  obtain ⟨e₁, h₁, q₁⟩ := fl_rel (offset / rate)
  obtain ⟨e₂, h₂, q₂⟩ := fl_rel (((n : Int) + offset - 1 : Int) / rate)
  obtain ⟨first, hf⟩ : ∃ x, x = firstTime offset rate := ⟨_, rfl⟩
  obtain ⟨last, hl⟩ : ∃ x, x = lastTime n offset rate := ⟨_, rfl⟩
  have q₁' : first = offset / rate * (1 + e₁) := hf.trans q₁
  have q₂' : last = (N + offset) / rate * (1 + e₂) := by
    rw [hl, show lastTime n offset rate = fl (((n : Int) + offset - 1 : Int) / rate) from rfl, q₂, hN]
    push_cast
    ring
  obtain ⟨e₃, h₃, q₃⟩ := fl_rel (last - first)
  obtain ⟨e₄, h₄, q₄⟩ := fl_rel (N / fl (last - first))
  obtain ⟨e₅, h₅, q₅⟩ := fl_rel (first * r)
  rw [← hu] at h₁ h₂ h₃ h₄ h₅
  obtain ⟨d, hd⟩ : ∃ d : ℚ, d = (N + offset) * e₂ - offset * e₁ := ⟨_, rfl⟩
  obtain ⟨o, hoabs⟩ : ∃ o : ℚ, o = |(offset : ℚ)| := ⟨_, rfl⟩
  have ho0 : 0 ≤ o := hoabs ▸ abs_nonneg _
  rw [← hoabs] at ho'
  have hdiff : last - first = (N + d) / rate := by
    rw [q₁', q₂', hd]
    ring
  have hdb : |d| ≤ u * (2 * o + N) := by
    have k1 : |(N + offset) * e₂| ≤ (N + o) * u := by
      rw [abs_mul]
      gcongr
      calc |N + offset| ≤ |N| + |(offset : ℚ)| := abs_add_le _ _
        _ = _ := by rw [abs_of_pos (by linarith), hoabs]
    have k2 : |(offset : ℚ) * e₁| ≤ o * u := by
      rw [abs_mul, hoabs]
      gcongr
    calc |d| ≤ |(N + offset) * e₂| + |(offset : ℚ) * e₁| := by rw [hd]; exact abs_sub _ _
      _ ≤ (N + o) * u + o * u := by gcongr
      _ = _ := by ring
  have hdN : |d| ≤ N / 4 := by
    refine hdb.trans ?_
    rw [hu]
    have : o ≤ 2 ^ 24 * N := by nlinarith
    norm_num at this ⊢
    linarith
  obtain ⟨h0, h1, -⟩ := ratio_bound hN1 hu0 hu' ho0 hdb hdN h₃ 0
  have hr' : r = rate * (N * (1 + e₄) / ((N + d) * (1 + e₃))) := by
    have : r = N / fl (last - first) * (1 + e₄) := by
      rw [← q₄, hN, hl, hf]
      rfl
    rw [this, q₃, hdiff]
    field_simp
  have hoN : o / N ≤ o := div_le_self ho0 hN1
  constructor
  · have k := (ratio_bound hN1 hu0 hu' ho0 hdb hdN h₃ e₄).2.2
    have e : r - rate = rate * (N * (1 + e₄) / ((N + d) * (1 + e₃)) - 1) := by
      rw [hr']
      ring
    rw [e, abs_mul, abs_of_pos hr, mul_div_assoc rate]
    refine mul_le_mul_of_nonneg_left (k.trans ?_) hr.le
    rw [← hoabs, ← hN, mul_div_assoc]
    have : (8 + 8 * (o / N)) / 2 ^ 53 = u * (8 + 8 * (o / N)) := by rw [hu]; ring
    rw [this]
    have : u * (8 + 8 * (o / N)) = 2 * u + u * (9 / 2 + 4 * (o / N)) + u * (3 / 2 + 4 * (o / N)) := by ring
    rw [this]
    have : 0 ≤ u * (3 / 2 + 4 * (o / N)) := by positivity
    linarith
  · unfold tableOffset
    apply pyRound_near
    have hη := three_errors hu0 hu' h₁ h₄ h₅
    have k := (ratio_bound hN1 hu0 hu' ho0 hdb hdN h₃ ((1 + e₁) * (1 + e₄) * (1 + e₅) - 1)).2.2
    have e : fl (first * r) - offset =
        offset * (N * (1 + ((1 + e₁) * (1 + e₄) * (1 + e₅) - 1)) / ((N + d) * (1 + e₃)) - 1) := by
      rw [q₅, hr', q₁']
      field_simp
      ring
    rw [← hf, e, abs_mul, ← hoabs]
    calc _ ≤ o * (2 * (4 * u) + u * (9 / 2 + 4 * o)) := by
          gcongr
          refine k.trans ?_
          gcongr
      _ ≤ 2 ^ 24 * (2 * (4 * u) + u * (9 / 2 + 4 * 2 ^ 24)) := by gcongr
      _ < 1 / 2 := by rw [hu]; norm_num

/-- C145: The offset of a signal is restored from the times in a table, and the sampling rate has a small relative error.
Missing: the sampling rate is not restored exactly (see `C145_rate_violated`) and for large offsets, the offset is wrong
(see `C145_offset_violated`). -/
theorem C145_table_partial (n : Nat) (hn : 2 ≤ n) (offset : Int) (ho : |offset| ≤ 2 ^ 24) (rate : ℚ) (hr : 0 < rate) :
    let r := tableRate n (firstTime offset rate) (lastTime n offset rate)
    |r - rate| ≤ rate * (8 + 8 * |(offset : ℚ)| / ((n : ℚ) - 1)) / 2 ^ 53 ∧
      tableOffset (firstTime offset rate) r = offset := table_bound n hn offset ho rate hr

example : 2 ≤ 8 ∧ |(-16000000 : Int)| ≤ 2 ^ 24 ∧ (0 : ℚ) < 48000 := by norm_num

/-- C145 is violated: for a signal with eight samples, the sampling rate 48000 is not restored from the times in a table. -/
theorem C145_rate_violated : tableRate 8 (firstTime 0 48000) (lastTime 8 0 48000) ≠ 48000 := by
  have h1 : firstTime 0 48000 = 0 := by
    unfold firstTime
    rw [Int.cast_zero, zero_div]
    simpa using fl_int 0 (by norm_num)
  have h2 : lastTime 8 0 48000 = 5380300354831953 * 2 ^ (-65 : Int) := by
    unfold lastTime
    have := fl_eq (x := ((((8 : Nat) : Int) + 0 - 1 : Int) : ℚ) / 48000) (-13) 5380300354831953
      (by norm_num [abs_of_pos]) (by norm_num [abs_of_pos]) (by norm_num [abs_lt])
    rw [this]
    norm_num
  unfold tableRate
  rw [h1, h2, sub_zero]
  have h3 : fl (5380300354831953 * 2 ^ (-65 : Int)) = 5380300354831953 * 2 ^ (-65 : Int) := by
    have := fl_eq (x := 5380300354831953 * 2 ^ (-65 : Int)) (-13) 5380300354831953
      (by norm_num [abs_of_pos]) (by norm_num [abs_of_pos]) (by norm_num [abs_lt])
    rw [this]
    norm_num
  have h4 := fl_eq (x := (((8 : Nat) : ℚ) - 1) / (5380300354831953 * 2 ^ (-65 : Int))) 15 6597069766655999
    (by norm_num [abs_of_pos]) (by norm_num [abs_of_pos]) (by norm_num [abs_lt])
  rw [h3, h4]
  norm_num

/-- C145 is violated: for a signal with two samples at the sampling rate 48000, that starts after 52977616 samples (about 18
minutes), the restored offset is greater by one. -/
theorem C145_offset_violated :
    tableOffset (firstTime 52977616 48000) (tableRate 2 (firstTime 52977616 48000) (lastTime 2 52977616 48000)) =
      52977617 := by
  have h1 : firstTime 52977616 48000 = 4854125400320989 * 2 ^ (-42 : Int) := by
    unfold firstTime
    have := fl_eq (x := ((52977616 : Int) : ℚ) / 48000) 10 4854125400320989
      (by norm_num [abs_of_pos]) (by norm_num [abs_of_pos]) (by norm_num [abs_lt])
    rw [this]
    norm_num
  have h2 : lastTime 2 52977616 48000 = 4854125491946957 * 2 ^ (-42 : Int) := by
    unfold lastTime
    have := fl_eq (x := ((((2 : Nat) : Int) + 52977616 - 1 : Int) : ℚ) / 48000) 10 4854125491946957
      (by norm_num [abs_of_pos]) (by norm_num [abs_of_pos]) (by norm_num [abs_lt])
    rw [this]
    norm_num
  have h3 : fl (4854125491946957 * 2 ^ (-42 : Int) - 4854125400320989 * 2 ^ (-42 : Int)) =
      6148914625380352 * 2 ^ (-68 : Int) := by
    have := fl_eq (x := 4854125491946957 * 2 ^ (-42 : Int) - 4854125400320989 * 2 ^ (-42 : Int)) (-16) 6148914625380352
      (by norm_num [abs_of_pos]) (by norm_num [abs_of_pos]) (by norm_num [abs_lt])
    rw [this]
    norm_num
  have h4 : fl ((((2 : Nat) : ℚ) - 1) / (6148914625380352 * 2 ^ (-68 : Int))) = 6597069837312001 * 2 ^ (-37 : Int) := by
    have := fl_eq (x := (((2 : Nat) : ℚ) - 1) / (6148914625380352 * 2 ^ (-68 : Int))) 15 6597069837312001
      (by norm_num [abs_of_pos]) (by norm_num [abs_of_pos]) (by norm_num [abs_lt])
    rw [this]
    norm_num
  have h5 : fl (4854125400320989 * 2 ^ (-42 : Int) * (6597069837312001 * 2 ^ (-37 : Int))) =
      7110535330531773 * 2 ^ (-27 : Int) := by
    have := fl_eq (x := 4854125400320989 * 2 ^ (-42 : Int) * (6597069837312001 * 2 ^ (-37 : Int))) 25 7110535330531773
      (by norm_num [abs_of_pos]) (by norm_num [abs_of_pos]) (by norm_num [abs_lt])
    rw [this]
    norm_num
  unfold tableOffset tableRate
  rw [h1, h2, h3, h4, h5]
  exact pyRound_near (by norm_num [abs_lt])

/-- C145: The frequencies, that are written to a table, lead to a spectrum without an offset, whose resolution has a small
relative error. -/
theorem C145_resolution (n : Nat) (hn : 2 ≤ n) (resolution : ℚ) (hr : 0 < resolution) :
    let r := tableResolution n 0 (lastFrequency n resolution)
    |r - resolution| ≤ resolution * (4 / 2 ^ 53) ∧ bin 0 r = 0 := by
  intro r
  have hN : (0 : ℚ) < (n : ℚ) - 1 := by
    have : (2 : ℚ) ≤ n := by exact_mod_cast hn
    linarith
  obtain ⟨a, ha, ea⟩ := fl_rel (((n : ℚ) - 1) * resolution)
  obtain ⟨b, hb, eb⟩ := fl_rel (lastFrequency n resolution - 0)
  obtain ⟨c, hc, ec⟩ := fl_rel (fl (lastFrequency n resolution - 0) / ((n : ℚ) - 1))
  have e : r = resolution * ((1 + a) * (1 + b) * (1 + c)) := by
    have : r = fl (lastFrequency n resolution - 0) / ((n : ℚ) - 1) * (1 + c) := ec
    have ea' : lastFrequency n resolution = ((n : ℚ) - 1) * resolution * (1 + a) := ea
    rw [this, eb, sub_zero, ea']
    field_simp
  constructor
  · rw [e, show resolution * ((1 + a) * (1 + b) * (1 + c)) - resolution =
      resolution * ((1 + a) * (1 + b) * (1 + c) - 1) by ring, abs_mul, abs_of_pos hr]
    refine mul_le_mul_of_nonneg_left ?_ hr.le
    exact (three_errors (by norm_num) (by norm_num) ha hb hc).trans (by norm_num)
  · unfold bin
    rw [zero_div]
    have := fl_int 0 (by norm_num)
    simp only [Int.cast_zero] at this
    rw [this]
    simpa using pyRound_int 0

example : 2 ≤ 2049 ∧ (0 : ℚ) < 48000 / 4096 := by norm_num

/-- C145: If the integration time is a whole number of sampling periods and its product with the sampling rate has
no rounding error, the half of the window for the level is computed exactly. Missing: products with a rounding error, see
`C145_window_violated`. -/
theorem C145_window_partial (T rate : ℚ) (m : Nat) (hm : 1 ≤ m) (hm' : m ≤ 2 ^ 53) (h : windowLength T rate = m) :
    halfWindow T rate = ((m : Int)) / 2 := by
  unfold halfWindow
  rw [h]
  have e : fl ((m : ℚ) - 1) = (m : ℚ) - 1 := by
    have := fl_int ((m : Int) - 1) (by rw [abs_of_nonneg (by omega)]; norm_num at hm' ⊢; omega)
    push_cast at this
    exact this
  rw [e, fl_half, e, Int.ceil_eq_iff]
  have h2 : (2 : ℚ) * (((m : Int) / 2 : Int) : ℚ) = m - ((m % 2 : Nat) : ℚ) := by
    have : 2 * ((m : Int) / 2) = m - ((m % 2 : Nat) : Int) := by omega
    exact_mod_cast congrArg (fun z : Int => (z : ℚ)) this
  have h3 : ((m % 2 : Nat) : ℚ) ≤ 1 := by
    have : m % 2 ≤ 1 := by omega
    exact_mod_cast this
  have h4 : (0 : ℚ) ≤ ((m % 2 : Nat) : ℚ) := by positivity
  constructor <;> linarith

example : windowLength (1 / 8) 48 = (6 : Nat) := by
  unfold windowLength
  rw [show (1 / 8 * 48 : ℚ) = ((6 : Int) : ℚ) by norm_num, fl_int 6 (by norm_num)]
  norm_num

/-- the length of the window for an integration time of seven sampling periods -/
theorem window_seven : windowLength (fl (7 / 48000)) 48000 = 7 + 1 / 2 ^ 50 := by
  have h1 : fl (7 / 48000) = 5380300354831953 * 2 ^ (-65 : Int) := by
    have := fl_eq (x := 7 / 48000) (-13) 5380300354831953
      (by norm_num [abs_of_pos]) (by norm_num [abs_of_pos]) (by norm_num [abs_lt])
    rw [this]
    norm_num
  unfold windowLength
  rw [h1]
  have := fl_eq (x := 5380300354831953 * 2 ^ (-65 : Int) * 48000) 2 7881299347898369
    (by norm_num [abs_of_pos]) (by norm_num [abs_of_pos]) (by norm_num [abs_lt])
  rw [this]
  norm_num

/-- C145 is violated: for an integration time of seven sampling periods at the sampling rate 48000, the product of the
integration time and the sampling rate is rounded to a number above seven. So the half of the window, which should
have three samples, has four. -/
theorem C145_window_violated : halfWindow (fl (7 / 48000)) 48000 = 4 := by
  unfold halfWindow
  rw [window_seven]
  have h1 : fl (7 + 1 / 2 ^ 50 - 1) = 6 + 1 / 2 ^ 50 := by
    have := fl_eq (x := 7 + 1 / 2 ^ 50 - 1) 2 6755399441055745
      (by norm_num [abs_of_pos]) (by norm_num [abs_of_pos]) (by norm_num [abs_lt])
    rw [this]
    norm_num
  rw [h1, fl_half]
  have h2 : fl (6 + 1 / 2 ^ 50) = 6 + 1 / 2 ^ 50 := by
    have := fl_eq (x := 6 + 1 / 2 ^ 50) 2 6755399441055745
      (by norm_num [abs_of_pos]) (by norm_num [abs_of_pos]) (by norm_num [abs_lt])
    rw [this]
    norm_num
  rw [h2, Int.ceil_eq_iff]
  norm_num

/-- C145 is violated: with this length of the window, which is only slightly longer than seven samples, the level of a
constant signal with the value one is not one, but 1.13, because the outermost samples get nearly the full weight. The
other operations are computed exactly here; the integration time is chosen, so that its exact product with the sampling
rate is the rounded one. -/
theorem C145_level_violated (mem empty : Nat → Nat → ℝ) :
    let w : ℝ := ((windowLength (fl (7 / 48000)) 48000 : ℚ) : ℝ)
    ∃ r, Level.levelVsTime mem empty ⟨⟨1, 10, fun _ _ => 1⟩, 48000, 0, [""]⟩ (w / 48000) true = .ok r ∧
      1.13 < r.channels.get 0 4 ∧ Level.levelAt (fun _ => 1) 10 7 true 4 = 1 := by
  intro w
  have hwv : w = 7 + 1 / 2 ^ 50 := by
    show ((windowLength (fl (7 / 48000)) 48000 : ℚ) : ℝ) = _
    rw [window_seven]
    push_cast
    rfl
  set s : Signal ℝ ℝ := ⟨⟨1, 10, fun _ _ => 1⟩, 48000, 0, [""]⟩ with hs
  have e : w / 48000 * s.rate = w := by
    show w / 48000 * 48000 = w
    field_simp
  have hw : (1 : ℝ) < w / 48000 * s.rate := by
    rw [e, hwv]
    norm_num
  have hh : Level.IsHalf (w / 48000 * s.rate) 4 := by
    rw [e, hwv]
    unfold Level.IsHalf
    norm_num
  rw [Level.levelVsTime_eq mem empty _ _ _ hw, Level.half_unique (Level.isHalf_ceil hw) hh, e]
  obtain ⟨A, a1, a2, a3, a4⟩ := Level.short_filled mem s w 4 (by show 1 + 2 * 4 < 10; omega)
  refine ⟨Signal.new A s.rate s.offset (some s.labels), ?_, ?_, ?_⟩
  · rw [if_neg (by show ¬ (1 + 4 ≥ 10); omega), if_pos (by show 1 + 2 * 4 < 10; omega)]
    unfold Level.short
    rw [a1]
    rfl
  · show 1.13 < A.get 0 4
    rw [a4 0 4 (by show 0 < 1; omega) (by show 4 < 10; omega)]
    apply Real.lt_sqrt_of_sq_lt
    show _ < npFull 10 9 (fun _ => (1 : ℝ) ^ 2) ((Level.window w ((w - 1) / 2) 4).get 0) 8
    unfold npFull Level.window
    rw [hwv]
    norm_num [Finset.sum_range_succ]
  · unfold Level.levelAt Level.weight
    norm_num [Finset.sum_range_succ, abs_of_nonneg, abs_of_nonpos]

end Double
end Verif
