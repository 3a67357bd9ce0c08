import Verif.RoundedSamplesSums
import Verif.ConvolutionProps
import Verif.SignalLawsProps
import Mathlib.Algebra.Order.BigOperators.Ring.Finset

/-
C147: Rounding errors of samples, times and frequencies
-/

namespace Verif
namespace Double

open Indexing Finset

variable {R : Type}

/-! ### The sample times and the frequencies -/

/-- the errors of the computation of a time, multiplied with the sampling rate. `a` and `b` are the first and the last time,
`d` is the rounded difference, `s` is the rounded distance, `p` is the rounded multiple of the distance, `q` is the rounded
sum. -/
theorem time_error {u L N o k a b d s p q : ℚ} (hu0 : 0 ≤ u) (hu : u ≤ 1 / 16) (hN : 1 ≤ N) (hNL : N ≤ L)
    (hko : |k + o| ≤ L) (hk0 : 0 ≤ k) (hkN : k ≤ N)
    (ha : |a - o| ≤ L * u) (hb : |b - (N + o)| ≤ L * u) (hd : |d - (b - a)| ≤ |b - a| * u)
    (hs : |s - d / N| ≤ |d / N| * u) (hp : |p - k * s| ≤ |k * s| * u) (hq : |q - (p + a)| ≤ |p + a| * u) :
    |d - N| ≤ 4 * (L * u) ∧ |q - (k + o)| ≤ 11 * (L * u) := by
  have hL : 0 < L := by linarith
  obtain ⟨v, hv⟩ : ∃ v, v = L * u := ⟨_, rfl⟩
  have hv0 : 0 ≤ v := by rw [hv]; positivity
  have hvL : v * 16 ≤ L := by
    rw [hv]
    have : L * u ≤ L * (1 / 16) := by gcongr
    linarith
  rw [← hv] at ha hb ⊢
  -- products with the small number
  have small : ∀ x y : ℚ, |x| ≤ L + y → 0 ≤ y → y ≤ L → |x| * u ≤ 2 * v := by
    intro x y h1 h2 h3
    calc |x| * u ≤ (2 * L) * u := by gcongr; linarith
      _ = 2 * v := by rw [hv]; ring
  have hba : |b - a - N| ≤ 2 * v := by
    calc |b - a - N| = |(b - (N + o)) - (a - o)| := by congr 1; ring
      _ ≤ |b - (N + o)| + |a - o| := abs_sub _ _
      _ ≤ _ := by linarith
  have d1 : |d - N| ≤ 4 * v := by
    have e1 : |b - a| ≤ L + 2 * v := by
      calc |b - a| = |(b - a - N) + N| := by congr 1; ring
        _ ≤ |b - a - N| + |N| := abs_add_le _ _
        _ ≤ _ := by rw [abs_of_pos (show 0 < N by linarith)]; linarith
    have e2 := small _ _ e1 (by linarith) (by linarith)
    calc |d - N| = |(d - (b - a)) + (b - a - N)| := by congr 1; ring
      _ ≤ _ := abs_add_le _ _
      _ ≤ _ := by linarith
  refine ⟨d1, ?_⟩
  have s1 : |k * s - k| ≤ 6 * v := by
    have e1 : |s * N - d| ≤ |d| * u := by
      have : s * N - d = (s - d / N) * N := by field_simp
      rw [this, abs_mul]
      have : |d| * u = |d / N| * u * |N| := by rw [abs_div]; field_simp
      rw [this]
      gcongr
    have e2 : |d| ≤ L + 4 * v := by
      calc |d| = |(d - N) + N| := by congr 1; ring
        _ ≤ |d - N| + |N| := abs_add_le _ _
        _ ≤ _ := by rw [abs_of_pos (show 0 < N by linarith)]; linarith
    have e3 := small _ _ e2 (by linarith) (by linarith)
    have e4 : |s * N - N| ≤ 6 * v := by
      calc |s * N - N| = |(s * N - d) + (d - N)| := by congr 1; ring
        _ ≤ _ := abs_add_le _ _
        _ ≤ _ := by linarith
    have e5 : |k * s - k| = k / N * |s * N - N| := by
      rw [show k * s - k = k / N * (s * N - N) by field_simp, abs_mul, abs_of_nonneg (show 0 ≤ k / N by positivity)]
    rw [e5]
    calc k / N * |s * N - N| ≤ 1 * (6 * v) := by
          gcongr
          rw [div_le_one (by linarith)]
          exact hkN
      _ = _ := by ring
  have p1 : |p - k| ≤ 8 * v := by
    have e1 : |k * s| ≤ L + 6 * v := by
      calc |k * s| = |(k * s - k) + k| := by congr 1; ring
        _ ≤ |k * s - k| + |k| := abs_add_le _ _
        _ ≤ _ := by rw [abs_of_nonneg hk0]; linarith
    have e2 := small _ _ e1 (by linarith) (by linarith)
    calc |p - k| = |(p - k * s) + (k * s - k)| := by congr 1; ring
      _ ≤ _ := abs_add_le _ _
      _ ≤ _ := by linarith
  have q1 : |p + a - (k + o)| ≤ 9 * v := by
    calc |p + a - (k + o)| = |(p - k) + (a - o)| := by congr 1; ring
      _ ≤ _ := abs_add_le _ _
      _ ≤ _ := by linarith
  have q2 : |p + a| ≤ L + 9 * v := by
    calc |p + a| = |(p + a - (k + o)) + (k + o)| := by congr 1; ring
      _ ≤ _ := abs_add_le _ _
      _ ≤ _ := by linarith
  have q3 := small _ _ q2 (by linarith) (by linarith)
  calc |q - (k + o)| = |(q - (p + a)) + (p + a - (k + o))| := by congr 1; ring
    _ ≤ _ := abs_add_le _ _
    _ ≤ _ := by linarith

/-- the error of a rounded number, which is multiplied with a positive factor -/
theorem fl_scaled {r : ℚ} (hr : 0 < r) (x : ℚ) : |fl x * r - x * r| ≤ |x * r| * (1 / 2 ^ 53) := by
  rw [← sub_mul, abs_mul, abs_mul, abs_of_pos hr]
  have := fl_error x
  calc |fl x - x| * r ≤ |x| / 2 ^ 53 * r := by gcongr
    _ = _ := by ring

theorem fl_eq_zero {x : ℚ} (h : fl x = 0) : x = 0 := by
  have := fl_error x
  rw [h, zero_sub, abs_neg] at this
  have h0 := abs_nonneg x
  have : |x| = 0 := by
    norm_num at this ⊢
    by_contra hc
    have : 0 < |x| := abs_pos.2 hc
    linarith
  exact abs_eq_zero.1 this

/-- the time of a sample -/
theorem time_bound (n : Nat) (offset : Int) (rate : ℚ) (hr : 0 < rate) (L : ℚ) (hn : (n : ℚ) ≤ L)
    (ho : |(offset : ℚ)| ≤ L) (ho' : |((n : ℚ) - 1) + offset| ≤ L) (hL : L ≤ 2 ^ 50) (k : Nat) (hk : k < n) :
    |linspace (firstTime offset rate) (lastTime n offset rate) n k * rate - (k + offset)| ≤ 11 * (L * (1 / 2 ^ 53)) := by
  have hL0 : 0 ≤ L := (abs_nonneg _).trans ho
  have ha : |firstTime offset rate * rate - offset| ≤ L * (1 / 2 ^ 53) := by
    have := fl_scaled hr (offset / rate)
    rw [div_mul_cancel₀ _ hr.ne'] at this
    refine this.trans ?_
    gcongr
  have hb : |lastTime n offset rate * rate - (((n : ℚ) - 1) + offset)| ≤ L * (1 / 2 ^ 53) := by
    have := fl_scaled hr ((((n : Int) + offset - 1 : Int) : ℚ) / rate)
    rw [div_mul_cancel₀ _ hr.ne'] at this
    push_cast at this
    rw [show (n : ℚ) + offset - 1 = (n : ℚ) - 1 + offset by ring] at this
    unfold lastTime
    push_cast
    rw [show (n : ℚ) + offset - 1 = (n : ℚ) - 1 + offset by ring]
    refine this.trans ?_
    gcongr
  have hv : 0 ≤ L * (1 / 2 ^ 53) := by positivity
  unfold linspace
  dsimp only
  by_cases h1 : 1 < n ∧ k = n - 1
  · rw [if_pos h1, h1.2, Nat.cast_sub (by omega), Nat.cast_one]
    exact hb.trans (by linarith)
  · rw [if_neg h1]
    by_cases h2 : 1 < n
    · have hN : (1 : ℚ) ≤ (n : ℚ) - 1 := by
        have : (2 : ℚ) ≤ n := by exact_mod_cast h2
        linarith
      rw [if_pos (by linarith)]
      have hkN : (k : ℚ) ≤ (n : ℚ) - 1 := by
        have : (k : ℚ) + 1 ≤ n := by exact_mod_cast hk
        linarith
      have hk0 : (0 : ℚ) ≤ k := by positivity
      have hko : |(k : ℚ) + offset| ≤ L := by
        have x1 := abs_le.1 ho
        have x2 := abs_le.1 ho'
        rw [abs_le]
        constructor <;> linarith
      obtain ⟨a, haa⟩ : ∃ a, a = firstTime offset rate := ⟨_, rfl⟩
      obtain ⟨b, hbb⟩ : ∃ b, b = lastTime n offset rate := ⟨_, rfl⟩
      rw [← haa] at ha ⊢
      rw [← hbb] at hb ⊢
      obtain ⟨st, hst⟩ : ∃ st, st = fl (fl (b - a) / ((n : ℚ) - 1)) := ⟨_, rfl⟩
      obtain ⟨k1, k2⟩ := time_error (u := 1 / 2 ^ 53) (L := L) (N := (n : ℚ) - 1) (o := offset) (k := k) (a := a * rate)
        (b := b * rate) (d := fl (b - a) * rate) (s := st * rate) (p := fl (k * st) * rate)
        (q := fl (fl (k * st) + a) * rate) (by norm_num) (by norm_num) hN (by linarith) hko hk0 hkN ha hb
        (by have := fl_scaled hr (b - a); rwa [sub_mul b a] at this)
        (by
          have := fl_scaled hr (fl (b - a) / ((n : ℚ) - 1))
          rwa [div_mul_eq_mul_div, ← hst] at this)
        (by have := fl_scaled hr (k * st); rwa [mul_assoc (k : ℚ)] at this)
        (by have := fl_scaled hr (fl (k * st) + a); rwa [add_mul] at this)
      rw [← hst]
      have hstep : st ≠ 0 := by
        intro hz
        rw [hst] at hz
        have hz := fl_eq_zero hz
        rw [div_eq_zero_iff] at hz
        rcases hz with hz | hz
        · rw [hz, zero_mul, zero_sub, abs_neg, abs_of_nonneg (by linarith)] at k1
          have : L * (1 / 2 ^ 53) ≤ 2 ^ 50 * (1 / 2 ^ 53) := by gcongr
          norm_num at this k1
          linarith
        · linarith
      rw [if_neg hstep]
      exact k2
    · have hn1 : n = 1 := by omega
      subst hn1
      have hk0 : k = 0 := by omega
      subst hk0
      simp only [Nat.cast_one, sub_self, lt_irrefl, if_false, Nat.cast_zero, zero_mul, fl_zero, zero_add]
      rw [show fl (firstTime offset rate) = firstTime offset rate from fl_idem _]
      exact ha.trans (by linarith)

/-- C147: the times of the samples are at most `11 / 2^53` times the largest sample number (relative to the beginning of the
recording) away from their exact values, in samples. They increase strictly and each of them identifies its sample. -/
theorem C147_times {α : Type} (s : Signal α ℚ) (hr : 0 < s.rate) (L : Nat) (hn : s.length ≤ L) (ho : |s.offset| ≤ L)
    (ho' : |(s.length : Int) - 1 + s.offset| ≤ L) (hL : L ≤ 2 ^ 48) :
    ∃ t, timeSamples s = .ok (s.length, t) ∧
      (∀ k, k < s.length → |t k * s.rate - (s.offset + k)| ≤ 11 * L / 2 ^ 53) ∧
      (∀ k, k + 1 < s.length → t k < t (k + 1)) ∧
      ∀ k, k < s.length → pyRound (fl (t k * s.rate)) = s.offset + k := by
  have h50 : (L : ℚ) ≤ 2 ^ 48 := by exact_mod_cast hL
  have bound := time_bound s.length s.offset s.rate hr L (by exact_mod_cast hn)
    (by exact_mod_cast ho) (by exact_mod_cast ho') (h50.trans (by norm_num))
  unfold timeSamples
  rw [if_neg hr.ne']
  refine ⟨_, rfl, ?_, ?_, ?_⟩
  · intro k hk
    have := bound k hk
    rw [add_comm (s.offset : ℚ)]
    refine this.trans (le_of_eq ?_)
    ring
  · intro k hk
    have h1 := abs_le.1 (bound k (by omega))
    have h2 := abs_le.1 (bound (k + 1) hk)
    have h3 : (L : ℚ) * (1 / 2 ^ 53) ≤ 2 ^ 48 * (1 / 2 ^ 53) := by gcongr
    push_cast at h1 h2
    norm_num at h1 h2 h3
    have : linspace (firstTime s.offset s.rate) (lastTime s.length s.offset s.rate) s.length k * s.rate <
        linspace (firstTime s.offset s.rate) (lastTime s.length s.offset s.rate) s.length (k + 1) * s.rate := by
      linarith [h1.1, h1.2, h2.1, h2.2]
    exact lt_of_mul_lt_mul_right this hr.le
  · intro k hk
    have h1 := bound k hk
    obtain ⟨x, hx⟩ : ∃ x, x = linspace (firstTime s.offset s.rate) (lastTime s.length s.offset s.rate) s.length k * s.rate :=
      ⟨_, rfl⟩
    rw [← hx] at h1 ⊢
    apply pyRound_near
    have hko : |(k : ℚ) + s.offset| ≤ L := by
      have x1 : |s.offset| ≤ L := ho
      have : |(k : Int) + s.offset| ≤ L := by
        have x1 := abs_le.1 ho
        have x2 := abs_le.1 ho'
        rw [abs_le]
        constructor <;> omega
      exact_mod_cast this
    have h2 := fl_error x
    have h3 : |x| ≤ 11 * (L * (1 / 2 ^ 53)) + L := by
      calc |x| = |(x - (k + s.offset)) + (k + s.offset)| := by congr 1; ring
        _ ≤ _ := abs_add_le _ _
        _ ≤ _ := by linarith
    push_cast
    calc |fl x - (s.offset + k)| = |(fl x - x) + (x - (k + s.offset))| := by congr 1; ring
      _ ≤ _ := abs_add_le _ _
      _ ≤ (11 * (L * (1 / 2 ^ 53)) + L) / 2 ^ 53 + 11 * (L * (1 / 2 ^ 53)) := by
          refine add_le_add (h2.trans ?_) h1
          gcongr
      _ < 1 / 2 := by
          have h4 : (L : ℚ) * (1 / 2 ^ 53) ≤ 2 ^ 48 * (1 / 2 ^ 53) := by gcongr
          have h5 : (11 * (L * (1 / 2 ^ 53)) + L) / 2 ^ 53 = (11 / 2 ^ 53 + 1) * (L * (1 / 2 ^ 53) : ℚ) := by ring
          rw [h5]
          norm_num at h4 ⊢
          linarith

/-- C147: the frequencies of the bins have a relative error of at most `4 / 2^53`. They increase strictly and each of them
identifies its bin. -/
theorem C147_frequencies {α : Type} (s : Spectrum α ℚ) (hr : 0 < s.resolution) (hn : s.length ≤ 2 ^ 49) :
    (frequencySamples s).1 = s.length ∧
      (∀ k, k < s.length → |(frequencySamples s).2 k - k * s.resolution| ≤ 4 / 2 ^ 53 * (k * s.resolution)) ∧
      (∀ k, k + 1 < s.length → (frequencySamples s).2 k < (frequencySamples s).2 (k + 1)) ∧
      ∀ k, k < s.length → bin ((frequencySamples s).2 k) s.resolution = k := by
  obtain ⟨n, hnn⟩ : ∃ n, n = s.length := ⟨_, rfl⟩
  obtain ⟨r, hrr⟩ : ∃ r, r = s.resolution := ⟨_, rfl⟩
  unfold frequencySamples
  dsimp only
  rw [← hnn] at hn ⊢
  rw [← hrr] at hr ⊢
  have hn' : (n : ℚ) ≤ 2 ^ 49 := by exact_mod_cast hn
  -- the products of three rounding errors
  have three : ∀ a b c : ℚ, |a| ≤ 1 / 2 ^ 53 → |b| ≤ 1 / 2 ^ 53 → |c| ≤ 1 / 2 ^ 53 →
      |(1 + a) * (1 + b) * (1 + c) - 1| ≤ 4 / 2 ^ 53 := by
    intro a b c ha hb hc
    have e : (1 + a) * (1 + b) * (1 + c) - 1 = a + b + c + (a * b + (a + b + a * b) * c) := by ring
    have m1 : |a * b| ≤ 1 / 2 ^ 53 * (1 / 2 ^ 53) := by rw [abs_mul]; gcongr
    have m2 : |a + b + a * b| ≤ 3 / 2 ^ 53 := by
      refine (abs_add_le _ _).trans ?_
      have := abs_add_le a b
      have t5 : (1 / 2 ^ 53 * (1 / 2 ^ 53) + 2 / 2 ^ 53 : ℚ) ≤ 3 / 2 ^ 53 := by norm_num
      linarith
    have m3 : |(a + b + a * b) * c| ≤ 3 / 2 ^ 53 * (1 / 2 ^ 53) := by rw [abs_mul]; gcongr
    rw [e]
    have t1 := abs_add_le (a + b + c) (a * b + (a + b + a * b) * c)
    have t2 := abs_add_le (a + b) c
    have t3 := abs_add_le a b
    have t4 := abs_add_le (a * b) ((a + b + a * b) * c)
    have t5 : (1 / 2 ^ 53 * (1 / 2 ^ 53) + 3 / 2 ^ 53 * (1 / 2 ^ 53) + 3 / 2 ^ 53 : ℚ) ≤ 4 / 2 ^ 53 := by norm_num
    linarith
  have rel : ∀ k, k < n → ∃ e, |e| ≤ 4 / 2 ^ 53 ∧ linspace 0 (lastFrequency n r) n k = k * r * (1 + e) := by
    intro k hk
    have hlast : ∃ e, |e| ≤ 1 / 2 ^ 53 ∧ lastFrequency n r = ((n : ℚ) - 1) * r * (1 + e) := fl_rel _
    obtain ⟨e1, he1, h1⟩ := hlast
    unfold linspace
    dsimp only
    by_cases hl : 1 < n ∧ k = n - 1
    · rw [if_pos hl]
      refine ⟨e1, he1.trans (by norm_num), ?_⟩
      rw [h1, hl.2, Nat.cast_sub (by omega), Nat.cast_one]
    · rw [if_neg hl]
      by_cases h2 : 1 < n
      · have hN : (1 : ℚ) ≤ (n : ℚ) - 1 := by
          have : (2 : ℚ) ≤ n := by exact_mod_cast h2
          linarith
        rw [if_pos (by linarith), sub_zero, show fl (lastFrequency n r) = lastFrequency n r from fl_idem _]
        simp only [add_zero]
        obtain ⟨e2, he2, h3⟩ := fl_rel (lastFrequency n r / ((n : ℚ) - 1))
        obtain ⟨e3, he3, h4⟩ := fl_rel (k * fl (lastFrequency n r / ((n : ℚ) - 1)))
        have hstep : fl (lastFrequency n r / ((n : ℚ) - 1)) = r * ((1 + e1) * (1 + e2)) := by
          rw [h3, h1]
          field_simp
        have hpos : fl (lastFrequency n r / ((n : ℚ) - 1)) ≠ 0 := by
          rw [hstep]
          have b1 := abs_le.1 he1
          have b2 := abs_le.1 he2
          have p1 : 0 < 1 + e1 := by norm_num at b1; linarith
          have p2 : 0 < 1 + e2 := by norm_num at b2; linarith
          positivity
        rw [if_neg hpos, fl_idem, h4, hstep]
        refine ⟨(1 + e1) * (1 + e2) * (1 + e3) - 1, three _ _ _ he1 he2 he3, ?_⟩
        ring
      · have hn1 : n = 1 := by omega
        subst hn1
        have hk0 : k = 0 := by omega
        subst hk0
        refine ⟨0, by norm_num, ?_⟩
        simp [fl_zero]
  refine ⟨rfl, ?_, ?_, ?_⟩
  · intro k hk
    obtain ⟨e, he, h⟩ := rel k hk
    have hk0 : (0 : ℚ) ≤ k := by positivity
    rw [h, show (k : ℚ) * r * (1 + e) - k * r = e * (k * r) by ring, abs_mul, abs_of_nonneg (show 0 ≤ (k : ℚ) * r by positivity)]
    gcongr
  · intro k hk
    obtain ⟨e, he, h⟩ := rel k (by omega)
    obtain ⟨f, hf, h'⟩ := rel (k + 1) hk
    rw [h, h']
    have hk0 : (0 : ℚ) ≤ k := by positivity
    have hk1 : (k : ℚ) + 1 ≤ 2 ^ 49 := by
      have : ((k + 1 : Nat) : ℚ) ≤ n := by exact_mod_cast hk.le
      push_cast at this
      linarith
    have b1 := abs_le.1 he
    have b2 := abs_le.1 hf
    push_cast
    rw [show (k : ℚ) * r * (1 + e) = r * (k * (1 + e)) by ring, show ((k : ℚ) + 1) * r * (1 + f) = r * ((k + 1) * (1 + f)) by ring]
    apply mul_lt_mul_of_pos_left _ hr
    have c1 : (k : ℚ) * e ≤ k * (4 / 2 ^ 53) := by gcongr; exact b1.2
    have c2 : ((k : ℚ) + 1) * (-(4 / 2 ^ 53)) ≤ (k + 1) * f := by gcongr; exact b2.1
    have c3 : (k : ℚ) * (4 / 2 ^ 53) ≤ 2 ^ 49 * (4 / 2 ^ 53) := by gcongr; linarith
    have c4 : ((k : ℚ) + 1) * (4 / 2 ^ 53) ≤ 2 ^ 49 * (4 / 2 ^ 53) := by gcongr
    norm_num at c1 c2 c3 c4 ⊢
    -- both errors are at most one half
    nlinarith
  · intro k hk
    obtain ⟨e, he, h⟩ := rel k hk
    unfold bin
    rw [h]
    have hk0 : (0 : ℚ) ≤ k := by positivity
    have hk1 : (k : ℚ) ≤ 2 ^ 49 := by
      have : (k : ℚ) ≤ n := by exact_mod_cast hk.le
      linarith
    obtain ⟨f, hf, h'⟩ := fl_rel (k * r * (1 + e) / r)
    rw [h', show (k : ℚ) * r * (1 + e) / r = k * (1 + e) by field_simp]
    have : ((k : Nat) : Int) = ((k : Int)) := rfl
    apply pyRound_near
    push_cast
    rw [show (k : ℚ) * (1 + e) * (1 + f) - k = k * (e + f + e * f) by ring, abs_mul, abs_of_nonneg hk0]
    have m : |e * f| ≤ 4 / 2 ^ 53 * (1 / 2 ^ 53) := by rw [abs_mul]; gcongr
    have t : |e + f + e * f| ≤ 6 / 2 ^ 53 := by
      refine (abs_add_le _ _).trans ?_
      have := abs_add_le e f
      have t5 : (4 / 2 ^ 53 * (1 / 2 ^ 53) + 5 / 2 ^ 53 : ℚ) ≤ 6 / 2 ^ 53 := by norm_num
      linarith
    calc (k : ℚ) * |e + f + e * f| ≤ 2 ^ 49 * (6 / 2 ^ 53) := by gcongr
      _ < 1 / 2 := by norm_num

/-! ### The energy decay curve -/

/-- the energy of the samples from `i` to the end -/
def energyFrom (s : Signal Num R) (c i : Nat) : ℚ := ∑ t ∈ Ico i s.length, (s.channels.get c t).val ^ 2

theorem cumsumRow_congr {α : Type} [Add α] {f g : Nat → α} (j : Nat) (h : ∀ k, k ≤ j → f k = g k) :
    Mat.cumsumRow f j = Mat.cumsumRow g j := by
  induction j with
  | zero => exact h 0 le_rfl
  | succ j ih => rw [Mat.cumsumRow, Mat.cumsumRow, ih fun k hk => h k (by omega), h (j + 1) le_rfl]

/-- the samples of the energy decay curve, for arbitrary additions and multiplications -/
theorem energy_samples {α : Type} [Add α] [Mul α] (mem : Nat → Nat → α) (s : Signal α R)
    (hw : s.labels.length = s.count) :
    ∃ r, EnergyDecay.new mem s = .ok r ∧ r.count = s.count ∧ r.length = s.length ∧ r.rate = s.rate ∧ r.offset = s.offset ∧
      r.labels = s.labels ∧ ∀ c i, c < s.count → i < s.length → r.channels.get c i =
        Mat.cumsumRow (fun k => s.channels.get c (s.length - 1 - k) * s.channels.get c (s.length - 1 - k))
          (s.length - 1 - i) := by
  obtain ⟨A, a1, a2, a3, a4, _⟩ := Mat.assign_ok (A := alloc mem s.count s.length)
    (S := s.channels.map fun x => x * x) (r := .all) (c := .all) 0 s.count 0 s.length rfl rfl rfl rfl rfl rfl
  have hAr : A.rows = s.count := a2
  have hAc : A.cols = s.length := a3
  obtain ⟨B, b1, b2, b3, b4, _⟩ := Mat.assign_ok (A := A.flipCols)
    (S := A.flipCols.cumsum) (r := .all) (c := .all) 0 s.count 0 s.length rfl hAr rfl hAc hAr hAc
  have hBr : B.rows = s.count := b2.trans hAr
  have hBc : B.cols = s.length := b3.trans hAc
  unfold EnergyDecay.new
  rw [a1]
  show ∃ r, (A.flipCols.assign .all .all A.flipCols.cumsum >>= _) = _ ∧ _
  rw [b1]
  refine ⟨_, rfl, hBr, hBc, rfl, rfl, Signal.sanitize_self (by show s.labels.length = B.rows; omega), ?_⟩
  intro c i hc hi
  show B.get c (B.cols - 1 - i) = _
  rw [b4 c _ (by omega) hc (by omega) (by omega)]
  show Mat.cumsumRow (fun j => A.get c (A.cols - 1 - j)) _ = _
  rw [hBc, hAc, Nat.sub_zero]
  refine cumsumRow_congr _ fun k hk => ?_
  rw [a4 c (s.length - 1 - k) (by omega) (by omega) (by omega) (by omega)]
  rfl

/-- the running sum of rounded squares -/
theorem cumsum_squares (x : Nat → Num) (j : Nat) :
    fl (Mat.cumsumRow (fun k => x k * x k) j).val = (Mat.cumsumRow (fun k => x k * x k) j).val ∧
      0 ≤ (Mat.cumsumRow (fun k => x k * x k) j).val ∧
      (Mat.cumsumRow (fun k => x k * x k) j).val ≤ (Mat.cumsumRow (fun k => x k * x k) (j + 1)).val ∧
      |(Mat.cumsumRow (fun k => x k * x k) j).val - ∑ k ∈ range (j + 1), (x k).val ^ 2| ≤
        growth (j + 1) * ∑ k ∈ range (j + 1), (x k).val ^ 2 := by
  have sq : ∀ k, (x k * x k).val = fl ((x k).val ^ 2) := fun k => by
    rw [sq]
    rfl
  have sq0 : ∀ k, 0 ≤ (x k * x k).val := fun k => by
    rw [sq]
    exact fl_nonneg (sq_nonneg _)
  have g1 : ∀ k, |(x k * x k).val - (x k).val ^ 2| ≤ growth 1 * (x k).val ^ 2 := fun k => by
    rw [sq]
    have := fl_growth (x := (x k).val ^ 2) (y := (x k).val ^ 2) (s := (x k).val ^ 2) (m := 0)
      (by rw [sub_self, abs_zero]; exact mul_nonneg (growth_nonneg 0) (sq_nonneg _))
      (by rw [abs_of_nonneg (sq_nonneg _)])
    exact this
  have step : ∀ j, (Mat.cumsumRow (fun k => x k * x k) (j + 1)).val =
      fl ((Mat.cumsumRow (fun k => x k * x k) j).val + (x (j + 1) * x (j + 1)).val) := fun j => rfl
  have main : fl (Mat.cumsumRow (fun k => x k * x k) j).val = (Mat.cumsumRow (fun k => x k * x k) j).val ∧
      0 ≤ (Mat.cumsumRow (fun k => x k * x k) j).val ∧
      |(Mat.cumsumRow (fun k => x k * x k) j).val - ∑ k ∈ range (j + 1), (x k).val ^ 2| ≤
        growth (j + 1) * ∑ k ∈ range (j + 1), (x k).val ^ 2 := by
    induction j with
    | zero =>
      refine ⟨?_, sq0 0, ?_⟩
      · show fl (x 0 * x 0).val = (x 0 * x 0).val
        rw [sq, fl_idem]
      · simpa [Mat.cumsumRow] using g1 0
    | succ j ih =>
      obtain ⟨i1, i2, i3⟩ := ih
      rw [step]
      refine ⟨fl_idem _, fl_nonneg (add_nonneg i2 (sq0 _)), ?_⟩
      have p1 : 0 ≤ ∑ k ∈ range (j + 1), (x k).val ^ 2 := Finset.sum_nonneg fun _ _ => sq_nonneg _
      have p2 : 0 ≤ (x (j + 1)).val ^ 2 := sq_nonneg _
      rw [Finset.sum_range_succ _ (j + 1)]
      apply fl_growth
      · have h1 := g1 (j + 1)
        have h2 : growth 1 ≤ growth (j + 1) := growth_mono (by omega)
        have h3 := h1.trans (mul_le_mul_of_nonneg_right h2 p2)
        calc _ = |((Mat.cumsumRow (fun k => x k * x k) j).val - ∑ k ∈ range (j + 1), (x k).val ^ 2) +
              ((x (j + 1) * x (j + 1)).val - (x (j + 1)).val ^ 2)| := by
              congr 1
              ring
          _ ≤ _ := abs_add_le _ _
          _ ≤ _ := add_le_add i3 h3
          _ = _ := by ring
      · rw [abs_of_nonneg (by positivity)]
  refine ⟨main.1, main.2.1, ?_, main.2.2⟩
  rw [step]
  exact le_fl_add main.1 (sq0 _)

theorem energyFrom_eq (s : Signal Num R) (c i : Nat) (hi : i < s.length) :
    ∑ k ∈ range (s.length - 1 - i + 1), (s.channels.get c (s.length - 1 - k)).val ^ 2 = energyFrom s c i := by
  unfold energyFrom
  rw [Finset.sum_Ico_eq_sum_range, ← Finset.sum_range_reflect, show s.length - 1 - i + 1 = s.length - i by omega]
  apply Finset.sum_congr rfl
  intro k hk
  have := Finset.mem_range.1 hk
  rw [show s.length - 1 - (s.length - i - 1 - k) = i + k by omega]

/-- C147: the energy decay curve of floating point numbers is not negative and does not increase, in spite of the rounding
errors, and the relative error of its values is at most `2^-52` per sample, that is summed up. -/
theorem C147_energy (mem : Nat → Nat → Num) (s : Signal Num R) (hw : s.labels.length = s.count) (hn : s.length ≤ 2 ^ 52) :
    ∃ r, EnergyDecay.new mem s = .ok r ∧ r.count = s.count ∧ r.length = s.length ∧
      (∀ c i j, c < s.count → i ≤ j → j < s.length →
        0 ≤ (r.channels.get c j).val ∧ (r.channels.get c j).val ≤ (r.channels.get c i).val) ∧
      ∀ c i, c < s.count → i < s.length →
        |(r.channels.get c i).val - energyFrom s c i| ≤ ((s.length - i : Nat) : ℚ) / 2 ^ 52 * energyFrom s c i := by
  obtain ⟨r, h1, h2, h3, _, _, _, h4⟩ := energy_samples mem s hw
  refine ⟨r, h1, h2, h3, ?_, ?_⟩
  · intro c i j hc hij hj
    rw [h4 c j hc hj, h4 c i hc (by omega)]
    have mono := monotone_nat_of_le_succ fun j =>
      (cumsum_squares (fun k => s.channels.get c (s.length - 1 - k)) j).2.2.1
    exact ⟨(cumsum_squares (fun k => s.channels.get c (s.length - 1 - k)) _).2.1,
      mono (show s.length - 1 - j ≤ s.length - 1 - i by omega)⟩
  · intro c i hc hi
    rw [h4 c i hc hi]
    have := (cumsum_squares (fun k => s.channels.get c (s.length - 1 - k)) (s.length - 1 - i)).2.2.2
    rw [energyFrom_eq s c i hi, show s.length - 1 - i + 1 = s.length - i by omega] at this
    refine this.trans ?_
    have : 0 ≤ energyFrom s c i := Finset.sum_nonneg fun _ _ => sq_nonneg _
    gcongr
    exact growth_le _ (by omega)

/-- C147: the energy decay curve of integers is exact, if the energy does not exceed `2^53`. -/
theorem C147_energy_exact (mem : Nat → Nat → Num) (s : Signal Num R) (hw : s.labels.length = s.count)
    (x : Nat → Nat → Int) (hx : ∀ c i, c < s.count → i < s.length → (s.channels.get c i).val = x c i)
    (he : ∀ c, c < s.count → energyFrom s c 0 ≤ 2 ^ 53) :
    ∃ r, EnergyDecay.new mem s = .ok r ∧
      ∀ c i, c < s.count → i < s.length → (r.channels.get c i).val = energyFrom s c i := by
  obtain ⟨r, h1, _, _, _, _, _, h4⟩ := energy_samples mem s hw
  refine ⟨r, h1, ?_⟩
  intro c i hc hi
  rw [h4 c i hc hi, ← energyFrom_eq s c i hi]
  -- a sum of squares of integers, that is not too large
  have exact : ∀ y : Nat → Int, (∀ k, (s.channels.get c (s.length - 1 - k)).val = y k) → ∀ j : Nat,
      (∑ k ∈ range (j + 1), y k ^ 2) ≤ 2 ^ 53 →
      (Mat.cumsumRow (fun k => s.channels.get c (s.length - 1 - k) * s.channels.get c (s.length - 1 - k)) j).val =
        ((∑ k ∈ range (j + 1), y k ^ 2 : Int) : ℚ) := by
    intro y hy
    have one : ∀ k, y k ^ 2 ≤ 2 ^ 53 →
        (s.channels.get c (s.length - 1 - k) * s.channels.get c (s.length - 1 - k)).val = ((y k ^ 2 : Int) : ℚ) := by
      intro k hk
      show fl _ = _
      rw [hy]
      have := fl_int (y k ^ 2) (by rw [abs_of_nonneg (sq_nonneg _)]; exact hk)
      rw [← this]
      push_cast
      rw [sq]
    have step : ∀ j, (Mat.cumsumRow (fun k => s.channels.get c (s.length - 1 - k) * s.channels.get c (s.length - 1 - k))
        (j + 1)).val = fl ((Mat.cumsumRow (fun k => s.channels.get c (s.length - 1 - k) *
          s.channels.get c (s.length - 1 - k)) j).val +
          (s.channels.get c (s.length - 1 - (j + 1)) * s.channels.get c (s.length - 1 - (j + 1))).val) := fun j => rfl
    intro j
    induction j with
    | zero =>
      intro h
      have h' : y 0 ^ 2 ≤ 2 ^ 53 := by simpa using h
      have := one 0 h'
      simpa [Mat.cumsumRow] using this
    | succ j ih =>
      intro h
      have p1 : 0 ≤ ∑ k ∈ range (j + 1), y k ^ 2 := Finset.sum_nonneg fun _ _ => sq_nonneg _
      have p2 : 0 ≤ y (j + 1) ^ 2 := sq_nonneg _
      rw [Finset.sum_range_succ _ (j + 1)] at h ⊢
      have := ih (by linarith)
      rw [step, this, one (j + 1) (by linarith), ← Int.cast_add]
      exact fl_int _ (by rw [abs_of_nonneg (by linarith)]; exact h)
  have := exact (fun k => x c (s.length - 1 - k)) (fun k => hx c _ hc (by omega)) (s.length - 1 - i) (by
    have h1 : energyFrom s c i ≤ energyFrom s c 0 := by
      unfold energyFrom
      exact Finset.sum_le_sum_of_subset_of_nonneg (Finset.Ico_subset_Ico_left (by omega)) fun _ _ _ => sq_nonneg _
    have h2 := h1.trans (he c hc)
    rw [← energyFrom_eq s c i hi] at h2
    have e : ∀ k, (s.channels.get c (s.length - 1 - k)).val = x c (s.length - 1 - k) := fun k => hx c _ hc (by omega)
    simp only [e] at h2
    exact_mod_cast h2)
  rw [this]
  push_cast
  apply Finset.sum_congr rfl
  intro k _
  rw [hx c _ hc (by omega)]

/-! ### The mean and the variance -/

/-- the order of the additions contains each of the numbers once -/
def Complete (order : Nat → Order) : Prop := ∀ n, 0 < n → (order n).leaves.Perm (List.range n)

theorem exact_eq {order : Nat → Order} (ho : Complete order) {n : Nat} (hn : 0 < n) (x : Nat → ℚ) :
    (order n).exact x = ∑ i ∈ range n, x i := by
  unfold Order.exact
  rw [((ho n hn).map x).sum_eq]
  rfl

theorem npSum_error {order : Nat → Order} (ho : Complete order) (n : Nat) (x y : Nat → ℚ) (m : Nat)
    (h : ∀ i, |y i - x i| ≤ growth m * |x i|) :
    |npSum order n y - ∑ i ∈ range n, x i| ≤ growth (m + (n - 1)) * ∑ i ∈ range n, |x i| := by
  unfold npSum
  split_ifs with hn
  · subst hn
    simp
  · have := Order.sum_error x y m h (order n)
    rwa [exact_eq ho (by omega), exact_eq ho (by omega), (ho n (by omega)).length_eq, List.length_range] at this

theorem mean_error {order : Nat → Order} (ho : Complete order) (n : Nat) (hn : 0 < n) (hn' : n ≤ 2 ^ 52) (x : Nat → ℚ) :
    ∃ m, npMean order n x = some m ∧
      |m - (∑ i ∈ range n, x i) / n| ≤ (n : ℚ) / 2 ^ 52 * ((∑ i ∈ range n, |x i|) / n) := by
  have hn0 : (0 : ℚ) < n := by exact_mod_cast hn
  unfold npMean
  rw [if_neg (by omega)]
  refine ⟨_, rfl, ?_⟩
  have h1 := npSum_error ho n x x 0 fun i => by
    rw [sub_self, abs_zero]
    exact mul_nonneg (growth_nonneg _) (abs_nonneg _)
  rw [zero_add] at h1
  have h2 : |npSum order n x / n - (∑ i ∈ range n, x i) / n| ≤ growth (n - 1) * ((∑ i ∈ range n, |x i|) / n) := by
    rw [← sub_div, abs_div, abs_of_pos hn0, ← mul_div_assoc]
    gcongr
  have h3 : |(∑ i ∈ range n, x i) / n| ≤ (∑ i ∈ range n, |x i|) / n := by
    rw [abs_div, abs_of_pos hn0]
    gcongr
    exact Finset.abs_sum_le_sum_abs _ _
  have h4 := fl_growth h2 h3
  rw [show n - 1 + 1 = n by omega] at h4
  refine h4.trans ?_
  have : 0 ≤ (∑ i ∈ range n, |x i|) / n := (abs_nonneg _).trans h3
  gcongr
  exact growth_le n hn'

/-- C147: for every order of the additions, the error of the mean is at most `2^-52` times the number of the samples, relative
to the mean of the absolute values. -/
theorem C147_mean {order : Nat → Order} (ho : Complete order) (s : Signal Num R) :
    (0 < s.length → s.length ≤ 2 ^ 52 → (mean order s).length = s.count ∧ ∀ c, c < s.count →
      ∃ m, (mean order s)[c]? = some (some m) ∧
        |m - (∑ i ∈ range s.length, (s.channels.get c i).val) / s.length| ≤
          (s.length : ℚ) / 2 ^ 52 * ((∑ i ∈ range s.length, |(s.channels.get c i).val|) / s.length)) ∧
      (0 < s.count * s.length → s.count * s.length ≤ 2 ^ 52 → ∃ m, meanSingle order s = some m ∧
        |m - (∑ c ∈ range s.count, ∑ i ∈ range s.length, (s.channels.get c i).val) / (s.count * s.length : Nat)| ≤
          ((s.count * s.length : Nat) : ℚ) / 2 ^ 52 *
            ((∑ c ∈ range s.count, ∑ i ∈ range s.length, |(s.channels.get c i).val|) / (s.count * s.length : Nat))) := by
  constructor
  · intro h1 h2
    refine ⟨by simp [mean, alongRows, Signal.count], fun c hc => ?_⟩
    obtain ⟨m, hm, hm'⟩ := mean_error ho s.length h1 h2 fun i => (s.channels.get c i).val
    refine ⟨m, ?_, hm'⟩
    unfold mean alongRows
    rw [List.getElem?_map, List.getElem?_range (show c < s.channels.rows from hc)]
    exact congrArg some hm
  · intro h1 h2
    obtain ⟨m, hm, hm'⟩ := mean_error ho (s.count * s.length) h1 h2
      fun j => (s.channels.get (j / s.length) (j % s.length)).val
    refine ⟨m, hm, ?_⟩
    have hl : 0 < s.length := Nat.pos_of_mul_pos_left h1
    have e : ∀ f : Nat → Nat → ℚ, ∑ j ∈ range (s.count * s.length), f (j / s.length) (j % s.length) =
        ∑ c ∈ range s.count, ∑ i ∈ range s.length, f c i := by
      intro f
      generalize s.count = n
      induction n with
      | zero => simp
      | succ n ih =>
        rw [Nat.succ_mul, Finset.sum_range_add, ih, Finset.sum_range_succ]
        congr 1
        apply Finset.sum_congr rfl
        intro i hi
        have := Finset.mem_range.1 hi
        rw [Nat.mul_comm, Nat.mul_add_div hl, Nat.mul_add_mod, Nat.div_eq_of_lt this, Nat.mod_eq_of_lt this, Nat.add_zero]
    rwa [e fun c i => (s.channels.get c i).val, e fun c i => |(s.channels.get c i).val|] at hm'

/-- C147: for every order of the additions, the variance is not negative, so the standard deviation exists. -/
theorem C147_variance (order : Nat → Order) (s : Signal Num R) (hl : 0 < s.length) :
    (variance order s).length = s.count ∧
      ∀ c, c < s.count → ∃ v, (variance order s)[c]? = some (some v) ∧ 0 ≤ v := by
  refine ⟨by simp [variance, alongRows, Signal.count], fun c hc => ?_⟩
  have hl' : s.channels.cols ≠ 0 := Nat.pos_iff_ne_zero.1 hl
  unfold variance alongRows
  rw [List.getElem?_map, List.getElem?_range (show c < s.channels.rows from hc)]
  rw [Option.map_some]
  unfold npVar npMean
  simp only [if_neg hl', Option.bind_some]
  refine ⟨_, rfl, ?_⟩
  apply fl_nonneg
  apply div_nonneg _ (by positivity)
  unfold npSum
  rw [if_neg hl']
  exact Order.sum_nonneg (fun i => fl_nonneg (mul_self_nonneg _)) _

/-! ### The convolution -/

/-- the element `k` of the exact convolution -/
def convolution (la lb : Nat) (a b : Nat → ℚ) (k : Nat) : ℚ :=
  ∑ i ∈ range la, ∑ j ∈ range lb, if i + j = k then a i * b j else 0

theorem convolution_comm (la lb : Nat) (a b : Nat → ℚ) (k : Nat) : convolution la lb a b k = convolution lb la b a k := by
  unfold convolution
  rw [Finset.sum_comm]
  apply Finset.sum_congr rfl
  intro i _
  apply Finset.sum_congr rfl
  intro j _
  rw [add_comm, mul_comm]

theorem convolution_eq (la lb : Nat) (a b : Nat → ℚ) (k : Nat) :
    convolution la lb a b k = ∑ j ∈ range (min la (k + 1) - (k + 1 - lb)), a (k + 1 - lb + j) * b (k - (k + 1 - lb + j)) := by
  have h1 : ∀ i ∈ range la, (∑ j ∈ range lb, if i + j = k then a i * b j else 0) =
      if i ≤ k ∧ k < i + lb then a i * b (k - i) else 0 := by
    intro i _
    split_ifs with h
    · rw [Finset.sum_eq_single (k - i)]
      · rw [if_pos (by omega)]
      · intro j _ hj
        rw [if_neg (by omega)]
      · intro hj
        exact absurd (Finset.mem_range.2 (show k - i < lb by omega)) hj
    · apply Finset.sum_eq_zero
      intro j hj
      have := Finset.mem_range.1 hj
      rw [if_neg (by omega)]
  unfold convolution
  rw [Finset.sum_congr rfl h1, ← Finset.sum_filter, ← Finset.sum_Ico_eq_sum_range (fun i => a i * b (k - i))]
  apply Finset.sum_congr _ fun _ _ => rfl
  ext i
  simp only [Finset.mem_filter, Finset.mem_range, Finset.mem_Ico]
  omega

/-- the error of an element of the convolution -/
theorem npFull_error {order : Nat → Order} (ho : Complete order) (fused : Nat → Bool) (la lb : Nat) (a b : Nat → ℚ) (k : Nat)
    (h : min la lb + 1 ≤ 2 ^ 52) :
    |fl (npFull order fused la lb a b k) - convolution la lb a b k| ≤
      ((min la lb + 1 : Nat) : ℚ) / 2 ^ 52 * convolution la lb (fun i => |a i|) (fun i => |b i|) k := by
  rw [convolution_eq, convolution_eq]
  unfold npFull
  dsimp only
  have hn : min la (k + 1) - (k + 1 - lb) ≤ min la lb := by omega
  by_cases hz : min la (k + 1) - (k + 1 - lb) = 0
  · rw [hz]
    simp [npSum, fl_zero]
  obtain ⟨n, hnn⟩ : ∃ n, n = min la (k + 1) - (k + 1 - lb) := ⟨_, rfl⟩
  obtain ⟨t, ht⟩ : ∃ t, t = k + 1 - lb := ⟨_, rfl⟩
  rw [← hnn] at hn ⊢
  rw [← ht]
  have h1 := npSum_error ho n (fun j => a (t + j) * b (k - (t + j))) (fun j => product fused j (a (t + j)) (b (k - (t + j)))) 1
    fun i => by
      unfold product
      split_ifs
      · rw [sub_self, abs_zero]
        exact mul_nonneg (growth_nonneg _) (abs_nonneg _)
      · exact fl_growth (m := 0) (by rw [sub_self, abs_zero]; exact mul_nonneg (growth_nonneg _) (abs_nonneg _)) le_rfl
  have h2 := fl_growth h1 (Finset.abs_sum_le_sum_abs _ _)
  simp only [abs_mul] at h2
  refine h2.trans ?_
  have : 0 ≤ ∑ j ∈ range n, |a (t + j)| * |b (k - (t + j))| := Finset.sum_nonneg fun _ _ => by positivity
  gcongr
  exact (growth_mono (show 1 + (n - 1) + 1 ≤ min la lb + 1 by omega)).trans (growth_le _ h)

/-- integers are convolved exactly -/
theorem npFull_int {order : Nat → Order} (ho : Complete order) (fused : Nat → Bool) (la lb : Nat) (a b : Nat → ℚ) (k : Nat)
    (A B : Nat → Int) (ha : ∀ i, i < la → a i = A i) (hb : ∀ i, i < lb → b i = B i)
    (h : convolution la lb (fun i => |a i|) (fun i => |b i|) k ≤ 2 ^ 53) :
    fl (npFull order fused la lb a b k) = convolution la lb a b k := by
  rw [convolution_eq] at h ⊢
  unfold npFull npSum
  dsimp only
  split_ifs with hz
  · rw [hz]
    simp [fl_zero]
  obtain ⟨n, hnn⟩ : ∃ n, n = min la (k + 1) - (k + 1 - lb) := ⟨_, rfl⟩
  obtain ⟨t, ht⟩ : ∃ t, t = k + 1 - lb := ⟨_, rfl⟩
  have hla : ∀ j, j < n → a (k + 1 - lb + j) = A (k + 1 - lb + j) := fun j hj => ha _ (by omega)
  have hlb : ∀ j, j < n → b (k - (k + 1 - lb + j)) = B (k - (k + 1 - lb + j)) := fun j hj => hb _ (by omega)
  rw [← hnn] at h hz ⊢
  rw [← ht] at h hla hlb ⊢
  -- the products of integers are exact, as far as they belong to the sum
  obtain ⟨x, hx⟩ : ∃ x : Nat → Int, x = fun j => if j < n then A (t + j) * B (k - (t + j)) else 0 := ⟨_, rfl⟩
  have habs : ∑ j ∈ range n, |(x j : ℚ)| = ∑ j ∈ range n, |a (t + j)| * |b (k - (t + j))| := by
    apply Finset.sum_congr rfl
    intro j hj
    rw [hx, hla j (Finset.mem_range.1 hj), hlb j (Finset.mem_range.1 hj)]
    simp only [if_pos (Finset.mem_range.1 hj)]
    push_cast
    rw [abs_mul]
  have hone : ∀ j, j < n → |x j| ≤ 2 ^ 53 := by
    intro j hj
    have : |(x j : ℚ)| ≤ ∑ j ∈ range n, |(x j : ℚ)| :=
      Finset.single_le_sum (f := fun j => |(x j : ℚ)|) (fun _ _ => abs_nonneg _) (Finset.mem_range.2 hj)
    exact_mod_cast this.trans (habs.le.trans h)
  have hprod : ∀ j, j < n → product fused j (a (t + j)) (b (k - (t + j))) = x j := by
    intro j hj
    have e : (x j : ℚ) = a (t + j) * b (k - (t + j)) := by
      rw [hx, hla j hj, hlb j hj]
      simp only [if_pos hj]
      push_cast
      rfl
    unfold product
    split_ifs
    · exact e.symm
    · rw [← e]
      exact fl_int _ (hone j hj)
  have congr : ∀ T : Order, (∀ j ∈ T.leaves, j < n) →
      (T.sum fun j => product fused j (a (t + j)) (b (k - (t + j)))) = T.sum fun j => (x j : ℚ) := by
    intro T
    induction T with
    | leaf i => exact fun h => hprod i (h i (by simp [Order.leaves]))
    | node l r ihl ihr =>
      intro h
      show fl (l.sum _ + r.sum _) = fl (l.sum _ + r.sum _)
      rw [ihl fun j hj => h j (by simp [Order.leaves, hj]), ihr fun j hj => h j (by simp [Order.leaves, hj])]
  rw [congr _ fun j hj => List.mem_range.1 ((ho n (by omega)).subset hj), Order.sum_int x _
    (by rw [exact_eq ho (by omega), habs]; exact h), exact_eq ho (by omega)]
  have e : ∑ j ∈ range n, (x j : ℚ) = ∑ j ∈ range n, a (t + j) * b (k - (t + j)) := by
    apply Finset.sum_congr rfl
    intro j hj
    rw [hx, hla j (Finset.mem_range.1 hj), hlb j (Finset.mem_range.1 hj)]
    simp only [if_pos (Finset.mem_range.1 hj)]
    push_cast
    rfl
  rw [← e, ← Int.cast_sum]
  apply fl_int
  have h1 := (Finset.abs_sum_le_sum_abs (fun j => (x j : ℚ)) (range n)).trans (habs.le.trans h)
  exact_mod_cast h1

/-- the sample of the channel, that is combined with the channel `c` of the result -/
def sampleOf (s : Signal Num R) (c i : Nat) : ℚ := (s.channels.get (if s.count = 1 then 0 else c) i).val

/-- every sample of a convolution is a rounded sum of products, where the signals may have been exchanged -/
theorem convolve_samples (mem : Nat → Nat → Num) (order : Nat → Order) (fused : Nat → Bool) (label : String)
    (s o : Signal Num R) (hs : 0 < s.length) (ho : 0 < o.length) :
    ∃ r, Signal.convolve (fullConvolution mem order fused) label s o = .ok r ∧ r.count = Signal.convCount s o ∧
      r.length + 1 = s.length + o.length ∧ r.offset = s.offset + o.offset ∧ r.rate = s.rate ∧
      ∀ c k, c < r.count → k < r.length →
        (r.channels.get c k).val = fl (npFull order fused s.length o.length (sampleOf s c) (sampleOf o c) k) ∨
        (r.channels.get c k).val = fl (npFull order fused o.length s.length (sampleOf o c) (sampleOf s c) k) := by
  have row : ∀ (a b : Mat Num), 0 < a.cols → 0 < b.cols → ∀ n, n = a.cols + b.cols - 1 →
      ∃ row, npConvolve order fused a b = .ok row ∧ row.rows = 1 ∧ row.cols = n ∧ ∀ j, j < n → row.get 0 j =
        ⟨fl (npFull order fused a.cols b.cols (fun i => (a.get 0 i).val) (fun i => (b.get 0 i).val) j)⟩ := by
    intro a b ha hb n hn
    unfold npConvolve
    rw [if_neg (by omega)]
    exact ⟨_, rfl, rfl, hn.symm, fun j _ => rfl⟩
  unfold Signal.convolve Signal.convolveWithArray Signal.convCount
  by_cases h1 : o.count = 1
  · rw [if_pos h1, if_pos (show o.channels.rows = 1 from h1)]
    obtain ⟨C, c1, c2, c3, c4⟩ := rows_ok mem s.channels.rows ((s.channels.cols : Int) + (o.channels.row 0).cols - 1)
      (s.length + o.length - 1) (by show (s.length : Int) + o.length - 1 = _; omega)
      (fun c => npConvolve order fused (s.channels.row c) (o.channels.row 0)) _ (s.offset + o.offset)
      fun c _ => row (s.channels.row c) (o.channels.row 0) hs ho _ rfl
    unfold fullConvolution
    dsimp only
    rw [c1]
    refine ⟨_, rfl, c2, ?_, rfl, rfl, ?_⟩
    · show C.cols + 1 = _
      omega
    · intro c k hc hk
      change c < C.rows at hc
      change k < C.cols at hk
      left
      show (C.get c k).val = _
      rw [c4 c k (by omega) (by omega)]
      have e1 : sampleOf s c = fun i => (s.channels.get c i).val := by
        funext i
        unfold sampleOf
        have : c < s.count := by rw [c2] at hc; exact hc
        split_ifs with h
        · rw [show c = 0 by omega]
        · rfl
      have e2 : sampleOf o c = fun i => (o.channels.get 0 i).val := by
        funext i
        unfold sampleOf
        rw [if_pos h1]
      rw [e1, e2]
      rfl
  · rw [if_neg h1, if_neg (show ¬ o.channels.rows = 1 from h1)]
    have e2 : ∀ c, sampleOf o c = fun i => (o.channels.get c i).val := by
      intro c
      funext i
      unfold sampleOf
      rw [if_neg h1]
    by_cases h2 : s.count = 1
    · rw [if_pos h2, if_pos h2]
      obtain ⟨C, c1, c2, c3, c4⟩ := rows_ok mem o.channels.rows ((o.channels.cols : Int) + (s.channels.row 0).cols - 1)
        (s.length + o.length - 1) (by show (o.length : Int) + s.length - 1 = _; omega)
        (fun c => npConvolve order fused (o.channels.row c) (s.channels.row 0)) _ (s.offset + o.offset)
        fun c _ => row (o.channels.row c) (s.channels.row 0) ho hs _
          (by show s.length + o.length - 1 = o.length + s.length - 1; omega)
      unfold fullConvolution
      dsimp only
      rw [c1]
      refine ⟨_, rfl, c2, ?_, rfl, rfl, ?_⟩
      · show C.cols + 1 = _
        omega
      · intro c k hc hk
        change c < C.rows at hc
        change k < C.cols at hk
        right
        show (C.get c k).val = _
        rw [c4 c k (by omega) (by omega), e2]
        have e1 : sampleOf s c = fun i => (s.channels.get 0 i).val := by
          funext i
          unfold sampleOf
          rw [if_pos h2]
        rw [e1]
        rfl
    · rw [if_neg h2, if_neg h2]
      obtain ⟨C, c1, c2, c3, c4⟩ := rows_ok mem (min s.channels.rows o.channels.rows)
        ((s.channels.cols : Int) + o.channels.cols - 1)
        (s.length + o.length - 1) (by show (s.length : Int) + o.length - 1 = _; omega)
        (fun c => npConvolve order fused (s.channels.row c) (o.channels.row c)) _ (s.offset + o.offset)
        fun c _ => row (s.channels.row c) (o.channels.row c) hs ho _ rfl
      unfold fullConvolution
      dsimp only
      rw [c1]
      refine ⟨_, rfl, c2, ?_, rfl, rfl, ?_⟩
      · show C.cols + 1 = _
        omega
      · intro c k hc hk
        change c < C.rows at hc
        change k < C.cols at hk
        left
        show (C.get c k).val = _
        rw [c4 c k (by omega) (by omega), e2]
        have e1 : sampleOf s c = fun i => (s.channels.get c i).val := by
          funext i
          unfold sampleOf
          rw [if_neg h2]
        rw [e1]
        rfl

/-- C147: for every order of the additions and with or without fused multiplications and additions, the error of the
convolution in the mode FULL is at most `2^-52` times the length of the shorter signal plus one, relative to the convolution
of the absolute values. -/
theorem C147_convolution (mem : Nat → Nat → Num) {order : Nat → Order} (hc : Complete order) (fused : Nat → Bool)
    (label : String) (s o : Signal Num R) (hs : 0 < s.length) (ho : 0 < o.length) (h : min s.length o.length < 2 ^ 52) :
    ∃ r, Signal.convolve (fullConvolution mem order fused) label s o = .ok r ∧ r.count = Signal.convCount s o ∧
      r.length + 1 = s.length + o.length ∧ r.offset = s.offset + o.offset ∧ r.rate = s.rate ∧
      ∀ c k, c < r.count → k < r.length →
        |(r.channels.get c k).val - convolution s.length o.length (sampleOf s c) (sampleOf o c) k| ≤
          ((min s.length o.length + 1 : Nat) : ℚ) / 2 ^ 52 *
            convolution s.length o.length (fun i => |sampleOf s c i|) (fun i => |sampleOf o c i|) k := by
  obtain ⟨r, h1, h2, h3, h4, h5, h6⟩ := convolve_samples mem order fused label s o hs ho
  refine ⟨r, h1, h2, h3, h4, h5, fun c k hc' hk => ?_⟩
  rcases h6 c k hc' hk with e | e
  · rw [e]
    exact npFull_error hc fused _ _ _ _ k h
  · rw [e, convolution_comm s.length, convolution_comm s.length, min_comm]
    exact npFull_error hc fused _ _ _ _ k (by rw [min_comm]; exact h)

/-- C147: the convolution of integers is exact, as long as the sums do not exceed `2^53`. -/
theorem C147_convolution_exact (mem : Nat → Nat → Num) {order : Nat → Order} (hc : Complete order) (fused : Nat → Bool)
    (label : String) (s o : Signal Num R) (hs : 0 < s.length) (ho : 0 < o.length) (x y : Nat → Nat → Int)
    (hx : ∀ c i, c < Signal.convCount s o → i < s.length → sampleOf s c i = x c i)
    (hy : ∀ c i, c < Signal.convCount s o → i < o.length → sampleOf o c i = y c i)
    (h : ∀ c k, c < Signal.convCount s o →
      convolution s.length o.length (fun i => |sampleOf s c i|) (fun i => |sampleOf o c i|) k ≤ 2 ^ 53) :
    ∃ r, Signal.convolve (fullConvolution mem order fused) label s o = .ok r ∧
      ∀ c k, c < r.count → k < r.length →
        (r.channels.get c k).val = convolution s.length o.length (sampleOf s c) (sampleOf o c) k := by
  obtain ⟨r, h1, h2, h3, h4, h5, h6⟩ := convolve_samples mem order fused label s o hs ho
  refine ⟨r, h1, fun c k hc' hk => ?_⟩
  have hcc : c < Signal.convCount s o := by omega
  rcases h6 c k hc' hk with e | e
  · rw [e]
    exact npFull_int hc fused _ _ _ _ k (x c) (y c) (fun i => hx c i hcc) (fun i => hy c i hcc) (h c k hcc)
  · rw [e, convolution_comm s.length]
    exact npFull_int hc fused _ _ _ _ k (y c) (x c) (fun i => hy c i hcc) (fun i => hx c i hcc)
      (by rw [convolution_comm]; exact h c k hcc)

/-! ### The operators -/

/-- C147: the sum and the product of signals with floating point numbers do not depend on the order of the operands, in spite
of the rounding errors. -/
theorem C147_commutative (mem mem' : Nat → Nat → Num) (s o : Signal Num R) (h : Signal.Compatible s o)
    (hrate : s.rate = o.rate) :
    (∃ r q, s.add mem o = .ok r ∧ o.add mem' s = .ok q ∧ Signal.Same r q) ∧
      ∃ r q, s.mul mem o = .ok r ∧ o.mul mem' s = .ok q ∧ Signal.Same r q := by
  have comm : ∀ (f : Num → Num → Num) (label : String), (∀ x y, f x y = f y x) → ∃ r q,
      Signal.algebra mem f none label s o = .ok r ∧ Signal.algebra mem' f none label o s = .ok q ∧ Signal.Same r q := by
    intro f label hf
    obtain ⟨r, hr, hr'⟩ := Signal.C10_pointwise_partial mem f none s o label h
    obtain ⟨q, hq, hq'⟩ := Signal.C10_pointwise_partial mem' f none o s label (Signal.compatible_symm h)
    exact ⟨r, q, hr, hq, Signal.algebra_comm _ hf _ _ _ _ _ hrate hr' hq'⟩
  refine ⟨comm _ _ fun x y => ?_, comm _ _ fun x y => ?_⟩
  · show (⟨fl (x.val + y.val)⟩ : Num) = ⟨fl (y.val + x.val)⟩
    rw [add_comm]
  · show (⟨fl (x.val * y.val)⟩ : Num) = ⟨fl (y.val * x.val)⟩
    rw [mul_comm]

/-- C147: exchanging the operands of a difference negates the samples exactly, if the samples are floating point numbers. -/
theorem C147_difference (mem mem' : Nat → Nat → Num) (s o : Signal Num R) (h : Signal.Compatible s o)
    (hs : ∀ c i, c < s.count → i < s.length → fl (s.channels.get c i).val = (s.channels.get c i).val)
    (ho : ∀ c i, c < o.count → i < o.length → fl (o.channels.get c i).val = (o.channels.get c i).val) :
    ∃ r q, s.sub mem o = .ok r ∧ o.sub mem' s = .ok q ∧ r.count = q.count ∧ r.offset = q.offset ∧ r.length = q.length ∧
      ∀ c t x, r.at_ c t = some x → q.at_ c t = some ⟨-x.val⟩ := by
  obtain ⟨r, hr, r1, _, r3, r4, _, r6⟩ := Signal.C10_pointwise_partial mem (· - ·) (some 0) s o "Difference" h
  obtain ⟨q, hq, q1, _, q3, q4, _, q6⟩ := Signal.C10_pointwise_partial mem' (· - ·) (some 0) o s "Difference"
    (Signal.compatible_symm h)
  refine ⟨r, q, hr, hq, by omega, by omega, by omega, ?_⟩
  intro c t x hx
  obtain ⟨k1, k2, k3, _⟩ := Signal.at_eq_some.1 hx
  have e := r6 c t k1 k2 k3
  rw [hx] at e
  rw [q6 c t (by omega) (by omega) (by omega)]
  have dbl : ∀ (w : Signal Num R), (∀ c i, c < w.count → i < w.length → fl (w.channels.get c i).val = (w.channels.get c i).val) → ∀ z,
      w.bcast c t = some z → fl z.val = z.val := by
    intro w hw z hz
    obtain ⟨h1, h2, h3, h4⟩ := Signal.at_eq_some.1 hz
    rw [← h4]
    exact hw _ _ h1 (by omega)
  have z : ∀ y : Num, fl y.val = y.val → (0 - y : Num) = ⟨-y.val⟩ := by
    intro y hy
    show (⟨fl (0 - y.val)⟩ : Num) = _
    rw [zero_sub, fl_neg, hy]
  congr 1
  injection e with e
  rw [e]
  cases h1 : s.bcast c t with
  | none =>
    cases h2 : o.bcast c t with
    | none =>
      show (0 : Num) = ⟨-0⟩
      rw [neg_zero]
      rfl
    | some y =>
      show y = ⟨-(0 - y : Num).val⟩
      rw [z y (dbl o ho y h2), neg_neg]
  | some w =>
    cases h2 : o.bcast c t with
    | none =>
      show (0 - w : Num) = ⟨-w.val⟩
      exact z w (dbl s hs w h1)
    | some y =>
      show (⟨fl (y.val - w.val)⟩ : Num) = ⟨-fl (w.val - y.val)⟩
      rw [← fl_neg, neg_sub]

/-! ### Examples -/

/-- the numbers are added one after the other -/
def sequential : Nat → Order
  | 0 => .leaf 0
  | 1 => .leaf 0
  | n + 2 => .node (sequential (n + 1)) (.leaf (n + 1))

theorem sequential_leaves (n : Nat) : (sequential (n + 1)).leaves = List.range (n + 1) := by
  induction n with
  | zero => rfl
  | succ n ih =>
    show (sequential (n + 1)).leaves ++ [n + 1] = _
    rw [ih, ← List.range_succ]

theorem sequential_complete : Complete sequential := by
  intro n hn
  obtain ⟨m, rfl⟩ : ∃ m, n = m + 1 := ⟨n - 1, by omega⟩
  rw [sequential_leaves]

/-- the pairs are added at first, then the pairs of pairs -/
def pairwiseFour : Order := .node (.node (.leaf 0) (.leaf 1)) (.node (.leaf 2) (.leaf 3))

/-- two channels with three floating point numbers each -/
def demo : Signal Num ℚ :=
  ⟨Mat.ofRows 3 [[⟨1⟩, ⟨-2⟩, ⟨3⟩], [⟨1 / 2⟩, ⟨0⟩, ⟨2 ^ 53⟩]], 48000, -1, ["a", "b"]⟩

/-- two samples for the convolution -/
def demoShort : Signal Num ℚ := ⟨Mat.ofRows 2 [[⟨4⟩, ⟨-1⟩]], 48000, 2, ["c"]⟩

example : demo.labels.length = demo.count ∧ demo.length ≤ 2 ^ 52 ∧ 0 < demo.length ∧ 0 < demo.rate ∧ demo.length ≤ 3 ∧
    |demo.offset| ≤ 3 ∧ |(demo.length : Int) - 1 + demo.offset| ≤ 3 ∧ Complete sequential ∧
    Signal.Compatible demo demoShort ∧ demo.rate = demoShort.rate :=
  ⟨rfl, by decide +kernel, by decide +kernel, by decide +kernel, by decide +kernel, by decide +kernel, by decide +kernel,
    sequential_complete, by unfold Signal.Compatible; decide +kernel, rfl⟩

/-- the samples of the example are floating point numbers -/
example : ∀ c i, c < demo.count → i < demo.length → fl (demo.channels.get c i).val = (demo.channels.get c i).val := by
  have : ∀ c < demo.count, ∀ i < demo.length, fl (demo.channels.get c i).val = (demo.channels.get c i).val := by
    decide +kernel
  exact fun c i hc hi => this c hc i hi

/-- an energy decay curve with rounding errors: `2^106 + 1/4` is not a floating point number -/
example : ((EnergyDecay.new (fun _ _ => ⟨99⟩) demo).map fun r => r.channels.flat.map Num.val) =
    .ok [14, 13, 9, 2 ^ 106, 2 ^ 106, 2 ^ 106] := by decide +kernel

/-- the result of a sum depends on the order of the additions -/
example : (sequential 4).sum (fun i => [2 ^ 53, 1, 1, 1].getD i 0) = 2 ^ 53 ∧
    pairwiseFour.sum (fun i => [2 ^ 53, 1, 1, 1].getD i 0) = 2 ^ 53 + 2 := by decide +kernel

/-- a convolution of integers -/
example : ((Signal.convolve (fullConvolution (fun _ _ => ⟨99⟩) sequential fun _ => false) "" demo demoShort).map
    fun r => r.channels.flat.map Num.val) = .ok [4, -9, 14, -3, 2, -1 / 2, 2 ^ 55, -2 ^ 53] := by decide +kernel

/-- the times of the samples are rounded -/
example : ((timeSamples demo).map fun t => (t.1, t.2 0, t.2 1, t.2 2)) =
    .ok (3, fl (-1 / 48000), 0, fl (1 / 48000)) := by decide +kernel

/-- the integers of an example, whose energy and whose convolution with itself are small enough for exact results -/
example : (∀ c < demoShort.count, ∀ i < demoShort.length, (demoShort.channels.get c i).val = ([4, -1] : List Int).getD i 0) ∧
    (∀ c < demoShort.count, energyFrom demoShort c 0 ≤ 2 ^ 53) ∧
    ∀ k < 3, convolution demoShort.length demoShort.length (fun i => |sampleOf demoShort 0 i|)
      (fun i => |sampleOf demoShort 0 i|) k ≤ 2 ^ 53 := by decide +kernel

/-- a spectrum, whose resolution is a floating point number -/
example : ∃ s : Spectrum Num ℚ, 0 < s.resolution ∧ s.length ≤ 2 ^ 49 ∧ 1 < s.length :=
  ⟨⟨Mat.ofRows 2 [[⟨4⟩, ⟨-1⟩]], fl (1 / 3), ["c"]⟩, by decide +kernel, by decide +kernel, by decide +kernel⟩

end Double
end Verif
