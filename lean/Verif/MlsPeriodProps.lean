import Verif.MlsLfsr
import Verif.MlsProps
import Verif.FourierProps

/-
Property C110: maximum length sequences (`sumpf.MaximumLengthSequence`, `_mls.py`) have the period, the balance, the
autocorrelation and the flat spectrum, from which they have their name.
-/

namespace Verif
namespace Mls

open Finset

/-- What the constructor returns. -/
theorem sequence_ok {α R : Type} [Ring α] (mem : Nat → Nat → α) (choice : Nat → Bool) (draw : Nat)
    (bits length : Option Nat) (rate : R) (b l : Nat) (hp : parameters bits length = (b, l)) (h2 : 2 ≤ b) (h32 : b ≤ 32) :
    ∃ (x : Nat → Bool) (s : Signal α R), sequence mem choice draw bits rate length = .ok (s, b) ∧
      s.rate = rate ∧ s.offset = 0 ∧ s.labels = ["MLS"] ∧ s.channels.rows = 1 ∧ s.channels.cols = l ∧
      Recurrent b (polynomial b) x ∧ (∃ i, x i = true) ∧
      ∀ i, i < l → s.channels.get 0 i = if x i then 1 else -1 := by
  obtain ⟨state, s1, s, n1, n2, n3, n4, n5, n6, n7⟩ := C53_samples_partial mem shiftRegister choice draw bits length rate
    b l hp h2 h32
  obtain ⟨state', t1, t2, t3, _⟩ := C53_seed b h2 choice draw
  obtain rfl : state = state' := by
    rw [s1] at t1
    exact Except.ok.inj t1
  refine ⟨shiftRegister b state, s, n1, n2, n3, n4, n5, n6, shiftRegister_recurrent b state (by omega) t2, ?_, n7⟩
  obtain ⟨i, i1, i2⟩ := List.mem_iff_getElem.mp t3
  refine ⟨i, ?_⟩
  rw [shiftRegister_start b state t2 i (by omega), List.getD_eq_getElem?_getD, List.getElem?_eq_getElem i1, i2]
  rfl

theorem period_mul {n : Nat} (h2 : 2 ≤ n) (h32 : n ≤ 32) {s : Nat → Bool} (hs : Recurrent n (polynomial n) s) (i d : Nat) :
    s (i + (2 ^ n - 1) * d) = s i := by
  induction d with
  | zero => rfl
  | succ d ih => rw [Nat.mul_succ, ← Nat.add_assoc, period n h2 h32 hs, ih]

theorem period_mod {n : Nat} (h2 : 2 ≤ n) (h32 : n ≤ 32) {s : Nat → Bool} (hs : Recurrent n (polynomial n) s) (i : Nat) :
    s (i % (2 ^ n - 1)) = s i := by
  conv_rhs => rw [← Nat.mod_add_div i (2 ^ n - 1)]
  exact (period_mul h2 h32 hs _ _).symm

theorem period_pos {n : Nat} (h2 : 2 ≤ n) : 3 ≤ 2 ^ n - 1 := by
  have : 2 ^ 2 ≤ 2 ^ n := Nat.pow_le_pow_right (by decide) h2
  omega

/-- C110: "if both are given and length is greater than the sequence length, the sequence will be repeated": the signal
is periodic, whatever the random generator draws. -/
theorem C110_period {α R : Type} [Ring α] (mem : Nat → Nat → α) (choice : Nat → Bool) (draw : Nat)
    (bits length : Option Nat) (rate : R) (b l : Nat) (hp : parameters bits length = (b, l)) (h2 : 2 ≤ b) (h32 : b ≤ 32) :
    ∃ s : Signal α R, sequence mem choice draw bits rate length = .ok (s, b) ∧ s.channels.cols = l ∧
      ∀ i, i + periodLength b < l → s.channels.get 0 (i + periodLength b) = s.channels.get 0 i := by
  obtain ⟨x, s, h1, _, _, _, _, h6, h7, h8, h9⟩ := sequence_ok mem choice draw bits length rate b l hp h2 h32
  refine ⟨s, h1, h6, fun i hi => ?_⟩
  rw [h9 _ hi, h9 i (by omega)]
  unfold periodLength
  rw [period b h2 h32 h7]

theorem bit_ne {a b : Bool} (h : a ≠ b) : (if a then (1 : ℝ) else -1) ≠ if b then 1 else -1 := by
  cases a <;> cases b
  · exact absurd rfl h
  · norm_num
  · norm_num
  · exact absurd rfl h

theorem bit_inj {a b : Bool} (h : (if a then (1 : ℝ) else -1) = if b then 1 else -1) : a = b := by
  by_contra hn
  exact bit_ne hn h

/-- C110: The length of the period is maximal: no shorter period exists. -/
theorem C110_maximal {R : Type} (mem : Nat → Nat → ℝ) (choice : Nat → Bool) (draw : Nat)
    (bits length : Option Nat) (rate : R) (b l : Nat) (hp : parameters bits length = (b, l)) (h2 : 2 ≤ b) (h32 : b ≤ 32)
    (d : Nat) (hd : 0 < d) (hdN : d < periodLength b) (hl : periodLength b + d ≤ l) :
    ∃ s : Signal ℝ R, sequence mem choice draw bits rate length = .ok (s, b) ∧
      ∃ i, i < periodLength b ∧ s.channels.get 0 (i + d) ≠ s.channels.get 0 i := by
  obtain ⟨x, s, h1, _, _, _, _, h6, h7, h8, h9⟩ := sequence_ok mem choice draw bits length rate b l hp h2 h32
  obtain ⟨i, hi⟩ := aperiodic b h2 h32 h7 h8 d fun h => by
    have := Nat.le_of_dvd hd h
    unfold periodLength at hdN
    omega
  have hN := period_pos h2
  have hlt : i % (2 ^ b - 1) < periodLength b := Nat.mod_lt _ (by omega)
  refine ⟨s, h1, i % (2 ^ b - 1), hlt, ?_⟩
  rw [h9 _ (by omega), h9 _ (by omega)]
  refine bit_ne ?_
  rw [period_mod h2 h32 h7, ← period_mod h2 h32 h7, Nat.mod_add_mod, period_mod h2 h32 h7]
  exact hi

/-- C110: Every pattern of as many successive samples, as the register has bits, appears exactly once per period, except
for the pattern, whose samples are all -1. -/
theorem C110_patterns {R : Type} (mem : Nat → Nat → ℝ) (choice : Nat → Bool) (draw : Nat)
    (bits length : Option Nat) (rate : R) (b l : Nat) (hp : parameters bits length = (b, l)) (h2 : 2 ≤ b) (h32 : b ≤ 32)
    (hl : periodLength b + b - 1 ≤ l) (pattern : Nat → Bool) :
    ∃ s : Signal ℝ R, sequence mem choice draw bits rate length = .ok (s, b) ∧
      ((∃ j, j < b ∧ pattern j = true) → ∃! i, i < periodLength b ∧
        ∀ j, j < b → s.channels.get 0 (i + j) = if pattern j then 1 else -1) ∧
      ¬ ∃ i, i < periodLength b ∧ ∀ j, j < b → s.channels.get 0 (i + j) = -1 := by
  obtain ⟨x, s, h1, _, _, _, _, h6, h7, h8, h9⟩ := sequence_ok mem choice draw bits length rate b l hp h2 h32
  have hN := period_pos h2
  have key : ∀ (q : Nat → Bool) i, i < periodLength b →
      ((∀ j, j < b → s.channels.get 0 (i + j) = if q j then 1 else -1) ↔ window b x i = window b q 0) := by
    intro q i hi
    rw [window_eq_iff]
    refine forall_congr' fun j => forall_congr' fun hj => ?_
    rw [h9 _ (by omega), zero_add]
    exact ⟨bit_inj, fun h => by rw [h]⟩
  refine ⟨s, h1, ?_, ?_⟩
  · rintro ⟨j, hj, hjp⟩
    have hmem : window b pattern 0 ∈ (range (2 ^ b - 1)).image (window b x) := by
      rw [window_image h2 h32 h7 h8, mem_Ico]
      refine ⟨?_, window_lt b pattern 0⟩
      by_contra h0
      have hz : window b (fun _ => false) 0 = 0 := by simp [window]
      have := (window_eq_iff b pattern (fun _ => false) 0 0).mp (by omega) j hj
      rw [zero_add, hjp] at this
      cases this
    obtain ⟨i, i1, i2⟩ := mem_image.mp hmem
    rw [mem_range] at i1
    refine ⟨i, ⟨i1, (key pattern i i1).mpr i2⟩, fun k ⟨hk, hk'⟩ => ?_⟩
    refine window_injective h2 h32 h7 h8 (by rw [coe_range]; exact hk) (by rw [coe_range]; exact i1) ?_
    rw [i2]
    exact (key pattern k hk).mp hk'
  · rintro ⟨i, hi, h⟩
    have hz : window b (fun _ => false) 0 = 0 := by simp [window]
    refine window_ne_zero h2 h32 h7 h8 hi ?_
    rw [← hz]
    exact (key (fun _ => false) i hi).mp fun j hj => by rw [h j hj]; rfl

theorem sum_real {n : Nat} (x : Nat → Bool) (m : Nat) :
    ∑ i ∈ range n, (if x (m + i) then (1 : ℝ) else -1) =
      ((∑ i ∈ range n, (if x (i + m) then (1 : Int) else -1) : Int) : ℝ) := by
  rw [Int.cast_sum]
  refine sum_congr rfl fun i _ => ?_
  rw [add_comm m i]
  split <;> norm_num

/-- C110: The sum of the samples of any period is 1, so the mean value is the smallest one, that is possible for an odd
number of samples, which are 1 or -1. -/
theorem C110_balance {R : Type} (mem : Nat → Nat → ℝ) (choice : Nat → Bool) (draw : Nat)
    (bits length : Option Nat) (rate : R) (b l : Nat) (hp : parameters bits length = (b, l)) (h2 : 2 ≤ b) (h32 : b ≤ 32)
    (m : Nat) (hm : m + periodLength b ≤ l) :
    ∃ s : Signal ℝ R, sequence mem choice draw bits rate length = .ok (s, b) ∧
      ∑ i ∈ range (periodLength b), s.channels.get 0 (m + i) = 1 := by
  obtain ⟨x, s, h1, _, _, _, _, h6, h7, h8, h9⟩ := sequence_ok mem choice draw bits length rate b l hp h2 h32
  refine ⟨s, h1, ?_⟩
  rw [sum_congr rfl fun i hi => h9 (m + i) (by rw [mem_range] at hi; omega), sum_real]
  unfold periodLength
  rw [sum_period h2 h32 (h7.shift m) ?_, Int.cast_one]
  obtain ⟨i, hi⟩ := h8
  refine ⟨i + (2 ^ b - 1) * m - m, ?_⟩
  have : m ≤ (2 ^ b - 1) * m := Nat.le_mul_of_pos_left _ (by have := period_pos h2; omega)
  rw [Nat.sub_add_cancel (by omega), period_mul h2 h32 h7]
  exact hi

/-- C110: The cyclic autocorrelation of one period is -1 for all delays, which are not multiples of the period. -/
theorem C110_autocorrelation {R : Type} (mem : Nat → Nat → ℝ) (choice : Nat → Bool) (draw : Nat)
    (bits length : Option Nat) (rate : R) (b : Nat) (hp : parameters bits length = (b, periodLength b)) (h2 : 2 ≤ b)
    (h32 : b ≤ 32) (k : Nat) :
    ∃ s : Signal ℝ R, sequence mem choice draw bits rate length = .ok (s, b) ∧ s.channels.cols = 2 ^ b - 1 ∧
      ∑ i ∈ range s.channels.cols, s.channels.get 0 i * s.channels.get 0 ((i + k) % s.channels.cols) =
        if s.channels.cols ∣ k then (s.channels.cols : ℝ) else -1 := by
  obtain ⟨x, s, h1, _, _, _, _, h6, h7, h8, h9⟩ := sequence_ok mem choice draw bits length rate b _ hp h2 h32
  have hN := period_pos h2
  refine ⟨s, h1, h6, ?_⟩
  rw [h6]
  unfold periodLength at h9 ⊢
  have h := congrArg (fun z : Int => (z : ℝ)) (autocorrelation h2 h32 h7 h8 k)
  rw [Int.cast_sum] at h
  refine Eq.trans (sum_congr rfl fun i hi => ?_) (h.trans ?_)
  · rw [mem_range] at hi
    rw [h9 i hi, h9 _ (Nat.mod_lt _ (by omega)), period_mod h2 h32 h7]
    split <;> split <;> norm_num
  · split <;> norm_num

/-- C110: Signals with different seeds are cyclic shifts of each other. -/
theorem C110_seeds {R : Type} (mem mem' : Nat → Nat → ℝ) (choice choice' : Nat → Bool) (draw draw' : Nat)
    (bits length : Option Nat) (rate : R) (b : Nat) (hp : parameters bits length = (b, periodLength b)) (h2 : 2 ≤ b)
    (h32 : b ≤ 32) :
    ∃ (s t : Signal ℝ R) (k : Nat), sequence mem choice draw bits rate length = .ok (s, b) ∧
      sequence mem' choice' draw' bits rate length = .ok (t, b) ∧ s.channels.cols = periodLength b ∧
      t.channels.cols = periodLength b ∧
      ∀ i, i < periodLength b → t.channels.get 0 i = s.channels.get 0 ((i + k) % periodLength b) := by
  obtain ⟨x, s, h1, _, _, _, _, h6, h7, h8, h9⟩ := sequence_ok mem choice draw bits length rate b _ hp h2 h32
  obtain ⟨y, t, g1, _, _, _, _, g6, g7, g8, g9⟩ := sequence_ok mem' choice' draw' bits length rate b _ hp h2 h32
  have hN := period_pos h2
  have hmem : window b y 0 ∈ (range (2 ^ b - 1)).image (window b x) := by
    rw [window_image h2 h32 h7 h8, mem_Ico]
    have := window_ne_zero h2 h32 g7 g8 (show 0 < 2 ^ b - 1 by omega)
    exact ⟨by omega, window_lt b y 0⟩
  obtain ⟨k, k1, k2⟩ := mem_image.mp hmem
  have hxy := (h7.shift k).ext g7 (polynomial_top b h2 h32) fun j hj => by
    have := (window_eq_iff b x y k 0).mp k2 j hj
    rw [zero_add] at this
    rw [add_comm j k]
    exact this
  refine ⟨s, t, k, h1, g1, h6, g6, fun i hi => ?_⟩
  rw [g9 i hi, h9 _ (Nat.mod_lt _ (by unfold periodLength; omega)), ← hxy]
  unfold periodLength
  rw [period_mod h2 h32 h7]

/-! ### The spectrum -/

open Dft

theorem sum_periodic (N : Nat) (f : Nat → ℂ) (hf : ∀ i, f (i + N) = f i) (j : Nat) :
    ∑ m ∈ range N, f (j + m) = ∑ m ∈ range N, f m := by
  induction j with
  | zero => simp
  | succ j ih =>
    rw [← ih]
    have h1 := sum_range_succ (fun m => f (j + m)) N
    have h2 := sum_range_succ' (fun m => f (j + m)) N
    rw [h1, hf] at h2
    rw [add_zero] at h2
    have h3 := add_right_cancel h2
    rw [h3]
    refine sum_congr rfl fun m _ => ?_
    congr 1
    omega

/-- The power spectrum is the Fourier transform of the cyclic autocorrelation. -/
theorem power_spectrum {N : Nat} (hN : N ≠ 0) (x : Nat → ℝ) (hx : ∀ i, x (i + N) = x i) (k : ℤ) :
    dft N x k * (starRingEnd ℂ) (dft N x k) =
      ∑ m ∈ range N, ((∑ j ∈ range N, x j * x (j + m) : ℝ) : ℂ) * omega N ^ (-(k * m)) := by
  rw [conj_dft]
  unfold dft
  calc _ = ∑ j ∈ range N, ((x j : ℂ) * omega N ^ (-(-k * j))) * ∑ i ∈ range N, (x i : ℂ) * omega N ^ (-(k * i)) := by
        rw [mul_comm, sum_mul]
    _ = ∑ j ∈ range N, ∑ m ∈ range N, (x j : ℂ) * (x (j + m) : ℂ) * omega N ^ (-(k * m)) := by
        refine sum_congr rfl fun j _ => ?_
        rw [← sum_periodic N (fun i : Nat => (x i : ℂ) * omega N ^ (-(k * i))) (fun i => by
          rw [hx, show -(k * ((i + N : Nat) : ℤ)) = -(k * i) + N * -k by push_cast; ring, omega_period hN]) j, mul_sum]
        refine sum_congr rfl fun m _ => ?_
        rw [show omega N ^ (-(k * m)) = omega N ^ (-(-k * j)) * omega N ^ (-(k * ((j + m : Nat) : ℤ))) by
          rw [← zpow_add₀ (omega_ne_zero N)]
          congr 1
          push_cast
          ring]
        ring
    _ = _ := by
        rw [sum_comm]
        refine sum_congr rfl fun m _ => ?_
        push_cast
        rw [sum_mul]

open Fourier in
/-- C110: The spectrum of a maximum length sequence is flat: the squared magnitude of every bin is `2^bits`, except for
that of 0 Hz, which is 1. -/
theorem C110_spectrum (mem : Nat → Nat → ℝ) (mem' : Nat → Nat → ℂ) (choice : Nat → Bool) (draw : Nat)
    (bits length : Option Nat) (rate : ℝ) (hr : rate ≠ 0) (b : Nat) (hp : parameters bits length = (b, periodLength b))
    (h2 : 2 ≤ b) (h32 : b ≤ 32) :
    ∃ (s : Signal ℝ ℝ) (S : Spectrum ℂ ℝ), sequence mem choice draw bits rate length = .ok (s, b) ∧
      fourierTransform mem' s = .ok S ∧ S.channels.rows = 1 ∧ S.channels.cols = 2 ^ (b - 1) ∧
      S.channels.get 0 0 = 1 ∧
      ∀ k, 0 < k → k < S.channels.cols → Complex.normSq (S.channels.get 0 k) = 2 ^ b := by
  obtain ⟨x, s, h1, h3, h4, h5, hrows, hcols, h7, h8, h9⟩ := sequence_ok mem choice draw bits length rate b _ hp h2 h32
  have hN := period_pos h2
  unfold periodLength at hcols h9
  obtain ⟨N, hNe⟩ : ∃ N, N = 2 ^ b - 1 := ⟨_, rfl⟩
  rw [← hNe] at hcols h9 hN
  obtain ⟨S, t1, t2, t3, t4, _, t6⟩ := C52_transform mem' s (by rw [h5, hrows]; rfl) (by omega) (by omega)
    (by rw [h3]; exact hr)
  have hNc : (N : ℂ) ≠ 0 := Nat.cast_ne_zero.mpr (by omega)
  have hrc : (rate : ℂ) ≠ 0 := Complex.ofReal_ne_zero.mpr hr
  obtain ⟨y, hy⟩ : ∃ y : Nat → ℝ, y = fun i => if x i then 1 else -1 := ⟨_, rfl⟩
  have hyp : ∀ i, y (i + N) = y i := by
    intro i
    rw [hy]
    show (if x (i + N) then (1 : ℝ) else -1) = if x i then 1 else -1
    rw [hNe, period b h2 h32 h7]
  have hd : ∀ k : Nat, k ≤ N / 2 → S.channels.get 0 k = dft N y k := by
    intro k hk
    rw [t6 0 k (by omega) (by omega), hcols]
    refine sum_congr rfl fun j hj => ?_
    rw [h9 j (mem_range.mp hj), hy, omega_zpow, t4, h4, h3, hcols]
    congr 2
    push_cast
    field_simp
    ring
  have hac : ∀ m : Nat, ∑ j ∈ range N, y j * y (j + m) = if N ∣ m then (N : ℝ) else -1 := by
    intro m
    have h := congrArg (fun z : Int => (z : ℝ)) (autocorrelation h2 h32 h7 h8 m)
    rw [Int.cast_sum, ← hNe] at h
    refine Eq.trans (sum_congr rfl fun i hi => ?_) (h.trans ?_)
    · rw [hy]
      dsimp only
      split <;> split <;> norm_num
    · split <;> norm_num
  have hsum : ∑ j ∈ range N, y j = 1 := by
    have h := congrArg (fun z : Int => (z : ℝ)) (sum_period h2 h32 h7 h8)
    rw [Int.cast_sum, ← hNe] at h
    refine Eq.trans (sum_congr rfl fun i hi => ?_) (h.trans (by norm_num))
    rw [hy]
    dsimp only
    split <;> norm_num
  have hb : 2 ^ b = 2 * 2 ^ (b - 1) := by
    rw [← pow_succ']
    congr 1
    omega
  have hcols' : S.channels.cols = 2 ^ (b - 1) := by
    rw [t3, hcols, hNe]
    have := Nat.two_pow_pos (b - 1)
    omega
  refine ⟨s, S, h1, t1, by rw [t2, hrows], hcols', ?_, ?_⟩
  · rw [hd 0 (by omega)]
    unfold dft
    simp only [Nat.cast_zero, zero_mul, neg_zero, zpow_zero, mul_one]
    rw [← Complex.ofReal_sum, hsum, Complex.ofReal_one]
  · intro k hk hkS
    have hkN : k ≤ N / 2 := by omega
    have h := power_spectrum (by omega : N ≠ 0) y hyp k
    rw [← hd k hkN, Complex.mul_conj] at h
    have hdvd : ¬ (N : ℤ) ∣ -(k : ℤ) := by
      rw [Int.dvd_neg, Int.natCast_dvd_natCast]
      intro hdv
      have := Nat.le_of_dvd hk hdv
      omega
    have h' : ∑ m ∈ range N, ((∑ j ∈ range N, y j * y (j + m) : ℝ) : ℂ) * omega N ^ (-((k : ℤ) * m)) = N + 1 := by
      have e : ∀ m ∈ range N, ((∑ j ∈ range N, y j * y (j + m) : ℝ) : ℂ) * omega N ^ (-((k : ℤ) * m)) =
          (if m = 0 then ((N : ℂ) + 1) else 0) - omega N ^ ((m : ℤ) * -k) := by
        intro m hm
        rw [mem_range] at hm
        rw [hac, show (m : ℤ) * -k = -((k : ℤ) * m) by ring]
        by_cases hm0 : m = 0
        · subst hm0
          simp
        · rw [if_neg hm0, if_neg fun hdv => hm0 (Nat.eq_zero_of_dvd_of_lt hdv hm)]
          push_cast
          ring
      rw [sum_congr rfl e, sum_sub_distrib, sum_omega (by omega), if_neg hdvd, sum_ite_eq' (range N) 0,
        if_pos (mem_range.mpr (by omega)), sub_zero]
    rw [h'] at h
    have h2' : Complex.normSq (S.channels.get 0 k) = (N : ℝ) + 1 := by exact_mod_cast h
    rw [h2']
    have : N + 1 = 2 ^ b := by
      have := Nat.two_pow_pos b
      omega
    exact_mod_cast this

/-- the hypotheses of C110: two periods of a sequence with three bits, and one period with the default of 16 bits -/
example : parameters (some 3) (some 14) = (3, 14) ∧ periodLength 3 = 7 ∧ 2 ≤ 3 ∧ 3 ≤ 32 ∧ periodLength 3 + 6 ≤ 14 ∧
    parameters none none = (16, periodLength 16) ∧ parameters none (some 7) = (3, periodLength 3) := by decide

/-- the sequence of a register with three bits -/
example : (List.range 9).map (shiftRegister 3 [true, false, false]) =
    [true, false, false, true, true, true, false, true, false] := by decide

/-- the example in the documentation of `scipy.signal.max_len_seq` -/
example : (List.range 15).map (shiftRegister 4 [true, true, true, true]) =
    [1, 1, 1, 1, 0, 1, 0, 1, 1, 0, 0, 1, 0, 0, 0].map (fun x : Nat => decide (x = 1)) := by decide

/-- C110: `periods` returns the number of repetitions: the length of the signal, divided by the length of the period;
it is 1, if only the number of bits is given. -/
theorem C110_periods {R : Type} (mem : Nat → Nat → ℝ) (choice : Nat → Bool) (draw : Nat)
    (bits length : Option Nat) (rate : R) (b l : Nat) (hp : parameters bits length = (b, l)) (h2 : 2 ≤ b) (h32 : b ≤ 32) :
    ∃ s : Signal ℝ R, sequence mem choice draw bits rate length = .ok (s, b) ∧
      periods s b * (2 ^ b - 1 : Nat) = l ∧ (length = none → periods s b = 1) := by
  obtain ⟨x, s, h1, _, _, _, _, h6, h7, h8, h9⟩ := sequence_ok mem choice draw bits length rate b l hp h2 h32
  have hN : ((2 ^ b - 1 : Nat) : ℚ) ≠ 0 := Nat.cast_ne_zero.mpr (by have := period_pos h2; omega)
  have hl : s.length = l := h6
  refine ⟨s, h1, ?_, ?_⟩
  · unfold periods periodLength
    rw [hl, div_mul_cancel₀ _ hN]
  · rintro rfl
    cases hp
    unfold periods periodLength
    rw [hl, div_self hN]

end Mls
end Verif
