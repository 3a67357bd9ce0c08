import Verif.FourierLawsProps
import Mathlib.Algebra.Order.BigOperators.Ring.Finset

/-
Property C133: the correlation of signals (`Signal.correlate`, `_signal.py:690-726`, in the mode `FULL`) finds the delay
between signals; its Fourier transform is the product of the Fourier transforms, one of which is conjugated.
-/

namespace Verif
namespace Correlation

open Finset Dft Fourier Signal

/-! ### Specification -/

/-- the energy of a function of time -/
noncomputable def energy (x : Int → ℝ) : ℝ := ∑ᶠ u : Int, x u ^ 2

/-- the correlation of two functions of time for the lag `t` -/
noncomputable def corr (x y : Int → ℝ) (t : Int) : ℝ := ∑ᶠ u : Int, x u * y (u + t)

/-! ### Lemmas -/

theorem support_shift {x : Int → ℝ} (hx : x.support.Finite) (t : Int) : (Function.support fun u => x (u + t)).Finite :=
  hx.preimage (add_left_injective t).injOn

/-- a finite set of times, that contains all times, at which two functions are not zero -/
theorem common {x y : Int → ℝ} (hx : x.support.Finite) (hy : y.support.Finite) :
    ∃ S : Finset Int, ∀ u, u ∉ S → x u = 0 ∧ y u = 0 := by
  refine ⟨hx.toFinset ∪ hy.toFinset, fun u hu => ?_⟩
  rw [mem_union, Set.Finite.mem_toFinset, Set.Finite.mem_toFinset, not_or] at hu
  exact ⟨by simpa using hu.1, by simpa using hu.2⟩

theorem finsum_of {f : Int → ℝ} {S : Finset Int} (h : ∀ u, u ∉ S → f u = 0) : ∑ᶠ u, f u = ∑ u ∈ S, f u :=
  finsum_eq_sum_of_support_subset f fun u hu => by
    by_contra hn
    exact hu (h u hn)

theorem energy_shift (x : Int → ℝ) (t : Int) : energy (fun u => x (u + t)) = energy x := by
  unfold energy
  exact finsum_comp_equiv (Equiv.addRight t) (f := fun u => x u ^ 2)

theorem corr_sq_le {x y : Int → ℝ} (hx : x.support.Finite) (hy : y.support.Finite) (t : Int) :
    corr x y t ^ 2 ≤ energy x * energy y := by
  rw [← energy_shift y t]
  obtain ⟨S, hS⟩ := common hx (support_shift hy t)
  unfold corr energy
  rw [finsum_of (S := S) fun u hu => by rw [(hS u hu).1, zero_mul],
    finsum_of (S := S) fun u hu => by rw [(hS u hu).1, sq, zero_mul],
    finsum_of (S := S) fun u hu => by dsimp only; rw [(hS u hu).2, sq, zero_mul]]
  exact sum_mul_sq_le_sq_mul_sq S x fun u => y (u + t)

/-- the energy of a function, that is not zero, is greater than zero -/
theorem energy_pos {x : Int → ℝ} (hx : x.support.Finite) {u : Int} (hu : x u ≠ 0) : 0 < energy x := by
  unfold energy
  obtain ⟨S, hS⟩ := common hx hx
  rw [finsum_of (S := S) fun u hu => by rw [(hS u hu).1, sq, zero_mul]]
  refine sum_pos' (fun v _ => sq_nonneg _) ⟨u, ?_, by positivity⟩
  by_contra h
  exact hu (hS u h).1

/-- a function, that is zero except for finitely many times, is not periodic -/
theorem not_periodic {x : Int → ℝ} (hx : x.support.Finite) {t : Int} (ht : t ≠ 0) (hp : ∀ u, x (u + t) = x u) (u : Int) :
    x u = 0 := by
  by_contra hu
  have h1 : ∀ n : Nat, x (u + n * t) ≠ 0 := by
    intro n
    induction n with
    | zero => simpa using hu
    | succ n ih =>
      rw [show u + ((n + 1 : Nat) : Int) * t = u + n * t + t by push_cast; ring, hp]
      exact ih
  refine Set.infinite_of_injective_forall_mem (f := fun n : Nat => u + n * t) (fun a b h => ?_) h1 hx
  have h' : (a : Int) * t = b * t := by
    have h : u + a * t = u + b * t := h
    omega
  exact_mod_cast mul_right_cancel₀ ht h'

/-- the correlation of a function with itself has a unique maximum at the lag zero -/
theorem auto_lt {x : Int → ℝ} (hx : x.support.Finite) {u : Int} (hu : x u ≠ 0) {t : Int} (ht : t ≠ 0) :
    |corr x x t| < energy x := by
  have hs := energy_shift x t
  obtain ⟨S, hS⟩ := common hx (support_shift hx t)
  have e1 : energy x = ∑ u ∈ S, x u ^ 2 := finsum_of fun u hu => by rw [(hS u hu).1, sq, zero_mul]
  have e2 : energy x = ∑ u ∈ S, x (u + t) ^ 2 := by
    rw [← hs]
    exact finsum_of fun u hu => by
      dsimp only
      rw [(hS u hu).2, sq, zero_mul]
  have e3 : corr x x t = ∑ u ∈ S, x u * x (u + t) := finsum_of fun u hu => by rw [(hS u hu).1, zero_mul]
  have zero : ∀ (σ : ℝ), ∑ u ∈ S, (x u - σ * x (u + t)) ^ 2 = 0 → ∀ u, x u = σ * x (u + t) := by
    intro σ h u
    by_cases hu : u ∈ S
    · have := (sum_eq_zero_iff_of_nonneg (fun u _ => sq_nonneg _)).mp h u hu
      have := pow_eq_zero_iff (two_ne_zero) |>.mp this
      linarith
    · rw [(hS u hu).1, (hS u hu).2, mul_zero]
  have expand : ∀ (σ : ℝ), σ * σ = 1 → ∑ u ∈ S, (x u - σ * x (u + t)) ^ 2 = 2 * energy x - 2 * σ * corr x x t := by
    intro σ hσ
    have : ∀ u ∈ S, (x u - σ * x (u + t)) ^ 2 = x u ^ 2 + x (u + t) ^ 2 - 2 * σ * (x u * x (u + t)) := by
      intro u _
      linear_combination (x (u + t) ^ 2) * hσ
    rw [sum_congr rfl this, sum_sub_distrib, sum_add_distrib, ← mul_sum, ← e1, ← e2, ← e3]
    ring
  have pos : ∀ (σ : ℝ), σ * σ = 1 → σ * corr x x t < energy x := by
    intro σ hσ
    have h0 : 0 ≤ ∑ u ∈ S, (x u - σ * x (u + t)) ^ 2 := sum_nonneg fun u _ => sq_nonneg _
    rcases h0.lt_or_eq with h | h
    · rw [expand σ hσ] at h
      linarith
    · exfalso
      have hz := zero σ h.symm
      refine hu (not_periodic hx (t := 2 * t) (by omega) (fun u => ?_) u)
      have h1 := hz (u + t)
      have h2 := hz u
      rw [show u + 2 * t = u + t + t by ring]
      rw [h2, h1, ← mul_assoc, hσ, one_mul]
  rw [abs_lt]
  constructor
  · have := pos (-1) (by norm_num)
    linarith
  · have := pos 1 (by norm_num)
    linarith

theorem auto_zero (x : Int → ℝ) : corr x x 0 = energy x := by
  unfold corr energy
  refine finsum_congr fun u => ?_
  rw [add_zero, sq]

theorem auto_neg (x : Int → ℝ) (t : Int) : corr x x (-t) = corr x x t := by
  unfold corr
  rw [← finsum_comp_equiv (Equiv.addRight t)]
  refine finsum_congr fun u => ?_
  rw [Equiv.coe_addRight, add_neg_cancel_right, mul_comm]

theorem corr_delayed (x : Int → ℝ) (g : ℝ) (d t : Int) (hx : x.support.Finite) :
    corr x (fun u => g * x (u - d)) t = g * corr x x (t - d) := by
  unfold corr
  rw [mul_finsum' _ _ (hx.subset fun u hu h => hu (by rw [h, zero_mul]))]
  refine finsum_congr fun u => ?_
  dsimp only
  rw [show u + t - d = u + (t - d) by ring]
  ring

theorem corrAt_eq_corr (s o : Signal ℝ ℝ) (c : Nat) (t : Int) :
    corrAt s o c t = corr (s.value (s.chan c)) (o.value (o.chan c)) t := by
  unfold corrAt corr
  refine finsum_congr fun u => ?_
  rw [val_eq_value, val_eq_value]

theorem energy_value (s : Signal ℝ ℝ) {c : Nat} (hc : c < s.count) :
    energy (s.value c) = ∑ i ∈ range s.length, s.channels.get c i ^ 2 := by
  unfold energy
  have e : ∀ t, s.value c t ^ 2 = ext s.length s.offset (fun j => s.channels.get c j ^ 2) t := by
    intro t
    rw [value_eq_ext s hc]
    unfold ext
    split <;> simp
  have := finsum_ext s.length s.offset (fun j => s.channels.get c j ^ 2) (fun _ => 1)
  simp only [mul_one] at this
  rw [← this]
  exact finsum_congr e

/-! ### C133 -/

variable (mem : Nat → Nat → ℝ) (label : String)

/-- C133: The correlation is at most the geometric mean of the energies. -/
theorem C133_bound (s o : Signal ℝ ℝ) (hs : 0 < s.length) (ho : 0 < o.length) :
    ∃ r, convolve (fullCorrelation mem) label s o = .ok r ∧ ∀ c t, c < r.count →
      r.value c t ^ 2 ≤ (∑ i ∈ range s.length, s.channels.get (s.chan c) i ^ 2) *
        ∑ i ∈ range o.length, o.channels.get (o.chan c) i ^ 2 := by
  obtain ⟨r, x1, y1⟩ := isCorr mem label s o hs ho
  have n1 := y1.count
  refine ⟨r, x1, fun c t hc => ?_⟩
  have hcc : c < convCount s o := by
    change c < cnt s.count o.count
    omega
  rw [y1.value c t hcc, corrAt_eq_corr, ← energy_value s (chan_lt_left hcc), ← energy_value o (chan_lt_right hcc)]
  exact corr_sq_le (value_support s _) (value_support o _) t

/-- C133: The correlation of a signal with itself has the lags from `-(length - 1)` to `length - 1`, is symmetric, and its
value for the lag zero is the energy of the signal; if the signal is not zero, all other values are smaller. -/
theorem C133_autocorrelation (s : Signal ℝ ℝ) (hs : 0 < s.length) :
    ∃ r, convolve (fullCorrelation mem) label s s = .ok r ∧ r.count = s.count ∧ r.rate = s.rate ∧
      r.offset = -((s.length : Int) - 1) ∧ r.length = 2 * s.length - 1 ∧ ∀ c, c < s.count →
        r.value c 0 = ∑ i ∈ range s.length, s.channels.get c i ^ 2 ∧ ∀ t, r.value c (-t) = r.value c t ∧
          |r.value c t| ≤ r.value c 0 ∧
          (t ≠ 0 → (∃ i, i < s.length ∧ s.channels.get c i ≠ 0) → |r.value c t| < r.value c 0) := by
  obtain ⟨r, x1, y1⟩ := isCorr mem label s s hs hs
  have n1 := y1.count
  have l1 := y1.length
  have o1 := y1.offset
  have hcc : cnt s.count s.count = s.count := by
    unfold cnt
    split
    · rfl
    · simp
  refine ⟨r, x1, by omega, y1.rate, by omega, by omega, fun c hc => ?_⟩
  have hch : s.chan c = c := by
    unfold Signal.chan
    split <;> omega
  have hv : ∀ t, r.value c t = corr (s.value c) (s.value c) t := by
    intro t
    rw [y1.value c t (by omega), corrAt_eq_corr, hch]
  have hfin := value_support s c
  refine ⟨by rw [hv, auto_zero, energy_value s hc], fun t => ⟨by rw [hv, hv, auto_neg], ?_, ?_⟩⟩
  · rw [hv, hv, auto_zero]
    have h := corr_sq_le hfin hfin t
    have h0 : 0 ≤ energy (s.value c) := finsum_nonneg fun u => sq_nonneg _
    rw [← sq] at h
    exact abs_le_of_sq_le_sq h h0
  · rintro ht ⟨i, hi, h⟩
    rw [hv, hv, auto_zero]
    refine auto_lt hfin (u := s.offset + i) ?_ ht
    rw [value_eq_ext s hc]
    unfold ext
    rw [if_pos (by omega), show (s.offset + i - s.offset).toNat = i by omega]
    exact h

/-- C133: The correlation of a signal with a delayed and amplified copy of it has its maximum at the delay: its value there
is the amplification times the energy and all other values are smaller. The signals may have different lengths and offsets,
each channel can be delayed differently. -/
theorem C133_delay (s o : Signal ℝ ℝ) (hs : 0 < s.length) (ho : 0 < o.length) (hcount : s.count = 1 ∨ s.count = o.count)
    (g : Nat → ℝ) (d : Nat → Int)
    (hd : ∀ c t, c < o.count → o.value c t = g c * s.value (s.chan c) (t - d c)) :
    ∃ r, convolve (fullCorrelation mem) label s o = .ok r ∧ r.count = o.count ∧ ∀ c, c < o.count →
      r.value c (d c) = g c * ∑ i ∈ range s.length, s.channels.get (s.chan c) i ^ 2 ∧
        ∀ t, t ≠ d c → g c ≠ 0 → (∃ i, i < s.length ∧ s.channels.get (s.chan c) i ≠ 0) →
          |r.value c t| < |r.value c (d c)| := by
  obtain ⟨r, x1, y1⟩ := isCorr mem label s o hs ho
  have n1 := y1.count
  have hcc : cnt s.count o.count = o.count := by
    unfold cnt
    split
    · omega
    · split
      · rfl
      · omega
  refine ⟨r, x1, by omega, fun c hc => ?_⟩
  have hch : o.chan c = c := by
    unfold Signal.chan
    split <;> omega
  have hcs : s.chan c < s.count := chan_lt_left (o := o) (by change c < cnt s.count o.count; omega)
  have hfin := value_support s (s.chan c)
  have hv : ∀ t, r.value c t = g c * corr (s.value (s.chan c)) (s.value (s.chan c)) (t - d c) := by
    intro t
    rw [y1.value c t (by omega), corrAt_eq_corr, hch, funext fun u => hd c u hc, corr_delayed _ _ _ _ hfin]
  have h0 : r.value c (d c) = g c * energy (s.value (s.chan c)) := by rw [hv, sub_self, auto_zero]
  refine ⟨by rw [h0, energy_value s hcs], fun t ht hg hne => ?_⟩
  obtain ⟨i, hi, h⟩ := hne
  have hu : s.value (s.chan c) (s.offset + i) ≠ 0 := by
    rw [value_eq_ext s hcs]
    unfold ext
    rw [if_pos (by omega), show (s.offset + i - s.offset).toNat = i by omega]
    exact h
  rw [h0, hv, abs_mul, abs_mul, abs_of_pos (energy_pos hfin hu)]
  exact mul_lt_mul_of_pos_left (auto_lt hfin hu (by omega)) (abs_pos.mpr hg)

/-- C133: The correlation of a signal with the signal, that is shifted by `n` samples, has its maximum at `n`. -/
theorem C133_shift (mem' : Nat → Nat → ℝ) (s : Signal ℝ ℝ) (hs : 0 < s.length) (n : Int) :
    ∃ o r, s.shift mem' (some n) .offset = .ok o ∧ convolve (fullCorrelation mem) label s o = .ok r ∧ r.count = s.count ∧
      ∀ c, c < s.count → r.value c n = ∑ i ∈ range s.length, s.channels.get c i ^ 2 ∧
        ∀ t, t ≠ n → (∃ i, i < s.length ∧ s.channels.get c i ≠ 0) → |r.value c t| < |r.value c n| := by
  obtain ⟨o, h1, h2, h3, h4, -⟩ := shift_offset mem' s n
  have lo : o.length = s.length := congrArg Mat.cols h2
  have co : o.count = s.count := congrArg Mat.rows h2
  have hch : ∀ c, c < s.count → s.chan c = c := by
    intro c hc
    unfold Signal.chan
    split <;> omega
  obtain ⟨r, r1, r2, r3⟩ := C133_delay mem label s o hs (by omega) (Or.inr co.symm) (fun _ => 1) (fun _ => n)
    (fun c t hc => by rw [one_mul, hch c (by omega), value_shifted h2 h4])
  refine ⟨o, r, h1, r1, by omega, fun c hc => ?_⟩
  obtain ⟨q1, q2⟩ := r3 c (by omega)
  rw [hch c hc] at q1 q2
  rw [one_mul] at q1
  exact ⟨q1, fun t ht hne => q2 t ht one_ne_zero hne⟩

theorem spectrumAt_corr (L : Nat) {x y : Int → ℝ} (hx : x.support.Finite) (hy : y.support.Finite) (k : Nat) :
    spectrumAt L (corr x y) k = (starRingEnd ℂ) (spectrumAt L x k) * spectrumAt L y k := by
  have hx' : (Function.support fun t => x (-t)).Finite :=
    (hx.image Neg.neg).subset fun t ht => ⟨-t, ht, neg_neg t⟩
  rw [← spectrumAt_reverse L x hx, ← spectrumAt_conv L hx' hy]
  congr 1
  funext t
  unfold corr
  rw [← finsum_comp_equiv (Equiv.neg Int)]
  refine finsum_congr fun u => ?_
  rw [Equiv.neg_apply]
  congr 2
  ring

/-- C133: The correlation theorem: the Fourier transform of a correlation is the product of the complex conjugate of the
Fourier transform of the first signal and of the Fourier transform of the second one, which are padded with zeros to the
length of the correlation; for all lengths and offsets. -/
theorem C133_transform (m2 m3 : Nat → Nat → ℝ) (m4 m5 m6 : Nat → Nat → ℂ) (a b : Signal ℝ ℝ) (ha : a.WF) (hb : b.WF)
    (hma : 1 ≤ a.count) (hmb : 1 ≤ b.count) (hna : 1 ≤ a.length) (hnb : 1 ≤ b.length) (hr : a.rate ≠ 0)
    (hrate : b.rate = a.rate) :
    ∃ r a' b' C A B, convolve (fullCorrelation mem) label a b = .ok r ∧
      a.pad m2 (a.length + b.length - 1) 0 = .ok a' ∧ b.pad m3 (a.length + b.length - 1) 0 = .ok b' ∧
      fourierTransform m4 r = .ok C ∧ fourierTransform m5 a' = .ok A ∧ fourierTransform m6 b' = .ok B ∧
      C.length = A.length ∧ C.length = B.length ∧ C.resolution = A.resolution ∧ C.count = r.count ∧
      ∀ c k, c < C.count → k < C.length →
        C.channels.get c k = (starRingEnd ℂ) (A.channels.get (a.chan c) k) * B.channels.get (b.chan c) k := by
  obtain ⟨r, x1, y1⟩ := isCorr mem label a b hna hnb
  obtain ⟨a', p1, p2, p3, p4, p5, p6, p7⟩ := pad_value m2 a ha (a.length + b.length - 1) (by omega)
  obtain ⟨b', q1, q2, q3, q4, q5, q6, q7⟩ := pad_value m3 b hb (a.length + b.length - 1) (by omega)
  have n1 := y1.count
  have l1 := y1.length
  have hpos : 1 ≤ cnt a.count b.count := by
    unfold cnt
    split <;> [skip; split] <;> omega
  have hW : r.WF := by
    unfold WF
    rw [convolve_labels x1]
    exact C01_labels_length _ _
  obtain ⟨C, x2, y2⟩ := isTransform m4 r hW (by omega) (by omega) (by rw [y1.rate]; exact hr)
  obtain ⟨A, x3, y3⟩ := isTransform m5 a' p2 (by omega) (by omega) (by rw [p5]; exact hr)
  obtain ⟨B, x4, y4⟩ := isTransform m6 b' q2 (by omega) (by omega) (by rw [q5, hrate]; exact hr)
  have l2 := y2.length
  have l3 := y3.length
  have l4 := y4.length
  have c2 := y2.count
  have c3 := y3.count
  have c4 := y4.count
  rw [p4] at l3
  rw [q4] at l4
  have l1' : r.length = a.length + b.length - 1 := by omega
  rw [l1'] at l2
  refine ⟨r, a', b', C, A, B, x1, p1, q1, x2, x3, x4, by omega, by omega,
    by rw [y2.resolution, y3.resolution, y1.rate, p5, p4, l1'], c2, ?_⟩
  intro c k hc hk
  have hcc : c < convCount a b := by
    change c < cnt a.count b.count
    omega
  have hch : a.chan c < a.count := chan_lt_left hcc
  have hch' : b.chan c < b.count := chan_lt_right hcc
  rw [y2.value c k (by omega) hk, y3.value _ k (by omega) (by omega), y4.value _ k (by omega) (by omega), p4, q4, l1',
    funext (p7 (a.chan c)), funext (q7 (b.chan c)), ← spectrumAt_corr _ (value_support a _) (value_support b _)]
  congr 1
  funext t
  rw [y1.value c t hcc, corrAt_eq_corr]

/-- C133: The Fourier transform of the autocorrelation is the power spectrum: the squared magnitude of the Fourier transform
of the signal, that is padded to the length of the autocorrelation. It is real and not negative. -/
theorem C133_power (m2 : Nat → Nat → ℝ) (m4 m5 : Nat → Nat → ℂ) (a : Signal ℝ ℝ) (ha : a.WF) (hma : 1 ≤ a.count)
    (hna : 1 ≤ a.length) (hr : a.rate ≠ 0) :
    ∃ r a' C A, convolve (fullCorrelation mem) label a a = .ok r ∧ a.pad m2 (2 * a.length - 1) 0 = .ok a' ∧
      fourierTransform m4 r = .ok C ∧ fourierTransform m5 a' = .ok A ∧ C.length = A.length ∧ C.count = A.count ∧
      ∀ c k, c < C.count → k < C.length → C.channels.get c k = ((‖A.channels.get c k‖ ^ 2 : ℝ) : ℂ) := by
  obtain ⟨r, a', b', C, A, B, h1, h2, h3, h4, h5, h6, h7, h8, h9, h10, h11⟩ :=
    C133_transform mem label m2 m2 m4 m5 m5 a a ha ha hma hma hna hna hr rfl
  rw [h2] at h3
  cases h3
  rw [h5] at h6
  cases h6
  obtain ⟨q, y1, y2⟩ := isCorr mem label a a hna hna
  rw [h1] at y1
  cases y1
  have n1 := y2.count
  have hcc : cnt a.count a.count = a.count := by
    unfold cnt
    split
    · rfl
    · simp
  obtain ⟨a'', p1, p2, p3, p4, p5, -⟩ := pad_value m2 a ha (a.length + a.length - 1) (by omega)
  rw [h2] at p1
  cases p1
  obtain ⟨A', x3, y3⟩ := isTransform m5 a' p2 (by omega) (by omega) (by rw [p5]; exact hr)
  rw [h5] at x3
  cases x3
  have c3 := y3.count
  refine ⟨r, a', C, A, h1, by rw [show 2 * a.length - 1 = a.length + a.length - 1 by omega]; exact h2, h4, h5, h7, by omega, ?_⟩
  intro c k hc hk
  have hch : a.chan c = c := by
    unfold Signal.chan
    split <;> omega
  rw [h11 c k hc hk, hch, ← Complex.normSq_eq_conj_mul_self, Complex.normSq_eq_norm_sq]

/-- the hypotheses of C133: signals with different lengths, one is the delayed and amplified copy of the other one -/
example : ∃ s o : Signal ℝ ℝ, 0 < s.length ∧ 0 < o.length ∧ (s.count = 1 ∨ s.count = o.count) ∧
    (∀ c t, c < o.count → o.value c t = 3 * s.value (s.chan c) (t - 2)) ∧ s.offset = -1 ∧ o.offset = 0 ∧
    s.channels.get 0 0 ≠ 0 := by
  refine ⟨⟨⟨1, 1, fun _ _ => 5⟩, 10, -1, ["a"]⟩, ⟨⟨1, 3, fun _ i => if i = 1 then 15 else 0⟩, 10, 0, ["b"]⟩, by decide,
    by decide, Or.inl rfl, ?_, rfl, rfl, by norm_num⟩
  intro c t hc
  have h0 : c = 0 := by
    change c < 1 at hc
    omega
  subst h0
  rw [value_eq_ext _ hc, value_eq_ext _ (by decide)]
  unfold ext
  show (if (0 : Int) ≤ t ∧ t < 0 + (3 : Nat) then (if (t - 0).toNat = 1 then (15 : ℝ) else 0) else 0) =
    3 * (if (-1 : Int) ≤ t - 2 ∧ t - 2 < -1 + (1 : Nat) then (5 : ℝ) else 0)
  by_cases ht : t = 1
  · subst ht
    norm_num
  · rw [if_neg (show ¬((-1 : Int) ≤ t - 2 ∧ t - 2 < -1 + (1 : Nat)) by omega), mul_zero]
    split
    · rw [if_neg (by omega)]
    · rfl

end Correlation
end Verif
