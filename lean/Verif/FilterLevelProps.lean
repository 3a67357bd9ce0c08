import Verif.FilterLawsProps
import Verif.SpectrumLevelProps
import Verif.StftLawsProps
import Verif.Chebyshev2Props
import Verif.RolloffProps
import Verif.BesselDelayProps
import Verif.ChebyshevOptimalProps

/-
Property C136: the gain of a filter bounds the level of the signals, that are filtered with it.
-/

namespace Verif
namespace FilterApply

open Verif.Filter Finset Dft

/-- all samples of a signal are finite and are those of the signal `u` -/
structure AllFinite (r : Signal (Option ℝ) ℝ) (u : Signal ℝ ℝ) : Prop where
  count : r.count = u.count
  length : r.length = u.length
  rate : r.rate = u.rate
  offset : r.offset = u.offset
  labels : r.labels = u.labels
  value : ∀ c i, c < u.count → i < u.length → r.channels.get c i = some (u.channels.get c i)

/-- the sum of the squared samples, that result from bins -/
theorem inverse_energy {M : Nat} (hM : 0 < M) (X : Nat → ℂ) :
    (∑ k ∈ Ico 1 M, ‖X k‖ ^ 2) * 2 + (X 0).re ^ 2 + (X M).re ^ 2 =
      (2 * M : Nat) * ∑ n ∈ range (2 * M), inverse M X n ^ 2 := by
  have hd : ∀ k, k ≤ M → dft (2 * M) (inverse M X) k = hermitian M X k := fun k hk => Fourier.dft_inverse hM X hk
  rw [← Level.parseval_half hM (inverse M X), hd 0 (by omega), hd M le_rfl]
  have h0 : ‖hermitian M X 0‖ ^ 2 = (X 0).re ^ 2 := by
    unfold hermitian
    rw [if_pos (Or.inl rfl), Complex.norm_real, Real.norm_eq_abs, sq_abs]
  have h1 : ‖hermitian M X M‖ ^ 2 = (X M).re ^ 2 := by
    unfold hermitian
    rw [if_pos (Or.inr rfl), Complex.norm_real, Real.norm_eq_abs, sq_abs]
  rw [h0, h1]
  congr 3
  refine Finset.sum_congr rfl fun k hk => ?_
  rw [mem_Ico] at hk
  rw [hd k (by omega)]
  unfold hermitian
  rw [if_neg (by omega), if_pos (by omega)]

theorem transform_norm (L : Nat) (offset : Int) (x : Nat → ℝ) (k : Nat) :
    ‖Fourier.transform L offset x k‖ = ‖dft L x k‖ := by
  rw [Fourier.transform_eq, norm_mul, Stft.norm_omega, mul_one]

/-- the first and the last bin of the spectrum of a real signal are real -/
theorem transform_real {M : Nat} (hM : 0 < M) (offset : Int) (x : Nat → ℝ) {k : Nat} (hk : k = 0 ∨ k = M) :
    (Fourier.transform (2 * M) offset x k).im = 0 := by
  rw [← Complex.conj_eq_iff_im, Fourier.transform_eq, map_mul, conj_dft, conj_omega_zpow]
  congr 1
  · rcases hk with h | h
    · subst h; simp
    · rw [← dft_period (N := 2 * M) (by omega) x (-k)]
      congr 1
      subst h
      push_cast
      ring
  · rcases hk with h | h
    · subst h; simp
    · rw [← omega_period (N := 2 * M) (by omega) (-(-((k : ℤ) * offset))) (-offset)]
      congr 1
      subst h
      push_cast
      ring

/-- the filtered signal and its energy -/
theorem filtered_energy (mem : Memory) (a : Channels ℝ ℂ) (o : Signal ℝ ℝ) (hl : o.labels.length = o.channels.rows)
    (hm : 1 ≤ o.channels.rows) (M : Nat) (hM : 0 < M) (hN : o.channels.cols = 2 * M) (hr : o.rate ≠ 0)
    (h : Fits a.transferFunctions.length o.channels.rows) (z : Nat → Nat → ℂ)
    (hz : ∀ c k : Nat, c < a.transferFunctions.length → k ≤ M → gain mem.s a c (k * (o.rate / o.channels.cols)) = some (z c k)) :
    ∃ r u, applySignal complexEnv mem a o = .ok r ∧ AllFinite r u ∧
      u.count = filteredCount a.transferFunctions.length o.channels.rows ∧ u.length = o.length ∧ u.rate = o.rate ∧
      ∀ c, c < u.count → ∃ X : Nat → ℂ,
        (∀ k, k ≤ M → X k = z (pick a.transferFunctions.length c) k *
          Fourier.transform (2 * M) o.offset (o.channels.get (pick o.channels.rows c)) k) ∧
        (∑ k ∈ Ico 1 M, ‖X k‖ ^ 2) * 2 + (X 0).re ^ 2 + (X M).re ^ 2 =
          (2 * M : Nat) * ∑ n ∈ range (2 * M), u.channels.get c n ^ 2 := by
  obtain ⟨b, r, h1, h2, b1, b2, b3, b4, b5⟩ := applySignal_ok mem a o hl hm (by omega) hr h
  obtain ⟨r', e0, e1, e2, e3, e4, e5, e6⟩ := inverse_value mem.signal b M hM (by omega) (by rw [b4]; simp)
  rw [h2] at e0
  cases e0
  have hNR : ((2 * M : Nat) : ℝ) ≠ 0 := Nat.cast_ne_zero.mpr (by omega)
  have hp : ∀ c, c < b.count → pick a.transferFunctions.length c < a.transferFunctions.length := by
    intro c hc
    unfold filteredCount at b1
    unfold Fits at h
    unfold pick
    split_ifs at b1 ⊢ <;> omega
  have hX : ∀ c, c < b.count → ∀ k, k ≤ M → b.channels.get c k = some (z (pick a.transferFunctions.length c) k *
      Fourier.transform (2 * M) o.offset (o.channels.get (pick o.channels.rows c)) k) := by
    intro c hc k hk
    rw [b5 c k hc (by omega), hz _ k (hp c hc) hk, Option.map_some, hN]
  refine ⟨r, ⟨⟨r.channels.rows, r.channels.cols, fun c n => inverse M (fun k => z (pick a.transferFunctions.length c) k *
      Fourier.transform (2 * M) o.offset (o.channels.get (pick o.channels.rows c)) k) n⟩, r.rate, r.offset, r.labels⟩, h1,
    ⟨rfl, rfl, rfl, rfl, rfl, ?_⟩, ?_, ?_, ?_, ?_⟩
  · intro c i hc hi
    have hc' : c < b.count := by rw [← e1]; exact hc
    have hi' : i < 2 * M := by rw [← e2]; exact hi
    exact e6 c _ hc' (hX c hc') i hi'
  · show r.count = _
    rw [e1, b1]
  · show r.length = o.channels.cols
    rw [e2, hN]
  · show r.rate = _
    rw [e3, b3, hN, div_mul_cancel₀ _ hNR]
  · intro c hc
    exact ⟨_, fun k _ => rfl, inverse_energy hM _⟩

theorem level_eq {u : Signal ℝ ℝ} {L : Nat} (h : u.length = L) (c : Nat) :
    Level.level u c = Real.sqrt (∑ n ∈ range L, u.channels.get c n ^ 2) / Real.sqrt L := by
  subst h
  rfl

theorem level_le {u o : Signal ℝ ℝ} {M : Nat} (hM : 0 < M) (hu : u.length = 2 * M) (ho : o.length = 2 * M) {c d : Nat} {g : ℝ}
    (hg : 0 ≤ g) (h : (2 * M : Nat) * ∑ n ∈ range (2 * M), u.channels.get c n ^ 2 ≤
      g ^ 2 * ((2 * M : Nat) * ∑ n ∈ range (2 * M), o.channels.get d n ^ 2)) :
    Level.level u c ≤ g * Level.level o d := by
  rw [level_eq hu, level_eq ho, ← mul_div_assoc]
  refine div_le_div_of_nonneg_right ?_ (Real.sqrt_nonneg _)
  have hNR : (0 : ℝ) < ((2 * M : Nat) : ℝ) := Nat.cast_pos.mpr (by omega)
  rw [show g = Real.sqrt (g ^ 2) from (Real.sqrt_sq hg).symm, ← Real.sqrt_mul (sq_nonneg g)]
  refine Real.sqrt_le_sqrt (le_of_mul_le_mul_left ?_ hNR)
  linarith

theorem le_level {u o : Signal ℝ ℝ} {M : Nat} (hM : 0 < M) (hu : u.length = 2 * M) (ho : o.length = 2 * M) {c d : Nat} {g : ℝ}
    (hg : 0 ≤ g) (h : g ^ 2 * ((2 * M : Nat) * ∑ n ∈ range (2 * M), o.channels.get d n ^ 2) ≤
      (2 * M : Nat) * ∑ n ∈ range (2 * M), u.channels.get c n ^ 2) :
    g * Level.level o d ≤ Level.level u c := by
  rw [level_eq hu, level_eq ho, ← mul_div_assoc]
  refine div_le_div_of_nonneg_right ?_ (Real.sqrt_nonneg _)
  have hNR : (0 : ℝ) < ((2 * M : Nat) : ℝ) := Nat.cast_pos.mpr (by omega)
  rw [show g = Real.sqrt (g ^ 2) from (Real.sqrt_sq hg).symm, ← Real.sqrt_mul (sq_nonneg g)]
  refine Real.sqrt_le_sqrt (le_of_mul_le_mul_left ?_ hNR)
  linarith

theorem re_sq_le (z : ℂ) : z.re ^ 2 ≤ ‖z‖ ^ 2 := by
  rw [← sq_abs]
  exact pow_le_pow_left₀ (abs_nonneg _) (Complex.abs_re_le_norm z) 2

/-- C136: If the magnitude of the transfer function is not larger than `g` at any of the bins, then the level of the filtered
signal is not larger than `g` times the level of the signal. -/
theorem C136_bound (mem : Memory) (a : Channels ℝ ℂ) (o : Signal ℝ ℝ) (hl : o.labels.length = o.channels.rows)
    (hm : 1 ≤ o.channels.rows) (hn : 2 ≤ o.length) (he : o.length % 2 = 0) (hr : o.rate ≠ 0)
    (h : Fits a.transferFunctions.length o.channels.rows) (g : Nat → ℝ) (hg : ∀ c, 0 ≤ g c)
    (hz : ∀ c k : Nat, c < a.transferFunctions.length → k ≤ o.length / 2 →
      ∃ z, gain mem.s a c (k * (o.rate / o.length)) = some z ∧ ‖z‖ ≤ g c) :
    ∃ r u, applySignal complexEnv mem a o = .ok r ∧ AllFinite r u ∧
      u.count = filteredCount a.transferFunctions.length o.count ∧ u.length = o.length ∧ u.rate = o.rate ∧
      ∀ c, c < u.count →
        Level.level u c ≤ g (pick a.transferFunctions.length c) * Level.level o (pick o.count c) := by
  obtain ⟨M, hN⟩ : ∃ M, o.length = 2 * M := ⟨o.length / 2, by omega⟩
  have hM : 0 < M := by omega
  have hz' : ∀ c k : Nat, ∃ z, c < a.transferFunctions.length → k ≤ M →
      gain mem.s a c (k * (o.rate / o.length)) = some z ∧ ‖z‖ ≤ g c := by
    intro c k
    by_cases hc : c < a.transferFunctions.length ∧ k ≤ M
    · obtain ⟨z, h⟩ := hz c k hc.1 (by omega)
      exact ⟨z, fun _ _ => h⟩
    · exact ⟨0, fun h1 h2 => absurd ⟨h1, h2⟩ hc⟩
  choose z hz' using hz'
  obtain ⟨r, u, h1, h2, h3, h4, h5, h6⟩ := filtered_energy mem a o hl hm M hM hN hr h z fun c k hc hk => (hz' c k hc hk).1
  refine ⟨r, u, h1, h2, h3, h4, h5, ?_⟩
  intro c hc
  obtain ⟨X, hX, hE⟩ := h6 c hc
  have hp : pick a.transferFunctions.length c < a.transferFunctions.length := by
    rw [h3] at hc
    unfold filteredCount at hc
    unfold Fits at h
    unfold pick
    split_ifs at hc ⊢ <;> omega
  have hb : ∀ k, k ≤ M → ‖X k‖ ^ 2 ≤ g (pick a.transferFunctions.length c) ^ 2 *
      ‖dft (2 * M) (o.channels.get (pick o.count c)) k‖ ^ 2 := by
    intro k hk
    rw [hX k hk, norm_mul, transform_norm, mul_pow]
    exact mul_le_mul_of_nonneg_right (pow_le_pow_left₀ (norm_nonneg _) (hz' _ k hp hk).2 2) (by positivity)
  refine level_le hM (by omega) hN (hg _) ?_
  rw [← hE, ← Level.parseval_half hM]
  have h0 := (re_sq_le (X 0)).trans (hb 0 (by omega))
  have hM' := (re_sq_le (X M)).trans (hb M le_rfl)
  have hs : ∑ k ∈ Ico 1 M, ‖X k‖ ^ 2 ≤ g (pick a.transferFunctions.length c) ^ 2 *
      ∑ k ∈ Ico 1 M, ‖dft (2 * M) (o.channels.get (pick o.count c)) k‖ ^ 2 := by
    rw [Finset.mul_sum]
    refine Finset.sum_le_sum fun k hk => hb k ?_
    rw [mem_Ico] at hk
    omega
  linarith

/-- C136: If the magnitude of the transfer function is not smaller than `g` at any of the bins, then the level of the
filtered signal is not smaller than `g` times the level of the signal, provided that the transfer function is real at 0 Hz and
at half the sampling rate. (Imaginary parts at these frequencies are lost, because the filtered signal is real.) -/
theorem C136_lower (mem : Memory) (a : Channels ℝ ℂ) (o : Signal ℝ ℝ) (hl : o.labels.length = o.channels.rows)
    (hm : 1 ≤ o.channels.rows) (hn : 2 ≤ o.length) (he : o.length % 2 = 0) (hr : o.rate ≠ 0)
    (h : Fits a.transferFunctions.length o.channels.rows) (g : Nat → ℝ) (hg : ∀ c, 0 ≤ g c)
    (hz : ∀ c k : Nat, c < a.transferFunctions.length → k ≤ o.length / 2 →
      ∃ z, gain mem.s a c (k * (o.rate / o.length)) = some z ∧ g c ≤ ‖z‖ ∧ (k = 0 ∨ k = o.length / 2 → z.im = 0)) :
    ∃ r u, applySignal complexEnv mem a o = .ok r ∧ AllFinite r u ∧
      u.count = filteredCount a.transferFunctions.length o.count ∧ u.length = o.length ∧ u.rate = o.rate ∧
      ∀ c, c < u.count →
        g (pick a.transferFunctions.length c) * Level.level o (pick o.count c) ≤ Level.level u c := by
  obtain ⟨M, hN⟩ : ∃ M, o.length = 2 * M := ⟨o.length / 2, by omega⟩
  have hM : 0 < M := by omega
  have hz' : ∀ c k : Nat, ∃ z, c < a.transferFunctions.length → k ≤ M →
      gain mem.s a c (k * (o.rate / o.length)) = some z ∧ g c ≤ ‖z‖ ∧ (k = 0 ∨ k = M → z.im = 0) := by
    intro c k
    by_cases hc : c < a.transferFunctions.length ∧ k ≤ M
    · obtain ⟨z, h1, h2, h3⟩ := hz c k hc.1 (by omega)
      exact ⟨z, fun _ _ => ⟨h1, h2, fun hk => h3 (by omega)⟩⟩
    · exact ⟨0, fun h1 h2 => absurd ⟨h1, h2⟩ hc⟩
  choose z hz' using hz'
  obtain ⟨r, u, h1, h2, h3, h4, h5, h6⟩ := filtered_energy mem a o hl hm M hM hN hr h z fun c k hc hk => (hz' c k hc hk).1
  refine ⟨r, u, h1, h2, h3, h4, h5, ?_⟩
  intro c hc
  obtain ⟨X, hX, hE⟩ := h6 c hc
  have hp : pick a.transferFunctions.length c < a.transferFunctions.length := by
    rw [h3] at hc
    unfold filteredCount at hc
    unfold Fits at h
    unfold pick
    split_ifs at hc ⊢ <;> omega
  have hb : ∀ k, k ≤ M → g (pick a.transferFunctions.length c) ^ 2 *
      ‖dft (2 * M) (o.channels.get (pick o.count c)) k‖ ^ 2 ≤ ‖X k‖ ^ 2 := by
    intro k hk
    rw [hX k hk, norm_mul, transform_norm, mul_pow]
    exact mul_le_mul_of_nonneg_right (pow_le_pow_left₀ (hg _) (hz' _ k hp hk).2.1 2) (by positivity)
  have hreal : ∀ k, k = 0 ∨ k = M → (X k).re ^ 2 = ‖X k‖ ^ 2 := by
    intro k hk
    have : (X k).im = 0 := by
      rw [hX k (by omega), Complex.mul_im, transform_real hM _ _ hk, (hz' _ k hp (by omega)).2.2 hk]
      simp
    rw [← Complex.normSq_eq_norm_sq, Complex.normSq_apply, this]
    ring
  refine le_level hM (by omega) hN (hg _) ?_
  rw [← hE, ← Level.parseval_half hM, hreal 0 (Or.inl rfl), hreal M (Or.inr rfl)]
  have h0 := hb 0 (by omega)
  have hM' := hb M le_rfl
  have hs : g (pick a.transferFunctions.length c) ^ 2 *
      ∑ k ∈ Ico 1 M, ‖dft (2 * M) (o.channels.get (pick o.count c)) k‖ ^ 2 ≤ ∑ k ∈ Ico 1 M, ‖X k‖ ^ 2 := by
    rw [Finset.mul_sum]
    refine Finset.sum_le_sum fun k hk => hb k ?_
    rw [mem_Ico] at hk
    omega
  linarith

theorem constant_gain (memS : ℂ) (x : ℂ) (label : String) (f : ℝ) (hf : 0 ≤ f) :
    gain memS (Channels.new [.constant x] [label]) 0 f = some x := by
  unfold gain
  rw [call_single memS _ _ f hf]
  simp [usesTransform, eval]

/-- a filter and a signal, that fulfil the conditions of both theorems -/
example (memS : ℂ) : ∀ c k : Nat, c < (Channels.new [.constant (-3)] ["a"] : Channels ℝ ℂ).transferFunctions.length → k ≤ 4 / 2 →
    ∃ z, gain memS (Channels.new [.constant (-3)] ["a"]) c (k * (44100 / (4 : Nat))) = some z ∧ ‖z‖ ≤ 3 ∧ 3 ≤ ‖z‖ ∧
      (k = 0 ∨ k = 4 / 2 → z.im = 0) := by
  intro c k hc _
  have hc' : c < 1 := hc
  rw [show c = 0 by omega]
  exact ⟨-3, constant_gain memS _ _ _ (by positivity), by norm_num, by norm_num, fun _ => by norm_num⟩

/-- C136: The condition of `C136_lower` is needed: if the transfer function is the imaginary unit, then the filtered signal is
zero, if it has two samples, although the magnitude of the transfer function is one. -/
theorem C136_imaginary (mem : Memory) (o : Signal ℝ ℝ) (hl : o.labels.length = o.channels.rows)
    (hm : 1 ≤ o.channels.rows) (hn : o.length = 2) (hr : 0 < o.rate) (label : String) :
    ∃ r, applySignal complexEnv mem (Channels.new [.constant Complex.I] [label]) o = .ok r ∧ r.count = o.count ∧ r.length = 2 ∧
      ∀ c i, c < o.count → i < 2 → r.channels.get c i = some 0 := by
  obtain ⟨r, u, h1, h2, h3, h4, h5, h6⟩ := filtered_energy mem (Channels.new [.constant Complex.I] [label]) o hl hm 1 one_pos hn
    hr.ne' (Or.inl rfl) (fun _ _ => Complex.I) (by
      intro c k hc _
      have hc' : c < 1 := hc
      rw [show c = 0 by omega]
      exact constant_gain mem.s _ _ _ (by positivity))
  have hcount : u.count = o.count := by
    rw [h3]
    rfl
  refine ⟨r, h1, by rw [h2.count, hcount], by rw [h2.length, h4, hn], ?_⟩
  intro c i hc hi
  obtain ⟨X, hX, hE⟩ := h6 c (by omega)
  have hz : ∀ k, k = 0 ∨ k = 1 → (X k).re = 0 := by
    intro k hk
    rw [hX k (by omega), Complex.mul_re, transform_real one_pos _ _ hk]
    simp
  rw [hz 0 (Or.inl rfl), hz 1 (Or.inr rfl)] at hE
  have h0 : ∑ n ∈ range 2, u.channels.get c n ^ 2 = 0 := by
    simp at hE
    simpa using hE
  have := (Finset.sum_eq_zero_iff_of_nonneg fun n _ => sq_nonneg (u.channels.get c n)).mp h0 i (mem_range.mpr hi)
  rw [h2.value c i (by omega) (by omega), pow_eq_zero_iff (by norm_num) |>.mp this]

/-! ### the filters of the library -/

/-- the signals, for which the filter is tested: valid and with an even number of samples -/
structure Testable (o : Signal ℝ ℝ) : Prop where
  labels : o.labels.length = o.count
  count : 1 ≤ o.count
  length : 2 ≤ o.length
  even : o.length % 2 = 0
  rate : 0 < o.rate

example : Testable ⟨⟨2, 4, fun c i => if c = 0 then (i : ℝ) else 1 - i⟩, 44100, -3, ["a", "b"]⟩ :=
  ⟨rfl, by decide, by decide, rfl, by norm_num⟩

/-- filtering does not increase the level of any channel of a signal by more than the factor `g` -/
def LevelBound (mem : Memory) (a : Channels ℝ ℂ) (g : ℝ) : Prop :=
  ∀ o, Testable o → ∃ r u, applySignal complexEnv mem a o = .ok r ∧ AllFinite r u ∧ u.count = o.count ∧
    u.length = o.length ∧ u.rate = o.rate ∧ ∀ c, c < o.count → Level.level u c ≤ g * Level.level o c

theorem evalStateList_length (memS : ℂ) (f : ℝ) (t : Bool) (l : List (Term ℝ ℂ)) (b : Bool) :
    (evalStateList complexEnv memS f t l b).1.length = l.length := by
  induction l generalizing b with
  | nil => simp [evalStateList]
  | cons a l ih => simp [evalStateList, ih]

theorem single_bound (mem : Memory) (a : Channels ℝ ℂ) (g : ℝ) (hg : 0 ≤ g)
    (h : ∀ f, 0 ≤ f → ∃ x, a.call complexEnv mem.s f = [some x] ∧ ‖x‖ ≤ g) : LevelBound mem a g := by
  have hlen : a.transferFunctions.length = 1 := by
    obtain ⟨x, hx, -⟩ := h 0 le_rfl
    have := congrArg List.length hx
    unfold Channels.call at this
    rwa [evalStateList_length] at this
  intro o ho
  have hrate := ho.rate
  obtain ⟨r, u, h1, h2, h3, h4, h5, h6⟩ := C136_bound mem a o ho.labels ho.count ho.length ho.even ho.rate.ne'
    (Or.inl hlen) (fun _ => g) (fun _ => hg) (by
      intro c k hc hk
      obtain ⟨x, hx, hb⟩ := h (k * (o.rate / o.length)) (by positivity)
      refine ⟨x, ?_, hb⟩
      unfold gain
      rw [hx, show c = 0 by omega]
      rfl)
  have hcount : u.count = o.count := by
    rw [h3, hlen]
    rfl
  refine ⟨r, u, h1, h2, hcount, h4, h5, ?_⟩
  intro c hc
  have := h6 c (by omega)
  have hp : pick o.count c = c := by
    unfold pick
    split_ifs <;> omega
  rwa [hp] at this

/-- C136: Butterworth filters do not amplify. -/
theorem C136_butterworth (mem : Memory) (n : Nat) (cutoff : ℝ) (hc : 0 < cutoff) (order : Nat) (ho : 0 < order)
    (highpass : Bool) :
    ∃ a, butterworthFilter complexEnv (n + 3) cutoff order highpass = .ok a ∧ LevelBound mem a 1 := by
  obtain ⟨a, h1, -, h2⟩ := C37_magnitude mem.s n cutoff hc order ho highpass
  refine ⟨a, h1, single_bound mem a 1 zero_le_one fun f hf => ?_⟩
  obtain ⟨x, hx, hs⟩ := h2 f hf
  refine ⟨x, hx, ?_⟩
  have hp : 0 ≤ (f / cutoff) ^ (2 * order) := by positivity
  have : ‖x‖ ^ 2 ≤ 1 := by
    rw [hs]
    unfold butterworthSpec
    split_ifs
    · rw [div_le_one (by positivity)]
      linarith
    · rw [div_le_one (by positivity)]
      linarith
  exact (sq_le_one_iff₀ (norm_nonneg _)).mp this

/-- C136: Chebyshev filters of the first kind do not amplify, if the order is odd. If it is even, they do not amplify by more
than the ripple. -/
theorem C136_chebyshev1 (mem : Memory) (n : Nat) (cutoff ripple : ℝ) (hc : 0 < cutoff) (hr : ripple ≠ 0) (order : Nat)
    (ho : 0 < order) (highpass : Bool) :
    ∃ a, chebyshev1Filter complexEnv (n + 3) cutoff ripple order highpass = .ok a ∧
      LevelBound mem a (if order % 2 = 0 then (10 : ℝ) ^ (|ripple| / 20) else 1) := by
  obtain ⟨a, h1, -, h2⟩ := C62_magnitude mem.s n cutoff ripple hc hr order ho highpass
  have he := ripple_pos hr
  have hpeak : (if order % 2 = 0 then (10 : ℝ) ^ (|ripple| / 20) else 1) ^ 2 = peak ripple order := by
    unfold peak
    split_ifs
    · rw [← Real.rpow_natCast, ← Real.rpow_mul (by norm_num)]
      congr 1
      push_cast
      ring
    · norm_num
  have hg : 0 ≤ (if order % 2 = 0 then (10 : ℝ) ^ (|ripple| / 20) else 1) := by
    split_ifs <;> positivity
  refine ⟨a, h1, single_bound mem a _ hg fun f hf => ?_⟩
  obtain ⟨x, hx, hs⟩ := h2 f hf
  refine ⟨x, hx, ?_⟩
  have hp : 0 ≤ peak ripple order := by
    rw [← hpeak]
    positivity
  have hle : ∀ y : ℝ, peak ripple order / (1 + (10 ^ (|ripple| / 10) - 1) * y ^ 2) ≤ peak ripple order := by
    intro y
    refine div_le_self hp ?_
    have : 0 ≤ (10 ^ (|ripple| / 10) - 1) * y ^ 2 := by positivity
    linarith
  refine (sq_le_sq₀ (norm_nonneg _) hg).mp ?_
  rw [hs, hpeak]
  unfold chebyshev1Spec
  dsimp only
  rw [← peak_eq]
  split_ifs
  · exact hp
  · exact hle _
  · exact hle _

/-- C136: Chebyshev filters of the second kind do not amplify. -/
theorem C136_chebyshev2 (mem : Memory) (n : Nat) (cutoff ripple : ℝ) (hc : 0 < cutoff) (hr : ripple ≠ 0) (order : Nat)
    (ho : 0 < order) (highpass : Bool) :
    ∃ a, chebyshev2Filter complexEnv (n + 4) cutoff ripple order highpass = .ok a ∧ LevelBound mem a 1 := by
  obtain ⟨a, h1, -, h2, x0, hx0, hn0⟩ := C63_magnitude_partial mem.s n cutoff ripple hc hr order ho highpass
  have he := ripple_pos hr
  refine ⟨a, h1, single_bound mem a 1 zero_le_one fun f hf => ?_⟩
  rcases hf.lt_or_eq with hf | hf
  · obtain ⟨x, hx, hs⟩ := h2 f hf
    refine ⟨x, hx, (sq_le_one_iff₀ (norm_nonneg _)).mp ?_⟩
    rw [hs]
    unfold chebyshev2Spec
    dsimp only
    refine div_le_one_of_le₀ ?_ (by positivity)
    linarith
  · subst hf
    refine ⟨x0, hx0, ?_⟩
    rw [hn0]
    split_ifs <;> norm_num

/-- the value of a Bessel filter at 0 Hz -/
theorem bessel_zero (mem : ℂ) (cutoff : ℝ) (hc : 0 < cutoff) (order : Nat) (highpass : Bool) :
    ∃ a x, besselFilter cutoff order highpass = .ok a ∧ a.call complexEnv mem 0 = [some x] ∧ ‖x‖ ≤ 1 := by
  cases highpass with
  | false =>
    obtain ⟨a, h1, h2⟩ := C38_gain mem cutoff hc order
    exact ⟨a, 1, h1, h2, by simp⟩
  | true =>
    obtain ⟨k, hk, hk0, -⟩ := scaling_ok hc true
    set cs := (List.range (order + 1)).map fun (j : Nat) =>
        (besselCoefficient (order - j) j : ℝ) / besselCoefficient 0 order * k ^ (order - j) with hcs
    have hb : bessel cutoff order true =
        div (.constant 1) (polynomialFactory (cs.map fun (c : ℝ) => (c : ℂ)) true) := by
      unfold bessel
      rw [hk, hcs, ← bessel_coefficients]
      rfl
    by_cases ho : order = 0
    · subst ho
      have e : cs.map (fun (c : ℝ) => (c : ℂ)) = [1] := by
        simp [hcs, coefficient_zero]
      refine ⟨Channels.new [.constant 1] ["Bessel"], 1, ?_, ?_, by simp⟩
      · unfold besselFilter rolloff
        rw [hb, e]
        simp [polynomialFactory, div, Bind.bind, Except.bind]
      · rw [call_single mem _ _ 0 le_rfl]
        simp [usesTransform, eval]
    · have red : Reduced (cs.map fun (c : ℝ) => (c : ℂ)) := by
        obtain ⟨m, rfl⟩ : ∃ m, order = m + 1 := ⟨order - 1, by omega⟩
        have : ∃ d l, List.range (m + 1 + 1) = 0 :: d :: l := by
          rw [List.range_succ_eq_map, List.range_succ_eq_map]
          exact ⟨_, _, rfl⟩
        obtain ⟨d, l, hl⟩ := this
        rw [hcs, hl]
        refine ⟨_, _, _, rfl, ?_⟩
        apply Complex.ofReal_ne_zero.mpr
        refine mul_ne_zero (div_ne_zero ?_ ?_) (pow_ne_zero _ hk0)
        · exact_mod_cast (coefficient_pos _ _).ne'
        · exact_mod_cast (coefficient_pos _ _).ne'
      refine ⟨Channels.new [.quotient (.constant 1) (.polynomial (cs.map fun (c : ℝ) => (c : ℂ)) true) false]
        ["Bessel"], 0, ?_, ?_, by simp⟩
      · unfold besselFilter rolloff
        rw [hb, polynomialFactory_reduced red]
        simp [div, Bind.bind, Except.bind]
      · rw [call_single mem _ _ 0 le_rfl, if_pos ⟨rfl, by simp [usesTransform]⟩]

/-- C136: Bessel filters do not amplify. -/
theorem C136_bessel (mem : Memory) (cutoff : ℝ) (hc : 0 < cutoff) (order : Nat) (highpass : Bool) :
    ∃ a, besselFilter cutoff order highpass = .ok a ∧ LevelBound mem a 1 := by
  obtain ⟨a, H, h1, h2, h3, -⟩ := bessel_response cutoff hc order highpass
  obtain ⟨a', x0, h1', hx0, hn0⟩ := bessel_zero mem.s cutoff hc order highpass
  rw [h1] at h1'
  cases h1'
  refine ⟨a, h1, single_bound mem a 1 zero_le_one fun f hf => ?_⟩
  rcases hf.lt_or_eq with hf | hf
  · refine ⟨H f, h2 mem.s f hf, (sq_le_one_iff₀ (norm_nonneg _)).mp ?_⟩
    have hx : 0 ≤ relative cutoff highpass f ^ 2 := sq_nonneg _
    rw [h3 f hf, div_le_one (square_pos order hx), ← square_zero]
    unfold square
    refine Finset.sum_le_sum fun k hk => ?_
    have hk := mem_range.mp hk
    have := ((squareCoefficient_spec order).2.2 k).1 (by omega)
    refine mul_le_mul_of_nonneg_left ?_ this.le
    exact pow_le_pow_left₀ le_rfl hx k
  · subst hf
    exact ⟨x0, hx0, hn0⟩

end FilterApply
end Verif
