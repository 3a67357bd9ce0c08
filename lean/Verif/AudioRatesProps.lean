import Verif.AudioRates
import Verif.IndexingProps
import Mathlib.Tactic.Linarith
import Mathlib.Tactic.NormNum

/-
C97: The sampling rates in audio files
-/

namespace Verif
namespace AudioFile

/-! ### the specification -/

/-- the sampling rates, that are supported by the formats: FLAC encodes them in Hertz or, above 65535Hz, in tens of Hertz -/
def Supported : Container → ℤ → Prop
  | .wav, n => 0 < n
  | .aiff, n => 0 < n
  | .flac, n => 0 < n ∧ (n ≤ 65535 ∨ n ≤ 655350 ∧ 10 ∣ n)
  | .ogg, n => 1000 ≤ n ∧ n ≤ 200000

/-- `n` is the nearest supported sampling rate -/
def Nearest (c : Container) (rate : ℚ) (n : ℤ) : Prop :=
  Supported c n ∧ ∀ m, Supported c m → |(n : ℚ) - rate| ≤ |(m : ℚ) - rate|

/-! ### rounding -/

theorem pyRound_bounds (q : ℚ) : q - 1 / 2 ≤ pyRound q ∧ (pyRound q : ℚ) ≤ q + 1 / 2 := by
  have := abs_le.mp (pyRound_nearest q)
  constructor <;> linarith [this.1, this.2]

/-- no integer is nearer than the rounded number -/
theorem pyRound_best (q : ℚ) (m : ℤ) : |(pyRound q : ℚ) - q| ≤ |(m : ℚ) - q| := by
  rcases eq_or_ne m (pyRound q) with rfl | h
  · exact le_rfl
  · have h1 := pyRound_nearest q
    have h2 : (1 : ℚ) ≤ |(m : ℚ) - pyRound q| := by
      have : (1 : ℤ) ≤ |m - pyRound q| := Int.one_le_abs (sub_ne_zero.mpr h)
      exact_mod_cast this
    have h3 : |(m : ℚ) - pyRound q| ≤ |(m : ℚ) - q| + |(pyRound q : ℚ) - q| := by
      have := abs_sub_le (m : ℚ) q (pyRound q)
      rwa [abs_sub_comm q] at this
    linarith

theorem pyRound_le_of_le {q : ℚ} {n : ℤ} (h : q ≤ n) : pyRound q ≤ n := by
  have := pyRound_mono h
  rwa [pyRound_int] at this

theorem le_pyRound_of_le {q : ℚ} {n : ℤ} (h : (n : ℚ) ≤ q) : n ≤ pyRound q := by
  have := pyRound_mono h
  rwa [pyRound_int] at this

/-- the distance to a limit, that is exceeded by the rounded number, is the smallest -/
theorem below_best {a m : ℤ} {q : ℚ} (h : pyRound q < a) (hm : a ≤ m) : |(a : ℚ) - q| ≤ |(m : ℚ) - q| := by
  have h1 := (pyRound_bounds q).1
  have h2 : (pyRound q : ℚ) + 1 ≤ a := by exact_mod_cast h
  have h3 : (a : ℚ) ≤ m := by exact_mod_cast hm
  rw [abs_of_nonneg (by linarith), abs_of_nonneg (by linarith)]
  linarith

theorem above_best {a m : ℤ} {q : ℚ} (h : a < pyRound q) (hm : m ≤ a) : |(a : ℚ) - q| ≤ |(m : ℚ) - q| := by
  have h1 := (pyRound_bounds q).2
  have h2 : (a : ℚ) + 1 ≤ pyRound q := by exact_mod_cast h
  have h3 : (m : ℚ) ≤ a := by exact_mod_cast hm
  rw [abs_of_nonpos (by linarith), abs_of_nonpos (by linarith)]
  linarith

theorem integer_nearest (rate : ℚ) :
    0 < intGreaterZero rate ∧ ∀ m : ℤ, 0 < m → |(intGreaterZero rate : ℚ) - rate| ≤ |(m : ℚ) - rate| := by
  unfold intGreaterZero
  refine ⟨lt_of_lt_of_le Int.one_pos (le_max_left _ _), fun m hm => ?_⟩
  rcases le_or_gt 1 (pyRound rate) with h | h
  · rw [max_eq_right h]
    exact pyRound_best rate m
  · rw [max_eq_left h.le]
    exact below_best h hm

/-- C97: WAV and AIFF files are stored with the nearest positive integer sampling rate. -/
theorem C97_wav (rate : ℚ) : Nearest .wav rate (fileRate .wav rate) ∧ Nearest .aiff rate (fileRate .aiff rate) :=
  ⟨integer_nearest rate, integer_nearest rate⟩

/-- C97: Ogg-Vorbis files are stored with the nearest supported sampling rate. -/
theorem C97_ogg (rate : ℚ) : Nearest .ogg rate (fileRate .ogg rate) := by
  show Nearest .ogg rate (max 1000 (min (pyRound rate) 200000))
  rcases le_or_gt (pyRound rate) 200000 with h | h
  · rw [min_eq_left h]
    rcases le_or_gt 1000 (pyRound rate) with h' | h'
    · rw [max_eq_right h']
      exact ⟨⟨h', h⟩, fun m _ => pyRound_best rate m⟩
    · rw [max_eq_left h'.le]
      exact ⟨⟨le_rfl, by norm_num⟩, fun m hm => below_best h' hm.1⟩
  · rw [min_eq_right h.le, max_eq_right (by norm_num)]
    exact ⟨⟨by norm_num, le_rfl⟩, fun m hm => above_best h hm.2⟩

/-- C97: FLAC files are stored with a supported sampling rate. -/
theorem C97_flac_supported (rate : ℚ) : Supported .flac (fileRate .flac rate) := by
  unfold fileRate flacRate Supported
  dsimp only
  split
  · next h =>
    refine ⟨lt_of_lt_of_le Int.one_pos (le_max_left _ _), Or.inl (max_le (by norm_num) ?_)⟩
    have := (pyRound_bounds rate).2
    have : (pyRound rate : ℚ) < 65536 := by linarith
    have : pyRound rate < 65536 := by exact_mod_cast this
    omega
  · next h =>
    have h1 := (pyRound_bounds (rate / 10)).1
    have h2 : (0 : ℚ) < pyRound (rate / 10) := by linarith
    have h2 : 0 < pyRound (rate / 10) := by exact_mod_cast h2
    refine ⟨lt_min (by omega) (by norm_num), Or.inr ⟨min_le_right _ _, ?_⟩⟩
    rcases le_total (10 * pyRound (rate / 10)) 655350 with h3 | h3
    · rw [min_eq_left h3]
      exact dvd_mul_right _ _
    · rw [min_eq_right h3]
      norm_num

/-- C97: FLAC files are stored with the nearest supported sampling rate, unless the sampling rate is between 65535.5Hz and
65537.5Hz. -/
theorem C97_flac_partial (rate : ℚ) (h : rate < 131071 / 2 ∨ 131075 / 2 ≤ rate) :
    Nearest .flac rate (fileRate .flac rate) := by
  refine ⟨C97_flac_supported rate, fun m hm => ?_⟩
  unfold fileRate flacRate
  dsimp only
  split
  · exact (integer_nearest rate).2 m hm.1
  · next hlow =>
    have hr : 131075 / 2 ≤ rate := h.resolve_left hlow
    -- the multiples of ten
    have hten : ∀ k : ℤ, |((10 * pyRound (rate / 10) : ℤ) : ℚ) - rate| ≤ |((10 * k : ℤ) : ℚ) - rate| := by
      intro k
      have := pyRound_best (rate / 10) k
      have e : ∀ j : ℤ, |((10 * j : ℤ) : ℚ) - rate| = 10 * |(j : ℚ) - rate / 10| := by
        intro j
        rw [show ((10 * j : ℤ) : ℚ) - rate = 10 * ((j : ℚ) - rate / 10) by
          push_cast
          ring, abs_mul]
        norm_num
      rw [e, e]
      linarith
    have hmul : ∀ k : ℤ, 10 * k ≤ 655350 →
        |((min (10 * pyRound (rate / 10)) 655350 : ℤ) : ℚ) - rate| ≤ |((10 * k : ℤ) : ℚ) - rate| := by
      intro k hk
      rcases le_or_gt (10 * pyRound (rate / 10)) 655350 with h3 | h3
      · rw [min_eq_left h3]
        exact hten k
      · rw [min_eq_right h3.le]
        have h1 := (pyRound_bounds (rate / 10)).2
        have h2 : (65536 : ℤ) ≤ pyRound (rate / 10) := by omega
        have h2 : (65536 : ℚ) ≤ pyRound (rate / 10) := by exact_mod_cast h2
        have h4 : ((10 * k : ℤ) : ℚ) ≤ 655350 := by exact_mod_cast hk
        rw [abs_of_nonpos (by push_cast; linarith), abs_of_nonpos (by linarith)]
        push_cast at h4 ⊢
        linarith
    obtain ⟨-, hm | ⟨hm, k, rfl⟩⟩ := hm
    · -- 65540 is at least as near as the integers up to 65535
      refine le_trans (hmul 6554 (by norm_num)) ?_
      have hm : (m : ℚ) ≤ 65535 := by exact_mod_cast hm
      rw [show |(m : ℚ) - rate| = rate - m by rw [abs_of_nonpos (by linarith)]; ring]
      rw [abs_le]
      constructor <;> push_cast <;> linarith
    · exact hmul k hm

/-- C97: For sampling rates between 65535.5Hz and 65537.5Hz, FLAC files are stored with 65540Hz, although 65535Hz is supported
and nearer. -/
theorem C97_flac_violated : fileRate .flac 65536 = 65540 ∧ Supported .flac 65535 ∧
    |((65535 : ℤ) : ℚ) - 65536| < |((fileRate .flac 65536 : ℤ) : ℚ) - 65536| ∧
    ¬ Nearest .flac 65536 (fileRate .flac 65536) := by
  have e : fileRate .flac 65536 = 65540 := by
    unfold fileRate flacRate
    dsimp only
    rw [if_neg (by norm_num)]
    have : pyRound ((65536 : ℚ) / 10) = 6554 := by
      have h := pyRound_bounds ((65536 : ℚ) / 10)
      have h1 : (6553 : ℚ) < pyRound ((65536 : ℚ) / 10) := by linarith [h.1]
      have h2 : (pyRound ((65536 : ℚ) / 10) : ℚ) < 6555 := by linarith [h.2]
      have h1 : 6553 < pyRound ((65536 : ℚ) / 10) := by exact_mod_cast h1
      have h2 : pyRound ((65536 : ℚ) / 10) < 6555 := by exact_mod_cast h2
      omega
    rw [this]
    rfl
  have hs : Supported .flac 65535 := ⟨by norm_num, Or.inl le_rfl⟩
  have hlt : |((65535 : ℤ) : ℚ) - 65536| < |((fileRate .flac 65536 : ℤ) : ℚ) - 65536| := by
    rw [e, abs_of_nonpos (by norm_num), abs_of_nonneg (by norm_num)]
    norm_num
  exact ⟨e, hs, hlt, fun h => absurd (h.2 65535 hs) (not_le.mpr hlt)⟩

/-- C97: A supported sampling rate is stored exactly, so that signals, which have been loaded from such a file, are stored
with the same sampling rate again. -/
theorem C97_exact (c : Container) (n : ℤ) (h : Supported c n) : fileRate c n = n := by
  have key : ∀ k : ℤ, Nearest c n k → k = n := by
    intro k hk
    have := hk.2 n h
    rw [sub_self, abs_zero] at this
    have := abs_eq_zero.mp (le_antisymm this (abs_nonneg _))
    exact_mod_cast sub_eq_zero.mp this
  cases c with
  | wav => exact key _ (C97_wav _).1
  | aiff => exact key _ (C97_wav _).2
  | ogg => exact key _ (C97_ogg _)
  | flac =>
    refine key _ (C97_flac_partial _ ?_)
    rcases h.2 with h | ⟨-, k, rfl⟩
    · left
      have : (n : ℚ) ≤ 65535 := by exact_mod_cast h
      linarith
    · rcases le_or_gt k 6553 with hk | hk
      · left
        have : ((10 * k : ℤ) : ℚ) ≤ 65530 := by exact_mod_cast (by omega : 10 * k ≤ 65530)
        linarith
      · right
        have : (65540 : ℚ) ≤ ((10 * k : ℤ) : ℚ) := by exact_mod_cast (by omega : 65540 ≤ 10 * k)
        linarith

/-- C97: storing a signal repeatedly does not change the sampling rate any further -/
theorem C97_idempotent (c : Container) (rate : ℚ) : fileRate c (fileRate c rate) = fileRate c rate := by
  refine C97_exact c _ ?_
  cases c with
  | wav => exact (C97_wav rate).1.1
  | aiff => exact (C97_wav rate).2.1
  | ogg => exact (C97_ogg rate).1
  | flac => exact C97_flac_supported rate

/-- C97: A higher sampling rate never leads to a lower sampling rate in the file. -/
theorem C97_monotone (c : Container) {p q : ℚ} (h : p ≤ q) : fileRate c p ≤ fileRate c q := by
  have hi : intGreaterZero p ≤ intGreaterZero q := max_le_max le_rfl (pyRound_mono h)
  cases c with
  | wav => exact hi
  | aiff => exact hi
  | ogg => exact max_le_max le_rfl (min_le_min (pyRound_mono h) le_rfl)
  | flac =>
    unfold fileRate flacRate
    dsimp only
    by_cases hq : q < 131071 / 2
    · rw [if_pos hq, if_pos (lt_of_le_of_lt h hq)]
      exact hi
    · rw [if_neg hq]
      by_cases hp : p < 131071 / 2
      · rw [if_pos hp]
        have h1 : max 1 (pyRound p) ≤ 65535 := by
          have := C97_flac_supported p
          unfold fileRate flacRate at this
          dsimp only at this
          rw [if_pos hp] at this
          have hb := (pyRound_bounds p).2
          have hb : (pyRound p : ℚ) < 65536 := by linarith
          have hb : pyRound p < 65536 := by exact_mod_cast hb
          exact max_le (by norm_num) (by omega)
        have hb := (pyRound_bounds (q / 10)).1
        have hb : (6553 : ℚ) < pyRound (q / 10) := by linarith
        have hb : 6553 < pyRound (q / 10) := by exact_mod_cast hb
        exact le_trans h1 (le_min (by omega) (by norm_num))
      · rw [if_neg hp]
        refine min_le_min ?_ le_rfl
        have := pyRound_mono (show p / 10 ≤ q / 10 by linarith)
        omega

/-- examples of the sampling rates in the files -/
example : Nearest .flac 96000 (fileRate .flac 96000) ∧ fileRate .flac ((96000 : ℤ) : ℚ) = 96000 ∧ Supported .flac 96000 := by
  have hs : Supported .flac 96000 := ⟨by norm_num, Or.inr ⟨by norm_num, by norm_num⟩⟩
  exact ⟨C97_flac_partial _ (Or.inr (by norm_num)), C97_exact .flac _ hs, hs⟩

end AudioFile
end Verif
