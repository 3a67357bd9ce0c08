import Verif.Describe
import Verif.DataReprProps
import Verif.IndexingProps
import Mathlib.Tactic.Linarith
import Mathlib.Tactic.NormNum

/-
C126: The short descriptions identify the parameters of data sets
-/

namespace Verif
namespace Describe

open Indexing

/-! ### texts of numbers -/

theorem split_at (d : Char) {a b r t : List Char} (ha : ∀ c ∈ a, c ≠ d) (hb : ∀ c ∈ b, c ≠ d)
    (h : a ++ d :: r = b ++ d :: t) : a = b ∧ r = t := by
  induction a generalizing b with
  | nil =>
    cases b with
    | nil => exact ⟨rfl, by simpa using h⟩
    | cons x b =>
      simp only [List.nil_append, List.cons_append, List.cons.injEq] at h
      exact absurd h.1.symm (hb x List.mem_cons_self)
  | cons y a ih =>
    cases b with
    | nil =>
      simp only [List.nil_append, List.cons_append, List.cons.injEq] at h
      exact absurd h.1 (ha y List.mem_cons_self)
    | cons x b =>
      simp only [List.cons_append, List.cons.injEq] at h
      obtain ⟨h1, h2⟩ := ih (fun c hc => ha c (List.mem_cons_of_mem _ hc)) (fun c hc => hb c (List.mem_cons_of_mem _ hc)) h.2
      exact ⟨by rw [h.1, h1], h2⟩

theorem digits_inj {a b : Nat} (h : Nat.toDigits 10 a = Nat.toDigits 10 b) : a = b := by
  rw [← (DataRepr.toDigits_spec a).2.2, h, (DataRepr.toDigits_spec b).2.2]

theorem digits_ne {d : Char} (hd : d.isDigit = false) (n : Nat) : ∀ c ∈ Nat.toDigits 10 n, c ≠ d := by
  intro c hc hcd
  have := (DataRepr.toDigits_spec n).2.1 c hc
  rw [hcd, hd] at this
  cases this

theorem str_ne {d : Char} (hd : d.isDigit = false) (hm : d ≠ '-') (n : Int) : ∀ c ∈ Text.str n, c ≠ d := by
  intro c hc
  unfold Text.str at hc
  split at hc
  · rcases List.mem_cons.1 hc with rfl | hc
    · exact fun h => hm h.symm
    · exact digits_ne hd _ c hc
  · exact digits_ne hd _ c hc

theorem str_inj {a b : Int} (h : Text.str a = Text.str b) : a = b := by
  unfold Text.str at h
  by_cases ha : a < 0
  · rw [if_pos ha] at h
    by_cases hb : b < 0
    · rw [if_pos hb] at h
      have := digits_inj (List.cons.inj h).2
      omega
    · rw [if_neg hb] at h
      exact absurd rfl (digits_ne (d := '-') (by decide) b.natAbs '-' (by rw [← h]; exact List.mem_cons_self))
  · rw [if_neg ha] at h
    by_cases hb : b < 0
    · rw [if_pos hb] at h
      exact absurd rfl (digits_ne (d := '-') (by decide) a.natAbs '-' (by rw [h]; exact List.mem_cons_self))
    · rw [if_neg hb] at h
      have := digits_inj h
      omega

/-- the value of a decimal number with a sign, an integer part and two decimals -/
def decimal (negative : Bool) (whole tenths hundredths : Nat) : ℚ :=
  (if negative then -1 else 1) * (whole + tenths / 10 + hundredths / 100)

/-- C126: A number is printed with two decimals, which deviate from the number by at most half a hundredth. -/
theorem C126_fixed (q : ℚ) : ∃ (neg : Bool) (w t h : Nat), t < 10 ∧ h < 10 ∧ |decimal neg w t h - q| ≤ 1 / 200 ∧
    fixed2 q = (if neg then ['-'] else []) ++ Nat.toDigits 10 w ++ ['.', Nat.digitChar t, Nat.digitChar h] := by
  have hnn : 0 ≤ pyRound (|q| * 100) := by
    have := pyRound_mono (p := ((0 : Int) : ℚ)) (q := |q| * 100) (by
      have := abs_nonneg q
      push_cast
      linarith)
    rw [pyRound_int] at this
    exact this
  obtain ⟨n, hn⟩ := Int.eq_ofNat_of_zero_le hnn
  have hr := pyRound_nearest (|q| * 100)
  rw [hn] at hr
  have hval : ((n / 100 : Nat) : ℚ) + ((n % 100 / 10 : Nat) : ℚ) / 10 + ((n % 10 : Nat) : ℚ) / 100 = (n : ℚ) / 100 := by
    have h1 : n = n / 100 * 100 + n % 100 / 10 * 10 + n % 10 := by omega
    have h2 : (n : ℚ) = ((n / 100 : Nat) : ℚ) * 100 + ((n % 100 / 10 : Nat) : ℚ) * 10 + ((n % 10 : Nat) : ℚ) := by
      exact_mod_cast h1
    rw [h2]
    ring
  refine ⟨decide (q < 0), n / 100, n % 100 / 10, n % 10, by omega, by omega, ?_, ?_⟩
  · unfold decimal
    rw [hval]
    have hr' : |(n : ℚ) - |q| * 100| ≤ 1 / 2 := by
      have := hr
      push_cast at this
      exact this
    rw [abs_le] at hr' ⊢
    by_cases hq : q < 0
    · rw [abs_of_neg hq] at hr'
      simp only [hq, decide_true, if_true]
      constructor <;> linarith [hr'.1, hr'.2]
    · rw [abs_of_nonneg (not_lt.1 hq)] at hr'
      simp only [hq, decide_false]
      constructor <;> norm_num <;> linarith [hr'.1, hr'.2]
  · unfold fixed2
    rw [hn]
    simp

theorem digitChar_inj' : ∀ a < 10, ∀ b < 10, Nat.digitChar a = Nat.digitChar b → a = b := by decide

/-- numbers with the same text differ by at most one hundredth -/
theorem fixed_close {p q : ℚ} (h : fixed2 p = fixed2 q) : |p - q| ≤ 1 / 100 := by
  obtain ⟨n1, w1, t1, h1, a1, b1, c1, d1⟩ := C126_fixed p
  obtain ⟨n2, w2, t2, h2, a2, b2, c2, d2⟩ := C126_fixed q
  rw [d1, d2] at h
  have hs : n1 = n2 ∧ Nat.toDigits 10 w1 ++ ['.', Nat.digitChar t1, Nat.digitChar h1] =
      Nat.toDigits 10 w2 ++ ['.', Nat.digitChar t2, Nat.digitChar h2] := by
    have no : ∀ (w : Nat) (r l : List Char), Nat.toDigits 10 w ++ r = '-' :: l → False := by
      intro w r l hw
      obtain ⟨x1, x2, _⟩ := DataRepr.toDigits_spec w
      cases hd : Nat.toDigits 10 w with
      | nil => exact x1 hd
      | cons c l' =>
        rw [hd] at hw x2
        simp only [List.cons_append, List.cons.injEq] at hw
        have := x2 c List.mem_cons_self
        rw [hw.1] at this
        revert this
        decide
    cases n1 <;> cases n2
    · exact ⟨rfl, by simpa using h⟩
    · exact (no w1 _ _ (by simpa using h)).elim
    · exact (no w2 _ _ (by simpa using h.symm)).elim
    · exact ⟨rfl, by simpa using h⟩
  obtain ⟨e1, e2⟩ := split_at '.' (digits_ne (by decide) w1) (digits_ne (by decide) w2) hs.2
  simp only [List.cons.injEq, and_true] at e2
  have hw := digits_inj e1
  have ht := digitChar_inj' _ a1 _ a2 e2.1
  have hh := digitChar_inj' _ b1 _ b2 e2.2
  subst hw ht hh
  rw [hs.1] at c1
  rw [abs_le] at c1 c2 ⊢
  constructor <;> linarith [c1.1, c1.2, c2.1, c2.2]

theorem digitChar_ne {d : Char} (hd : d.isDigit = false) : ∀ t < 10, Nat.digitChar t ≠ d := by
  intro t ht h
  have : ∀ t < 10, (Nat.digitChar t).isDigit = true := by decide
  have := this t ht
  rw [h, hd] at this
  cases this

theorem fixed_ne {d : Char} (hd : d.isDigit = false) (hm : d ≠ '-') (hp : d ≠ '.') (q : ℚ) : ∀ c ∈ fixed2 q, c ≠ d := by
  obtain ⟨n, w, t, h, a, b, _, e⟩ := C126_fixed q
  rw [e]
  intro c hc
  simp only [List.mem_append, List.mem_cons, List.not_mem_nil, or_false] at hc
  rcases hc with (hc | hc) | rfl | rfl | rfl
  · cases n
    · simp at hc
    · simp only [if_true, List.mem_cons, List.not_mem_nil, or_false] at hc
      subst hc
      exact fun h => hm h.symm
  · exact digits_ne hd w c hc
  · exact fun h => hp h.symm
  · exact digitChar_ne hd t a
  · exact digitChar_ne hd h b

/-! ### the property -/

/-- C126: Signals with the same description have the same length, offset and number of channels, and their sampling rates differ
by at most one hundredth. -/
theorem C126_signal {α β : Type} (module cls : String) (m n : Nat) (a : Signal α ℚ) (b : Signal β ℚ)
    (h : signal module cls m a = signal module cls n b) :
    a.length = b.length ∧ a.offset = b.offset ∧ a.count = b.count ∧ |a.rate - b.rate| ≤ 1 / 100 := by
  unfold signal at h
  simp only [List.append_assoc, List.append_cancel_left_eq] at h
  obtain ⟨h1, h⟩ := split_at ',' (str_ne (by decide) (by decide) _) (str_ne (by decide) (by decide) _) h
  have h := List.append_cancel_left (as := " sampling rate: ".toList) h
  obtain ⟨h2, h⟩ := split_at ',' (fixed_ne (by decide) (by decide) (by decide) _) (fixed_ne (by decide) (by decide) (by decide) _) h
  have h := List.append_cancel_left (as := " offset: ".toList) h
  obtain ⟨h3, h⟩ := split_at ',' (str_ne (by decide) (by decide) _) (str_ne (by decide) (by decide) _) h
  have h := List.append_cancel_left (as := " channel count: ".toList) h
  obtain ⟨h4, _⟩ := split_at ')' (str_ne (by decide) (by decide) _) (str_ne (by decide) (by decide) _) h
  have h1 := str_inj h1
  have h4 := str_inj h4
  exact ⟨by omega, str_inj h3, by omega, fixed_close h2⟩

/-- C126: Spectrums with the same description have the same length and number of channels, and their resolutions differ by at most
one hundredth. -/
theorem C126_spectrum {α β : Type} (module cls : String) (m n : Nat) (a : Spectrum α ℚ) (b : Spectrum β ℚ)
    (h : spectrum module cls m a = spectrum module cls n b) :
    a.channels.cols = b.channels.cols ∧ a.channels.rows = b.channels.rows ∧ |a.resolution - b.resolution| ≤ 1 / 100 := by
  unfold spectrum at h
  simp only [List.append_assoc, List.append_cancel_left_eq] at h
  obtain ⟨h1, h⟩ := split_at ',' (str_ne (by decide) (by decide) _) (str_ne (by decide) (by decide) _) h
  have h := List.append_cancel_left (as := " resolution: ".toList) h
  obtain ⟨h2, h⟩ := split_at ',' (fixed_ne (by decide) (by decide) (by decide) _) (fixed_ne (by decide) (by decide) (by decide) _) h
  have h := List.append_cancel_left (as := " channel count: ".toList) h
  obtain ⟨h4, _⟩ := split_at ')' (str_ne (by decide) (by decide) _) (str_ne (by decide) (by decide) _) h
  have h1 := str_inj h1
  have h4 := str_inj h4
  exact ⟨by omega, by omega, fixed_close h2⟩

/-- C126: Spectrograms with the same description have the same shape and offset, and their resolutions and sampling rates differ by
at most one hundredth. -/
theorem C126_spectrogram {α β : Type} (module cls : String) (m n : Nat) (a : Spectrogram α ℚ) (b : Spectrogram β ℚ)
    (h : spectrogram module cls m a = spectrogram module cls n b) :
    a.channels.d0 = b.channels.d0 ∧ a.channels.d1 = b.channels.d1 ∧ a.channels.d2 = b.channels.d2 ∧ a.offset = b.offset ∧
      |a.resolution - b.resolution| ≤ 1 / 100 ∧ |a.rate - b.rate| ≤ 1 / 100 := by
  unfold spectrogram shape at h
  simp only [List.append_assoc, List.append_cancel_left_eq] at h
  obtain ⟨h1, h⟩ := split_at ',' (str_ne (by decide) (by decide) _) (str_ne (by decide) (by decide) _) h
  have h := List.append_cancel_left (as := [' ']) h
  obtain ⟨h2, h⟩ := split_at ',' (str_ne (by decide) (by decide) _) (str_ne (by decide) (by decide) _) h
  have h := List.append_cancel_left (as := [' ']) h
  obtain ⟨h3, h⟩ := split_at ')' (str_ne (by decide) (by decide) _) (str_ne (by decide) (by decide) _) h
  have h := List.append_cancel_left (as := ", resolution: ".toList) h
  obtain ⟨h4, h⟩ := split_at ',' (fixed_ne (by decide) (by decide) (by decide) _) (fixed_ne (by decide) (by decide) (by decide) _) h
  have h := List.append_cancel_left (as := " sampling rate: ".toList) h
  obtain ⟨h5, h⟩ := split_at ',' (fixed_ne (by decide) (by decide) (by decide) _) (fixed_ne (by decide) (by decide) (by decide) _) h
  have h := List.append_cancel_left (as := " offset: ".toList) h
  obtain ⟨h6, _⟩ := split_at ',' (str_ne (by decide) (by decide) _) (str_ne (by decide) (by decide) _) h
  have h1 := str_inj h1
  have h2 := str_inj h2
  have h3 := str_inj h3
  exact ⟨by omega, by omega, by omega, str_inj h6, fixed_close h4, fixed_close h5⟩

/-- C126: Filters with the same description have the same number of channels. -/
theorem C126_filter (module cls : String) (m n a b : Nat) (h : filter module cls m a = filter module cls n b) : a = b := by
  unfold filter at h
  simp only [List.append_assoc, List.append_cancel_left_eq] at h
  obtain ⟨h1, _⟩ := split_at ')' (str_ne (by decide) (by decide) _) (str_ne (by decide) (by decide) _) h
  have := str_inj h1
  omega

/-- C126: Xruns with the same description have the same text of the delay and corrupt the same samples. -/
theorem C126_xrun {T : Type} (str : T → List Char) (hs : ∀ x, ∀ c ∈ str x, c ≠ 's') (a b : Jack.XRun T) (ha : 0 ≤ a.start)
    (hb : 0 ≤ b.start) (h : xrun str a = xrun str b) : str a.delay = str b.delay ∧ a.start = b.start ∧ a.stop = b.stop := by
  unfold xrun at h
  simp only [List.append_assoc, List.append_cancel_left_eq] at h
  obtain ⟨h1, h⟩ := split_at 's' (hs _) (hs _) h
  have h := List.append_cancel_left (as := ", that corrupted samples ".toList) h
  have no : ∀ n : Int, 0 ≤ n → ∀ c ∈ Text.str n, c ≠ '-' := by
    intro n hn
    unfold Text.str
    rw [if_neg (by omega)]
    exact digits_ne (by decide) _
  obtain ⟨h2, h3⟩ := split_at '-' (no _ ha) (no _ hb) h
  exact ⟨h1, str_inj h2, str_inj h3⟩

/-! ### parentheses -/

/-- the number of opened parentheses, that have not been closed -/
def depth (s : List Char) : Int := s.count '(' - (s.count ')' : Int)

/-- C126: The description of spectrograms is violated: the parenthesis behind the name of the class is not closed, while it is for
signals. -/
theorem C126_parenthesis_violated :
    depth (spectrogram "sumpf" "Spectrogram" 255 ⟨⟨1, 2, 3, fun _ _ _ => (0 : Int)⟩, 1, 48000, -5, ["a"]⟩) = 1 ∧
    depth (signal "sumpf" "Signal" 255 ⟨⟨1, 2, fun _ _ => (0 : Int)⟩, 48000, -5, ["a"]⟩) = 0 := by decide +kernel

/-- C126: the texts around the parameters -/
theorem C126_texts :
    spectrum "sumpf" "Spectrum" 171 ⟨⟨2, 3, fun _ _ => (0 : Int)⟩, 1 / 2, ["a", "b"]⟩ =
      "<sumpf.Spectrum object (length: 3, resolution: 0.50, channel count: 2) at 0xab>".toList ∧
    spectrogram "sumpf" "Spectrogram" 16 ⟨⟨1, 2, 3, fun _ _ _ => (0 : Int)⟩, 1 / 4, 100, -7, ["a"]⟩ =
      "<sumpf.Spectrogram object (shape: (1, 2, 3), resolution: 0.25, sampling rate: 100.00, offset: -7, at 0x10>".toList ∧
    filter "sumpf" "Filter" 4095 12 = "<sumpf.Filter object (channel count: 12) at 0xfff>".toList ∧
    xrun (fun t : Nat => Text.str t) ⟨40, 50, 3⟩ = "xrun of 3s, that corrupted samples 40-50".toList := by
  refine ⟨?_, ?_, ?_, ?_⟩ <;> decide +kernel

/-- examples of descriptions -/
example : signal "sumpf" "Signal" 255 ⟨⟨1, 2, fun _ _ => (0 : Int)⟩, 44100 + 1 / 8, -5, ["a"]⟩ =
    "<sumpf.Signal object (length: 2, sampling rate: 44100.12, offset: -5, channel count: 1) at 0xff>".toList := by
  decide +kernel
example : fixed2 (-1 / 300) = "-0.00".toList ∧ fixed2 (1 / 3) = "0.33".toList ∧ fixed2 (3 / 8) = "0.38".toList := by
  decide +kernel

/-- two different signals with the same description, as in the hypothesis of `C126_signal` -/
example : signal "sumpf" "Signal" 255 ⟨⟨1, 2, fun _ _ => (0 : Int)⟩, 44100, -5, ["a"]⟩ =
    signal "sumpf" "Signal" 255 ⟨⟨1, 2, fun _ _ => (1 : Int)⟩, 44100 + 1 / 300, -5, ["b"]⟩ := by decide +kernel

end Describe
end Verif
