import Verif.Container
import Verif.TableProps
import Mathlib.Data.Complex.Basic

/-
C66: Signals, spectrums and spectrograms in JSON and NPZ files
-/

namespace Verif
namespace Container

open Table (rowList getD_map getD_range)

variable {α : Type}

theorem getD_rowList [Inhabited α] (A : Mat α) (c i : Nat) (h : i < A.cols) : (rowList A c).getD i default = A.get c i := by
  unfold rowList
  rw [getD_map _ _ _ 0 (by simpa using h), getD_range 0 h]

theorem listArray_ok [Inhabited α] (mem : Nat → Nat → α) (A : Mat α) (h : 1 ≤ A.rows) :
    ∃ B, listArray mem ((List.range A.rows).map (rowList A)) = .ok B ∧ B.Eqv A := by
  obtain ⟨k, hk⟩ : ∃ k, A.rows = k + 1 := ⟨A.rows - 1, by omega⟩
  have hl : (List.range A.rows).map (rowList A) = rowList A 0 :: (List.range k).map fun i => rowList A (i + 1) := by
    rw [hk, List.range_succ_eq_map, List.map_cons, List.map_map]
    rfl
  have hlen : ∀ c, (rowList A c).length = A.cols := fun c => by simp [rowList]
  rw [hl, listArray, if_pos (by simp [hlen])]
  obtain ⟨D, h1, h2, _⟩ := Table.assign_all_eqv
    (A := alloc mem (((List.range k).map fun i => rowList A (i + 1)).length + 1) (rowList A 0).length)
    (B := Mat.ofRows (rowList A 0).length (rowList A 0 :: (List.range k).map fun i => rowList A (i + 1)))
    (C := A) rfl rfl ⟨by simp [Mat.ofRows, hk], by simp [Mat.ofRows, hlen], by
      intro c i hc hi
      rw [← hl]
      rw [← hl] at hc
      have hc : c < A.rows := by simpa [Mat.ofRows] using hc
      have hi : i < A.cols := by simpa [Mat.ofRows, hlen] using hi
      show (List.getD _ c []).getD i default = A.get c i
      rw [getD_map _ _ _ 0 (by simpa using hc), getD_range 0 hc, getD_rowList A c i hi]⟩
  exact ⟨D, h1, h2⟩

/-- C66: A signal with at least one channel is restored from a JSON file, even if it has no samples. -/
theorem C66_signal_json [Inhabited α] (mem : Nat → Nat → α) (a : Signal α ℚ) (hl : a.labels.length = a.channels.rows)
    (hm : 1 ≤ a.channels.rows) :
    ∃ b, signalFromDict mem (signalAsDict a) = .ok b ∧ b.channels.Eqv a.channels ∧ b.rate = a.rate ∧
      b.offset = a.offset ∧ b.labels = a.labels := by
  obtain ⟨B, h1, h2⟩ := listArray_ok mem a.channels hm
  refine ⟨Signal.new B a.rate a.offset (some a.labels), ?_, h2, rfl, rfl, ?_⟩
  · unfold signalFromDict signalAsDict
    show (listArray mem _ >>= _) = _
    rw [h1]
    rfl
  · show sanitizeLabels (some a.labels) B.rows = _
    rw [Signal.sanitize_self (by rw [h2.1]; exact hl)]

example : ∃ a : Signal ℚ ℚ, a.labels.length = a.channels.rows ∧ 1 ≤ a.channels.rows ∧ a.channels.cols = 3 :=
  ⟨⟨⟨2, 3, fun c i => c + 2 * i⟩, 44100, -7, ["a", "b"]⟩, rfl, by decide, rfl⟩

/-- C66 is violated: A signal without channels can be saved as JSON, but not be loaded. -/
theorem C66_no_channels_violated [Inhabited α] (mem : Nat → Nat → α) (a : Signal α ℚ) (hm : a.channels.rows = 0) :
    signalFromDict mem (signalAsDict a) = .error .indexError := by
  unfold signalFromDict signalAsDict
  rw [hm]
  rfl

/-- C66: Missing entries are replaced by the default values of the signal's constructor. -/
theorem C66_defaults [Inhabited α] (mem : Nat → Nat → α) :
    ∃ b : Signal α ℚ, signalFromDict mem {} = .ok b ∧ b.channels.rows = 1 ∧ b.channels.cols = 0 ∧ b.rate = 48000 ∧
      b.offset = 0 ∧ b.labels = [""] :=
  ⟨_, rfl, rfl, rfl, rfl, rfl, rfl⟩

/-! ### spectrums -/

/-- C66: Missing entries are replaced by the default values of the spectrum's constructor. -/
theorem C66_spectrum_defaults (mem : Nat → Nat → ℂ) :
    ∃ b, spectrumFromJson mem {} = .ok b ∧ b.channels.rows = 1 ∧ b.channels.cols = 0 ∧ b.resolution = 1 ∧ b.labels = [""] :=
  ⟨_, rfl, rfl, rfl, rfl, rfl⟩

theorem complex_parts (z : ℂ) : Complex.I * (z.im : ℂ) + (z.re : ℂ) = z := by
  apply Complex.ext <;> simp

/-- C66: A spectrum with at least one channel and at least one bin is restored from a JSON file. -/
theorem C66_spectrum_json (mem : Nat → Nat → ℂ) (a : Spectrum ℂ ℚ) (hl : a.labels.length = a.channels.rows)
    (hm : 1 ≤ a.channels.rows) (hn : 1 ≤ a.channels.cols) :
    ∃ b, spectrumFromJson mem (spectrumAsDict a) = .ok b ∧ b.channels.Eqv a.channels ∧ b.resolution = a.resolution ∧
      b.labels = a.labels := by
  obtain ⟨k, hk⟩ : ∃ k, a.channels.rows = k + 1 := ⟨a.channels.rows - 1, by omega⟩
  have hlen : ∀ c, (rowList a.channels c).length = a.channels.cols := fun c => by simp [rowList]
  let ch : Nat → JsonChannel := fun c =>
    ⟨(rowList a.channels c).map Complex.re, (rowList a.channels c).map Complex.im⟩
  let f : Nat → Nat → ℂ := fun c i => Complex.I * ((((rowList a.channels c).map Complex.im).getD i 0 : ℝ) : ℂ) +
    ((((rowList a.channels c).map Complex.re).getD i 0 : ℝ) : ℂ)
  have hrow : ∀ c, jsonRow a.channels.cols (ch c) = .ok (f c) := by
    intro c
    unfold jsonRow broadcastList
    rw [if_pos (by simp [ch, hlen]), if_pos (by simp [ch, hlen])]
    rfl
  have hmap : ∀ l : List Nat, (l.map ch).mapM (jsonRow a.channels.cols) = .ok (l.map f) := by
    intro l
    induction l with
    | nil => rfl
    | cons c l ih =>
      rw [List.map_cons, List.mapM_cons, ih, hrow]
      rfl
  have hf : ∀ c i, i < a.channels.cols → f c i = a.channels.get c i := by
    intro c i hi
    show Complex.I * _ + _ = _
    rw [getD_map _ _ _ default (by simpa [hlen] using hi), getD_map _ _ _ default (by simpa [hlen] using hi),
      getD_rowList _ _ _ hi, complex_parts]
  have hcons : (List.range a.channels.rows).map ch = ch 0 :: (List.range k).map fun i => ch (i + 1) := by
    rw [hk, List.range_succ_eq_map, List.map_cons, List.map_map]
    rfl
  let B : Mat ℂ := ⟨((List.range k).map fun i => ch (i + 1)).length + 1, a.channels.cols,
    fun i => ((List.range a.channels.rows).map f).getD i (mem i)⟩
  have hB : B.Eqv a.channels := by
    refine ⟨by simp [B, hk], rfl, ?_⟩
    intro c i hc hi
    have hc : c < a.channels.rows := by simpa [B, hk] using hc
    show (((List.range a.channels.rows).map f).getD c (mem c)) i = _
    rw [getD_map _ _ _ 0 (by simpa using hc), getD_range 0 hc]
    exact hf c i hi
  have hch : spectrumJsonChannels mem (some ((List.range a.channels.rows).map ch)) = .ok B := by
    rw [hcons, spectrumJsonChannels, show (ch 0).real.length = a.channels.cols by simp [ch, hlen], if_pos (by omega),
      ← hcons, hmap]
    rfl
  refine ⟨Spectrum.new B a.resolution (some a.labels), ?_, hB, rfl, ?_⟩
  · unfold spectrumFromJson spectrumAsDict
    show (spectrumJsonChannels mem (some ((List.range a.channels.rows).map ch)) >>= _) = _
    rw [hch]
    rfl
  · show sanitizeLabels (some a.labels) B.rows = _
    rw [Signal.sanitize_self (by rw [hB.1]; exact hl)]

example : ∃ a : Spectrum ℂ ℚ, a.labels.length = a.channels.rows ∧ 1 ≤ a.channels.rows ∧ 1 ≤ a.channels.cols :=
  ⟨⟨⟨2, 3, fun c i => c + 2 * i * Complex.I⟩, 1 / 2, ["a", "b"]⟩, rfl, by decide, by decide⟩

/-- C66 is violated: All spectrums without channels or without bins have one channel after loading them from JSON. -/
theorem C66_empty_spectrum_violated (mem : Nat → Nat → ℂ) (a : Spectrum ℂ ℚ)
    (h : a.channels.rows = 0 ∨ a.channels.cols = 0) :
    ∃ b, spectrumFromJson mem (spectrumAsDict a) = .ok b ∧ b.channels.rows = 1 ∧ b.channels.cols = 0 := by
  have hch : spectrumJsonChannels mem (spectrumAsDict a).channels = .ok ⟨1, 0, mem⟩ := by
    unfold spectrumAsDict
    dsimp only
    cases hr : a.channels.rows with
    | zero => rfl
    | succ k =>
      rw [List.range_succ_eq_map, List.map_cons, spectrumJsonChannels, if_neg]
      have : a.channels.cols = 0 := by omega
      simp [rowList, this]
  refine ⟨_, by unfold spectrumFromJson; rw [hch]; rfl, rfl, rfl⟩

/-! ### spectrograms -/

/-- C66: A spectrogram with at least one channel, frequency and sample is restored from a JSON file. -/
theorem C66_spectrogram_json (mem : Nat → Nat → ℂ) (mem' : Nat → Nat → Nat → ℂ) (a : Spectrogram ℂ ℚ)
    (hl : a.labels.length = a.channels.d0) (h0 : 1 ≤ a.channels.d0) (h1 : 1 ≤ a.channels.d1) (h2 : 1 ≤ a.channels.d2) :
    ∃ b, spectrogramFromJson mem mem' (spectrogramAsDict a) = .ok (.proper b) ∧
      (b.channels.d0 = a.channels.d0 ∧ b.channels.d1 = a.channels.d1 ∧ b.channels.d2 = a.channels.d2 ∧
        ∀ c f t, c < a.channels.d0 → f < a.channels.d1 → t < a.channels.d2 → b.channels.get c f t = a.channels.get c f t) ∧
      b.resolution = a.resolution ∧ b.rate = a.rate ∧ b.offset = a.offset ∧ b.labels = a.labels := by
  obtain ⟨k, hk⟩ : ∃ k, a.channels.d0 = k + 1 := ⟨a.channels.d0 - 1, by omega⟩
  obtain ⟨q, hq⟩ : ∃ q, a.channels.d1 = q + 1 := ⟨a.channels.d1 - 1, by omega⟩
  let lists (g : Nat → Nat → ℝ) : List (List ℝ) :=
    (List.range a.channels.d1).map fun f => (List.range a.channels.d2).map fun t => g f t
  have hlists : ∀ g, matrixList (lists g) a.channels.d1 a.channels.d2 =
      .ok fun i j => ((lists g).getD i []).getD j 0 := by
    intro g
    unfold matrixList
    rw [if_pos ⟨by simp [lists], by
      intro r hr
      obtain ⟨f, _, rfl⟩ := List.mem_map.mp hr
      simp⟩]
  have hget : ∀ g i j, i < a.channels.d1 → j < a.channels.d2 → ((lists g).getD i []).getD j 0 = g i j := by
    intro g i j hi hj
    show (List.getD (List.map _ _) i []).getD j 0 = _
    rw [getD_map _ _ _ 0 (by simpa using hi), getD_range 0 hi, getD_map _ _ _ 0 (by simpa using hj), getD_range 0 hj]
  let ch : Nat → JsonMatrix := fun c =>
    ⟨lists fun f t => (a.channels.get c f t).re, lists fun f t => (a.channels.get c f t).im⟩
  let g : Nat → Nat → Nat → ℂ := fun c i j =>
    Complex.I * ((((ch c).imaginary.getD i []).getD j 0 : ℝ) : ℂ) + ((((ch c).real.getD i []).getD j 0 : ℝ) : ℂ)
  have hrow : ∀ c, jsonMatrix a.channels.d1 a.channels.d2 (ch c) = .ok (g c) := by
    intro c
    unfold jsonMatrix
    show (matrixList (lists _) _ _ >>= fun im => matrixList (lists _) _ _ >>= _) = _
    rw [hlists, hlists]
    rfl
  have hmap : ∀ l : List Nat, (l.map ch).mapM (jsonMatrix a.channels.d1 a.channels.d2) = .ok (l.map g) := by
    intro l
    induction l with
    | nil => rfl
    | cons c l ih =>
      rw [List.map_cons, List.mapM_cons, ih, hrow]
      rfl
  have hg : ∀ c i j, i < a.channels.d1 → j < a.channels.d2 → g c i j = a.channels.get c i j := by
    intro c i j hi hj
    show Complex.I * ((((lists _).getD i []).getD j 0 : ℝ) : ℂ) + ((((lists _).getD i []).getD j 0 : ℝ) : ℂ) = _
    rw [hget _ i j hi hj, hget _ i j hi hj, complex_parts]
  have hcons : (List.range a.channels.d0).map ch = ch 0 :: (List.range k).map fun i => ch (i + 1) := by
    rw [hk, List.range_succ_eq_map, List.map_cons, List.map_map]
    rfl
  have hreal : ∃ r rs, (ch 0).real = r :: rs ∧ r.length = a.channels.d2 ∧ rs.length + 1 = a.channels.d1 := by
    show ∃ r rs, (List.range a.channels.d1).map _ = r :: rs ∧ _
    rw [hq, List.range_succ_eq_map, List.map_cons]
    exact ⟨_, _, rfl, by simp, by simp⟩
  obtain ⟨r, rs, hr1, hr2, hr3⟩ := hreal
  let B : Cube ℂ := ⟨((List.range k).map fun i => ch (i + 1)).length + 1, a.channels.d1, a.channels.d2,
    fun i => ((List.range a.channels.d0).map g).getD i (mem' i)⟩
  have hB0 : B.d0 = a.channels.d0 := by simp [B, hk]
  have hch : spectrogramJsonChannels mem mem' (some ((List.range a.channels.d0).map ch)) = .ok (.three B) := by
    rw [hcons, spectrogramJsonChannels, hr1]
    dsimp only
    rw [hr2, hr3, if_pos (by omega), ← hcons, hmap]
    rfl
  refine ⟨Spectrogram.new B a.resolution a.rate a.offset (some a.labels), ?_, ⟨hB0, rfl, rfl, ?_⟩, rfl, rfl, rfl, ?_⟩
  · unfold spectrogramFromJson spectrogramAsDict
    show (spectrogramJsonChannels mem mem' (some ((List.range a.channels.d0).map ch)) >>= _) = _
    rw [hch]
    rfl
  · intro c f t hc hf ht
    show (((List.range a.channels.d0).map g).getD c (mem' c)) f t = _
    rw [getD_map _ _ _ 0 (by simpa using hc), getD_range 0 hc]
    exact hg c f t hf ht
  · show sanitizeLabels (some a.labels) B.d0 = _
    rw [Signal.sanitize_self (by rw [hB0]; exact hl)]

example : ∃ a : Spectrogram ℂ ℚ, a.labels.length = a.channels.d0 ∧ 1 ≤ a.channels.d0 ∧ 1 ≤ a.channels.d1 ∧
    1 ≤ a.channels.d2 :=
  ⟨⟨⟨2, 3, 4, fun c f t => c + f * Complex.I + t⟩, 1 / 2, 4, -3, ["a", "b"]⟩, rfl, by decide, by decide, by decide⟩

/-- C66: Missing entries are replaced by the default values of the spectrogram's constructor. -/
theorem C66_spectrogram_defaults (mem : Nat → Nat → ℂ) (mem' : Nat → Nat → Nat → ℂ) (x y : ℝ) :
    ∃ b, spectrogramFromJson mem mem' { channels := some [⟨[[x]], [[y]]⟩] } = .ok (.proper b) ∧ b.channels.d0 = 1 ∧
      b.channels.d1 = 1 ∧ b.channels.d2 = 1 ∧ b.resolution = 1 ∧ b.rate = 48000 ∧ b.offset = 0 ∧ b.labels = [""] := by
  have hm : jsonMatrix 1 1 ⟨[[x]], [[y]]⟩ =
      .ok fun i j => Complex.I * ((([[y]].getD i []).getD j 0 : ℝ) : ℂ) + (((([[x]].getD i []).getD j 0 : ℝ)) : ℂ) := by
    unfold jsonMatrix matrixList
    rw [if_pos (by simp), if_pos (by simp)]
    rfl
  have hc : spectrogramJsonChannels mem mem' (some [⟨[[x]], [[y]]⟩]) = .ok (.three ⟨1, 1, 1, fun i =>
      ([fun i j => Complex.I * ((([[y]].getD i []).getD j 0 : ℝ) : ℂ) + (((([[x]].getD i []).getD j 0 : ℝ)) : ℂ)] :
        List (Nat → Nat → ℂ)).getD i (mem' i)⟩) := by
    simp only [spectrogramJsonChannels]
    rw [if_pos (by simp), List.mapM_cons]
    show (jsonMatrix 1 1 _ >>= _) >>= _ = _
    rw [hm]
    rfl
  have e : ∀ ch, spectrogramJsonChannels mem mem' (some [⟨[[x]], [[y]]⟩]) = .ok (.three ch) →
      spectrogramFromJson mem mem' { channels := some [⟨[[x]], [[y]]⟩] } =
        .ok (.proper (Spectrogram.new ch 1 48000 0 (some []))) := by
    intro ch h
    unfold spectrogramFromJson
    rw [h]
    rfl
  exact ⟨_, e _ hc, rfl, rfl, rfl, rfl, rfl, rfl, rfl⟩

/-- C66: When the numbers of the real and the imaginary parts of the first channel of a spectrogram do not match, loading it
raises a `ValueError`. (A single list of imaginary parts is excluded, because it can be broadcast.) -/
theorem C66_spectrogram_shape (mem : Nat → Nat → ℂ) (mem' : Nat → Nat → Nat → ℂ) (d : SpectrogramDict) (c : JsonMatrix)
    (cs : List JsonMatrix) (r : List ℝ) (rs : List (List ℝ)) (hd : d.channels = some (c :: cs)) (hr : c.real = r :: rs)
    (h0 : r.length ≠ 0) (hi : c.imaginary.length ≠ c.real.length) (_h1 : c.imaginary.length ≠ 1) :
    spectrogramFromJson mem mem' d = .error .valueError := by
  have hm : jsonMatrix (rs.length + 1) r.length c = .error .valueError := by
    unfold jsonMatrix matrixList
    rw [if_neg fun h => hi (by rw [h.1, hr]; rfl)]
    rfl
  unfold spectrogramFromJson
  rw [hd]
  simp only [spectrogramJsonChannels, hr]
  rw [if_pos h0, List.mapM_cons, hm]
  rfl

/-- the hypotheses are satisfiable: two frequency bins with real parts and three with imaginary parts -/
example : ∃ (d : SpectrogramDict) (c : JsonMatrix) (cs : List JsonMatrix) (r : List ℝ) (rs : List (List ℝ)),
    d.channels = some (c :: cs) ∧ c.real = r :: rs ∧ r.length ≠ 0 ∧ c.imaginary.length ≠ c.real.length ∧
      c.imaginary.length ≠ 1 :=
  ⟨{ channels := some [⟨[[1], [2]], [[3], [4], [5]]⟩] }, _, _, _, _, rfl, rfl, by simp, by simp, by simp⟩

/-- C66 is violated: The channels of all empty spectrograms have two instead of three dimensions after loading them from
JSON. -/
theorem C66_empty_spectrogram_violated (mem : Nat → Nat → ℂ) (mem' : Nat → Nat → Nat → ℂ) (a : Spectrogram ℂ ℚ)
    (h : a.channels.d0 = 0 ∨ a.channels.d1 = 0 ∨ a.channels.d2 = 0) :
    spectrogramFromJson mem mem' (spectrogramAsDict a) = .ok (.flat ⟨1, 0, mem⟩) := by
  have hch : spectrogramJsonChannels mem mem' (spectrogramAsDict a).channels = .ok (.two ⟨1, 0, mem⟩) := by
    unfold spectrogramAsDict
    dsimp only
    cases h0 : a.channels.d0 with
    | zero => rfl
    | succ k =>
      rw [List.range_succ_eq_map, List.map_cons, spectrogramJsonChannels]
      dsimp only
      cases h1 : a.channels.d1 with
      | zero => rfl
      | succ q =>
        rw [List.range_succ_eq_map, List.map_cons]
        dsimp only
        have : a.channels.d2 = 0 := by omega
        rw [if_neg (by simp [this])]
  unfold spectrogramFromJson
  rw [hch]
  rfl

/-! ### NPZ files -/

/-- C66: Every signal, including those without channels or samples, is restored from an NPZ file. -/
theorem C66_signal_npz (mem : Nat → Nat → α) (a : PySignal α) (hl : a.labels.length = a.channels.rows) :
    ∃ b, a.throughNpz mem = .ok b ∧ b.channels.Eqv a.channels ∧ b.rate.value = a.rate.value ∧
      b.offset.value = a.offset.value ∧ b.labels = a.labels := by
  obtain ⟨D, h1, h2, _⟩ := Table.assign_all_eqv (A := alloc mem a.channels.rows a.channels.cols) (B := a.channels)
    (C := a.channels) rfl rfl (.refl _)
  refine ⟨⟨D, a.rate.npz, a.offset.npz, sanitizeLabels (some a.labels) D.rows⟩, ?_, h2, rfl, rfl, ?_⟩
  · unfold PySignal.throughNpz
    rw [h1]
    rfl
  · exact Signal.sanitize_self (by rw [h2.1]; exact hl)

/-- C66: Every spectrum, including those without channels or bins, is restored from an NPZ file. -/
theorem C66_spectrum_npz (mem : Nat → Nat → α) (a : PySpectrum α) (hl : a.labels.length = a.channels.rows) :
    ∃ b, a.throughNpz mem = .ok b ∧ b.channels.Eqv a.channels ∧ b.resolution.value = a.resolution.value ∧
      b.labels = a.labels := by
  obtain ⟨D, h1, h2, _⟩ := Table.assign_all_eqv (A := alloc mem a.channels.rows a.channels.cols) (B := a.channels)
    (C := a.channels) rfl rfl (.refl _)
  refine ⟨⟨D, a.resolution.npz, sanitizeLabels (some a.labels) D.rows⟩, ?_, h2, rfl, ?_⟩
  · unfold PySpectrum.throughNpz
    rw [h1]
    rfl
  · exact Signal.sanitize_self (by rw [h2.1]; exact hl)

example : ∃ a : PySignal ℚ, a.labels.length = a.channels.rows ∧ a.channels.rows = 0 :=
  ⟨⟨⟨0, 3, fun _ _ => 0⟩, .number 44100, .number 2, []⟩, rfl, rfl⟩

/-- C66 is violated: Signals, that have been loaded from an NPZ file, cannot be hashed, although they are equal to the
hashable signal, that has been saved. -/
theorem C66_npz_hash_violated : ∃ a b : PySignal ℚ, a.throughNpz (fun _ _ => 0) = .ok b ∧
    a.eq (fun x y => x == y) b = true ∧ (∃ h, a.hash = .ok h) ∧ b.hash = .error .typeError := by
  refine ⟨⟨⟨1, 2, fun _ i => i⟩, .number 44100, .number 0, ["a"]⟩, _, rfl, ?_, ⟨_, rfl⟩, rfl⟩
  decide +kernel

/-- C66 is violated: No spectrum, that has been loaded from an NPZ file, can be hashed. -/
theorem C66_npz_hash_spectrum_violated (mem : Nat → Nat → α) (a b : PySpectrum α) (h : a.throughNpz mem = .ok b) :
    b.hash = .error .typeError := by
  obtain ⟨D, h1, _, _⟩ := Table.assign_all_eqv (A := alloc mem a.channels.rows a.channels.cols) (B := a.channels)
    (C := a.channels) rfl rfl (.refl _)
  unfold PySpectrum.throughNpz at h
  rw [h1] at h
  cases h
  rfl

end Container
end Verif
