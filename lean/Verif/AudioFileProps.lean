import Verif.AudioFile
import Verif.IndexingProps
import Verif.SignalProps
import Mathlib.Tactic.Ring
import Mathlib.Tactic.Linarith
import Mathlib.Tactic.FieldSimp
import Mathlib.Tactic.NormNum
import Mathlib.Tactic.IntervalCases

/-
C49: Storing signals in audio files with integer samples
-/

namespace Verif
namespace Audio

/-! ### bytes -/

theorem bytes_sum (w : Nat) : ∀ n : Nat,
    ((List.range w).map fun k => n / 256 ^ k % 256).foldr (fun b n => b + 256 * n) 0 = n % 256 ^ w := by
  induction w with
  | zero =>
    intro n
    simp [Nat.mod_one]
  | succ w ih =>
    intro n
    rw [List.range_succ_eq_map, List.map_cons, List.foldr_cons, List.map_map]
    have : ((fun k => n / 256 ^ k % 256) ∘ Nat.succ) = fun k => n / 256 / 256 ^ k % 256 := by
      funext k
      show n / 256 ^ (k + 1) % 256 = _
      rw [Nat.div_div_eq_div_mul, pow_succ, Nat.mul_comm]
    rw [this, ih, pow_zero, Nat.div_one, pow_succ, Nat.mul_comm (256 ^ w), Nat.mod_mul]

theorem encode_length (f : IntFormat) (i : Int) : (f.encode i).length = f.width := by
  unfold IntFormat.encode
  dsimp only
  split <;> simp

theorem pow_bytes {w : Nat} (hw : 0 < w) : (256 : Int) ^ w = 2 * 2 ^ (8 * w - 1) := by
  rw [← pow_succ', show 8 * w - 1 + 1 = 8 * w by omega, pow_mul]
  norm_num

theorem decode_encode (f : IntFormat) (hw : 0 < f.width) (i : Int) (hi : f.InRange i) : f.decode (f.encode i) = i := by
  have hpos : (0 : Int) < 256 ^ f.width := by positivity
  have hp := pow_bytes hw
  have hn : ((List.range f.width).map fun k => (i % 256 ^ f.width).toNat / 256 ^ k % 256).foldr
      (fun b n => b + 256 * n) 0 = (i % 256 ^ f.width).toNat := by
    rw [bytes_sum]
    apply Nat.mod_eq_of_lt
    have := Int.emod_lt_of_pos i hpos
    have h0 := Int.emod_nonneg i hpos.ne'
    zify
    rw [Int.toNat_of_nonneg h0]
    exact this
  have hb : (if f.bigEndian then (f.encode i).reverse else f.encode i) =
      (List.range f.width).map fun k => (i % 256 ^ f.width).toNat / 256 ^ k % 256 := by
    unfold IntFormat.encode
    dsimp only
    split <;> simp
  unfold IntFormat.decode
  dsimp only
  rw [hb, hn, Int.toNat_of_nonneg (Int.emod_nonneg i hpos.ne')]
  unfold IntFormat.InRange at hi
  have hq : (0 : Int) < 2 ^ (8 * f.width - 1) := by positivity
  have h28 : (2 : Int) ^ (8 * f.width) = 256 ^ f.width := by
    rw [pow_mul]
    norm_num
  by_cases hs : f.signed = true
  · rw [if_pos hs] at hi
    by_cases hneg : i < 0
    · have : i % 256 ^ f.width = i + 256 ^ f.width := by
        rw [← Int.add_emod_right, Int.emod_eq_of_lt] <;> omega
      rw [this, if_pos ⟨hs, by omega⟩]
      omega
    · have : i % 256 ^ f.width = i := Int.emod_eq_of_lt (by omega) (by omega)
      rw [this, if_neg (by omega)]
  · rw [if_neg hs, h28] at hi
    rw [Int.emod_eq_of_lt hi.1 hi.2, if_neg fun h => hs h.1]

theorem flatMap_take (f : IntFormat) (l : List Int) (k : Nat) :
    (l.flatMap f.encode).take (k * f.width) = (l.take k).flatMap f.encode := by
  induction l generalizing k with
  | nil => simp
  | cons i l ih =>
    cases k with
    | zero => simp
    | succ k =>
      rw [List.flatMap_cons, List.take_succ_cons, List.flatMap_cons, ← ih, List.take_append, encode_length,
        List.take_of_length_le (by rw [encode_length]; nlinarith)]
      congr 2
      rw [Nat.succ_mul]
      omega

theorem flatMap_drop (f : IntFormat) (l : List Int) (k : Nat) :
    (l.flatMap f.encode).drop (k * f.width) = (l.drop k).flatMap f.encode := by
  induction l generalizing k with
  | nil => simp
  | cons i l ih =>
    cases k with
    | zero => simp
    | succ k =>
      rw [List.flatMap_cons, List.drop_succ_cons, ← ih, List.drop_append, encode_length,
        List.drop_of_length_le (by rw [encode_length]; nlinarith), List.nil_append]
      congr 1
      rw [Nat.succ_mul]
      omega

theorem flatMap_length (f : IntFormat) (l : List Int) : (l.flatMap f.encode).length = l.length * f.width := by
  induction l with
  | nil => simp
  | cons i l ih => rw [List.flatMap_cons, List.length_append, ih, encode_length, List.length_cons, Nat.succ_mul, Nat.add_comm]

theorem unpack_pack (f : IntFormat) (hw : 0 < f.width) (l : List Int) (hl : ∀ i ∈ l, f.InRange i) :
    structUnpack f l.length (l.flatMap f.encode) = .ok l := by
  unfold structUnpack
  rw [if_pos (flatMap_length f l)]
  congr 1
  apply List.ext_getElem
  · simp
  · intro k h1 h2
    rw [List.getElem_map, List.getElem_range, flatMap_drop]
    have := flatMap_take f (l.drop k) 1
    rw [Nat.one_mul] at this
    rw [this, List.drop_eq_getElem_cons h2]
    simp only [List.take_succ_cons, List.take_zero, List.flatMap_cons, List.flatMap_nil, List.append_nil]
    exact decode_encode f hw _ (hl _ (List.getElem_mem h2))

/-! ### interleaving -/

theorem interleave_fold (n : Nat) (channels : Nat → Nat → ℚ) (i : Nat) (array : Nat → ℚ) (hn : 0 < n) (m : Nat) (hm : m ≤ n)
    (j : Nat) : ((List.range m).foldl (fun a c => assignStride a c n fun k => channels c (i + k)) array) j =
      if j % n < m then channels (j % n) (i + j / n) else array j := by
  induction m with
  | zero => simp
  | succ m ih =>
    rw [List.range_succ, List.foldl_append, List.foldl_cons, List.foldl_nil]
    show (if m ≤ j ∧ (j - m) % n = 0 then channels m (i + (j - m) / n) else
      ((List.range m).foldl (fun a c => assignStride a c n fun k => channels c (i + k)) array) j) = _
    have hj : j = n * (j / n) + j % n := (Nat.div_add_mod j n).symm
    have hlt := Nat.mod_lt j hn
    by_cases hc : m ≤ j ∧ (j - m) % n = 0
    · rw [if_pos hc]
      have hmod : j % n = m := by
        have h1 : j = m + n * ((j - m) / n) := by
          have := Nat.div_add_mod (j - m) n
          omega
        rw [h1, Nat.add_mul_mod_self_left, Nat.mod_eq_of_lt (by omega)]
      rw [if_pos (by omega), hmod]
      have hdiv : (j - m) / n = j / n := by
        have h1 : j - m = n * (j / n) := by omega
        rw [h1, Nat.mul_div_cancel_left _ hn]
      rw [hdiv]
    · rw [if_neg hc, ih (by omega)]
      have hne : j % n ≠ m := by
        intro h
        apply hc
        have h1 : j - m = n * (j / n) := by omega
        exact ⟨by rw [← h]; exact Nat.mod_le j n, by rw [h1, Nat.mul_mod_right]⟩
      by_cases h : j % n < m
      · rw [if_pos h, if_pos (by omega)]
      · rw [if_neg h, if_neg (by omega)]

theorem interleave_get (n : Nat) (channels : Nat → Nat → ℚ) (i : Nat) (array : Nat → ℚ) (hn : 0 < n) (j : Nat) :
    interleave n channels i array j = channels (j % n) (i + j / n) := by
  unfold interleave
  rw [interleave_fold n channels i array hn n le_rfl, if_pos (Nat.mod_lt j hn)]

/-- the integer, that is stored for a sample -/
def stored (signed : Bool) (bits : Nat) (x : ℚ) : Int := pyRound ((if signed then x else x + 1) * 2 ^ (bits - 1))

/-- the integers of the samples of all channels in the order of the file, beginning with a time index -/
def frames (signed : Bool) (bits : Nat) (n : Nat) (channels : Nat → Nat → ℚ) (i k : Nat) : List Int :=
  (List.range (n * k)).map fun j => stored signed bits (channels (j % n) (i + j / n))

theorem quantize_eq (signed : Bool) (bits n : Nat) (hn : 0 < n) (channels : Nat → Nat → ℚ) (i k : Nat) (array : Nat → ℚ) :
    quantize (n * k) (scale signed (2 ^ (bits - 1)) (interleave n channels i array)) =
      frames signed bits n channels i k := by
  unfold quantize frames scale stored
  apply List.map_congr_left
  intro j _
  rw [interleave_get n channels i array hn]

theorem frames_append (signed : Bool) (bits n : Nat) (hn : 0 < n) (channels : Nat → Nat → ℚ) (i k l : Nat) :
    frames signed bits n channels i k ++ frames signed bits n channels (i + k) l =
      frames signed bits n channels i (k + l) := by
  unfold frames
  rw [Nat.mul_add, List.range_add, List.map_append, List.map_map]
  congr 1
  apply List.map_congr_left
  intro j _
  show _ = stored signed bits (channels ((n * k + j) % n) (i + (n * k + j) / n))
  rw [Nat.mul_add_mod, Nat.mul_add_div hn, Nat.add_assoc]

theorem frames_length (signed : Bool) (bits n : Nat) (channels : Nat → Nat → ℚ) (i k : Nat) :
    (frames signed bits n channels i k).length = n * k := by
  simp [frames]

theorem frames_getD (signed : Bool) (bits n : Nat) (channels : Nat → Nat → ℚ) (i k c m : Nat) (hc : c < n) (hm : m < k) :
    (frames signed bits n channels i k).getD (c + m * n) 0 = stored signed bits (channels c (i + m)) := by
  have hlt : c + m * n < n * k := by nlinarith
  unfold frames
  rw [List.getD_eq_getElem?_getD, List.getElem?_map, List.getElem?_range hlt]
  show stored signed bits (channels ((c + m * n) % n) (i + (c + m * n) / n)) = _
  rw [Nat.add_mul_mod_self_right, Nat.mod_eq_of_lt hc, Nat.add_mul_div_right _ _ (by omega), Nat.div_eq_of_lt hc,
    Nat.zero_add]

/-- all samples beginning with a time index are in the range -/
def AllInRange (f : IntFormat) (bits n length : Nat) (channels : Nat → Nat → ℚ) (i : Nat) : Prop :=
  ∀ c j, c < n → i ≤ j → j < length → f.InRange (stored f.signed bits (channels c j))

theorem frames_mem {signed : Bool} {bits n : Nat} (hn : 0 < n) {channels : Nat → Nat → ℚ} {i k : Nat} {x : Int} :
    x ∈ frames signed bits n channels i k ↔ ∃ c j, c < n ∧ i ≤ j ∧ j < i + k ∧ x = stored signed bits (channels c j) := by
  unfold frames
  rw [List.mem_map]
  constructor
  · rintro ⟨j, hj, rfl⟩
    rw [List.mem_range] at hj
    have : j / n < k := by
      rw [Nat.div_lt_iff_lt_mul hn, Nat.mul_comm]
      exact hj
    exact ⟨j % n, i + j / n, Nat.mod_lt j hn, Nat.le_add_right _ _, Nat.add_lt_add_left this i, rfl⟩
  · rintro ⟨c, j, hc, h1, h2, rfl⟩
    refine ⟨c + (j - i) * n, ?_, ?_⟩
    · rw [List.mem_range]
      have : j - i < k := by omega
      nlinarith
    · rw [Nat.add_mul_mod_self_right, Nat.mod_eq_of_lt hc, Nat.add_mul_div_right _ _ hn, Nat.div_eq_of_lt hc,
        Nat.zero_add, Nat.add_sub_cancel' h1]

theorem pack_ok {f : IntFormat} {l : List Int} (h : ∀ i ∈ l, f.InRange i) : structPack f l = .ok (l.flatMap f.encode) := by
  unfold structPack
  rw [if_pos h]

/-- the writer without its error handling -/
theorem writeChunks_ok (f : IntFormat) (bits n length : Nat) (hn : 0 < n) (channels : Nat → Nat → ℚ) :
    ∀ (m i : Nat) (array : Nat → ℚ) (data : List Nat), length - i ≤ m → AllInRange f bits n length channels i →
      i ≤ length → ∃ k array', i + k ≤ length ∧ writeChunks f (2 ^ (bits - 1)) n length channels i array data =
        .ok (data ++ (frames f.signed bits n channels i k).flatMap f.encode, i + k, array') := by
  intro m
  induction m with
  | zero =>
    intro i array data hm _ hi
    refine ⟨0, array, by omega, ?_⟩
    rw [writeChunks, if_neg (by unfold chunkSize; omega)]
    simp [frames]
  | succ m ih =>
    intro i array data hm hr hi
    rw [writeChunks]
    by_cases hc : i + chunkSize ≤ length
    · rw [if_pos hc]
      dsimp only
      rw [quantize_eq f.signed bits n hn]
      have hin : ∀ x ∈ frames f.signed bits n channels i chunkSize, f.InRange x := by
        intro x hx
        obtain ⟨c, j, h1, h2, h3, rfl⟩ := (frames_mem hn).mp hx
        exact hr c j h1 h2 (by omega)
      rw [pack_ok hin]
      obtain ⟨k, array', h1, h2⟩ := ih (i + chunkSize) (scale f.signed (2 ^ (bits - 1)) (interleave n channels i array))
        (data ++ (frames f.signed bits n channels i chunkSize).flatMap f.encode) (by unfold chunkSize; omega)
        (fun c j a b d => hr c j a (by omega) d) hc
      refine ⟨chunkSize + k, array', by omega, ?_⟩
      show writeChunks _ _ _ _ _ _ _ _ = _
      rw [h2, ← frames_append f.signed bits n hn, List.flatMap_append, List.append_assoc, Nat.add_assoc]
    · rw [if_neg hc]
      exact ⟨0, array, by omega, by simp [frames]⟩

/-- the file, that is written, if all samples are in the range -/
theorem write_ok (mem : Nat → ℚ) (format : Format) (a : Signal ℚ ℚ) (hn : 0 < a.channels.rows)
    (hr : AllInRange format.intFormat format.bits a.channels.rows a.channels.cols a.channels.get 0) :
    write mem format a = .ok ⟨a.channels.rows, format.intFormat.width, max 1 (pyRound a.rate),
      (frames format.signed format.bits a.channels.rows a.channels.get 0 a.channels.cols).flatMap
        format.intFormat.encode⟩ := by
  unfold write
  dsimp only
  rw [if_neg (by omega)]
  obtain ⟨k, array', h1, h2⟩ := writeChunks_ok format.intFormat format.bits a.channels.rows a.channels.cols hn
    a.channels.get a.channels.cols 0 mem [] (by omega) hr (by omega)
  rw [h2]
  show (if a.channels.cols - (0 + k) ≠ 0 then _ else _) = _
  rw [Nat.zero_add]
  by_cases hk : a.channels.cols - k ≠ 0
  · rw [if_pos hk]
    dsimp only
    rw [quantize_eq _ _ _ hn, pack_ok]
    · show Except.ok _ = _
      rw [List.nil_append, ← List.flatMap_append]
      have hs : format.intFormat.signed = format.signed := rfl
      rw [hs]
      have := frames_append format.signed format.bits a.channels.rows hn a.channels.get 0 k (a.channels.cols - k)
      rw [Nat.zero_add] at this
      rw [this, Nat.add_sub_cancel' (by omega)]
    · intro x hx
      obtain ⟨c, j, h3, h4, h5, rfl⟩ := (frames_mem hn).mp hx
      exact hr c j h3 (by omega) (by omega)
  · rw [if_neg hk]
    show Except.ok _ = _
    have : k = a.channels.cols := by omega
    rw [this]
    rfl

/-! ### reading -/

theorem readChunks_ok (f : IntFormat) (hw : 0 < f.width) (factor : ℚ) (signed : Bool) (bits n samples : Nat) (hn : 0 < n)
    (channels : Nat → Nat → ℚ) (hr : ∀ x ∈ frames signed bits n channels 0 samples, f.InRange x) :
    ∀ (m i : Nat) (result : Nat → Nat → ℚ), samples - i ≤ m → i ≤ samples →
      (∀ c j, c < n → j < i → result c j = stored signed bits (channels c j) * factor) →
      ∃ k result', k ≤ samples ∧ readChunks f factor n samples i
          ((frames signed bits n channels i (samples - i)).flatMap f.encode) result =
        .ok (k, (frames signed bits n channels k (samples - k)).flatMap f.encode, result') ∧
        ∀ c j, c < n → j < k → result' c j = stored signed bits (channels c j) * factor := by
  intro m
  induction m with
  | zero =>
    intro i result hm hi hres
    refine ⟨i, result, hi, ?_, hres⟩
    rw [readChunks, if_neg (by unfold chunkSize; omega)]
  | succ m ih =>
    intro i result hm hi hres
    rw [readChunks]
    by_cases hc : i + chunkSize < samples
    · rw [if_pos hc]
      have hsplit : frames signed bits n channels i (samples - i) = frames signed bits n channels i chunkSize ++
          frames signed bits n channels (i + chunkSize) (samples - (i + chunkSize)) := by
        rw [frames_append signed bits n hn, show chunkSize + (samples - (i + chunkSize)) = samples - i by omega]
      have hlen := frames_length signed bits n channels i chunkSize
      have e1 : ((frames signed bits n channels i (samples - i)).flatMap f.encode).take (chunkSize * n * f.width) =
          (frames signed bits n channels i chunkSize).flatMap f.encode := by
        rw [flatMap_take, hsplit, List.take_left' (by rw [hlen, Nat.mul_comm])]
      have e2 : ((frames signed bits n channels i (samples - i)).flatMap f.encode).drop (chunkSize * n * f.width) =
          (frames signed bits n channels (i + chunkSize) (samples - (i + chunkSize))).flatMap f.encode := by
        rw [flatMap_drop, hsplit, List.drop_left' (by rw [hlen, Nat.mul_comm])]
      have hin : ∀ x ∈ frames signed bits n channels i chunkSize, f.InRange x := by
        intro x hx
        obtain ⟨c, j, h1, h2, h3, rfl⟩ := (frames_mem hn).mp hx
        exact hr _ ((frames_mem hn).mpr ⟨c, j, h1, by omega, by omega, rfl⟩)
      have hun := unpack_pack f hw _ hin
      rw [hlen] at hun
      rw [e1, e2, hun]
      apply ih (i + chunkSize) _ (by unfold chunkSize; omega) (by omega)
      intro c j h1 h2
      unfold deinterleave
      by_cases hj : i ≤ j
      · rw [if_pos ⟨h1, hj, h2⟩, frames_getD _ _ _ _ _ _ _ _ h1 (by omega), Nat.add_sub_cancel' hj]
      · rw [if_neg (by omega)]
        exact hres c j h1 (by omega)
    · rw [if_neg hc]
      exact ⟨i, result, hi, rfl, hres⟩

theorem readerFormat_ok (format : Format) : readerFormat format.module' format.intFormat.width = .ok format.intFormat := by
  cases format <;> rfl

theorem width_bits (format : Format) : 0 < format.intFormat.width ∧ 8 * format.intFormat.width = format.bits := by
  cases format <;> exact ⟨by decide, rfl⟩

/-- a sample after quantisation with the resolution of the file -/
def quantized (format : Format) (x : ℚ) : ℚ :=
  if format.signed then pyRound (x * 2 ^ (format.bits - 1)) / 2 ^ (format.bits - 1)
  else pyRound ((x + 1) * 2 ^ (format.bits - 1)) / 2 ^ (format.bits - 1) - 1

/-- the sample can be represented in the file -/
def Representable (format : Format) (x : ℚ) : Prop :=
  if format.signed then
    -(2 ^ (format.bits - 1) : Int) ≤ pyRound (x * 2 ^ (format.bits - 1)) ∧
      pyRound (x * 2 ^ (format.bits - 1)) < 2 ^ (format.bits - 1)
  else 0 ≤ pyRound ((x + 1) * 2 ^ (format.bits - 1)) ∧ pyRound ((x + 1) * 2 ^ (format.bits - 1)) < 2 ^ format.bits

theorem representable_iff (format : Format) (x : ℚ) :
    Representable format x ↔ format.intFormat.InRange (stored format.signed format.bits x) := by
  have hw := (width_bits format).2
  unfold Representable IntFormat.InRange stored
  rw [hw]
  show _ ↔ if format.signed = true then _ else _
  by_cases h : format.signed = true
  · rw [if_pos h, if_pos h, if_pos h]
  · rw [if_neg h, if_neg h, if_neg h]

/-- C49: Writing a signal with at least one channel to an integer file with the standard library and reading it yields
all samples in the right channel and at the right position with the resolution of the file. The sampling rate is rounded
to an integer, that is greater than zero. The offset is not stored and the labels are created from the file name. -/
theorem C49_roundtrip (wmem : Nat → ℚ) (rmem : Nat → Nat → ℚ) (format : Format) (filename : String) (a : Signal ℚ ℚ)
    (hn : 0 < a.channels.rows)
    (hr : ∀ c i, c < a.channels.rows → i < a.channels.cols → Representable format (a.channels.get c i)) :
    ∃ file b, write wmem format a = .ok file ∧ read rmem format.module' filename file = .ok b ∧
      b.channels.rows = a.channels.rows ∧ b.channels.cols = a.channels.cols ∧
      (∀ c i, c < a.channels.rows → i < a.channels.cols → b.channels.get c i = quantized format (a.channels.get c i)) ∧
      b.rate = max 1 (pyRound a.rate : ℚ) ∧ b.offset = 0 ∧
      b.labels = (List.range a.channels.rows).map fun k => filename ++ " " ++ toString (k + 1) := by
  obtain ⟨hw, hbits⟩ := width_bits format
  have hin : AllInRange format.intFormat format.bits a.channels.rows a.channels.cols a.channels.get 0 :=
    fun c j hc _ hj => (representable_iff format _).mp (hr c j hc hj)
  have hwr := write_ok wmem format a hn hin
  generalize hL : a.channels.cols = L at *
  generalize hN : a.channels.rows = n at *
  generalize hG : a.channels.get = g at *
  have hin' : ∀ x ∈ frames format.signed format.bits n g 0 L, format.intFormat.InRange x := by
    intro x hx
    obtain ⟨c, j, h1, h2, h3, rfl⟩ := (frames_mem hn).mp hx
    exact hin c j h1 h2 (by omega)
  have hsamples : ((frames format.signed format.bits n g 0 L).flatMap format.intFormat.encode).length /
      (n * format.intFormat.width) = L := by
    rw [flatMap_length, frames_length, Nat.mul_right_comm, Nat.mul_comm (n * format.intFormat.width),
      Nat.mul_div_cancel _ (Nat.mul_pos hn hw)]
  obtain ⟨k, res, hk, hrc, hres⟩ := readChunks_ok format.intFormat hw (1 / 2 ^ (format.bits - 1)) format.signed
    format.bits n L hn g hin' L 0 rmem (by omega) (by omega) (fun c j _ h => absurd h (Nat.not_lt_zero j))
  rw [Nat.sub_zero] at hrc
  have hq : ∀ x : ℚ, (if format.intFormat.signed = true then (stored format.signed format.bits x : ℚ) * (1 / 2 ^ (format.bits - 1))
      else (stored format.signed format.bits x : ℚ) * (1 / 2 ^ (format.bits - 1)) - 1) = quantized format x := by
    intro x
    show (if format.signed = true then _ else _) = _
    unfold quantized stored
    by_cases h : format.signed = true
    · rw [if_pos h, if_pos h, if_pos h, mul_one_div]
    · rw [if_neg h, if_neg h, if_neg h, mul_one_div]
  have hlab : ∀ m : Mat ℚ, m.rows = n → ∀ r : ℚ, (Signal.new m r 0 (some ((List.range n).map fun k =>
      filename ++ " " ++ toString (k + 1)))).labels = (List.range n).map fun k => filename ++ " " ++ toString (k + 1) := by
    intro m hm r
    unfold Signal.new
    dsimp only
    rw [hm]
    exact Signal.sanitize_self (by simp)
  have hread : ∀ final : Nat → Nat → ℚ, read rmem format.module' filename ⟨n, format.intFormat.width,
      max 1 (pyRound a.rate), (frames format.signed format.bits n g 0 L).flatMap format.intFormat.encode⟩ =
      .ok (Signal.new ⟨n, L, fun c i => if format.intFormat.signed then final c i else final c i - 1⟩
        ((max 1 (pyRound a.rate) : Int) : ℚ) 0 (some ((List.range n).map fun k => filename ++ " " ++ toString (k + 1)))) →
      (∀ c j, c < n → j < L → final c j = stored format.signed format.bits (g c j) * (1 / 2 ^ (format.bits - 1))) →
      ∃ file b, write wmem format a = .ok file ∧ read rmem format.module' filename file = .ok b ∧
        b.channels.rows = n ∧ b.channels.cols = L ∧
        (∀ c i, c < n → i < L → b.channels.get c i = quantized format (g c i)) ∧
        b.rate = max 1 (pyRound a.rate : ℚ) ∧ b.offset = 0 ∧
        b.labels = (List.range n).map fun k => filename ++ " " ++ toString (k + 1) := by
    intro final h1 h2
    refine ⟨_, _, hwr, h1, rfl, rfl, ?_, ?_, rfl, hlab _ rfl _⟩
    · intro c i hc hi
      show (if format.intFormat.signed = true then final c i else final c i - 1) = _
      rw [h2 c i hc hi]
      exact hq _
    · show ((max 1 (pyRound a.rate) : Int) : ℚ) = _
      push_cast
      rfl
  have hstart : read rmem format.module' filename ⟨n, format.intFormat.width,
      max 1 (pyRound a.rate), (frames format.signed format.bits n g 0 L).flatMap format.intFormat.encode⟩ =
      if L - k ≠ 0 then structUnpack format.intFormat (n * (L - k))
          (((frames format.signed format.bits n g k (L - k)).flatMap format.intFormat.encode).take
            ((L - k) * n * format.intFormat.width)) >>= fun chunk =>
        .ok (Signal.new ⟨n, L, fun c i => if format.intFormat.signed then
            deinterleave n (1 / 2 ^ (format.bits - 1)) chunk k L res c i
          else deinterleave n (1 / 2 ^ (format.bits - 1)) chunk k L res c i - 1⟩
          ((max 1 (pyRound a.rate) : Int) : ℚ) 0 (some ((List.range n).map fun k => filename ++ " " ++ toString (k + 1))))
      else .ok (Signal.new ⟨n, L, fun c i => if format.intFormat.signed then res c i else res c i - 1⟩
          ((max 1 (pyRound a.rate) : Int) : ℚ) 0 (some ((List.range n).map fun k => filename ++ " " ++ toString (k + 1)))) := by
    unfold read
    dsimp only
    rw [hsamples, readerFormat_ok]
    show (readChunks _ _ _ _ _ _ _ >>= _) = _
    rw [hbits, hrc]
    rfl
  by_cases hrem : L - k ≠ 0
  · rw [if_pos hrem] at hstart
    have hlen := frames_length format.signed format.bits n g k (L - k)
    have hun := unpack_pack format.intFormat hw (frames format.signed format.bits n g k (L - k)) (by
      intro x hx
      obtain ⟨c, j, h1, h2, h3, rfl⟩ := (frames_mem hn).mp hx
      exact hin' _ ((frames_mem hn).mpr ⟨c, j, h1, by omega, by omega, rfl⟩))
    rw [hlen] at hun
    rw [flatMap_take, List.take_of_length_le (by rw [hlen, Nat.mul_comm]), hun] at hstart
    refine hread _ hstart ?_
    intro c j hc hj
    unfold deinterleave
    by_cases hkj : k ≤ j
    · rw [if_pos ⟨hc, hkj, hj⟩, frames_getD _ _ _ _ _ _ _ _ hc (by omega), Nat.add_sub_cancel' hkj]
    · rw [if_neg (by omega)]
      exact hres c j hc (by omega)
  · rw [if_neg hrem] at hstart
    exact hread _ hstart fun c j hc hj => hres c j hc (by omega)

theorem writeChunks_error (f : IntFormat) (bits n length : Nat) (hn : 0 < n) (channels : Nat → Nat → ℚ) :
    ∀ (m i : Nat) (array : Nat → ℚ) (data : List Nat), length - i ≤ m → i ≤ length →
      (writeChunks f (2 ^ (bits - 1)) n length channels i array data = .error .structError) ∨
      ∃ k array', i + k ≤ length ∧ (∀ x ∈ frames f.signed bits n channels i k, f.InRange x) ∧
        writeChunks f (2 ^ (bits - 1)) n length channels i array data =
          .ok (data ++ (frames f.signed bits n channels i k).flatMap f.encode, i + k, array') := by
  intro m
  induction m with
  | zero =>
    intro i array data hm hi
    refine .inr ⟨0, array, by omega, by simp [frames], ?_⟩
    rw [writeChunks, if_neg (by unfold chunkSize; omega)]
    simp [frames]
  | succ m ih =>
    intro i array data hm hi
    rw [writeChunks]
    by_cases hc : i + chunkSize ≤ length
    · rw [if_pos hc]
      dsimp only
      rw [quantize_eq f.signed bits n hn]
      by_cases hin : ∀ x ∈ frames f.signed bits n channels i chunkSize, f.InRange x
      · rw [pack_ok hin]
        rcases ih (i + chunkSize) (scale f.signed (2 ^ (bits - 1)) (interleave n channels i array))
          (data ++ (frames f.signed bits n channels i chunkSize).flatMap f.encode) (by unfold chunkSize; omega) hc with
          h | ⟨k, array', h1, h2, h3⟩
        · exact .inl h
        · refine .inr ⟨chunkSize + k, array', by omega, ?_, ?_⟩
          · rw [← frames_append f.signed bits n hn]
            intro x hx
            rcases List.mem_append.mp hx with hx | hx
            · exact hin x hx
            · exact h2 x hx
          · show writeChunks _ _ _ _ _ _ _ _ = _
            rw [h3, ← frames_append f.signed bits n hn, List.flatMap_append, List.append_assoc, Nat.add_assoc]
      · left
        unfold structPack
        rw [if_neg hin]
        rfl
    · rw [if_neg hc]
      exact .inr ⟨0, array, by omega, by simp [frames], by simp [frames]⟩

/-- C49: Writing succeeds, if and only if there is at least one channel and all samples can be represented. Otherwise,
an exception, that is no `ValueError`, is raised. -/
theorem C49_success (mem : Nat → ℚ) (format : Format) (a : Signal ℚ ℚ) :
    ((∃ file, write mem format a = .ok file) ↔ 0 < a.channels.rows ∧
      ∀ c i, c < a.channels.rows → i < a.channels.cols → Representable format (a.channels.get c i)) ∧
    ∀ e, write mem format a = .error e → e = if a.channels.rows = 0 then .runtimeError else .structError := by
  by_cases hn : a.channels.rows = 0
  · have : write mem format a = .error .runtimeError := by
      unfold write
      rw [if_pos hn]
    rw [this]
    refine ⟨⟨?_, ?_⟩, ?_⟩
    · rintro ⟨_, h⟩
      cases h
    · rintro ⟨h, _⟩
      omega
    · intro e h
      cases h
      rw [if_pos hn]
  · have hpos : 0 < a.channels.rows := by omega
    have key : ((∃ file, write mem format a = .ok file) ∧
        ∀ c i, c < a.channels.rows → i < a.channels.cols → Representable format (a.channels.get c i)) ∨ write mem format a = .error .structError ∧
        ¬∀ c i, c < a.channels.rows → i < a.channels.cols → Representable format (a.channels.get c i) := by
      by_cases hr : ∀ c i, c < a.channels.rows → i < a.channels.cols → Representable format (a.channels.get c i)
      · exact .inl ⟨⟨_, write_ok mem format a hpos fun c j hc _ hj => (representable_iff format _).mp (hr c j hc hj)⟩, hr⟩
      · refine .inr ⟨?_, hr⟩
        unfold write
        dsimp only
        rw [if_neg hn]
        rcases writeChunks_error format.intFormat format.bits a.channels.rows a.channels.cols hpos a.channels.get
          a.channels.cols 0 mem [] (by omega) (by omega) with h | ⟨k, array', h1, h2, h3⟩
        · rw [h]
          rfl
        · rw [h3]
          have hs : format.intFormat.signed = format.signed := rfl
          show (if a.channels.cols - (0 + k) ≠ 0 then _ else _) = _
          rw [Nat.zero_add] at *
          have hbad : ¬∀ x ∈ frames format.signed format.bits a.channels.rows a.channels.get k (a.channels.cols - k),
              format.intFormat.InRange x := by
            intro hall
            apply hr
            intro c i hc hi
            rw [representable_iff]
            by_cases hik : i < k
            · exact h2 _ ((frames_mem hpos).mpr ⟨c, i, hc, by omega, by omega, rfl⟩)
            · exact hall _ ((frames_mem hpos).mpr ⟨c, i, hc, by omega, by omega, rfl⟩)
          have hk : a.channels.cols - k ≠ 0 := by
            intro h0
            apply hbad
            rw [h0]
            intro x hx
            simp [frames] at hx
          rw [if_pos hk]
          dsimp only
          rw [quantize_eq _ _ _ hpos, hs]
          unfold structPack
          rw [if_neg hbad]
          rfl
    rcases key with ⟨⟨file, hf⟩, hr⟩ | ⟨he, hno⟩
    · refine ⟨⟨fun _ => ⟨hpos, hr⟩, fun _ => ⟨file, hf⟩⟩, ?_⟩
      intro e h
      rw [hf] at h
      cases h
    · rw [he]
      refine ⟨⟨?_, fun h => absurd h.2 hno⟩, ?_⟩
      · rintro ⟨_, h⟩
        cases h
      · intro e h
        cases h
        rw [if_neg hn]

/-- C49: Samples, that are multiples of the resolution, are restored exactly. -/
theorem C49_exact (format : Format) (k : Int) : quantized format (k / 2 ^ (format.bits - 1)) = k / 2 ^ (format.bits - 1) := by
  have h : (2 : ℚ) ^ (format.bits - 1) ≠ 0 := by positivity
  unfold quantized
  split
  · rw [div_mul_cancel₀ _ h, pyRound_int]
  · have : ((k : ℚ) / 2 ^ (format.bits - 1) + 1) * 2 ^ (format.bits - 1) =
        ((k + 2 ^ (format.bits - 1) : Int) : ℚ) := by
      push_cast
      field_simp
    rw [this, pyRound_int]
    push_cast
    field_simp
    ring

/-- C49: The error of the samples is at most half of the resolution. -/
theorem C49_error (format : Format) (x : ℚ) : |quantized format x - x| ≤ 1 / 2 / 2 ^ (format.bits - 1) := by
  have h : (0 : ℚ) < 2 ^ (format.bits - 1) := by positivity
  have key : ∀ y : ℚ, |(pyRound (y * 2 ^ (format.bits - 1)) : ℚ) / 2 ^ (format.bits - 1) - y| ≤
      1 / 2 / 2 ^ (format.bits - 1) := by
    intro y
    have := pyRound_nearest (y * 2 ^ (format.bits - 1))
    have e : (pyRound (y * 2 ^ (format.bits - 1)) : ℚ) / 2 ^ (format.bits - 1) - y =
        ((pyRound (y * 2 ^ (format.bits - 1)) : ℚ) - y * 2 ^ (format.bits - 1)) / 2 ^ (format.bits - 1) := by
      field_simp
    rw [e, abs_div, abs_of_pos h]
    exact div_le_div_of_nonneg_right this h.le
  unfold quantized
  split
  · exact key x
  · have := key (x + 1)
    rwa [show ∀ a : ℚ, a - (x + 1) = a - 1 - x from fun a => by ring] at this

/-- C49: Samples from -1.0 up to one quantisation step below 1.0 can be represented. -/
theorem C49_representable (format : Format) (x : ℚ) (h1 : -1 ≤ x) (h2 : x ≤ 1 - 1 / 2 ^ (format.bits - 1)) :
    Representable format x := by
  have h : (0 : ℚ) < 2 ^ (format.bits - 1) := by positivity
  have hb : (2 : Int) ^ format.bits = 2 * 2 ^ (format.bits - 1) := by
    cases format <;> rfl
  have e : (1 - 1 / 2 ^ (format.bits - 1)) * 2 ^ (format.bits - 1) = (2 : ℚ) ^ (format.bits - 1) - 1 := by
    field_simp
  have hm := mul_le_mul_of_nonneg_right h2 h.le
  rw [e] at hm
  unfold Representable
  split
  · constructor
    · rw [← pyRound_int (-(2 ^ (format.bits - 1)))]
      apply pyRound_mono
      push_cast
      nlinarith
    · have : pyRound (x * 2 ^ (format.bits - 1)) ≤ pyRound (((2 ^ (format.bits - 1) - 1 : Int)) : ℚ) := by
        apply pyRound_mono
        push_cast
        exact hm
      rw [pyRound_int] at this
      omega
  · constructor
    · rw [← pyRound_int 0]
      apply pyRound_mono
      push_cast
      nlinarith
    · have : pyRound ((x + 1) * 2 ^ (format.bits - 1)) ≤ pyRound (((2 * 2 ^ (format.bits - 1) - 1 : Int)) : ℚ) := by
        apply pyRound_mono
        push_cast
        nlinarith
      rw [pyRound_int] at this
      omega

/-- C49: The maximum sample 1.0 cannot be written to any integer file. -/
theorem C49_full_scale (format : Format) : ¬Representable format 1 := by
  have hb : (2 : Int) ^ format.bits = 2 * 2 ^ (format.bits - 1) := by
    cases format <;> rfl
  unfold Representable
  split
  · rintro ⟨_, h⟩
    have : (1 : ℚ) * 2 ^ (format.bits - 1) = ((2 ^ (format.bits - 1) : Int) : ℚ) := by push_cast; ring
    rw [this, pyRound_int] at h
    omega
  · rintro ⟨_, h⟩
    have : (1 + 1 : ℚ) * 2 ^ (format.bits - 1) = ((2 * 2 ^ (format.bits - 1) : Int) : ℚ) := by push_cast; ring
    rw [this, pyRound_int] at h
    omega

/-- a signal with two channels and more than two chunks -/
example : ∃ a : Signal ℚ ℚ, 0 < a.channels.rows ∧ a.channels.cols = 5000 ∧
    ∀ c i, c < a.channels.rows → i < a.channels.cols → Representable .wavInt16 (a.channels.get c i) := by
  refine ⟨⟨⟨2, 5000, fun c i => (-1) ^ i * (c : ℚ) / 3⟩, 44100, 0, ["a", "b"]⟩, by decide, rfl, ?_⟩
  intro c i hc _
  have hc : c < 2 := hc
  have hs : (-1 : ℚ) ^ i = 1 ∨ (-1 : ℚ) ^ i = -1 := neg_one_pow_eq_or ℚ i
  apply C49_representable
  · show -1 ≤ (-1) ^ i * (c : ℚ) / 3
    interval_cases c <;> rcases hs with h | h <;> rw [h] <;> norm_num
  · show (-1) ^ i * (c : ℚ) / 3 ≤ 1 - 1 / 2 ^ (16 - 1)
    interval_cases c <;> rcases hs with h | h <;> rw [h] <;> norm_num

end Audio
end Verif
