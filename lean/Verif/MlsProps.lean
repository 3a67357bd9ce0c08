import Verif.Mls
import Verif.NumpyLemmas
import Verif.SignalProps
import Mathlib.Algebra.Ring.Basic
import Mathlib.Tactic.Abel

/-
C53: maximum length sequences.
-/

namespace Verif
namespace Mls

variable {α R : Type}

/-! ### The number of bits and the length -/

/-- C53: If only the length is given, the register is the smallest one, whose period is not shorter than the length. -/
theorem C53_bits (length : Nat) : (parameters none (some length)).2 = length ∧
    length ≤ 2 ^ (parameters none (some length)).1 - 1 ∧
    ∀ b, length ≤ 2 ^ b - 1 → (parameters none (some length)).1 ≤ b := by
  refine ⟨rfl, ?_, ?_⟩
  · have := Nat.le_pow_clog (b := 2) (by omega) (length + 1)
    show length ≤ 2 ^ Nat.clog 2 (length + 1) - 1
    omega
  · intro b hb
    show Nat.clog 2 (length + 1) ≤ b
    have : 0 < 2 ^ b := Nat.two_pow_pos b
    exact Nat.clog_le_of_le_pow (by omega)

/-- C53: If only the number of bits is given, the signal covers exactly one period. -/
theorem C53_length (bits : Nat) : parameters (some bits) none = (bits, 2 ^ bits - 1) ∧
    parameters none none = (16, 2 ^ 16 - 1) ∧ ∀ length, parameters (some bits) (some length) = (bits, length) :=
  ⟨rfl, rfl, fun _ => rfl⟩

/-! ### The seed -/

/-- C53: The seeding never fails for at least two bits and the register is never zero, whatever the random generator
draws; the bits, that the generator draws, are not changed, unless all of them are zero. -/
theorem C53_seed (bits : Nat) (h : 2 ≤ bits) (choice : Nat → Bool) (draw : Nat) :
    ∃ state, seed bits choice draw = .ok state ∧ state.length = bits ∧ true ∈ state ∧
      ((∃ i, i < bits ∧ choice i = true) → state = (List.range bits).map choice) := by
  unfold seed
  dsimp only
  by_cases ht : true ∉ (List.range bits).map choice
  · rw [if_pos ht]
    unfold integers
    rw [if_neg (by simp; omega)]
    refine ⟨_, rfl, by simp, ?_, ?_⟩
    · rw [List.mem_iff_getElem]
      have : draw % (((List.range bits).map choice).length - 1 : Int).toNat < bits := by
        have := Nat.mod_lt draw (y := (((List.range bits).map choice).length - 1 : Int).toNat) (by simp; omega)
        simp only [List.length_map, List.length_range] at *
        omega
      exact ⟨_, by simpa using this, by simp⟩
    · rintro ⟨i, hi, hc⟩
      exact absurd (List.mem_map.mpr ⟨i, List.mem_range.mpr hi, hc⟩) ht
  · rw [if_neg ht]
    exact ⟨_, rfl, by simp, by simpa using ht, fun _ => rfl⟩

/-! ### The signal -/

/-- C53: For two to 32 bits, the constructor never fails. The signal has one channel with the given length, whose
samples are 1 and -1 according to the shift register. Missing: one bit and no bit at all, see `C53_one_bit_violated`. -/
theorem C53_samples_partial [Ring α] (mem : Nat → Nat → α) (register : Nat → List Bool → Nat → Bool)
    (choice : Nat → Bool) (draw : Nat) (bits length : Option Nat) (rate : R) (b l : Nat)
    (hp : parameters bits length = (b, l)) (h2 : 2 ≤ b) (h32 : b ≤ 32) :
    ∃ state, seed b choice draw = .ok state ∧
      ∃ s : Signal α R, new mem register choice draw bits rate length = .ok (s, b) ∧ s.rate = rate ∧ s.offset = 0 ∧
      s.labels = ["MLS"] ∧ s.channels.rows = 1 ∧ s.channels.cols = l ∧
      ∀ i, i < l → s.channels.get 0 i = if register b state i then 1 else -1 := by
  obtain ⟨state, s1, s2, s3, _⟩ := C53_seed b h2 choice draw
  refine ⟨state, s1, ?_⟩
  have hm : maxLenSeq register b state l = .ok ((List.range l).map (register b state)) := by
    unfold maxLenSeq
    rw [if_neg (by omega), if_neg (by omega), if_neg (by simpa using s3)]
  unfold new
  rw [hp]
  dsimp only
  rw [s1]
  show ∃ s, (maxLenSeq register b state l >>= _) = _ ∧ _
  rw [hm]
  obtain ⟨q, hq⟩ : ∃ q, (List.range l).map (register b state) = q := ⟨_, rfl⟩
  rw [hq]
  have hql : q.length = l := by rw [← hq]; simp
  obtain ⟨C, c1, c2, c3, c4, _⟩ := Mat.assign_cols (A := alloc mem 1 q.length)
    (S := ⟨1, q.length, fun _ i => if q.getD i false then 1 else 0⟩) (c := .all) 0 q.length rfl rfl rfl (by simp)
  show ∃ s, (Mat.assign _ _ _ _ >>= _) = _ ∧ _
  rw [c1]
  refine ⟨_, rfl, rfl, rfl, ?_, c2, c3.trans hql, ?_⟩
  · show sanitizeLabels (some ["MLS"]) C.rows = _
    rw [c2]
    rfl
  · intro i hi
    show C.get 0 i * (1 + 1) - 1 = _
    rw [c4 0 i (by show 0 < 1; omega) (by omega) (by omega)]
    have : q.getD i false = register b state i := by
      rw [← hq, List.getD_eq_getElem?_getD]
      simp [hi]
    dsimp only [Nat.sub_zero]
    rw [this]
    split
    · rw [one_mul, add_sub_cancel_right]
    · rw [zero_mul, zero_sub]

/-- C53 (violation): A signal with the length one (or zero), for which no number of bits is given, can not be created,
whatever the random generator draws. -/
theorem C53_one_bit_violated [Ring α] (mem : Nat → Nat → α) (register : Nat → List Bool → Nat → Bool)
    (choice : Nat → Bool) (draw : Nat) (rate : R) (length : Nat) (h : length ≤ 1) :
    new mem register choice draw none rate (some length) = .error .valueError := by
  have hp : parameters none (some length) = (length, length) := by
    have : length = 0 ∨ length = 1 := by omega
    rcases this with rfl | rfl <;> decide
  have hs : ∀ state, maxLenSeq register length state length = .error .valueError := by
    intro state
    unfold maxLenSeq
    rw [if_pos (by omega)]
  unfold new
  rw [hp]
  dsimp only
  unfold seed
  dsimp only
  split
  · unfold integers
    rw [if_pos (by simp; omega)]
    rfl
  · show (maxLenSeq register length _ length >>= _) = _
    rw [hs]
    rfl

/-- C53 (violation): Even the seeding fails for one bit, if the random generator does not set it. -/
theorem C53_seed_violated (choice : Nat → Bool) (draw : Nat) (h : choice 0 = false) :
    seed 1 choice draw = .error .valueError := by
  unfold seed
  simp [h, integers]

example : parameters none (some 7) = (3, 7) ∧ parameters none (some 8) = (4, 8) ∧
    parameters (some 3) none = (3, 7) := by decide
example : seed 3 (fun _ => false) 5 = .ok [false, true, false] := by decide

end Mls
end Verif
