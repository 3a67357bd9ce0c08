import Verif.EnergyDecay
import Verif.NumpyLemmas
import Verif.SignalProps
import Mathlib.Algebra.BigOperators.Intervals
import Mathlib.Algebra.Order.Ring.Defs
import Mathlib.Algebra.Order.BigOperators.Group.Finset

/-
C28: energy decay curves.
-/

namespace Verif
namespace EnergyDecay

variable {α R : Type}

open Finset

/-- the energy of the channel `c` of a signal from its sample `i` on -/
def energyFrom [Semiring α] (s : Signal α R) (c i : Nat) : α :=
  ∑ t ∈ Ico i s.length, s.channels.get c t * s.channels.get c t

theorem cumsumRow_eq [AddCommMonoid α] (f : Nat → α) (j : Nat) : Mat.cumsumRow f j = ∑ k ∈ range (j + 1), f k := by
  induction j with
  | zero => simp [Mat.cumsumRow]
  | succ j ih => rw [Mat.cumsumRow, ih, Finset.sum_range_succ f (j + 1)]

/-- C28: every sample of the energy decay curve is the energy of the rest of the impulse response, and the shape, the
sampling rate, the offset and the labels are those of the impulse response. -/
theorem C28_samples [Semiring α] (mem : Nat → Nat → α) (s : Signal α R) (hw : s.labels.length = s.count) :
    ∃ r, new mem s = .ok r ∧ r.count = s.count ∧ r.length = s.length ∧ r.rate = s.rate ∧ r.offset = s.offset ∧
      r.labels = s.labels ∧ ∀ c i, c < s.count → i < s.length → r.channels.get c i = energyFrom s c i := by
  obtain ⟨A, a1, a2, a3, a4, _⟩ := Mat.assign_ok (A := alloc mem s.count s.length)
    (S := s.channels.map fun x => x * x) (r := .all) (c := .all) 0 s.count 0 s.length rfl rfl rfl rfl rfl rfl
  have hAr : A.rows = s.count := a2
  have hAc : A.cols = s.length := a3
  obtain ⟨B, b1, b2, b3, b4, _⟩ := Mat.assign_ok (A := A.flipCols)
    (S := A.flipCols.cumsum) (r := .all) (c := .all) 0 s.count 0 s.length rfl hAr rfl hAc hAr hAc
  have hBr : B.rows = s.count := b2.trans hAr
  have hBc : B.cols = s.length := b3.trans hAc
  unfold new
  rw [a1]
  show ∃ r, (A.flipCols.assign .all .all A.flipCols.cumsum >>= _) = _ ∧ _
  rw [b1]
  refine ⟨_, rfl, hBr, hBc, rfl, rfl, Signal.sanitize_self (by show s.labels.length = B.rows; omega), ?_⟩
  intro c i hc hi
  show B.get c (B.cols - 1 - i) = _
  rw [b4 c _ (by omega) hc (by omega) (by omega)]
  show Mat.cumsumRow (fun j => A.get c (A.cols - 1 - j)) _ = _
  rw [cumsumRow_eq, hBc, hAc]
  unfold energyFrom
  rw [show s.length - 1 - i - 0 + 1 = s.length - i by omega]
  have : ∀ k ∈ range (s.length - i), A.get (c - 0) (s.length - 1 - k) =
      s.channels.get c (s.length - 1 - k) * s.channels.get c (s.length - 1 - k) := by
    intro k hk
    have := Finset.mem_range.1 hk
    rw [a4 (c - 0) (s.length - 1 - k) (by omega) (by omega) (by omega) (by omega)]
    rfl
  refine (Finset.sum_congr rfl this).trans ?_
  rw [Finset.sum_Ico_eq_sum_range]
  rw [← Finset.sum_range_reflect]
  apply Finset.sum_congr rfl
  intro k hk
  have := Finset.mem_range.1 hk
  rw [show s.length - 1 - (s.length - i - 1 - k) = i + k by omega]

section Ordered

variable [Ring α] [LinearOrder α] [IsStrictOrderedRing α]

theorem energyFrom_nonneg (s : Signal α R) (c i : Nat) : 0 ≤ energyFrom s c i :=
  Finset.sum_nonneg fun _ _ => mul_self_nonneg _

theorem energyFrom_antitone (s : Signal α R) (c : Nat) {i j : Nat} (h : i ≤ j) :
    energyFrom s c j ≤ energyFrom s c i :=
  Finset.sum_le_sum_of_subset_of_nonneg (Finset.Ico_subset_Ico_left h) fun _ _ _ => mul_self_nonneg _

/-- C28: the energy decay curve is not negative and does not increase. -/
theorem C28_monotone (mem : Nat → Nat → α) (s : Signal α R) (hw : s.labels.length = s.count) :
    ∃ r, new mem s = .ok r ∧ ∀ c i j, c < s.count → i ≤ j → j < s.length →
      0 ≤ r.channels.get c j ∧ r.channels.get c j ≤ r.channels.get c i := by
  obtain ⟨r, h1, _, _, _, _, _, h2⟩ := C28_samples mem s hw
  refine ⟨r, h1, ?_⟩
  intro c i j hc hij hj
  rw [h2 c j hc hj, h2 c i hc (by omega)]
  exact ⟨energyFrom_nonneg s c j, energyFrom_antitone s c hij⟩

end Ordered

/-- C28: the curve starts with the total energy. -/
theorem C28_total [Semiring α] (mem : Nat → Nat → α) (s : Signal α R) (hw : s.labels.length = s.count)
    (h0 : 0 < s.length) :
    ∃ r, new mem s = .ok r ∧ ∀ c, c < s.count →
      r.channels.get c 0 = ∑ t ∈ range s.length, s.channels.get c t * s.channels.get c t := by
  obtain ⟨r, h1, _, _, _, _, _, h2⟩ := C28_samples mem s hw
  refine ⟨r, h1, ?_⟩
  intro c hc
  rw [h2 c 0 hc h0, energyFrom, Finset.range_eq_Ico]

example : ((new (fun _ _ => (99 : Int)) ⟨Mat.ofRows 3 [[1, -2, 3], [0, 1, 0]], (5 : Nat), -1, ["a", "b"]⟩).map
    fun r => r.channels.flat) = .ok [14, 13, 9, 1, 1, 0] := by decide +kernel

end EnergyDecay
end Verif
