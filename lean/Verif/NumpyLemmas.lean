import Verif.Numpy

/-
Facts about the array operations of `Verif.Numpy`, in the form in which the proofs use them.
-/

namespace Verif

theorem clampBound_le (n : Nat) (i : Int) : clampBound n i ≤ n := by
  unfold clampBound; split <;> omega

theorem clampBound_neg {n : Nat} {i : Int} (h : i < 0) : clampBound n i = (i + n).toNat := by
  unfold clampBound; rw [if_pos h]

theorem clampBound_nonneg {n : Nat} {i : Int} (h : 0 ≤ i) : clampBound n i = min i.toNat n := by
  unfold clampBound; rw [if_neg (by omega)]

@[simp] theorem clampBound_zero (n : Nat) : clampBound n 0 = 0 := by
  rw [clampBound_nonneg (by omega)]; simp

@[simp] theorem clampBound_nat (n k : Nat) : clampBound n (k : Int) = min k n := by
  rw [clampBound_nonneg (by omega)]; simp

namespace PySlice

theorem hi_le (s : PySlice) (n : Nat) : s.hi n ≤ n := by
  unfold hi; split
  · omega
  · exact clampBound_le _ _

theorem lo_le (s : PySlice) (n : Nat) : s.lo n ≤ n := by
  unfold lo; split
  · omega
  · exact clampBound_le _ _

@[simp] theorem lo_all (n : Nat) : all.lo n = 0 := rfl
@[simp] theorem hi_all (n : Nat) : all.hi n = n := rfl
@[simp] theorem count_all (n : Nat) : all.count n = n := rfl
@[simp] theorem lo_range (a b : Int) (n : Nat) : (range a b).lo n = clampBound n a := rfl
@[simp] theorem hi_range (a b : Int) (n : Nat) : (range a b).hi n = clampBound n b := rfl
@[simp] theorem count_range (a b : Int) (n : Nat) :
    (range a b).count n = clampBound n b - clampBound n a := rfl
@[simp] theorem lo_drop (a : Int) (n : Nat) : (drop a).lo n = clampBound n a := rfl
@[simp] theorem hi_drop (a : Int) (n : Nat) : (drop a).hi n = n := rfl
@[simp] theorem count_drop (a : Int) (n : Nat) : (drop a).count n = n - clampBound n a := rfl
@[simp] theorem lo_take (b : Int) (n : Nat) : (take b).lo n = 0 := rfl
@[simp] theorem hi_take (b : Int) (n : Nat) : (take b).hi n = clampBound n b := rfl
@[simp] theorem count_take (b : Int) (n : Nat) : (take b).count n = clampBound n b := rfl

end PySlice

namespace Mat

variable {α β γ : Type}

@[simp] theorem slice_rows (A : Mat α) (r c : PySlice) : (A.slice r c).rows = r.count A.rows := rfl
@[simp] theorem slice_cols (A : Mat α) (r c : PySlice) : (A.slice r c).cols = c.count A.cols := rfl
theorem slice_get (A : Mat α) (r c : PySlice) (i j : Nat) :
    (A.slice r c).get i j = A.get (r.lo A.rows + i) (c.lo A.cols + j) := rfl

@[simp] theorem slice_all_get (A : Mat α) (c : PySlice) (i j : Nat) :
    (A.slice .all c).get i j = A.get i (c.lo A.cols + j) := by
  rw [slice_get]; simp

/-- Broadcasting to the own shape does nothing. -/
theorem broadcastTo_self {A : Mat α} {r c : Nat} (hr : A.rows = r) (hc : A.cols = c) :
    ∃ B, A.broadcastTo r c = .ok B ∧ B.rows = r ∧ B.cols = c ∧
      ∀ i j, i < r → j < c → B.get i j = A.get i j := by
  unfold broadcastTo
  rw [if_pos (by omega)]
  refine ⟨_, rfl, rfl, rfl, ?_⟩
  intro i j hi hj
  show A.get (if A.rows = 1 then 0 else i) (if A.cols = 1 then 0 else j) = A.get i j
  congr 1
  · split <;> omega
  · split <;> omega

/-- Broadcasting a single row. -/
theorem broadcastTo_row {A : Mat α} {r c : Nat} (hr : A.rows = 1) (hc : A.cols = c) :
    ∃ B, A.broadcastTo r c = .ok B ∧ B.rows = r ∧ B.cols = c ∧
      ∀ i j, i < r → j < c → B.get i j = A.get 0 j := by
  unfold broadcastTo
  rw [if_pos (by omega)]
  refine ⟨_, rfl, rfl, rfl, ?_⟩
  intro i j hi hj
  show A.get (if A.rows = 1 then 0 else i) (if A.cols = 1 then 0 else j) = A.get 0 j
  congr 1
  · rw [if_pos hr]
  · split <;> omega

theorem broadcastTo_scalar (v : α) (r c : Nat) :
    ∃ B, (scalar v).broadcastTo r c = .ok B ∧ B.rows = r ∧ B.cols = c ∧ ∀ i j, B.get i j = v := by
  unfold broadcastTo
  rw [if_pos ⟨Or.inr rfl, Or.inr rfl⟩]
  exact ⟨_, rfl, rfl, rfl, fun _ _ => rfl⟩

/-- Assignment of an array which can be broadcast to the shape of the selection. -/
theorem assign_of_broadcast {A S B : Mat α} {r c : PySlice}
    (h : S.broadcastTo (r.count A.rows) (c.count A.cols) = .ok B) :
    ∃ C, A.assign r c S = .ok C ∧ C.rows = A.rows ∧ C.cols = A.cols ∧
      (∀ i j, r.lo A.rows ≤ i → i < r.hi A.rows → c.lo A.cols ≤ j → j < c.hi A.cols →
        C.get i j = B.get (i - r.lo A.rows) (j - c.lo A.cols)) ∧
      (∀ i j, ¬ ((r.lo A.rows ≤ i ∧ i < r.hi A.rows) ∧ c.lo A.cols ≤ j ∧ j < c.hi A.cols) →
        C.get i j = A.get i j) := by
  unfold assign
  rw [h]
  refine ⟨_, rfl, rfl, rfl, ?_, ?_⟩
  · intro i j h1 h2 h3 h4
    exact if_pos ⟨⟨h1, h2⟩, h3, h4⟩
  · intro i j h1
    exact if_neg h1

/-- Assignment of an array with the shape of the selection. -/
theorem assign_ok {A S : Mat α} {r c : PySlice} (a b a' b' : Nat)
    (hr0 : r.lo A.rows = a) (hr1 : r.hi A.rows = b) (hc0 : c.lo A.cols = a') (hc1 : c.hi A.cols = b')
    (hr : S.rows = b - a) (hc : S.cols = b' - a') :
    ∃ C, A.assign r c S = .ok C ∧ C.rows = A.rows ∧ C.cols = A.cols ∧
      (∀ i j, a ≤ i → i < b → a' ≤ j → j < b' → C.get i j = S.get (i - a) (j - a')) ∧
      (∀ i j, ¬ ((a ≤ i ∧ i < b) ∧ a' ≤ j ∧ j < b') → C.get i j = A.get i j) := by
  subst hr0 hr1 hc0 hc1
  obtain ⟨B, hB, _, _, h1⟩ := broadcastTo_self hr hc
  obtain ⟨C, hC, h2, h3, h4, h5⟩ := assign_of_broadcast hB
  refine ⟨C, hC, h2, h3, ?_, h5⟩
  intro i j g1 g2 g3 g4
  rw [h4 i j g1 g2 g3 g4, h1]
  · omega
  · omega

/-- Assignment of a scalar. -/
theorem assign_scalar {A : Mat α} {r c : PySlice} (v : α) (a b a' b' : Nat)
    (hr0 : r.lo A.rows = a) (hr1 : r.hi A.rows = b) (hc0 : c.lo A.cols = a') (hc1 : c.hi A.cols = b') :
    ∃ C, A.assign r c (.scalar v) = .ok C ∧ C.rows = A.rows ∧ C.cols = A.cols ∧
      (∀ i j, a ≤ i → i < b → a' ≤ j → j < b' → C.get i j = v) ∧
      (∀ i j, ¬ ((a ≤ i ∧ i < b) ∧ a' ≤ j ∧ j < b') → C.get i j = A.get i j) := by
  subst hr0 hr1 hc0 hc1
  obtain ⟨B, hB, _, _, h1⟩ := broadcastTo_scalar v (r.count A.rows) (c.count A.cols)
  obtain ⟨C, hC, h2, h3, h4, h5⟩ := assign_of_broadcast hB
  refine ⟨C, hC, h2, h3, ?_, h5⟩
  intro i j g1 g2 g3 g4
  rw [h4 i j g1 g2 g3 g4, h1]

/-- `A[:, c] = S` for an array with the shape of the selection. -/
theorem assign_cols {A S : Mat α} {c : PySlice} (a b : Nat)
    (hc0 : c.lo A.cols = a) (hc1 : c.hi A.cols = b) (hr : S.rows = A.rows) (hc : S.cols = b - a) :
    ∃ C, A.assign .all c S = .ok C ∧ C.rows = A.rows ∧ C.cols = A.cols ∧
      (∀ i j, i < A.rows → a ≤ j → j < b → C.get i j = S.get i (j - a)) ∧
      (∀ i j, ¬ (a ≤ j ∧ j < b) → C.get i j = A.get i j) := by
  obtain ⟨C, h1, h2, h3, h4, h5⟩ := assign_ok (A := A) (S := S) (r := .all) (c := c) 0 A.rows a b
    rfl rfl hc0 hc1 (by omega) hc
  refine ⟨C, h1, h2, h3, ?_, ?_⟩
  · intro i j g1 g2 g3
    rw [h4 i j (by omega) g1 g2 g3]; rfl
  · intro i j g
    exact h5 i j (by omega)

/-- `A[:, c] = v` for a number. -/
theorem assign_cols_scalar {A : Mat α} {c : PySlice} (v : α) (a b : Nat)
    (hc0 : c.lo A.cols = a) (hc1 : c.hi A.cols = b) :
    ∃ C, A.assign .all c (.scalar v) = .ok C ∧ C.rows = A.rows ∧ C.cols = A.cols ∧
      (∀ i j, i < A.rows → a ≤ j → j < b → C.get i j = v) ∧
      (∀ i j, ¬ (a ≤ j ∧ j < b) → C.get i j = A.get i j) := by
  obtain ⟨C, h1, h2, h3, h4, h5⟩ := assign_scalar (A := A) (r := .all) (c := c) v 0 A.rows a b
    rfl rfl hc0 hc1
  refine ⟨C, h1, h2, h3, ?_, ?_⟩
  · intro i j g1 g2 g3
    exact h4 i j (by omega) g1 g2 g3
  · intro i j g
    exact h5 i j (by omega)

/-- `function(A, B, out=out[r, c])`. -/
theorem ufunc2_of_broadcast {f : α → β → γ} {A A' : Mat α} {B B' : Mat β} {out : Mat γ} {r c : PySlice}
    (a b a' b' : Nat)
    (hr0 : r.lo out.rows = a) (hr1 : r.hi out.rows = b)
    (hc0 : c.lo out.cols = a') (hc1 : c.hi out.cols = b')
    (hA : A.broadcastTo (b - a) (b' - a') = .ok A')
    (hB : B.broadcastTo (b - a) (b' - a') = .ok B') :
    ∃ C, ufunc2 f A B out r c = .ok C ∧ C.rows = out.rows ∧ C.cols = out.cols ∧
      (∀ i j, a ≤ i → i < b → a' ≤ j → j < b' →
        C.get i j = f (A'.get (i - a) (j - a')) (B'.get (i - a) (j - a'))) ∧
      (∀ i j, ¬ ((a ≤ i ∧ i < b) ∧ a' ≤ j ∧ j < b') → C.get i j = out.get i j) := by
  subst hr0 hr1 hc0 hc1
  unfold ufunc2
  rw [show A.broadcastTo (r.count out.rows) (c.count out.cols) = .ok A' from hA,
    show B.broadcastTo (r.count out.rows) (c.count out.cols) = .ok B' from hB]
  exact assign_ok _ _ _ _ rfl rfl rfl rfl rfl rfl

end Mat
end Verif
