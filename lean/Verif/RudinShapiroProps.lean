import Verif.RudinShapiro
import Verif.NumpyLemmas
import Verif.SpectrumProps
import Mathlib.Data.Finset.Card
import Mathlib.Algebra.Group.Basic
import Mathlib.Algebra.Ring.Nat

/-
C26: the Rudin-Shapiro sequence.
-/

namespace Verif
namespace RudinShapiro

variable {α : Type}

/-! ### Specification -/

/-- the number of (overlapping) occurrences of `11` in the binary representation of `n` -/
def pairs (n : Nat) : Nat := ((Finset.range n).filter fun k => n.testBit k = true ∧ n.testBit (k + 1) = true).card

/-- the element `n` of the Rudin-Shapiro sequence: `(-1)` to the power of `pairs n` -/
def sign [One α] [Neg α] (n : Nat) : α := if pairs n % 2 = 0 then 1 else -1

/-- `7 = 111`, `11 = 1011`, `12 = 1100`, `27 = 11011` -/
example : pairs 7 = 2 ∧ pairs 11 = 1 ∧ pairs 12 = 1 ∧ pairs 27 = 2 ∧ pairs 10 = 0 := by decide

/-! ### The recursion -/

theorem pairs_eq {n B : Nat} (h : n < 2 ^ B) : pairs n =
    ((Finset.range B).filter fun k => n.testBit k = true ∧ n.testBit (k + 1) = true).card := by
  unfold pairs
  congr 1
  ext k
  simp only [Finset.mem_filter, Finset.mem_range]
  constructor
  · rintro ⟨_, h1, h2⟩
    refine ⟨?_, h1, h2⟩
    by_contra hk
    rw [Nat.testBit_lt_two_pow (Nat.lt_of_lt_of_le h (Nat.pow_le_pow_right (by omega) (by omega)))] at h1
    cases h1
  · rintro ⟨_, h1, h2⟩
    refine ⟨?_, h1, h2⟩
    have := Nat.ge_two_pow_of_testBit h1
    have := @Nat.lt_two_pow_self k
    omega

theorem pairs_add {k m : Nat} (hm : m < 2 ^ (k + 1)) :
    pairs (2 ^ (k + 1) + m) = pairs m + if m.testBit k = true then 1 else 0 := by
  have h1 : 2 ^ (k + 1) + m < 2 ^ (k + 2) := by rw [Nat.pow_succ 2 (k + 1)]; omega
  rw [pairs_eq h1, pairs_eq hm]
  have hlow : ∀ j, j < k + 1 → (2 ^ (k + 1) + m).testBit j = m.testBit j :=
    fun j hj => Nat.testBit_two_pow_add_gt hj m
  have htop : (2 ^ (k + 1) + m).testBit (k + 1) = true := by
    rw [Nat.testBit_two_pow_add_eq, Nat.testBit_lt_two_pow hm]; rfl
  have hout : (2 ^ (k + 1) + m).testBit (k + 2) = false := Nat.testBit_lt_two_pow h1
  have hmtop : m.testBit (k + 1) = false := Nat.testBit_lt_two_pow hm
  rw [Finset.range_add_one, Finset.filter_insert, Finset.range_add_one, Finset.filter_insert, Finset.filter_insert]
  have hrest : (Finset.range k).filter (fun j => (2 ^ (k + 1) + m).testBit j = true ∧
      (2 ^ (k + 1) + m).testBit (j + 1) = true) =
      (Finset.range k).filter (fun j => m.testBit j = true ∧ m.testBit (j + 1) = true) := by
    apply Finset.filter_congr
    intro j hj
    have := Finset.mem_range.1 hj
    rw [hlow j (by omega), hlow (j + 1) (by omega)]
  rw [hrest, htop, hout, hmtop, hlow k (by omega)]
  simp only [Bool.false_eq_true, and_false, if_false, and_true]
  split
  · rw [Finset.card_insert_of_notMem (by simp)]
  · rfl

theorem sign_low [One α] [InvolutiveNeg α] {k m : Nat} (hm : m < 2 ^ k) :
    (sign (2 ^ (k + 1) + m) : α) = sign m := by
  unfold sign
  rw [pairs_add (by rw [Nat.pow_succ]; omega), Nat.testBit_lt_two_pow hm]
  simp

theorem sign_high [One α] [InvolutiveNeg α] {k m : Nat} (h1 : 2 ^ k ≤ m) (h2 : m < 2 ^ (k + 1)) :
    (sign (2 ^ (k + 1) + m) : α) = - sign m := by
  have hb : m.testBit k = true := by
    obtain ⟨r, rfl⟩ := Nat.exists_eq_add_of_le h1
    rw [Nat.testBit_two_pow_add_eq, Nat.testBit_lt_two_pow (by rw [Nat.pow_succ] at h2; omega)]; rfl
  unfold sign
  rw [pairs_add h2, if_pos hb]
  by_cases hp : pairs m % 2 = 0
  · rw [if_pos hp, if_neg (by omega)]
  · rw [if_neg hp, if_pos (by omega), neg_neg]

/-! ### The loop -/

/-- the row `A` with `L` columns contains the first `n` elements of the sequence, beginning at the column `o` -/
def Contains [One α] [Neg α] (A : Mat α) (o n : Nat) : Prop := ∀ m, m < n → A.get 0 (o + m) = sign m

/-- what the steps of the algorithm preserve: the shape, and the columns before `o` -/
structure Keeps (A B : Mat α) (o : Nat) : Prop where
  rows : B.rows = A.rows
  cols : B.cols = A.cols
  before : ∀ j, j < o → B.get 0 j = A.get 0 j

theorem Keeps.trans {A B C : Mat α} {o : Nat} (h : Keeps A B o) (h' : Keeps B C o) : Keeps A C o :=
  ⟨h'.rows.trans h.rows, h'.cols.trans h.cols, fun j hj => (h'.before j hj).trans (h.before j hj)⟩

theorem body_ok [One α] [InvolutiveNeg α] (A : Mat α) (o n k : Nat) (hr : A.rows = 1) (hL : o + n ≤ A.cols)
    (hi : 2 ^ (k + 1) < n) (hA : Contains A o (2 ^ (k + 1))) :
    ∃ B, body (o : Int) (n : Int) (2 ^ (k + 1)) A = .ok B ∧ Keeps A B o ∧ Contains B o (min (2 ^ (k + 2)) n) := by
  have hhalf : 2 ^ (k + 1) / 2 = 2 ^ k := by rw [Nat.pow_succ]; omega
  have hdouble : 2 ^ (k + 1) = 2 ^ k * 2 := Nat.pow_succ 2 k
  have hdouble2 : 2 ^ (k + 2) = 2 ^ (k + 1) * 2 := Nat.pow_succ 2 (k + 1)
  have hs1 : ∀ m, m < 2 ^ k → (sign (2 ^ (k + 1) + m) : α) = sign m := fun m h => sign_low h
  have hs2 : ∀ m, 2 ^ k ≤ m → m < 2 ^ (k + 1) → (sign (2 ^ (k + 1) + m) : α) = - sign m :=
    fun m h h' => sign_high h h'
  unfold body negatedPart
  rw [hhalf]
  generalize 2 ^ (k + 2) = i2 at *
  generalize 2 ^ (k + 1) = i at *
  generalize 2 ^ k = h at *
  obtain ⟨j, hj⟩ : ∃ j, min h (n - i) = j := ⟨_, rfl⟩
  have hj' : j ≤ h ∧ j ≤ n - i ∧ (j = h ∨ j = n - i) := by omega
  have e1 : min (h : Int) ((n : Int) - i) = (j : Nat) := by omega
  dsimp only
  rw [e1]
  have e2 : (o : Int) + i = ((o + i : Nat) : Int) := by omega
  have e3 : (o : Int) + i + j = ((o + i + j : Nat) : Int) := by omega
  have e4 : (o : Int) + j = ((o + j : Nat) : Int) := by omega
  rw [e3, e2, e4]
  obtain ⟨B, b1, b2, b3, b4, b5⟩ := Mat.assign_ok (A := A)
    (S := A.slice .all (.range (o : Nat) (o + j : Nat))) (r := .all) (c := .range (o + i : Nat) (o + i + j : Nat))
    0 1 (o + i) (o + i + j) rfl (by simpa using hr) (by rw [PySlice.lo_range, clampBound_nat]; omega)
    (by rw [PySlice.hi_range, clampBound_nat]; omega)
    (by simp [hr]) (by rw [Mat.slice_cols, PySlice.count_range, clampBound_nat, clampBound_nat]; omega)
  rw [b1]
  have hBget : ∀ m, m < i + j → B.get 0 (o + m) = sign m := by
    intro m hm
    by_cases hlt : m < i
    · rw [b5 0 (o + m) (by omega), hA m hlt]
    · rw [b4 0 (o + m) (by omega) (by omega) (by omega) (by omega), Mat.slice_all_get, PySlice.lo_range,
        clampBound_nat, show min o A.cols + (o + m - (o + i)) = o + (m - i) by omega, hA (m - i) (by omega)]
      have := hs1 (m - i) (by omega)
      rw [show i + (m - i) = m by omega] at this
      exact this.symm
  have hBbefore : ∀ q, q < o → B.get 0 q = A.get 0 q := fun q hq => b5 0 q (by omega)
  show ∃ B', (if ((i + h : Nat) : Int) < n then _ else Except.ok B) = .ok B' ∧ _
  by_cases hneg : ((i + h : Nat) : Int) < n
  · rw [if_pos hneg]
    have hjh : j = h := by omega
    subst hjh
    obtain ⟨j2, hj2⟩ : ∃ j2, min i (n - i) = j2 := ⟨_, rfl⟩
    have hj2' : j2 ≤ i ∧ j2 ≤ n - i ∧ (j2 = i ∨ j2 = n - i) := by omega
    have f1 : min (i : Int) ((n : Int) - i) = (j2 : Nat) := by omega
    rw [f1, show ((o + i : Nat) : Int) + j2 = ((o + i + j2 : Nat) : Int) by omega,
      show ((o + i : Nat) : Int) + j = ((o + i + j : Nat) : Int) by omega, e4,
      show (o : Int) + j2 = ((o + j2 : Nat) : Int) by omega]
    obtain ⟨C, c1, c2, c3, c4, c5⟩ := Mat.assign_ok (A := B)
      (S := (B.slice .all (.range (o + j : Nat) (o + j2 : Nat))).map (- ·)) (r := .all)
      (c := .range (o + i + j : Nat) (o + i + j2 : Nat))
      0 1 (o + i + j) (o + i + j2) rfl (by simpa using b2.trans hr) (by rw [PySlice.lo_range, clampBound_nat]; omega)
      (by rw [PySlice.hi_range, clampBound_nat]; omega)
      (by show B.rows = _; omega)
      (by
        show (B.slice .all (.range (o + j : Nat) (o + j2 : Nat))).cols = _
        rw [Mat.slice_cols, PySlice.count_range, clampBound_nat, clampBound_nat]; omega)
    refine ⟨C, c1, ⟨c2.trans b2, c3.trans b3, fun q hq => (c5 0 q (by omega)).trans (hBbefore q hq)⟩, ?_⟩
    intro m hm
    by_cases hlt : m < i + j
    · rw [c5 0 (o + m) (by omega), hBget m hlt]
    · rw [c4 0 (o + m) (by omega) (by omega) (by omega) (by omega)]
      show - ((B.slice .all (.range (o + j : Nat) (o + j2 : Nat))).get 0 (o + m - (o + i + j))) = _
      rw [Mat.slice_all_get, PySlice.lo_range, clampBound_nat,
        show min (o + j) B.cols + (o + m - (o + i + j)) = o + (m - i) by omega, hBget (m - i) (by omega)]
      have := hs2 (m - i) (by omega) (by omega)
      rw [show i + (m - i) = m by omega] at this
      exact this.symm
  · rw [if_neg hneg]
    refine ⟨B, rfl, ⟨b2, b3, hBbefore⟩, ?_⟩
    intro m hm
    exact hBget m (by omega)

theorem loop_ok [One α] [InvolutiveNeg α] (o n : Nat) : ∀ (d k : Nat) (A : Mat α) (hp : 0 < 2 ^ (k + 1)),
    n - 2 ^ (k + 1) ≤ d → A.rows = 1 → o + n ≤ A.cols → Contains A o (min (2 ^ (k + 1)) n) →
    ∃ B, loop (o : Int) (n : Int) (2 ^ (k + 1)) hp A = .ok B ∧ Keeps A B o ∧ Contains B o n := by
  intro d
  induction d with
  | zero =>
    intro k A hp hd _ _ hA
    rw [loop, dif_neg (by omega)]
    refine ⟨A, rfl, ⟨rfl, rfl, fun _ _ => rfl⟩, ?_⟩
    rw [show min (2 ^ (k + 1)) n = n by omega] at hA
    exact hA
  | succ d ih =>
    intro k A hp hd hr hL hA
    rw [loop]
    by_cases hlt : 2 ^ (k + 1) < n
    · rw [dif_pos (by omega)]
      rw [show min (2 ^ (k + 1)) n = 2 ^ (k + 1) by omega] at hA
      obtain ⟨B, b1, b2, b3⟩ := body_ok A o n k hr hL hlt hA
      rw [b1]
      obtain ⟨C, c1, c2, c3⟩ := ih (k + 1) B (Nat.two_pow_pos _)
        (by rw [Nat.pow_succ 2 (k + 1)]; omega) (b2.rows.trans hr) (by rw [b2.cols]; exact hL) b3
      refine ⟨C, ?_, b2.trans c2, c3⟩
      dsimp only
      rw [← c1]
      congr 1
    · rw [dif_neg (by omega)]
      refine ⟨A, rfl, ⟨rfl, rfl, fun _ _ => rfl⟩, ?_⟩
      rw [show min (2 ^ (k + 1)) n = n by omega] at hA
      exact hA

theorem setCol_ok (A : Mat α) (j : Nat) (x : α) (h : j < A.cols) :
    ∃ B, A.setCol (j : Int) x = .ok B ∧ B.rows = A.rows ∧ B.cols = A.cols ∧
      ∀ i j', B.get i j' = if j' = j then x else A.get i j' := by
  unfold Mat.setCol
  dsimp only
  rw [if_neg (show ¬ ((j : Int) < 0) by omega), if_pos (by omega)]
  refine ⟨_, rfl, rfl, rfl, ?_⟩
  intro i j'
  show (if (j' : Int) = j then x else A.get i j') = _
  by_cases hj : j' = j
  · rw [if_pos hj, if_pos (by omega)]
  · rw [if_neg hj, if_neg (by omega)]

theorem sign_zero [One α] [Neg α] : (sign 0 : α) = 1 := by
  unfold sign; rw [if_pos (by decide)]

theorem sign_one [One α] [Neg α] : (sign 1 : α) = 1 := by
  unfold sign; rw [if_pos (by decide)]

theorem fill_ok [One α] [InvolutiveNeg α] (A : Mat α) (o n : Nat) (hr : A.rows = 1) (hL : o + n ≤ A.cols) :
    ∃ B, fill (o : Int) (n : Int) A.cols A = .ok B ∧ Keeps A B o ∧ Contains B o n := by
  unfold fill
  by_cases h0 : n = 0
  · rw [if_neg (by omega)]
    exact ⟨A, rfl, ⟨rfl, rfl, fun _ _ => rfl⟩, fun m hm => by omega⟩
  · rw [if_pos (by omega)]
    obtain ⟨B, b1, b2, b3, b4⟩ := setCol_ok A o 1 (by omega)
    rw [b1]
    show ∃ B', fillRest (o : Int) (n : Int) A.cols B = .ok B' ∧ _
    have hk1 : Keeps A B o := ⟨b2, b3, fun j hj => by rw [b4, if_neg (by omega)]⟩
    unfold fillRest
    by_cases h1 : n = 1
    · rw [if_neg (by omega)]
      refine ⟨B, rfl, hk1, ?_⟩
      intro m hm
      rw [show m = 0 by omega, sign_zero, b4, if_pos (by omega)]
    · rw [if_pos (by omega)]
      obtain ⟨C, c1, c2, c3, c4⟩ := setCol_ok B (o + 1) 1 (by omega)
      rw [show (o : Int) + 1 = ((o + 1 : Nat) : Int) by omega, c1]
      show ∃ B', loop (o : Int) (n : Int) 2 _ C = .ok B' ∧ _
      have hk2 : Keeps B C o := ⟨c2, c3, fun j hj => by rw [c4, if_neg (by omega)]⟩
      obtain ⟨D, d1, d2, d3⟩ := loop_ok o n n 0 C (by omega) (by omega) (by omega) (by omega)
        (by
          intro m hm
          rw [c4]
          rcases (by omega : m = 0 ∨ m = 1) with rfl | rfl
          · rw [if_neg (by omega), b4, if_pos (by omega), sign_zero]
          · rw [if_pos rfl, sign_one])
      exact ⟨D, d1, (hk1.trans hk2).trans d2, d3⟩

/-- C26: the samples of the noise spectrum. `o` and `e` are the indices of the start and the stop frequency, which are
limited to the length; they must not be negative, i.e. the frequencies must not be negative. (`stop = none` means, that
no stop frequency is given.)
`_partial`: the demand, that the frequencies are not negative; see `C26_negative_stop_violated`. -/
theorem C26_samples_partial [Zero α] [One α] [InvolutiveNeg α] (mem : Nat → Nat → α) (start : ℚ) (stop : Option ℚ)
    (resolution : ℚ) (length : Nat) (hres : resolution ≠ 0) (o e : Nat)
    (ho : (o : Int) = min (pyRound (start / resolution)) length)
    (he : (e : Int) = match stop with
      | none => (length : Int)
      | some f => min (pyRound (f / resolution)) length) :
    ∃ s n, new mem start stop resolution length = .ok (s, n) ∧ n = (e : Int) - o ∧
      s.count = 1 ∧ s.length = length ∧ s.resolution = resolution ∧ s.labels = ["Noise"] ∧
      ∀ j, j < length → s.channels.get 0 j = if o ≤ j ∧ j < e then sign (j - o) else 0 := by
  have hol : o ≤ length := by omega
  have hel : e ≤ length := by
    cases stop with
    | none => dsimp only at he; omega
    | some f => dsimp only at he; omega
  have hseq : sequenceLength stop resolution length (o : Int) = (e : Int) - o := by
    unfold sequenceLength
    cases stop with
    | none => dsimp only at he ⊢; omega
    | some f => dsimp only at he ⊢; omega
  unfold new
  rw [if_neg hres]
  dsimp only
  rw [← ho, hseq]
  obtain ⟨A, a1, a2, a3, a4, a5⟩ := Mat.assign_cols_scalar (A := alloc mem 1 length) (c := .range 0 (o : Nat))
    (0 : α) 0 o (by simp) (by simp [alloc]; omega)
  rw [a1]
  have hArows : A.rows = 1 := a2
  have hAcols : A.cols = length := a3
  show ∃ s n, (fill (o : Int) ((e : Int) - o) length A >>= _) = _ ∧ _
  have hfill : ∃ B, fill (o : Int) ((e : Int) - o) length A = .ok B ∧ Keeps A B o ∧ Contains B o (e - o) := by
    by_cases hle : o ≤ e
    · have := fill_ok A o (e - o) hArows (by omega)
      rw [hAcols, show ((e - o : Nat) : Int) = (e : Int) - o by omega] at this
      exact this
    · unfold fill
      rw [if_neg (by omega)]
      exact ⟨A, rfl, ⟨rfl, rfl, fun _ _ => rfl⟩, fun m hm => by omega⟩
  obtain ⟨B, b1, b2, b3⟩ := hfill
  rw [b1]
  have hBr := b2.rows
  have hBc := b2.cols
  obtain ⟨C, c1, c2, c3, c4, c5⟩ := Mat.assign_cols_scalar (A := B) (c := .drop (e : Nat))
    (0 : α) e length (by simp; omega) (by simp; omega)
  show ∃ s n, (B.assign .all (.drop ((o : Int) + ((e : Int) - o))) (.scalar 0) >>= _) = _ ∧ _
  rw [show (o : Int) + ((e : Int) - o) = (e : Nat) by omega, c1]
  refine ⟨_, _, rfl, rfl, ?_, ?_, rfl, ?_, ?_⟩
  · show C.rows = 1; omega
  · show C.cols = length; omega
  · show sanitizeLabels (some ["Noise"]) C.rows = _
    rw [show C.rows = 1 by omega]
    rfl
  · intro j hj
    show C.get 0 j = _
    by_cases h1 : j < e
    · rw [c5 0 j (by omega)]
      by_cases h2 : o ≤ j
      · rw [if_pos ⟨h2, h1⟩, ← b3 (j - o) (by omega), show o + (j - o) = j by omega]
      · rw [if_neg (by omega), b2.before j (by omega), a4 0 j (by show 0 < 1; omega) (by omega) (by omega)]
    · rw [if_neg (by omega), c4 0 j (by omega) (by omega) hj]

/-- the first 16 elements of the sequence, beginning at the second bin -/
example : ((new (fun _ _ => (99 : Int)) 1 (some 17) 1 20).map fun r => r.1.channels.flat) =
    .ok [0, 1, 1, 1, -1, 1, 1, -1, 1, 1, 1, 1, -1, -1, -1, 1, -1, 0, 0, 0] := by
  decide +kernel

/-- C26 is violated by negative stop frequencies: the samples are not zero, but the content of uninitialised memory. -/
theorem C26_negative_stop_violated : ((new (fun _ j => (90 + j : Int)) 0 (some (-1)) 1 4).map
    fun r => r.1.channels.flat) = .ok [90, 91, 92, 0] := by
  decide +kernel

end RudinShapiro
end Verif
