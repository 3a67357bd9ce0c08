import Verif.SignalAlgebra
import Verif.SignalProps
import Mathlib.Algebra.Group.Basic

/-
Properties C10 (arithmetic is computed pointwise in time), C11 and C12 (laws of addition, subtraction and
multiplication), C14 (numbers and arrays).
-/

namespace Verif
namespace Signal

variable {α R : Type}

/-! ### Specification -/

/-- The sample of channel `c` at time `t`, where the channel of a one-channel signal stands in for
every channel. -/
def bcast (s : Signal α R) (c : Nat) (t : Int) : Option α :=
  s.at_ (if s.count = 1 then 0 else c) t

/-- The value of the result at a point where the two operands may or may not have a sample. -/
def combine [Zero α] (f : α → α → α) (pivot : Option α) : Option α → Option α → α
  | none, none => 0
  | some x, none => x
  | none, some y => match pivot with
    | none => y
    | some p => f p y
  | some x, some y => f x y

/-- The numbers of channels which can be combined: not one with none.  (All other
combinations work, including different numbers larger than one.) -/
def Compatible (s o : Signal α R) : Prop :=
  ¬ (s.count = 1 ∧ o.count = 0) ∧ ¬ (s.count = 0 ∧ o.count = 1)

/-! ### Loops over the channels -/

theorem fold_rows (g : Mat α → Nat → Py (Mat α)) (v : Nat → α) (a b : Nat) (M : Mat α)
    (hg : ∀ M' c, M'.rows = M.rows → M'.cols = M.cols → (∀ j, M'.get 0 j = M.get 0 j) → 1 ≤ c → c < M.rows →
      ∃ C, g M' c = .ok C ∧ C.rows = M.rows ∧ C.cols = M.cols ∧
        (∀ j, a ≤ j → j < b → C.get c j = v j) ∧
        (∀ i j, ¬ (i = c ∧ a ≤ j ∧ j < b) → C.get i j = M'.get i j))
    (n : Nat) (hn : n ≤ M.rows - 1) :
    ∃ C, (List.range' 1 n).foldlM g M = .ok C ∧ C.rows = M.rows ∧ C.cols = M.cols ∧
      (∀ i j, 1 ≤ i → i ≤ n → a ≤ j → j < b → C.get i j = v j) ∧
      (∀ i j, ¬ ((1 ≤ i ∧ i ≤ n) ∧ a ≤ j ∧ j < b) → C.get i j = M.get i j) := by
  induction n with
  | zero => exact ⟨M, rfl, rfl, rfl, by intros; omega, by intros; rfl⟩
  | succ n ih =>
    obtain ⟨C, h1, h2, h3, h4, h5⟩ := ih (by omega)
    obtain ⟨D, g1, g2, g3, g4, g5⟩ := hg C (1 + n) h2 h3 (fun j => h5 0 j (by omega)) (by omega) (by omega)
    refine ⟨D, ?_, g2, g3, ?_, ?_⟩
    · rw [List.range'_1_concat, List.foldlM_append, h1]
      simp only [bind, Except.bind, List.foldlM_cons, List.foldlM_nil, g1]
      rfl
    · intro i j k1 k2 k3 k4
      by_cases hi : i = 1 + n
      · subst hi; exact g4 j k3 k4
      · rw [g5 i j (by omega)]; exact h4 i j k1 (by omega) k3 k4
    · intro i j k
      rw [g5 i j (by omega)]; exact h5 i j (by omega)

theorem copyRows_ok (cs : PySlice) (row M : Mat α) (a b : Nat) (ha : cs.lo M.cols = a) (hb : cs.hi M.cols = b)
    (hr : row.rows = 1) (hc : row.cols = b - a) :
    ∃ C, copyRows cs row M = .ok C ∧ C.rows = M.rows ∧ C.cols = M.cols ∧
      (∀ i j, 1 ≤ i → i < M.rows → a ≤ j → j < b → C.get i j = row.get 0 (j - a)) ∧
      (∀ i j, ¬ ((1 ≤ i ∧ i < M.rows) ∧ a ≤ j ∧ j < b) → C.get i j = M.get i j) := by
  obtain ⟨C, h1, h2, h3, h4, h5⟩ := fold_rows
    (fun channels c => channels.assign (.range c (c + 1)) cs row) (fun j => row.get 0 (j - a)) a b M (by
      intro M' c e1 e2 _ hc1 hc2
      obtain ⟨C, g1, g2, g3, g4, g5⟩ := Mat.assign_ok (A := M') (S := row) (r := .range c (c + 1)) (c := cs)
        c (c + 1) a b (by simp; omega) (by rw [e1]; simp only [PySlice.hi_range]; rw [clampBound_nonneg (by omega)]; omega)
        (by rw [e2]; exact ha) (by rw [e2]; exact hb) (by omega) hc
      refine ⟨C, g1, by omega, by omega, ?_, ?_⟩
      · intro j k1 k2
        rw [g4 c j (by omega) (by omega) k1 k2]
        simp
      · intro i j k
        exact g5 i j (by omega)) (M.rows - 1) (by omega)
  refine ⟨C, by unfold copyRows; exact h1, h2, h3, ?_, ?_⟩
  · intro i j k1 k2 k3 k4; exact h4 i j k1 (by omega) k3 k4
  · intro i j k; exact h5 i j (by omega)

theorem copyFirstRow_ok (cs : PySlice) (M : Mat α) (a b : Nat) (ha : cs.lo M.cols = a) (hb : cs.hi M.cols = b) :
    ∃ C, copyFirstRow cs M = .ok C ∧ C.rows = M.rows ∧ C.cols = M.cols ∧
      (∀ i j, 1 ≤ i → i < M.rows → a ≤ j → j < b → C.get i j = M.get 0 j) ∧
      (∀ i j, ¬ ((1 ≤ i ∧ i < M.rows) ∧ a ≤ j ∧ j < b) → C.get i j = M.get i j) := by
  obtain ⟨C, h1, h2, h3, h4, h5⟩ := fold_rows
    (fun channels c => channels.assign (.range c (c + 1)) cs (channels.slice (.range 0 1) cs))
    (fun j => M.get 0 j) a b M (by
      intro M' c e1 e2 e3 hc1 hc2
      obtain ⟨C, g1, g2, g3, g4, g5⟩ := Mat.assign_ok (A := M') (S := M'.slice (.range 0 1) cs)
        (r := .range c (c + 1)) (c := cs)
        c (c + 1) a b (by simp; omega) (by rw [e1]; simp only [PySlice.hi_range]; rw [clampBound_nonneg (by omega)]; omega)
        (by rw [e2]; exact ha) (by rw [e2]; exact hb)
        (by rw [Mat.slice_rows, PySlice.count_range, clampBound_zero, clampBound_nonneg (by omega)]; omega)
        (by rw [Mat.slice_cols, PySlice.count, e2, ha, hb])
      refine ⟨C, g1, by omega, by omega, ?_, ?_⟩
      · intro j k1 k2
        rw [g4 c j (by omega) (by omega) k1 k2, Mat.slice_get, e2, ha, PySlice.lo_range, clampBound_zero, ← e3]
        congr 1 <;> omega
      · intro i j k
        exact g5 i j (by omega)) (M.rows - 1) (by omega)
  refine ⟨C, by unfold copyFirstRow; exact h1, h2, h3, ?_, ?_⟩
  · intro i j k1 k2 k3 k4; exact h4 i j k1 (by omega) k3 k4
  · intro i j k; exact h5 i j (by omega)

/-! ### The three steps for signals with different shapes -/

theorem bcast_none (s : Signal α R) (c : Nat) (t : Int)
    (h : ¬ ((s.count = 1 ∨ c < s.count) ∧ s.offset ≤ t ∧ t < s.offset + s.length)) :
    s.bcast c t = none := by
  rw [Option.eq_none_iff_forall_ne_some]
  intro x hx
  unfold bcast at hx
  rw [at_eq_some] at hx
  by_cases h1 : s.count = 1
  · exact h ⟨Or.inl h1, hx.2.1, hx.2.2.1⟩
  · rw [if_neg h1] at hx
    exact h ⟨Or.inr hx.1, hx.2.1, hx.2.2.1⟩

theorem bcast_some (s : Signal α R) (c : Nat) (t : Int)
    (h1 : s.count = 1 ∨ c < s.count) (h2 : s.offset ≤ t) (h3 : t < s.offset + s.length) :
    s.bcast c t = some (s.channels.get (if s.count = 1 then 0 else c) (t - s.offset).toNat) := by
  unfold bcast
  rw [at_eq_some]
  exact ⟨by split <;> omega, h2, h3, rfl⟩

section
variable [Zero α] (mem : Nat → Nat → α) (f : α → α → α) (pivot : Option α) (s o : Signal α R)

/-- The common shape of the intermediate arrays. -/
def HullShape (M : Mat α) : Prop :=
  M.rows = max s.count o.count ∧
  M.cols = (max (s.offset + s.length) (o.offset + o.length) - min s.offset o.offset).toNat

theorem copySelf_ok :
    ∃ C, copySelf mem s o = .ok C ∧ HullShape s o C ∧
      ∀ i j, i < C.rows → j < C.cols →
        C.get i j = (s.bcast i (min s.offset o.offset + j)).getD 0 := by
  unfold copySelf
  simp only
  set len := (max (s.offset + s.length) (o.offset + o.length) - min s.offset o.offset).toNat with hlen
  obtain ⟨A, hA, a1, a2, a3, _⟩ := Mat.assign_scalar (A := alloc mem (max s.count o.count) len)
    (r := .all) (c := .all) (0 : α) 0 (max s.count o.count) 0 len rfl rfl rfl rfl
  change A.rows = max s.count o.count at a1
  change A.cols = len at a2
  simp only [bind, Except.bind, hA]
  have hlo : (PySlice.range (s.offset - min s.offset o.offset) (s.offset + s.length - min s.offset o.offset)).lo len
      = (s.offset - min s.offset o.offset).toNat := by
    rw [PySlice.lo_range, clampBound_nonneg (by omega)]; omega
  have hhi : (PySlice.range (s.offset - min s.offset o.offset) (s.offset + s.length - min s.offset o.offset)).hi len
      = (s.offset + s.length - min s.offset o.offset).toNat := by
    rw [PySlice.hi_range, clampBound_nonneg (by omega)]; omega
  have hL : s.channels.cols = s.length := rfl
  have hC : s.channels.rows = s.count := rfl
  obtain ⟨B, hB, b1, b2, b3, b4⟩ := Mat.assign_ok (A := A) (S := s.channels) (r := .range 0 s.count)
    (c := .range (s.offset - min s.offset o.offset) (s.offset + s.length - min s.offset o.offset))
    0 s.count (s.offset - min s.offset o.offset).toNat (s.offset + s.length - min s.offset o.offset).toNat (by simp) (by rw [a1]; simp) (by rw [a2]; exact hlo) (by rw [a2]; exact hhi)
    (by omega) (by omega)
  simp only [hB]
  rw [a1] at b1
  rw [a2] at b2
  by_cases h1 : s.count = 1
  · rw [if_pos h1]
    obtain ⟨D, hD, d1, d2, d3, d4⟩ := copyRows_ok
      (.range (s.offset - min s.offset o.offset) (s.offset + s.length - min s.offset o.offset))
      (s.channels.row 0) B (s.offset - min s.offset o.offset).toNat (s.offset + s.length - min s.offset o.offset).toNat (by rw [b2]; exact hlo) (by rw [b2]; exact hhi) rfl
      (by show s.channels.cols = _; omega)
    refine ⟨D, hD, ⟨by omega, by omega⟩, ?_⟩
    intro i j hi hj
    by_cases hr : s.offset ≤ min s.offset o.offset + (j : Int) ∧ min s.offset o.offset + (j : Int) < s.offset + s.length
    · rw [bcast_some s i _ (Or.inl h1) hr.1 hr.2, Option.getD_some, if_pos h1]
      by_cases hi0 : i = 0
      · subst hi0
        rw [d4 0 j (by omega), b3 0 j (by omega) (by omega) (by omega) (by omega)]
        congr 1
        omega
      · rw [d3 i j (by omega) (by omega) (by omega) (by omega)]
        show s.channels.get 0 _ = _
        congr 1
        omega
    · rw [bcast_none s i _ (by omega), Option.getD_none, d4 i j (by omega), b4 i j (by omega),
        a3 i j (by omega) (by omega) (by omega) (by omega)]
  · rw [if_neg h1]
    refine ⟨B, rfl, ⟨by omega, by omega⟩, ?_⟩
    intro i j hi hj
    by_cases hr : i < s.count ∧ s.offset ≤ min s.offset o.offset + (j : Int) ∧ min s.offset o.offset + (j : Int) < s.offset + s.length
    · rw [bcast_some s i _ (Or.inr hr.1) hr.2.1 hr.2.2, Option.getD_some, if_neg h1,
        b3 i j (by omega) (by omega) (by omega) (by omega)]
      congr 1
      omega
    · rw [bcast_none s i _ (by omega), Option.getD_none, b4 i j (by omega),
        a3 i j (by omega) (by omega) (by omega) (by omega)]

/-- The value of a sample which only the second signal has. -/
def onlyOther (y : α) : α := match pivot with
  | none => y
  | some p => f p y

omit [Zero α] in
theorem copyOther_ok (M : Mat α) (hM : HullShape s o M) :
    ∃ C, copyOther f pivot s o M = .ok C ∧ HullShape s o C ∧
      ∀ i j, i < C.rows → j < C.cols →
        C.get i j = ((o.bcast i (min s.offset o.offset + j)).map (onlyOther f pivot)).getD (M.get i j) := by
  obtain ⟨m1, m2⟩ := hM
  set len := (max (s.offset + s.length) (o.offset + o.length) - min s.offset o.offset).toNat with hlen
  have hlo : (PySlice.range (o.offset - min s.offset o.offset) (o.offset + o.length - min s.offset o.offset)).lo len
      = (o.offset - min s.offset o.offset).toNat := by
    rw [PySlice.lo_range, clampBound_nonneg (by omega)]; omega
  have hhi : (PySlice.range (o.offset - min s.offset o.offset) (o.offset + o.length - min s.offset o.offset)).hi len
      = (o.offset + o.length - min s.offset o.offset).toNat := by
    rw [PySlice.hi_range, clampBound_nonneg (by omega)]; omega
  have hL : o.channels.cols = o.length := rfl
  have hC : o.channels.rows = o.count := rfl
  unfold copyOther
  simp only
  -- the first rows
  have hfirst : ∃ B : Mat α, (match pivot with
      | none => M.assign (.range 0 o.count) (.range (o.offset - min s.offset o.offset) (o.offset + o.length - min s.offset o.offset)) o.channels
      | some p => Mat.ufunc2 f (.scalar p) o.channels M (.range 0 o.count) (.range (o.offset - min s.offset o.offset) (o.offset + o.length - min s.offset o.offset))) = .ok B ∧
      B.rows = M.rows ∧ B.cols = M.cols ∧
      (∀ i j, i < o.count → (o.offset - min s.offset o.offset).toNat ≤ j → j < (o.offset + o.length - min s.offset o.offset).toNat →
        B.get i j = onlyOther f pivot (o.channels.get i (j - (o.offset - min s.offset o.offset).toNat))) ∧
      (∀ i j, ¬ (i < o.count ∧ (o.offset - min s.offset o.offset).toNat ≤ j ∧ j < (o.offset + o.length - min s.offset o.offset).toNat) →
        B.get i j = M.get i j) := by
    cases pivot with
    | none =>
      obtain ⟨B, hB, b1, b2, b3, b4⟩ := Mat.assign_ok (A := M) (S := o.channels) (r := .range 0 o.count)
        (c := .range (o.offset - min s.offset o.offset) (o.offset + o.length - min s.offset o.offset))
        0 o.count (o.offset - min s.offset o.offset).toNat (o.offset + o.length - min s.offset o.offset).toNat (by simp) (by rw [m1]; simp) (by rw [m2]; exact hlo) (by rw [m2]; exact hhi)
        (by omega) (by omega)
      refine ⟨B, hB, b1, b2, ?_, ?_⟩
      · intro i j h1 h2 h3
        rw [b3 i j (by omega) h1 h2 h3]; rfl
      · intro i j h
        exact b4 i j (by omega)
    | some p =>
      obtain ⟨P, hP, p1, p2, p3⟩ := Mat.broadcastTo_scalar p (o.count - 0)
        ((o.offset + o.length - min s.offset o.offset).toNat - (o.offset - min s.offset o.offset).toNat)
      obtain ⟨Q, hQ, q1, q2, q3⟩ := Mat.broadcastTo_self (A := o.channels) (r := o.count - 0)
        (c := (o.offset + o.length - min s.offset o.offset).toNat - (o.offset - min s.offset o.offset).toNat)
        (by omega) (by omega)
      obtain ⟨B, hB, b1, b2, b3, b4⟩ := Mat.ufunc2_of_broadcast (f := f) (out := M) (r := .range 0 o.count)
        (c := .range (o.offset - min s.offset o.offset) (o.offset + o.length - min s.offset o.offset))
        0 o.count (o.offset - min s.offset o.offset).toNat (o.offset + o.length - min s.offset o.offset).toNat (by simp) (by rw [m1]; simp) (by rw [m2]; exact hlo) (by rw [m2]; exact hhi) hP hQ
      refine ⟨B, hB, b1, b2, ?_, ?_⟩
      · intro i j h1 h2 h3
        rw [b3 i j (by omega) h1 h2 h3, p3, q3 _ _ (by omega) (by omega)]; rfl
      · intro i j h
        exact b4 i j (by omega)
  obtain ⟨B, hB, b1, b2, b3, b4⟩ := hfirst
  by_cases h1 : o.count = 1
  · -- one channel, which is copied to all other channels
    have hsecond : ∃ D : Mat α, (match pivot with
        | none => copyRows (.range (o.offset - min s.offset o.offset) (o.offset + o.length - min s.offset o.offset)) (o.channels.row 0) B
        | some _ => copyFirstRow (.range (o.offset - min s.offset o.offset) (o.offset + o.length - min s.offset o.offset)) B) = .ok D ∧
        D.rows = B.rows ∧ D.cols = B.cols ∧
        (∀ i j, 1 ≤ i → i < B.rows → (o.offset - min s.offset o.offset).toNat ≤ j → j < (o.offset + o.length - min s.offset o.offset).toNat →
          D.get i j = onlyOther f pivot (o.channels.get 0 (j - (o.offset - min s.offset o.offset).toNat))) ∧
        (∀ i j, ¬ ((1 ≤ i ∧ i < B.rows) ∧ (o.offset - min s.offset o.offset).toNat ≤ j ∧ j < (o.offset + o.length - min s.offset o.offset).toNat) →
          D.get i j = B.get i j) := by
      cases pivot with
      | none =>
        obtain ⟨D, hD, d1, d2, d3, d4⟩ := copyRows_ok
          (.range (o.offset - min s.offset o.offset) (o.offset + o.length - min s.offset o.offset))
          (o.channels.row 0) B (o.offset - min s.offset o.offset).toNat (o.offset + o.length - min s.offset o.offset).toNat (by rw [b2, m2]; exact hlo) (by rw [b2, m2]; exact hhi) rfl
          (by show o.channels.cols = _; omega)
        exact ⟨D, hD, d1, d2, d3, d4⟩
      | some p =>
        obtain ⟨D, hD, d1, d2, d3, d4⟩ := copyFirstRow_ok
          (.range (o.offset - min s.offset o.offset) (o.offset + o.length - min s.offset o.offset))
          B (o.offset - min s.offset o.offset).toNat (o.offset + o.length - min s.offset o.offset).toNat (by rw [b2, m2]; exact hlo) (by rw [b2, m2]; exact hhi)
        refine ⟨D, hD, d1, d2, ?_, d4⟩
        intro i j k1 k2 k3 k4
        rw [d3 i j k1 k2 k3 k4, b3 0 j (by omega) k3 k4]
    obtain ⟨D, hD, d1, d2, d3, d4⟩ := hsecond
    refine ⟨D, ?_, ⟨by omega, by omega⟩, ?_⟩
    · cases pivot with
      | none =>
        simp only at hB hD ⊢
        simp only [bind, Except.bind, hB, if_pos h1, hD]
      | some p =>
        simp only at hB hD ⊢
        simp only [bind, Except.bind, hB, if_pos h1, hD]
    · intro i j hi hj
      by_cases hr : o.offset ≤ min s.offset o.offset + (j : Int) ∧ min s.offset o.offset + (j : Int) < o.offset + o.length
      · rw [bcast_some o i _ (Or.inl h1) hr.1 hr.2, Option.map_some, Option.getD_some, if_pos h1]
        by_cases hi0 : i = 0
        · subst hi0
          rw [d4 0 j (by omega), b3 0 j (by omega) (by omega) (by omega)]
          congr 2
          omega
        · rw [d3 i j (by omega) (by omega) (by omega) (by omega)]
          congr 2
          omega
      · rw [bcast_none o i _ (by omega), Option.map_none, Option.getD_none, d4 i j (by omega), b4 i j (by omega)]
  · refine ⟨B, ?_, ⟨by omega, by omega⟩, ?_⟩
    · cases pivot with
      | none =>
        simp only at hB ⊢
        simp only [bind, Except.bind, hB, if_neg h1]
        rfl
      | some p =>
        simp only at hB ⊢
        simp only [bind, Except.bind, hB, if_neg h1]
        rfl
    · intro i j hi hj
      by_cases hr : i < o.count ∧ o.offset ≤ min s.offset o.offset + (j : Int) ∧ min s.offset o.offset + (j : Int) < o.offset + o.length
      · rw [bcast_some o i _ (Or.inr hr.1) hr.2.1 hr.2.2, Option.map_some, Option.getD_some, if_neg h1,
          b3 i j (by omega) (by omega) (by omega)]
        congr 2
        omega
      · rw [bcast_none o i _ (by omega), Option.map_none, Option.getD_none, b4 i j (by omega)]

omit [Zero α] in
/-- The computation on the overlap, for arrays `A` and `B` which have been broadcast to `P` and `Q`. -/
theorem overlap_step (M A B P Q : Mat α) (hM : HullShape s o M) (r : PySlice) (n : Nat)
    (hov : max s.offset o.offset < min (s.offset + s.length) (o.offset + o.length))
    (hr0 : r.lo M.rows = 0) (hr1 : r.hi M.rows = n)
    (hn : ∀ i, i < M.rows → (i < n ↔ (s.count = 1 ∨ i < s.count) ∧ (o.count = 1 ∨ i < o.count)))
    (hP : A.broadcastTo n (min (s.offset + s.length) (o.offset + o.length) - max s.offset o.offset).toNat = .ok P)
    (hQ : B.broadcastTo n (min (s.offset + s.length) (o.offset + o.length) - max s.offset o.offset).toNat = .ok Q)
    (p : ∀ i j, i < n → j < (min (s.offset + s.length) (o.offset + o.length) - max s.offset o.offset).toNat →
      P.get i j = s.channels.get (if s.count = 1 then 0 else i) ((max s.offset o.offset - s.offset).toNat + j))
    (q : ∀ i j, i < n → j < (min (s.offset + s.length) (o.offset + o.length) - max s.offset o.offset).toNat →
      Q.get i j = o.channels.get (if o.count = 1 then 0 else i) ((max s.offset o.offset - o.offset).toNat + j)) :
    ∃ C, Mat.ufunc2 f A B M r (.range (max s.offset o.offset - min s.offset o.offset)
        (min (s.offset + s.length) (o.offset + o.length) - min s.offset o.offset)) = .ok C ∧ HullShape s o C ∧
      ∀ i j, i < C.rows → j < C.cols →
        (∀ x y, s.bcast i (min s.offset o.offset + j) = some x → o.bcast i (min s.offset o.offset + j) = some y →
          C.get i j = f x y) ∧
        (s.bcast i (min s.offset o.offset + j) = none ∨ o.bcast i (min s.offset o.offset + j) = none →
          C.get i j = M.get i j) := by
  obtain ⟨m1, m2⟩ := hM
  generalize hos : max s.offset o.offset = os at *
  generalize hoe : min (s.offset + s.length) (o.offset + o.length) = oe at *
  generalize hst : min s.offset o.offset = st at *
  have f1 : s.offset ≤ os := by omega
  have f2 : o.offset ≤ os := by omega
  have f3 : oe ≤ s.offset + s.length := by omega
  have f4 : oe ≤ o.offset + o.length := by omega
  have f5 : st ≤ s.offset := by omega
  have f5' : st ≤ o.offset := by omega
  have f6 : oe - st ≤ M.cols := by omega
  have f7 : ∀ t : Int, s.offset ≤ t → o.offset ≤ t → os ≤ t := by intro t; omega
  have f8 : ∀ t : Int, t < s.offset + s.length → t < o.offset + o.length → t < oe := by intro t; omega
  have clo : (PySlice.range (os - st) (oe - st)).lo M.cols = (os - st).toNat := by
    clear hn m1 m2 hP hQ p q hos hoe hst
    rw [PySlice.lo_range, clampBound_nonneg (by omega)]; omega
  have chi : (PySlice.range (os - st) (oe - st)).hi M.cols = (oe - st).toNat := by
    clear hn m1 m2 hP hQ p q hos hoe hst
    rw [PySlice.hi_range, clampBound_nonneg (by omega)]; omega
  have elen : (oe - st).toNat - (os - st).toNat = (oe - os).toNat := by
    clear hn m1 m2 hP hQ p q hos hoe hst; omega
  obtain ⟨C, hC, b1, b2, b3, b4⟩ := Mat.ufunc2_of_broadcast (f := f) (out := M) (r := r)
    (c := .range (os - st) (oe - st)) 0 n (os - st).toNat (oe - st).toNat hr0 hr1 clo chi
    (by rw [elen]; exact hP) (by rw [elen]; exact hQ)
  refine ⟨C, hC, ⟨b1.trans m1, by rw [b2, m2, hst]⟩, ?_⟩
  intro i j hi hj
  rw [b1] at hi
  have hni := hn i hi
  clear hn m1 m2 hP hQ hos hoe hst b2 clo chi hr0 hr1 elen
  by_cases hr : i < n ∧ os ≤ st + (j : Int) ∧ st + (j : Int) < oe
  · obtain ⟨hrn, hr⟩ := hr
    have hc := hni.mp hrn
    clear hni
    have e1 := bcast_some s i (st + j) hc.1 (by omega) (by omega)
    have e2 := bcast_some o i (st + j) hc.2 (by omega) (by omega)
    rw [e1, e2]
    clear hc e1 e2
    constructor
    · rintro x y hx hy
      rw [← Option.some.inj hx, ← Option.some.inj hy, b3 i j (Nat.zero_le _) hrn (by omega) (by omega)]
      have k : j - (os - st).toNat < (oe - os).toNat := by omega
      rw [Nat.sub_zero, p _ _ hrn k, q _ _ hrn k]
      have k1 : (os - s.offset).toNat + (j - (os - st).toNat) = (st + j - s.offset).toNat := by omega
      have k2 : (os - o.offset).toNat + (j - (os - st).toNat) = (st + j - o.offset).toNat := by omega
      rw [k1, k2]
    · intro h; rcases h with h | h <;> cases h
  · constructor
    · intro x y hx hy
      exfalso
      have e1 : (s.count = 1 ∨ i < s.count) ∧ s.offset ≤ st + (j : Int) ∧ st + (j : Int) < s.offset + s.length := by
        by_contra hcon; rw [bcast_none s i _ hcon] at hx; cases hx
      have e2 : (o.count = 1 ∨ i < o.count) ∧ o.offset ≤ st + (j : Int) ∧ st + (j : Int) < o.offset + o.length := by
        by_contra hcon; rw [bcast_none o i _ hcon] at hy; cases hy
      exact hr ⟨hni.mpr ⟨e1.1, e2.1⟩, f7 _ e1.2.1 e2.2.1, f8 _ e1.2.2 e2.2.2⟩
    · intro _
      refine b4 i j ?_
      rintro ⟨⟨_, g1⟩, g2, g3⟩
      exact hr ⟨g1, by omega, by omega⟩

omit [Zero α] in
theorem computeOverlap_ok (hso : Compatible s o) (M : Mat α) (hM : HullShape s o M) :
    ∃ C, computeOverlap f s o M = .ok C ∧ HullShape s o C ∧
      ∀ i j, i < C.rows → j < C.cols →
        (∀ x y, s.bcast i (min s.offset o.offset + j) = some x → o.bcast i (min s.offset o.offset + j) = some y →
          C.get i j = f x y) ∧
        (s.bcast i (min s.offset o.offset + j) = none ∨ o.bcast i (min s.offset o.offset + j) = none →
          C.get i j = M.get i j) := by
  have m1 := hM.1
  unfold Compatible at hso
  have hsC : s.channels.rows = s.count := rfl
  have hoC : o.channels.rows = o.count := rfl
  unfold computeOverlap
  simp only
  by_cases hov : max s.offset o.offset < min (s.offset + s.length) (o.offset + o.length)
  · rw [if_pos hov]
    have slo : (PySlice.range (max s.offset o.offset - s.offset) (min (s.offset + s.length) (o.offset + o.length) - s.offset)).lo s.length
        = (max s.offset o.offset - s.offset).toNat := by
      rw [PySlice.lo_range, clampBound_nonneg (by omega)]; omega
    have shi : (PySlice.range (max s.offset o.offset - s.offset) (min (s.offset + s.length) (o.offset + o.length) - s.offset)).count s.length
        = (min (s.offset + s.length) (o.offset + o.length) - max s.offset o.offset).toNat := by
      rw [PySlice.count_range, clampBound_nonneg (by omega), clampBound_nonneg (by omega)]; omega
    have olo : (PySlice.range (max s.offset o.offset - o.offset) (min (s.offset + s.length) (o.offset + o.length) - o.offset)).lo o.length
        = (max s.offset o.offset - o.offset).toNat := by
      rw [PySlice.lo_range, clampBound_nonneg (by omega)]; omega
    have ohi : (PySlice.range (max s.offset o.offset - o.offset) (min (s.offset + s.length) (o.offset + o.length) - o.offset)).count o.length
        = (min (s.offset + s.length) (o.offset + o.length) - max s.offset o.offset).toNat := by
      rw [PySlice.count_range, clampBound_nonneg (by omega), clampBound_nonneg (by omega)]; omega
    by_cases h1 : s.count = 1
    · rw [if_pos h1]
      obtain ⟨P, hP, p1, p2, p3⟩ := Mat.broadcastTo_row (r := M.rows)
        (A := (s.channels.row 0).slice .all (.range (max s.offset o.offset - s.offset) (min (s.offset + s.length) (o.offset + o.length) - s.offset)))
        rfl shi
      obtain ⟨Q, hQ, q1, q2, q3⟩ := Mat.broadcastTo_self
        (A := o.channels.slice .all (.range (max s.offset o.offset - o.offset) (min (s.offset + s.length) (o.offset + o.length) - o.offset)))
        (r := M.rows) (by rw [Mat.slice_rows, PySlice.count_all]; omega) ohi
      refine overlap_step f s o M _ _ P Q hM .all M.rows hov rfl rfl (by intro i hi; omega) hP hQ ?_ ?_
      · intro i j hi hj
        rw [p3 i j hi hj, if_pos h1, Mat.slice_all_get]
        show s.channels.get 0 (PySlice.lo _ s.length + _) = _
        rw [slo]
      · intro i j hi hj
        rw [q3 i j hi hj, Mat.slice_all_get]
        show o.channels.get _ (PySlice.lo _ o.length + _) = _
        rw [olo]
        congr 1
        by_cases h2 : o.count = 1
        · rw [if_pos h2]; omega
        · rw [if_neg h2]
    · rw [if_neg h1]
      by_cases h2 : o.count = 1
      · rw [if_pos h2]
        obtain ⟨Q, hQ, q1, q2, q3⟩ := Mat.broadcastTo_row (r := M.rows)
          (A := (o.channels.row 0).slice .all (.range (max s.offset o.offset - o.offset) (min (s.offset + s.length) (o.offset + o.length) - o.offset)))
          rfl ohi
        obtain ⟨P, hP, p1, p2, p3⟩ := Mat.broadcastTo_self
          (A := s.channels.slice .all (.range (max s.offset o.offset - s.offset) (min (s.offset + s.length) (o.offset + o.length) - s.offset)))
          (r := M.rows) (by rw [Mat.slice_rows, PySlice.count_all]; omega) shi
        refine overlap_step f s o M _ _ P Q hM .all M.rows hov rfl rfl (by intro i hi; omega) hP hQ ?_ ?_
        · intro i j hi hj
          rw [p3 i j hi hj, Mat.slice_all_get, if_neg h1]
          show s.channels.get _ (PySlice.lo _ s.length + _) = _
          rw [slo]
        · intro i j hi hj
          rw [q3 i j hi hj, if_pos h2, Mat.slice_all_get]
          show o.channels.get 0 (PySlice.lo _ o.length + _) = _
          rw [olo]
      · rw [if_neg h2]
        obtain ⟨P, hP, p1, p2, p3⟩ := Mat.broadcastTo_self
          (A := s.channels.slice (.range 0 (min s.count o.count : Nat)) (.range (max s.offset o.offset - s.offset) (min (s.offset + s.length) (o.offset + o.length) - s.offset)))
          (r := min s.count o.count)
          (by rw [Mat.slice_rows, PySlice.count_range, clampBound_nat, clampBound_zero]; omega) shi
        obtain ⟨Q, hQ, q1, q2, q3⟩ := Mat.broadcastTo_self
          (A := o.channels.slice (.range 0 (min s.count o.count : Nat)) (.range (max s.offset o.offset - o.offset) (min (s.offset + s.length) (o.offset + o.length) - o.offset)))
          (r := min s.count o.count)
          (by rw [Mat.slice_rows, PySlice.count_range, clampBound_nat, clampBound_zero]; omega) ohi
        refine overlap_step f s o M _ _ P Q hM (.range 0 (min s.count o.count : Nat)) (min s.count o.count) hov (by simp)
          (by rw [m1, PySlice.hi_range, clampBound_nat]; omega) (by intro i hi; omega) hP hQ ?_ ?_
        · intro i j hi hj
          rw [p3 i j hi hj, Mat.slice_get, if_neg h1]
          show s.channels.get (PySlice.lo _ s.count + _) (PySlice.lo _ s.length + _) = _
          rw [slo, PySlice.lo_range, clampBound_zero, Nat.zero_add]
        · intro i j hi hj
          rw [q3 i j hi hj, Mat.slice_get, if_neg h2]
          show o.channels.get (PySlice.lo _ o.count + _) (PySlice.lo _ o.length + _) = _
          rw [olo, PySlice.lo_range, clampBound_zero, Nat.zero_add]
  · rw [if_neg hov]
    refine ⟨M, rfl, hM, ?_⟩
    intro i j hi hj
    constructor
    · intro x y hx hy
      exfalso
      have e1 : (s.count = 1 ∨ i < s.count) ∧ s.offset ≤ min s.offset o.offset + (j : Int) ∧ min s.offset o.offset + (j : Int) < s.offset + s.length := by
        by_contra hcon; rw [bcast_none s i _ hcon] at hx; cases hx
      have e2 : (o.count = 1 ∨ i < o.count) ∧ o.offset ≤ min s.offset o.offset + (j : Int) ∧ min s.offset o.offset + (j : Int) < o.offset + o.length := by
        by_contra hcon; rw [bcast_none o i _ hcon] at hy; cases hy
      omega
    · intro _; rfl

/-- What C10 demands: the shape, the parameters and every sample of the result of a binary operator. -/
def AlgebraSpec (label : String) (r : Signal α R) : Prop :=
  r.count = max s.count o.count ∧ r.rate = s.rate ∧
  r.offset = min s.offset o.offset ∧
  r.offset + r.length = max (s.offset + s.length) (o.offset + o.length) ∧
  r.labels = List.replicate r.count label ∧
  ∀ c t, c < r.count → r.offset ≤ t → t < r.offset + r.length →
    r.at_ c t = some (combine f pivot (s.bcast c t) (o.bcast c t))

theorem algebraDifferentShapes_ok (label : String) (hso : Compatible s o) :
    ∃ r, algebraDifferentShapes mem f pivot label s o = .ok r ∧ AlgebraSpec f pivot s o label r := by
  obtain ⟨A, hA, a1, a2⟩ := copySelf_ok mem s o
  obtain ⟨B, hB, b1, b2⟩ := copyOther_ok f pivot s o A a1
  obtain ⟨C, hC, c1, c2⟩ := computeOverlap_ok f s o hso B b1
  unfold algebraDifferentShapes
  simp only [bind, Except.bind, hA, hB, hC]
  obtain ⟨r1, r2⟩ := c1
  refine ⟨_, rfl, r1, rfl, rfl, ?_, ?_, ?_⟩
  · show min s.offset o.offset + (C.cols : Int) = _
    omega
  · show sanitizeLabels (some (List.replicate _ label)) C.rows = List.replicate C.rows label
    rw [r1]
    exact sanitize_self (by simp)
  · intro c t hc h1 h2
    change c < C.rows at hc
    change min s.offset o.offset ≤ t at h1
    change t < min s.offset o.offset + (C.cols : Int) at h2
    rw [at_eq_some]
    refine ⟨hc, h1, h2, ?_⟩
    show C.get c (t - min s.offset o.offset).toNat = _
    have hj : (t - min s.offset o.offset).toNat < C.cols := by omega
    have ht : min s.offset o.offset + (((t - min s.offset o.offset).toNat : Nat) : Int) = t := by omega
    obtain ⟨k1, k2⟩ := c2 c _ hc hj
    rw [ht] at k1 k2
    have eA := a2 c _ (by rw [a1.1, ← r1]; exact hc) (by rw [a1.2, ← r2]; exact hj)
    have eB := b2 c _ (by rw [b1.1, ← r1]; exact hc) (by rw [b1.2, ← r2]; exact hj)
    rw [ht] at eA eB
    cases hx : s.bcast c t with
    | none =>
      rw [k2 (Or.inl hx), eB, eA, hx]
      cases hy : o.bcast c t with
      | none => rfl
      | some y => cases pivot <;> rfl
    | some x =>
      cases hy : o.bcast c t with
      | none => rw [k2 (Or.inr hy), eB, hy, eA, hx]; rfl
      | some y => rw [k1 x y hx hy]; rfl

/-- C10: for all signals, arbitrary operators and arbitrary contents of the
allocated memory, the operator is computed pointwise in time on the hull of both time ranges.
`_partial`: the combination of a one-channel signal with a signal without channels is excluded, see
`C10_zero_channels_violated`. -/
theorem C10_pointwise_partial (label : String) (hso : Compatible s o) :
    ∃ r, algebra mem f pivot label s o = .ok r ∧ AlgebraSpec f pivot s o label r := by
  unfold algebra
  have hso' := hso
  unfold Compatible at hso'
  have hsL : s.channels.cols = s.length := rfl
  have hsC : s.channels.rows = s.count := rfl
  have hoL : o.channels.cols = o.length := rfl
  have hoC : o.channels.rows = o.count := rfl
  by_cases h1 : s.count = o.count ∧ s.length = o.length ∧ s.offset = o.offset
  · rw [if_pos h1]
    obtain ⟨P, hP, p1, p2, p3⟩ := Mat.broadcastTo_self (A := s.channels) (r := s.count - 0) (c := s.length - 0) rfl rfl
    obtain ⟨Q, hQ, q1, q2, q3⟩ := Mat.broadcastTo_self (A := o.channels) (r := s.count - 0) (c := s.length - 0)
      (by omega) (by omega)
    obtain ⟨B, hB, b1, b2, b3, b4⟩ := Mat.ufunc2_of_broadcast (f := f) (out := alloc mem s.count s.length) (r := .all)
      (c := .all) 0 s.count 0 s.length rfl rfl rfl rfl hP hQ
    unfold algebraOverlap
    simp only [bind, Except.bind, hB]
    change B.rows = s.count at b1
    change B.cols = s.length at b2
    refine ⟨_, rfl, ?_, rfl, ?_, ?_, ?_, ?_⟩
    · show B.rows = _; omega
    · show s.offset = _; omega
    · show s.offset + (B.cols : Int) = _; omega
    · show sanitizeLabels (some (List.replicate s.count label)) B.rows = List.replicate B.rows label
      rw [b1]; exact sanitize_self (by simp)
    · intro c t hc g1 g2
      change c < B.rows at hc
      change s.offset ≤ t at g1
      change t < s.offset + (B.cols : Int) at g2
      rw [bcast_some s c t (by omega) (by omega) (by omega), bcast_some o c t (by omega) (by omega) (by omega),
        at_eq_some]
      refine ⟨hc, g1, g2, ?_⟩
      show B.get c (t - s.offset).toNat = _
      rw [b3 _ _ (by omega) (by omega) (by omega) (by omega), p3 _ _ (by omega) (by omega), q3 _ _ (by omega) (by omega)]
      show f _ _ = f _ _
      congr 2
      · split <;> omega
      · split <;> omega
      · omega
  · rw [if_neg h1]
    by_cases h2 : s.count = 1 ∧ s.length = o.length ∧ s.offset = o.offset
    · rw [if_pos h2]
      obtain ⟨P, hP, p1, p2, p3⟩ := Mat.broadcastTo_row (A := s.channels.row 0) (r := o.count - 0)
        (c := o.length - 0) rfl (by show s.channels.cols = _; omega)
      obtain ⟨Q, hQ, q1, q2, q3⟩ := Mat.broadcastTo_self (A := o.channels) (r := o.count - 0) (c := o.length - 0)
        (by omega) (by omega)
      obtain ⟨B, hB, b1, b2, b3, b4⟩ := Mat.ufunc2_of_broadcast (f := f) (out := alloc mem o.count o.length) (r := .all)
        (c := .all) 0 o.count 0 o.length rfl rfl rfl rfl hP hQ
      unfold algebraSelfOne
      simp only [bind, Except.bind, hB]
      change B.rows = o.count at b1
      change B.cols = o.length at b2
      refine ⟨_, rfl, ?_, rfl, ?_, ?_, ?_, ?_⟩
      · show B.rows = _; omega
      · show s.offset = _; omega
      · show s.offset + (B.cols : Int) = _; omega
      · show sanitizeLabels (some (List.replicate o.count label)) B.rows = List.replicate B.rows label
        rw [b1]; exact sanitize_self (by simp)
      · intro c t hc g1 g2
        change c < B.rows at hc
        change s.offset ≤ t at g1
        change t < s.offset + (B.cols : Int) at g2
        rw [bcast_some s c t (by omega) (by omega) (by omega), bcast_some o c t (by omega) (by omega) (by omega),
          at_eq_some]
        refine ⟨hc, g1, g2, ?_⟩
        show B.get c (t - s.offset).toNat = _
        rw [b3 _ _ (by omega) (by omega) (by omega) (by omega), p3 _ _ (by omega) (by omega), q3 _ _ (by omega) (by omega),
          if_pos h2.1]
        show f (s.channels.get 0 _) _ = f _ _
        congr 2
        · split <;> omega
        · show _ - 0 = _
          omega
    · rw [if_neg h2]
      by_cases h3 : o.count = 1 ∧ s.length = o.length ∧ s.offset = o.offset
      · rw [if_pos h3]
        obtain ⟨P, hP, p1, p2, p3⟩ := Mat.broadcastTo_self (A := s.channels) (r := s.count - 0) (c := s.length - 0) rfl rfl
        obtain ⟨Q, hQ, q1, q2, q3⟩ := Mat.broadcastTo_row (A := o.channels.row 0) (r := s.count - 0)
          (c := s.length - 0) rfl (by show o.channels.cols = _; omega)
        obtain ⟨B, hB, b1, b2, b3, b4⟩ := Mat.ufunc2_of_broadcast (f := f) (out := alloc mem s.count s.length) (r := .all)
          (c := .all) 0 s.count 0 s.length rfl rfl rfl rfl hP hQ
        unfold algebraOtherOne
        simp only [bind, Except.bind, hB]
        change B.rows = s.count at b1
        change B.cols = s.length at b2
        refine ⟨_, rfl, ?_, rfl, ?_, ?_, ?_, ?_⟩
        · show B.rows = _; omega
        · show s.offset = _; omega
        · show s.offset + (B.cols : Int) = _; omega
        · show sanitizeLabels (some (List.replicate s.count label)) B.rows = List.replicate B.rows label
          rw [b1]; exact sanitize_self (by simp)
        · intro c t hc g1 g2
          change c < B.rows at hc
          change s.offset ≤ t at g1
          change t < s.offset + (B.cols : Int) at g2
          rw [bcast_some s c t (by omega) (by omega) (by omega), bcast_some o c t (by omega) (by omega) (by omega),
            at_eq_some]
          refine ⟨hc, g1, g2, ?_⟩
          show B.get c (t - s.offset).toNat = _
          rw [b3 _ _ (by omega) (by omega) (by omega) (by omega), p3 _ _ (by omega) (by omega), q3 _ _ (by omega) (by omega),
            if_pos h3.1]
          show f _ (o.channels.get 0 _) = f _ _
          congr 2
          · split <;> omega
          · show _ - 0 = _
            omega
      · rw [if_neg h3]
        exact algebraDifferentShapes_ok mem f pivot s o label hso

end

/-- two signals for examples -/
def demo2 : Signal Nat Nat := new (Mat.ofRows 2 [[10, 20]]) 48000 9 (some ["x"])

/-- the samples of a result as a list of lists -/
def toLists (r : Py (Signal α R)) : Option (Int × List (List α)) := match r with
  | .error _ => none
  | .ok r => some (r.offset, (List.range r.count).map fun c => (List.range r.length).map fun i => r.channels.get c i)

example : Compatible demo demo2 ∧
    toLists (algebra (fun _ _ => 99) (fun x y => 100 * x + y) none "f" demo demo2)
      = some (7, [[1, 2, 310, 20], [4, 5, 610, 20]]) := by
  refine ⟨by unfold Compatible; decide, by rfl⟩

example : toLists (algebra (fun _ _ => 99) (fun x y => 100 * x + y) (some 3) "f" demo demo2)
      = some (7, [[1, 2, 310, 320], [4, 5, 610, 320]]) := by rfl

/-- C10 is violated for a signal without channels: the operator raises an exception. -/
theorem C10_zero_channels_violated : ∃ s o : Signal Nat Nat, s.count = 1 ∧ o.count = 0 ∧
    ∀ mem f pivot label, algebra mem f pivot label s o = .error .valueError := by
  refine ⟨demo2, new ⟨0, 1, fun _ _ => 0⟩ 48000 9 none, rfl, rfl, ?_⟩
  intro mem f pivot label
  cases pivot <;> rfl

end Signal
end Verif
