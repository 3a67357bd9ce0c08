import Verif.NumpyLemmas

/-
Three-dimensional numpy arrays, with the operations that `sumpf/_data/_spectrograms` uses.  Nothing in this
file models SuMPF itself.
-/

namespace Verif

/-- A three-dimensional numpy array: its shape and its elements.  Values of `get` outside of the shape have
no meaning and are never observed. -/
structure Cube (α : Type) where
  d0 : Nat
  d1 : Nat
  d2 : Nat
  get : Nat → Nat → Nat → α

namespace Cube

variable {α β γ : Type}

/-- `A[r, s, t]` with three slices -/
def slice (A : Cube α) (r s t : PySlice) : Cube α where
  d0 := r.count A.d0
  d1 := s.count A.d1
  d2 := t.count A.d2
  get i j k := A.get (r.lo A.d0 + i) (s.lo A.d1 + j) (t.lo A.d2 + k)

/-- `A[n]` as an array with one element along the first axis -/
def row (A : Cube α) (n : Nat) : Cube α where
  d0 := 1
  d1 := A.d1
  d2 := A.d2
  get _ j k := A.get n j k

/-- an array with one element, which stands for a scalar in a broadcasting operation -/
def scalar (v : α) : Cube α where
  d0 := 1
  d1 := 1
  d2 := 1
  get _ _ _ := v

/-- a two-dimensional array in an operation with three-dimensional ones -/
def ofMat (A : Mat α) : Cube α where
  d0 := 1
  d1 := A.rows
  d2 := A.cols
  get _ j k := A.get j k

/-- `A.transpose((1, 0, 2))` -/
def transpose102 (A : Cube α) : Cube α where
  d0 := A.d1
  d1 := A.d0
  d2 := A.d2
  get i j k := A.get j i k

/-- `A.transpose((2, 0, 1))` -/
def transpose201 (A : Cube α) : Cube α where
  d0 := A.d2
  d1 := A.d0
  d2 := A.d1
  get i j k := A.get j k i

/-- `A.transpose((1, 2, 0))`, the inverse of `transpose201` -/
def transpose120 (A : Cube α) : Cube α where
  d0 := A.d1
  d1 := A.d2
  d2 := A.d0
  get i j k := A.get k i j

/-- `A.transpose((0, 2, 1))` -/
def transpose021 (A : Cube α) : Cube α where
  d0 := A.d0
  d1 := A.d2
  d2 := A.d1
  get i j k := A.get i k j

/-- the index along an axis of length `n` that is used for index `i` of the broadcast array -/
def ix (n i : Nat) : Nat := if n = 1 then 0 else i

/-- numpy's broadcasting of `A` to the shape `(n0, n1, n2)`. -/
def broadcastTo (A : Cube α) (n0 n1 n2 : Nat) : Py (Cube α) :=
  if (A.d0 = n0 ∨ A.d0 = 1) ∧ (A.d1 = n1 ∨ A.d1 = 1) ∧ (A.d2 = n2 ∨ A.d2 = 1) then
    .ok { d0 := n0, d1 := n1, d2 := n2, get := fun i j k => A.get (ix A.d0 i) (ix A.d1 j) (ix A.d2 k) }
  else .error .valueError

/-- `A[r, s, t] = S` with numpy's broadcasting. -/
def assign (A : Cube α) (r s t : PySlice) (S : Cube α) : Py (Cube α) :=
  match S.broadcastTo (r.count A.d0) (s.count A.d1) (t.count A.d2) with
  | .error e => .error e
  | .ok B => .ok
    { d0 := A.d0, d1 := A.d1, d2 := A.d2
      get := fun i j k =>
        if (r.lo A.d0 ≤ i ∧ i < r.hi A.d0) ∧ (s.lo A.d1 ≤ j ∧ j < s.hi A.d1) ∧ (t.lo A.d2 ≤ k ∧ k < t.hi A.d2)
        then B.get (i - r.lo A.d0) (j - s.lo A.d1) (k - t.lo A.d2) else A.get i j k }

/-- `function(A, B, out=out[r, s, t])` for an element-wise `function` of two arguments. -/
def ufunc2 (f : α → β → γ) (A : Cube α) (B : Cube β) (out : Cube γ) (r s t : PySlice) : Py (Cube γ) :=
  match A.broadcastTo (r.count out.d0) (s.count out.d1) (t.count out.d2),
        B.broadcastTo (r.count out.d0) (s.count out.d1) (t.count out.d2) with
  | .error e, _ => .error e
  | _, .error e => .error e
  | .ok A', .ok B' => out.assign r s t
      { d0 := r.count out.d0, d1 := s.count out.d1, d2 := t.count out.d2
        get := fun i j k => f (A'.get i j k) (B'.get i j k) }

/-- the elements in the order of the memory -/
def flat (A : Cube α) : List α :=
  (List.range A.d0).flatMap fun i => (List.range A.d1).flatMap fun j => (List.range A.d2).map fun k => A.get i j k

/-- build an array from nested lists (for examples) -/
def ofLists [Inhabited α] (d1 d2 : Nat) (l : List (List (List α))) : Cube α where
  d0 := l.length
  d1 := d1
  d2 := d2
  get i j k := ((l.getD i []).getD j []).getD k default

/-! ### Facts about these operations -/

theorem ix_lt {n i : Nat} (h : i < n) : ix n i = i := by unfold ix; split <;> omega
theorem ix_one (i : Nat) : ix 1 i = 0 := rfl
theorem ix_of_one {n : Nat} (h : n = 1) (i : Nat) : ix n i = 0 := by rw [h]; rfl

/-- a box of indices -/
def Box (a0 b0 a1 b1 a2 b2 i j k : Nat) : Prop := (a0 ≤ i ∧ i < b0) ∧ (a1 ≤ j ∧ j < b1) ∧ a2 ≤ k ∧ k < b2

/-- `C` is `A` after the elements in `P` have been overwritten by `v`. -/
structure Upd (A C : Cube α) (P : Nat → Nat → Nat → Prop) (v : Nat → Nat → Nat → α) : Prop where
  e0 : C.d0 = A.d0
  e1 : C.d1 = A.d1
  e2 : C.d2 = A.d2
  inside : ∀ i j k, P i j k → C.get i j k = v i j k
  outside : ∀ i j k, ¬ P i j k → C.get i j k = A.get i j k

/-- `S` can be broadcast to the shape. -/
def Fits (S : Cube α) (n0 n1 n2 : Nat) : Prop :=
  (S.d0 = n0 ∨ S.d0 = 1) ∧ (S.d1 = n1 ∨ S.d1 = 1) ∧ (S.d2 = n2 ∨ S.d2 = 1)

theorem broadcastTo_ok {S : Cube α} {n0 n1 n2 : Nat} (h : S.Fits n0 n1 n2) :
    S.broadcastTo n0 n1 n2 = .ok ⟨n0, n1, n2, fun i j k => S.get (ix S.d0 i) (ix S.d1 j) (ix S.d2 k)⟩ := by
  unfold broadcastTo
  exact if_pos h

theorem broadcastTo_error {S : Cube α} {n0 n1 n2 : Nat} (h : ¬ S.Fits n0 n1 n2) :
    S.broadcastTo n0 n1 n2 = .error .valueError := by
  unfold broadcastTo
  exact if_neg h

theorem assign_ok {A S : Cube α} {r s t : PySlice} (a0 b0 a1 b1 a2 b2 : Nat)
    (hr : r.lo A.d0 = a0 ∧ r.hi A.d0 = b0) (hs : s.lo A.d1 = a1 ∧ s.hi A.d1 = b1)
    (ht : t.lo A.d2 = a2 ∧ t.hi A.d2 = b2) (hS : S.Fits (b0 - a0) (b1 - a1) (b2 - a2)) :
    ∃ C, A.assign r s t S = .ok C ∧ Upd A C (Box a0 b0 a1 b1 a2 b2)
      (fun i j k => S.get (ix S.d0 (i - a0)) (ix S.d1 (j - a1)) (ix S.d2 (k - a2))) := by
  obtain ⟨h1, h2⟩ := hr
  obtain ⟨h3, h4⟩ := hs
  obtain ⟨h5, h6⟩ := ht
  subst h1 h2 h3 h4 h5 h6
  unfold assign
  rw [broadcastTo_ok (S := S) (n0 := r.count A.d0) (n1 := s.count A.d1) (n2 := t.count A.d2) hS]
  exact ⟨_, rfl, rfl, rfl, rfl, fun i j k h => if_pos h, fun i j k h => if_neg h⟩

theorem ufunc2_ok {f : α → β → γ} {A : Cube α} {B : Cube β} {out : Cube γ} {r s t : PySlice}
    (a0 b0 a1 b1 a2 b2 : Nat)
    (hr : r.lo out.d0 = a0 ∧ r.hi out.d0 = b0) (hs : s.lo out.d1 = a1 ∧ s.hi out.d1 = b1)
    (ht : t.lo out.d2 = a2 ∧ t.hi out.d2 = b2)
    (hA : A.Fits (b0 - a0) (b1 - a1) (b2 - a2)) (hB : B.Fits (b0 - a0) (b1 - a1) (b2 - a2)) :
    ∃ C, ufunc2 f A B out r s t = .ok C ∧ Upd out C (Box a0 b0 a1 b1 a2 b2)
      (fun i j k => f (A.get (ix A.d0 (i - a0)) (ix A.d1 (j - a1)) (ix A.d2 (k - a2)))
        (B.get (ix B.d0 (i - a0)) (ix B.d1 (j - a1)) (ix B.d2 (k - a2)))) := by
  obtain ⟨h1, h2⟩ := hr
  obtain ⟨h3, h4⟩ := hs
  obtain ⟨h5, h6⟩ := ht
  subst h1 h2 h3 h4 h5 h6
  unfold ufunc2
  rw [broadcastTo_ok (S := A) (n0 := r.count out.d0) (n1 := s.count out.d1) (n2 := t.count out.d2) hA,
    broadcastTo_ok (S := B) (n0 := r.count out.d0) (n1 := s.count out.d1) (n2 := t.count out.d2) hB]
  obtain ⟨C, h, u⟩ := assign_ok (A := out) (r := r) (s := s) (t := t)
    (S := ⟨r.count out.d0, s.count out.d1, t.count out.d2,
            fun i j k => f (A.get (ix A.d0 i) (ix A.d1 j) (ix A.d2 k)) (B.get (ix B.d0 i) (ix B.d1 j) (ix B.d2 k))⟩) _ _ _ _ _ _ ⟨rfl, rfl⟩ ⟨rfl, rfl⟩ ⟨rfl, rfl⟩
    ⟨Or.inl rfl, Or.inl rfl, Or.inl rfl⟩
  refine ⟨C, h, u.e0, u.e1, u.e2, ?_, u.outside⟩
  intro i j k hb
  rw [u.inside i j k hb]
  obtain ⟨⟨g1, g2⟩, ⟨g3, g4⟩, g5, g6⟩ := hb
  simp only
  rw [ix_lt (n := r.count out.d0) (i := i - r.lo out.d0) (by unfold PySlice.count; omega),
    ix_lt (n := s.count out.d1) (i := j - s.lo out.d1) (by unfold PySlice.count; omega),
    ix_lt (n := t.count out.d2) (i := k - t.lo out.d2) (by unfold PySlice.count; omega)]

end Cube
end Verif
