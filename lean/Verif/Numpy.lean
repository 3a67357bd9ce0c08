/-
The small fragment of python and numpy on which the model of SuMPF is built.

Modelled behaviour (trusted base): python's resolution of slice bounds (step 1), numpy's
two-dimensional arrays with basic slicing, slice assignment with broadcasting, element-wise
functions with an `out` parameter.  Nothing in this file models SuMPF itself.
-/

namespace Verif

/-- The python exceptions which the modelled code raises. -/
inductive PyExc where
  | valueError
  | indexError
  | typeError
  | runtimeError
  | zeroDivisionError
  | importError
  | keyError
  | attributeError
  | structError
  deriving DecidableEq, Repr

/-- Result of a python call: a value or an exception. -/
abbrev Py (α : Type) := Except PyExc α

/-- Python's resolution of one bound of a slice of a sequence with `n` elements: negative bounds
are counted from the end, and everything is clamped to `0 … n` (`PySlice_AdjustIndices`). -/
def clampBound (n : Nat) (i : Int) : Nat :=
  if i < 0 then (i + n).toNat else min i.toNat n

/-- `slice(start, stop)` resolved for a sequence of `n` elements; a missing bound is `none`. -/
structure PySlice where
  start : Option Int := none
  stop : Option Int := none
  deriving DecidableEq, Repr

namespace PySlice

/-- the first selected index -/
def lo (s : PySlice) (n : Nat) : Nat := match s.start with
  | none => 0
  | some i => clampBound n i

/-- the first index after the selection -/
def hi (s : PySlice) (n : Nat) : Nat := match s.stop with
  | none => n
  | some i => clampBound n i

/-- number of selected elements -/
def count (s : PySlice) (n : Nat) : Nat := s.hi n - s.lo n

/-- `[:]` -/
def all : PySlice := {}

/-- `[a:b]` -/
def range (a b : Int) : PySlice := { start := some a, stop := some b }

/-- `[a:]` -/
def drop (a : Int) : PySlice := { start := some a }

/-- `[:b]` -/
def take (b : Int) : PySlice := { stop := some b }

end PySlice

/-- A two-dimensional numpy array: its shape and its elements.  Values of `get` outside of the
shape have no meaning and are never observed. -/
structure Mat (α : Type) where
  rows : Nat
  cols : Nat
  get : Nat → Nat → α

namespace Mat

variable {α β γ : Type}

/-- Two arrays are indistinguishable if they have the same shape and the same elements. -/
def Eqv (A B : Mat α) : Prop :=
  A.rows = B.rows ∧ A.cols = B.cols ∧ ∀ c t, c < A.rows → t < A.cols → A.get c t = B.get c t

theorem Eqv.refl (A : Mat α) : A.Eqv A := ⟨rfl, rfl, fun _ _ _ _ => rfl⟩

theorem Eqv.symm {A B : Mat α} (h : A.Eqv B) : B.Eqv A :=
  ⟨h.1.symm, h.2.1.symm, fun c t hc ht => (h.2.2 c t (h.1 ▸ hc) (h.2.1 ▸ ht)).symm⟩

theorem Eqv.trans {A B C : Mat α} (h : A.Eqv B) (h' : B.Eqv C) : A.Eqv C :=
  ⟨h.1.trans h'.1, h.2.1.trans h'.2.1, fun c t hc ht =>
    (h.2.2 c t hc ht).trans (h'.2.2 c t (h.1 ▸ hc) (h.2.1 ▸ ht))⟩

/-- `A[r, c]` with slices `r` and `c`. -/
def slice (A : Mat α) (r c : PySlice) : Mat α where
  rows := r.count A.rows
  cols := c.count A.cols
  get i j := A.get (r.lo A.rows + i) (c.lo A.cols + j)

/-- `A[k]` as an array with one row, for a row index `k` that has been checked by the caller. -/
def row (A : Mat α) (k : Nat) : Mat α where
  rows := 1
  cols := A.cols
  get _ j := A.get k j

/-- an array with one element, which stands for a scalar in a broadcasting operation -/
def scalar (v : α) : Mat α where
  rows := 1
  cols := 1
  get _ _ := v

/-- numpy's broadcasting of `A` to the shape `(r, c)`. -/
def broadcastTo (A : Mat α) (r c : Nat) : Py (Mat α) :=
  if (A.rows = r ∨ A.rows = 1) ∧ (A.cols = c ∨ A.cols = 1) then
    .ok { rows := r
          cols := c
          get := fun i j => A.get (if A.rows = 1 then 0 else i) (if A.cols = 1 then 0 else j) }
  else .error .valueError

/-- `A[r, c] = S` with numpy's broadcasting. -/
def assign (A : Mat α) (r c : PySlice) (S : Mat α) : Py (Mat α) :=
  match S.broadcastTo (r.count A.rows) (c.count A.cols) with
  | .error e => .error e
  | .ok B => .ok
    { rows := A.rows
      cols := A.cols
      get := fun i j =>
        if (r.lo A.rows ≤ i ∧ i < r.hi A.rows) ∧ (c.lo A.cols ≤ j ∧ j < c.hi A.cols)
        then B.get (i - r.lo A.rows) (j - c.lo A.cols) else A.get i j }

/-- `function(A, B, out=out[r, c])` for an element-wise `function` of two arguments. -/
def ufunc2 (f : α → β → γ) (A : Mat α) (B : Mat β) (out : Mat γ) (r c : PySlice) : Py (Mat γ) :=
  match A.broadcastTo (r.count out.rows) (c.count out.cols),
        B.broadcastTo (r.count out.rows) (c.count out.cols) with
  | .error e, _ => .error e
  | _, .error e => .error e
  | .ok A', .ok B' => out.assign r c
      { rows := r.count out.rows
        cols := c.count out.cols
        get := fun i j => f (A'.get i j) (B'.get i j) }

/-- element-wise function of one argument -/
def map (f : α → β) (A : Mat α) : Mat β where
  rows := A.rows
  cols := A.cols
  get i j := f (A.get i j)

/-- `tuple(A.flat)` -/
def flat (A : Mat α) : List α :=
  (List.range A.rows).flatMap fun i => (List.range A.cols).map fun j => A.get i j

/-- build an array from a list of rows (for examples) -/
def ofRows [Inhabited α] (cols : Nat) (l : List (List α)) : Mat α where
  rows := l.length
  cols := cols
  get i j := (l.getD i []).getD j default

end Mat
end Verif
