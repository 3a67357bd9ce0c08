import Verif.DataTypes
import Verif.ConcatenateProps
import Mathlib.Tactic.Ring

/-
Property C149: the results do not depend on the data type, in which the samples are stored.
-/

namespace Verif
namespace DataTypes

variable {R : Type}

/-! ### Specification -/

/-- The times, at which the data sets of a concatenation start, and their data types: each data set is delayed to the
end of its predecessor. -/
def starts {A : Type} (offset : A → Int) (length : A → Nat) : Int → List (Typed A) → List (Int × DType)
  | _, [] => []
  | n, s :: rest => (n + offset s.value, s.type) :: starts offset length (n + offset s.value + length s.value) rest

/-- a floating point type with 8 or 16 bytes -/
def IsDouble (d : DType) : Prop := d.kind = .float ∧ 8 ∣ d.size

/-- Numpy can store the exact results of the operator in the type, in which it computes. -/
def Fits (op : BinOp) (s o : Typed (Signal ℚ R)) : Prop :=
  ∀ c i c' i', c < s.value.count → i < s.value.length → c' < o.value.count → i' < o.value.length →
    store (promote s.type o.type) (op.exact (s.value.channels.get c i) (o.value.channels.get c' i')) =
      op.exact (s.value.channels.get c i) (o.value.channels.get c' i')

/-! ### Allocation -/

theorem allocate_iff {size number : Nat} (hs : 0 < size) :
    (8 * (size / 8 * number) % size = 0 ∧ 8 * (size / 8 * number) / size = number) ↔ number = 0 ∨ 8 ∣ size := by
  constructor
  · rintro ⟨h1, h2⟩
    have h3 := Nat.div_add_mod (8 * (size / 8 * number)) size
    rw [h1, h2, Nat.add_zero] at h3
    have h4 := Nat.div_add_mod size 8
    generalize hq : size / 8 = q at *
    generalize hr : size % 8 = r at *
    rcases Nat.eq_zero_or_pos number with h | h
    · exact Or.inl h
    · right
      have h5 : (8 * q + r) * number = 8 * q * number := by rw [h4, h3]; ring
      have h6 : r * number = 0 := by rw [Nat.add_mul] at h5; omega
      rcases Nat.mul_eq_zero.1 h6 with h7 | h7
      · exact ⟨q, by omega⟩
      · omega
  · rintro (rfl | ⟨q, rfl⟩)
    · simp
    · have h : 8 * (8 * q / 8 * number) = 8 * q * number := by
        rw [Nat.mul_div_cancel_left _ (by omega)]; ring
      rw [h]
      exact ⟨Nat.mul_mod_right _ _, Nat.mul_div_cancel_left _ hs⟩

/-- C149: `allocate_array` returns an array with the requested number of elements, if the size of the elements is a
multiple of 8 bytes. `_partial`: for all other sizes, see `C149_allocate_violated`. -/
theorem C149_allocate_partial (size number : Nat) (hs : 0 < size) (h : 8 ∣ size) :
    allocateArray size number = .ok number := by
  obtain ⟨h1, h2⟩ := (allocate_iff (number := number) hs).2 (Or.inr h)
  unfold allocateArray
  dsimp only
  rw [if_neg (by omega), if_neg (by omega), h2]

example : allocateArray 16 5 = .ok 5 := C149_allocate_partial 16 5 (by decide) (by decide)

/-- C149 is violated: `allocate_array` fails for all arrays with elements, whose size is not a multiple of 8 bytes, e.g.
`numpy.float32` and `numpy.int16`, because the number of doubles per element is rounded down. -/
theorem C149_allocate_violated (size number : Nat) (hs : 0 < size) (h : ¬ 8 ∣ size) (hn : 0 < number) :
    allocateArray size number = .error .valueError := by
  have h1 := mt (allocate_iff (number := number) hs).1 (by rintro (h' | h') <;> [omega; exact h h'])
  unfold allocateArray
  dsimp only
  by_cases h2 : 8 * (size / 8 * number) % size ≠ 0
  · rw [if_pos h2]
  · rw [if_neg h2, if_pos (fun h3 => h1 ⟨by omega, h3⟩)]

example : allocateArray 4 100 = .error .valueError := C149_allocate_violated 4 100 (by decide) (by decide) (by decide)
example : allocateArray 2 0 = .ok 0 := rfl

/-! ### The operators of signals -/

theorem store_float {d : DType} (h : d.kind = .float) (x : ℚ) : store d x = x := by
  unfold store; rw [h]

theorem ufunc2_congr {α β γ : Type} (f g : α → β → γ) (A : Mat α) (B : Mat β) (out : Mat γ) (r c : PySlice)
    (h : ∀ i j i' j', i < A.rows → j < A.cols → i' < B.rows → j' < B.cols →
      f (A.get i j) (B.get i' j') = g (A.get i j) (B.get i' j')) :
    Mat.ufunc2 f A B out r c = Mat.ufunc2 g A B out r c := by
  unfold Mat.ufunc2
  cases hA : A.broadcastTo (r.count out.rows) (c.count out.cols) with
  | error e => rfl
  | ok A' =>
    cases hB : B.broadcastTo (r.count out.rows) (c.count out.cols) with
    | error e => rfl
    | ok B' =>
      unfold Mat.broadcastTo at hA hB
      split at hA
      case isFalse => cases hA
      case isTrue h1 =>
        split at hB
        case isFalse => cases hB
        case isTrue h2 =>
          cases hA
          cases hB
          dsimp only
          unfold Mat.assign
          have hb : ∀ k : α → β → γ, Mat.broadcastTo
              { rows := r.count out.rows, cols := c.count out.cols,
                get := fun i j => k (A.get (if A.rows = 1 then 0 else i) (if A.cols = 1 then 0 else j))
                  (B.get (if B.rows = 1 then 0 else i) (if B.cols = 1 then 0 else j)) }
              (r.count out.rows) (c.count out.cols) = .ok
              { rows := r.count out.rows, cols := c.count out.cols,
                get := fun i j => k
                  (A.get (if A.rows = 1 then 0 else if r.count out.rows = 1 then 0 else i)
                    (if A.cols = 1 then 0 else if c.count out.cols = 1 then 0 else j))
                  (B.get (if B.rows = 1 then 0 else if r.count out.rows = 1 then 0 else i)
                    (if B.cols = 1 then 0 else if c.count out.cols = 1 then 0 else j)) } := by
            intro k
            unfold Mat.broadcastTo
            rw [if_pos ⟨Or.inl rfl, Or.inl rfl⟩]
          rw [hb f, hb g]
          dsimp only
          congr 2
          funext i j
          by_cases hc : (r.lo out.rows ≤ i ∧ i < r.hi out.rows) ∧ c.lo out.cols ≤ j ∧ j < c.hi out.cols
          · rw [if_pos hc, if_pos hc]
            have e1 : r.count out.rows = r.hi out.rows - r.lo out.rows := rfl
            have e2 : c.count out.cols = c.hi out.cols - c.lo out.cols := rfl
            apply h
            · split <;> [omega; split <;> omega]
            · split <;> [omega; split <;> omega]
            · split <;> [omega; split <;> omega]
            · split <;> [omega; split <;> omega]
          · rw [if_neg hc, if_neg hc]

theorem slice_lt {s : PySlice} {n i : Nat} (h : i < s.count n) : s.lo n + i < n := by
  have := s.hi_le n
  unfold PySlice.count at h
  omega

theorem toDouble_eq (s : Signal ℚ R) : toDouble s = s := by
  unfold toDouble Mat.map
  simp only [store_float (d := float64) rfl]

theorem level_promote {a b : DType} (ha : a.kind ≠ .complex) (hb : b.kind ≠ .complex) :
    sameKind (promote a b) float64 = true := by
  obtain ⟨ka, na⟩ := a
  obtain ⟨kb, nb⟩ := b
  unfold sameKind
  rw [decide_eq_true_eq]
  cases ka <;> cases kb <;>
    first
    | exact absurd rfl ha
    | exact absurd rfl hb
    | (simp only [promote, float64, Kind.level]; omega)
    | (simp only [promote, mixedInt]; split_ifs <;> simp only [Kind.level, float64] <;> omega)

theorem function_ok {op : BinOp} {a b : DType} (ha : a.kind ≠ .complex) (hb : b.kind ≠ .complex)
    (hop : ¬ (op = .sub ∧ a.kind = .bool ∧ b.kind = .bool)) :
    op.function a b float64 = .ok fun x y => store (promote a b) (op.exact x y) := by
  unfold BinOp.function BinOp.loop
  rw [if_neg hop]
  show (if sameKind (promote a b) float64 = true then _ else _) = _
  rw [if_pos (level_promote ha hb)]
  rfl

theorem promote_float_left {a b : DType} (ha : a.kind = .float) (hb : b.kind ≠ .complex) :
    (promote a b).kind = .float := by
  obtain ⟨ka, na⟩ := a
  obtain ⟨kb, nb⟩ := b
  cases ha
  cases kb <;> first | rfl | exact absurd rfl hb

theorem promote_float_right {a b : DType} (ha : a.kind ≠ .complex) (hb : b.kind = .float) :
    (promote a b).kind = .float := by
  obtain ⟨ka, na⟩ := a
  obtain ⟨kb, nb⟩ := b
  cases hb
  cases ka <;> first | rfl | exact absurd rfl ha

/-- The operator with data types does the same as the one without. -/
theorem algebra_eq (mem : Nat → Nat → ℚ) (op : BinOp) (s o : Typed (Signal ℚ R))
    (hs : s.type.kind ≠ .complex) (ho : o.type.kind ≠ .complex)
    (hop : ¬ (op = .sub ∧ s.type.kind = .bool ∧ o.type.kind = .bool)) (hfit : Fits op s o) :
    algebraSignal mem op s o = Signal.algebra mem op.exact op.pivot op.label s.value o.value := by
  unfold algebraSignal Signal.algebra
  rw [function_ok hs ho hop]
  by_cases h1 : s.value.count = o.value.count ∧ s.value.length = o.value.length ∧ s.value.offset = o.value.offset
  · rw [if_pos h1, if_pos h1]
    show Signal.algebraOverlap _ _ _ _ _ = _
    unfold Signal.algebraOverlap
    rw [ufunc2_congr _ op.exact _ _ _ _ _ (fun i j i' j' a b c d => hfit i j i' j' a b c d)]
  rw [if_neg h1, if_neg h1]
  by_cases h2 : s.value.count = 1 ∧ s.value.length = o.value.length ∧ s.value.offset = o.value.offset
  · rw [if_pos h2, if_pos h2]
    show Signal.algebraSelfOne _ _ _ _ _ = _
    unfold Signal.algebraSelfOne
    rw [ufunc2_congr _ op.exact (s.value.channels.row 0) o.value.channels _ _ _
      (fun i j i' j' a b c d => hfit 0 j i' j' (by rw [h2.1]; omega) b c d)]
  rw [if_neg h2, if_neg h2]
  by_cases h3 : o.value.count = 1 ∧ s.value.length = o.value.length ∧ s.value.offset = o.value.offset
  · rw [if_pos h3, if_pos h3]
    show Signal.algebraOtherOne _ _ _ _ _ = _
    unfold Signal.algebraOtherOne
    rw [ufunc2_congr _ op.exact s.value.channels (o.value.channels.row 0) _ _ _
      (fun i j i' j' a b c d => hfit i j 0 j' a b (by rw [h3.1]; omega) d)]
  rw [if_neg h3, if_neg h3]
  unfold algebraDifferentShapes Signal.algebraDifferentShapes
  rw [toDouble_eq]
  congr 1
  funext C
  have e1 : copyOther op s o C = Signal.copyOther op.exact op.pivot s.value o.value C := by
    unfold copyOther
    cases hp : op.pivot with
    | none => dsimp only; rw [toDouble_eq]
    | some p =>
      dsimp only
      rw [function_ok (a := float64) (by decide) ho (by rintro ⟨-, h, -⟩; cases h)]
      have hf : (fun x y => store (promote float64 o.type) (op.exact x y)) = op.exact := by
        funext x y
        exact store_float (promote_float_left rfl ho) _
      rw [hf]
      rfl
  rw [e1]
  congr 1
  funext D
  have e2 : computeOverlap op s o D = Signal.computeOverlap op.exact s.value o.value D := by
    unfold computeOverlap
    rw [function_ok hs ho hop]
    by_cases h4 : max s.value.offset o.value.offset
        < min (s.value.offset + s.value.length) (o.value.offset + o.value.length)
    · rw [if_pos h4]
      show Signal.computeOverlap _ _ _ _ = _
      unfold Signal.computeOverlap
      simp only [if_pos h4]
      by_cases h5 : s.value.count = 1
      · rw [if_pos h5, if_pos h5]
        exact ufunc2_congr _ _ _ _ _ _ _
          (fun i j i' j' a b c d => hfit 0 _ _ _ (by omega) (slice_lt b) (slice_lt c) (slice_lt d))
      · rw [if_neg h5, if_neg h5]
        by_cases h6 : o.value.count = 1
        · rw [if_pos h6, if_pos h6]
          exact ufunc2_congr _ _ _ _ _ _ _
            (fun i j i' j' a b c d => hfit _ _ 0 _ (slice_lt a) (slice_lt b) (by omega) (slice_lt d))
        · rw [if_neg h6, if_neg h6]
          exact ufunc2_congr _ _ _ _ _ _ _
            (fun i j i' j' a b c d => hfit _ _ _ _ (slice_lt a) (slice_lt b) (slice_lt c) (slice_lt d))
    · rw [if_neg h4]
      unfold Signal.computeOverlap
      simp only [if_neg h4]
  rw [e2]

/-- C149: the operations, which the theorems about the operators refer to, and the labels of their results. The first operand
of a difference is zero, where only the second signal has samples. -/
theorem C149_operations (x y : ℚ) :
    (BinOp.add.exact x y = x + y ∧ BinOp.add.pivot = none ∧ BinOp.add.label = "Sum") ∧
    (BinOp.sub.exact x y = x - y ∧ BinOp.sub.pivot = some 0 ∧ BinOp.sub.label = "Difference") ∧
    BinOp.mul.exact x y = x * y ∧ BinOp.mul.pivot = none ∧ BinOp.mul.label = "Product" :=
  ⟨⟨rfl, rfl, rfl⟩, ⟨rfl, rfl, rfl⟩, rfl, rfl, rfl⟩

/-- C149: the sum, the difference and the product of two signals are computed exactly and stored as doubles, whatever the
types of the samples are, if numpy can represent the results in the common type of the samples.
`_partial`: for the results, which do not fit, see `C149_overflow_violated`; boolean signals cannot be subtracted, see
`C149_boolean_violated`. -/
theorem C149_operators_partial (mem : Nat → Nat → ℚ) (op : BinOp) (s o : Typed (Signal ℚ R))
    (hs : s.type.kind ≠ .complex) (ho : o.type.kind ≠ .complex)
    (hop : ¬ (op = .sub ∧ s.type.kind = .bool ∧ o.type.kind = .bool)) (hfit : Fits op s o)
    (hso : Signal.Compatible s.value o.value) :
    ∃ r, algebra mem op s o = .ok r ∧ r.type = float64 ∧
      Signal.AlgebraSpec op.exact op.pivot s.value o.value op.label r.value := by
  obtain ⟨r, h1, h2⟩ := Signal.C10_pointwise_partial mem op.exact op.pivot s.value o.value op.label hso
  refine ⟨⟨float64, r⟩, ?_, rfl, h2⟩
  unfold algebra
  rw [algebra_eq mem op s o hs ho hop hfit, h1]
  rfl

/-- C149: if one of the signals has floating point samples, the operators are exact for all types of the samples of the
other one. -/
theorem C149_operators_float (mem : Nat → Nat → ℚ) (op : BinOp) (s o : Typed (Signal ℚ R))
    (h : (s.type.kind = .float ∧ o.type.kind ≠ .complex) ∨ (s.type.kind ≠ .complex ∧ o.type.kind = .float))
    (hso : Signal.Compatible s.value o.value) :
    ∃ r, algebra mem op s o = .ok r ∧ r.type = float64 ∧
      Signal.AlgebraSpec op.exact op.pivot s.value o.value op.label r.value := by
  have hk : (promote s.type o.type).kind = .float := by
    rcases h with ⟨h1, h2⟩ | ⟨h1, h2⟩
    · exact promote_float_left h1 h2
    · exact promote_float_right h1 h2
  have hs : s.type.kind ≠ .complex := by
    rcases h with ⟨h1, h2⟩ | ⟨h1, h2⟩
    · rw [h1]; decide
    · exact h1
  have ho : o.type.kind ≠ .complex := by
    rcases h with ⟨h1, h2⟩ | ⟨h1, h2⟩
    · exact h2
    · rw [h2]; decide
  refine C149_operators_partial mem op s o hs ho ?_ ?_ hso
  · rintro ⟨-, h1, h2⟩
    rcases h with ⟨h3, -⟩ | ⟨-, h3⟩
    · rw [h3] at h1; cases h1
    · rw [h3] at h2; cases h2
  · intro c i c' i' _ _ _ _
    exact store_float hk _

/-- a signal for the examples -/
def exSignal (d : DType) (offset : Int) (l : List ℚ) : Typed (Signal ℚ Nat) :=
  ⟨d, Signal.new (Mat.ofRows l.length [l]) 48000 offset (some ["x"])⟩

/-- the type of the samples and the samples of a result -/
def summary (r : Py (Typed (Signal ℚ Nat))) : Py (DType × List ℚ) :=
  match r with
  | .error e => .error e
  | .ok x => .ok (x.type, x.value.channels.flat)

/-- the hypotheses of `C149_operators_partial` hold for small integers -/
example : Fits .add (exSignal ⟨.int, 1⟩ 0 [100, -100]) (exSignal ⟨.uint, 1⟩ 1 [100]) := by
  intro c i c' i' hc hi hc' hi'
  change c < 1 at hc; change i < 2 at hi; change c' < 1 at hc'; change i' < 1 at hi'
  obtain rfl : c = 0 := by omega
  obtain rfl : c' = 0 := by omega
  obtain rfl : i' = 0 := by omega
  obtain rfl | rfl : i = 0 ∨ i = 1 := by omega
  · decide +kernel
  · decide +kernel

example : summary (algebra (fun _ _ => 7) .add (exSignal ⟨.int, 1⟩ 0 [100, -100]) (exSignal ⟨.uint, 1⟩ 1 [100, 1])) =
    .ok (float64, [100, 0, 1]) := by decide +kernel

/-- C149 is violated: the sum of two signals with integers of 8 bits wraps around, although the result is an array of
doubles; `100 + 100` becomes `-56`. -/
theorem C149_overflow_violated :
    summary (algebra (fun _ _ => 7) .add (exSignal ⟨.int, 1⟩ 0 [100]) (exSignal ⟨.int, 1⟩ 0 [100])) =
      .ok (float64, [-56]) := by decide +kernel

/-- the same for samples, of which only some overlap: the second sample is the negative one, the first one wraps
around -/
example : summary (algebra (fun _ _ => 7) .sub (exSignal ⟨.uint, 1⟩ 0 [1]) (exSignal ⟨.uint, 1⟩ 0 [2, 2])) =
    .ok (float64, [255, -2]) := by decide +kernel

/-- C149 is violated: the difference of two boolean signals cannot be computed. -/
theorem C149_boolean_violated (mem : Nat → Nat → ℚ) (s o : Signal ℚ R) (hc : s.count = o.count)
    (hl : s.length = o.length) (ho : s.offset = o.offset) :
    algebra mem .sub ⟨⟨.bool, 1⟩, s⟩ ⟨⟨.bool, 1⟩, o⟩ = .error .typeError := by
  unfold algebra algebraSignal
  rw [if_pos ⟨hc, hl, ho⟩]
  rfl

example : summary (algebra (fun _ _ => 7) .sub (exSignal ⟨.bool, 1⟩ 0 [1]) (exSignal ⟨.bool, 1⟩ 0 [1])) =
    .error .typeError := by decide +kernel

/-- C149: `-signal` is exact and consists of doubles, if the negative samples can be represented in the type of the
samples. `_partial`: see `C149_negative_violated`. -/
theorem C149_negative_partial (s : Typed (Signal ℚ R)) (hb : s.type.kind ≠ .bool)
    (h : ∀ c i, c < s.value.count → i < s.value.length →
      store s.type (-(s.value.channels.get c i)) = -(s.value.channels.get c i)) :
    ∃ r, neg s = .ok r ∧ r.type = float64 ∧ r.value.count = s.value.count ∧ r.value.length = s.value.length ∧
      r.value.offset = s.value.offset ∧ r.value.rate = s.value.rate ∧
      ∀ c i, c < s.value.count → i < s.value.length → r.value.channels.get c i = -(s.value.channels.get c i) := by
  unfold neg
  rw [if_neg hb]
  refine ⟨_, rfl, rfl, rfl, rfl, rfl, rfl, ?_⟩
  intro c i hc hi
  show store float64 (store s.type (-(s.value.channels.get c i))) = _
  rw [store_float (d := float64) rfl, h c i hc hi]

example : summary (neg (exSignal ⟨.int, 2⟩ 0 [3, -128])) = .ok (float64, [-3, 128]) := by decide +kernel

/-- C149 is violated: the negative of a signal with unsigned integers of 8 bits consists of positive samples, and the
negative of the smallest integer of 8 bits is negative. -/
theorem C149_negative_violated :
    summary (neg (exSignal ⟨.uint, 1⟩ 0 [1, 2])) = .ok (float64, [255, 254]) ∧
    summary (neg (exSignal ⟨.int, 1⟩ 0 [-128])) = .ok (float64, [-128]) ∧
    summary (neg (exSignal ⟨.bool, 1⟩ 0 [1])) = .error .typeError := by
  refine ⟨?_, ?_, ?_⟩ <;> decide +kernel

/-- C149: `abs(signal)` is exact and consists of doubles for all types of the samples. -/
theorem C149_abs (s : Typed (Signal ℚ R)) (hb : s.type.kind ≠ .complex) :
    ∃ r, abs s = .ok r ∧ r.type = float64 ∧ r.value.count = s.value.count ∧ r.value.length = s.value.length ∧
      r.value.offset = s.value.offset ∧ r.value.rate = s.value.rate ∧
      ∀ c i, r.value.channels.get c i = |s.value.channels.get c i| := by
  unfold abs
  rw [if_neg hb]
  exact ⟨_, rfl, rfl, rfl, rfl, rfl, rfl, fun c i => rfl⟩

example : summary (abs (exSignal ⟨.int, 1⟩ 0 [3, -128])) = .ok (float64, [3, 128]) := by decide +kernel

/-! ### The concatenation of signals -/

open Concatenate (Entry sortEntries minStart maxStop labels)

/-- an entry without its type -/
def forget {A : Type} (e : Entry (Typed A)) : Entry A := ⟨e.start, e.stop, e.data.value⟩

theorem forget_entries (l : List (Typed (Signal ℚ R))) (n : Int) :
    (signalEntries n l).map forget = Concatenate.signalEntries n (l.map Typed.value) := by
  induction l generalizing n with
  | nil => rfl
  | cons s l ih => simp only [signalEntries, Concatenate.signalEntries, List.map_cons, ih]; rfl

theorem forget_sort {A : Type} (l : List (Entry (Typed A))) :
    (sortEntries l).map forget = sortEntries (l.map forget) :=
  List.map_insertionSort _ _ _ _ (fun _ _ _ _ => Iff.rfl)

theorem forget_minStart {A : Type} (h : Entry (Typed A)) (t : List (Entry (Typed A))) :
    minStart (forget h) (t.map forget) = minStart h t := by
  unfold minStart
  rw [List.foldl_map]; rfl

theorem forget_maxStop {A : Type} (h : Entry (Typed A)) (t : List (Entry (Typed A))) :
    maxStop (forget h) (t.map forget) = maxStop h t := by
  unfold maxStop
  rw [List.foldl_map]; rfl

theorem map_store {d : DType} (hd : d.kind = .float) (A : Mat ℚ) : A.map (store d) = A := by
  unfold Mat.map
  simp only [store_float hd]

theorem addTo_eq {d e : DType} (hd : d.kind = .float) (he : e.kind ≠ .complex) (A : Mat ℚ) (r c : PySlice) (S : Mat ℚ) :
    addTo d e A r c S = A.addTo r c S := by
  have hp := promote_float_left hd he
  have hf : BinOp.function .add d e d = .ok fun x y => x + y := by
    unfold BinOp.function BinOp.loop
    rw [if_neg (by rintro ⟨h, -⟩; cases h)]
    show (if sameKind (promote d e) d = true then _ else _) = _
    rw [if_pos (by unfold sameKind; rw [hp, hd]; rfl)]
    simp only [store_float hd, store_float hp]
    rfl
  unfold addTo
  rw [hf]
  rfl

theorem copySignal_eq {d : DType} (hd : d.kind = .float) (offset : Int) (number : Nat) (A : Mat ℚ) (last : Int)
    (p e : Entry (Typed (Mat ℚ))) (he : e.data.type.kind ≠ .complex) :
    copySignal d offset number A last p e = Concatenate.copySignal offset number A last (forget p) (forget e) := by
  unfold copySignal Concatenate.copySignal writeSignal
  simp only [addTo_eq hd he, map_store hd]
  rfl

theorem copySignals_eq {d : DType} (hd : d.kind = .float) (offset : Int) (number : Nat)
    (t : List (Entry (Typed (Mat ℚ)))) (ht : ∀ e ∈ t, e.data.type.kind ≠ .complex) :
    ∀ (A : Mat ℚ) (last : Int) (p : Entry (Typed (Mat ℚ))),
    copySignals d offset number A last p t =
      Concatenate.copySignals offset number A last (forget p) (t.map forget) := by
  induction t with
  | nil => intro A last p; rfl
  | cons e t ih =>
    intro A last p
    simp only [copySignals, Concatenate.copySignals, List.map_cons]
    rw [copySignal_eq hd _ _ _ _ _ _ (ht e (by simp))]
    congr 1
    funext x
    exact ih (fun e' h => ht e' (List.mem_cons_of_mem _ h)) _ _ _

theorem entries_starts (l : List (Typed (Signal ℚ R))) (n : Int) :
    (signalEntries n l).map (fun e => (e.start, e.data.type)) = starts Signal.offset Signal.length n l := by
  induction l generalizing n with
  | nil => rfl
  | cons s l ih => simp only [signalEntries, starts, List.map_cons, ih]

theorem starts_types {A : Type} {offset : A → Int} {length : A → Nat} {l : List (Typed A)} {n : Int}
    {x : Int × DType} (h : x ∈ starts offset length n l) : ∃ s ∈ l, s.type = x.2 := by
  induction l generalizing n with
  | nil => cases h
  | cons s l ih =>
    rcases List.mem_cons.1 h with rfl | h
    · exact ⟨s, by simp, rfl⟩
    · obtain ⟨s', h1, h2⟩ := ih h
      exact ⟨s', List.mem_cons_of_mem _ h1, h2⟩

/-- C149: signals with samples of arbitrary types are concatenated exactly, if those which start first consist of
floating point numbers with a multiple of 8 bytes.
`_partial`: the other cases are in `C149_truncated_violated`, `C149_overlap_violated` and
`C149_small_violated`. -/
theorem C149_signals_partial (mem : Nat → Nat → ℚ) (l : List (Typed (Signal ℚ R))) (hl : l ≠ [])
    (hreal : ∀ s ∈ l, s.type.kind ≠ .complex)
    (hfirst : ∀ x ∈ starts Signal.offset Signal.length 0 l,
      (∀ y ∈ starts Signal.offset Signal.length 0 l, x.1 ≤ y.1) → IsDouble x.2 ∧ 0 < x.2.size) :
    ∃ r, signals mem l = .ok r ∧ (∃ s ∈ l, r.type = s.type) ∧ r.type.kind = .float ∧
      Concatenate.SumSpec (l.map Typed.value) r.value := by
  obtain ⟨r, hr, hspec⟩ := Concatenate.C22_signals mem (l.map Typed.value) (by simpa using hl)
  match l, hl with
  | [s], _ =>
    obtain rfl : s.value = r := by simpa [Concatenate.signals] using hr
    exact ⟨s, rfl, ⟨s, by simp, rfl⟩,
      (hfirst (0 + s.value.offset, s.type) (by simp [starts]) (by intro y hy; simp only [starts, List.mem_singleton] at hy; rw [hy])).1.1, hspec⟩
  | first :: second :: rest, _ =>
    generalize hdata : first :: second :: rest = data at *
    have e1 : signals mem data = signalsMany mem first data := by rw [← hdata]; rfl
    have e2 : Concatenate.signals mem (data.map Typed.value) =
        Concatenate.signalsMany mem first.value (data.map Typed.value) := by rw [← hdata]; rfl
    rw [e2] at hr
    rw [e1]
    unfold Concatenate.signalsMany at hr
    unfold signalsMany
    dsimp only at hr ⊢
    rw [← forget_entries, ← forget_sort, List.foldl_map] at hr
    have hperm : (sortEntries (signalEntries 0 data)).Perm (signalEntries 0 data) := List.perm_insertionSort _ _
    cases hsort : sortEntries (signalEntries 0 data) with
    | nil => rw [hsort] at hr; cases hr
    | cons h t =>
      rw [hsort] at hr hperm
      have hhead := Concatenate.sorted_head hsort
      have hmin := Concatenate.minStart_le h t
      rw [hhead] at hmin
      have hmem : ∀ e ∈ h :: t, (e.start, e.data.type) ∈ starts Signal.offset Signal.length 0 data := by
        intro e he
        rw [← entries_starts]
        exact List.mem_map.2 ⟨e, hperm.mem_iff.1 he, rfl⟩
      obtain ⟨⟨hd, hsize⟩, hpos⟩ := hfirst _ (hmem h (by simp)) (by
        intro y hy
        rw [← entries_starts] at hy
        obtain ⟨e, he, rfl⟩ := List.mem_map.1 hy
        exact hmin e (hperm.mem_iff.2 he))
      change h.data.type.kind = .float at hd
      have hreal' : ∀ e ∈ t, e.data.type.kind ≠ .complex := by
        intro e he
        obtain ⟨s, hs, hs'⟩ := starts_types (hmem e (List.mem_cons_of_mem _ he))
        change s.type = e.data.type at hs'
        rw [← hs']
        exact hreal s hs
      simp only [List.map_cons, forget_minStart, forget_maxStop] at hr
      dsimp only
      rw [C149_allocate_partial _ _ hpos hsize]
      simp only [writeSignal, map_store hd, copySignals_eq hd _ _ t hreal']
      change (Concatenate.writeSignal _ _ (h.start - _) (h.stop - _) h.data.value >>= _) = _ at hr
      show ∃ r, (Concatenate.writeSignal _ _ (h.start - _) (h.stop - _) h.data.value >>= _) = _ ∧ _
      generalize Concatenate.writeSignal _ _ (h.start - _) (h.stop - _) h.data.value = W at hr ⊢
      cases W with
      | error e => cases hr
      | ok C =>
        change (Concatenate.copySignals _ _ C _ _ _ >>= _) = _ at hr
        show ∃ r, (Concatenate.copySignals _ _ C _ _ _ >>= _) = _ ∧ _
        generalize Concatenate.copySignals _ _ C _ _ _ = W at hr ⊢
        cases W with
        | error e => cases hr
        | ok D =>
          cases hr
          obtain ⟨s, hs, hs'⟩ := starts_types (hmem h (by simp))
          exact ⟨_, rfl, ⟨s, hs, hs'.symm⟩, hd, hspec⟩

/-- C149: in particular, signals with doubles are concatenated to a signal with doubles. -/
theorem C149_doubles (mem : Nat → Nat → ℚ) (l : List (Typed (Signal ℚ R))) (hl : l ≠ [])
    (h : ∀ s ∈ l, s.type = float64) :
    ∃ r, signals mem l = .ok r ∧ r.type = float64 ∧ Concatenate.SumSpec (l.map Typed.value) r.value := by
  obtain ⟨r, h1, ⟨s, h2, h3⟩, -, h4⟩ := C149_signals_partial mem l hl (by intro s hs; rw [h s hs]; decide) (by
    intro x hx _
    obtain ⟨s, hs, hs'⟩ := starts_types hx
    rw [← hs', h s hs]
    exact ⟨⟨rfl, by decide⟩, by decide⟩)
  exact ⟨r, h1, h3.trans (h s h2), h4⟩

/-- a concatenation, for which the hypotheses of `C149_signals_partial` hold -/
example : summary (signals (fun _ _ => 7) [exSignal float64 0 [1/2, 2], exSignal ⟨.int, 2⟩ (-1) [3, 4]]) =
    .ok (float64, [1/2, 5, 4]) := by decide +kernel

/-- C149 is violated: if the first signal consists of integers, the digits after the points of the samples of the other
ones are dropped. -/
theorem C149_truncated_violated :
    summary (signals (fun _ _ => 7) [exSignal ⟨.int, 8⟩ 0 [1, 2], exSignal float64 0 [1/2, -7/4]]) =
      .ok (⟨.int, 8⟩, [1, 2, 0, -1]) := by decide +kernel

/-- C149 is violated: if the first signal consists of integers, it cannot overlap with floating point numbers. -/
theorem C149_overlap_violated :
    summary (signals (fun _ _ => 7) [exSignal ⟨.int, 8⟩ 0 [1, 2], exSignal float64 (-1) [1/2, 3]]) =
      .error .typeError := by decide +kernel

/-- C149 is violated: signals with samples of less than 8 bytes cannot be concatenated. -/
theorem C149_small_violated (mem : Nat → Nat → ℚ) :
    summary (signals mem [exSignal ⟨.float, 4⟩ 0 [1, 2], exSignal ⟨.float, 4⟩ 0 [3]]) = .error .valueError ∧
    summary (signals mem [exSignal ⟨.int, 2⟩ 0 [1, 2], exSignal float64 0 [3]]) = .error .valueError := ⟨rfl, rfl⟩

end DataTypes
end Verif
