import Verif.Indexing
import Mathlib.Tactic.Linarith
import Mathlib.Tactic.NormNum
import Mathlib.Tactic.Push
import Mathlib.Algebra.Order.Floor.Ring

/-
Properties C01 (labels), C02 (normalisation of indices), C03 (slicing keys).
-/

namespace Verif

open Indexing

/-! ## C01 -/

/-- C01: there is one label per channel. -/
theorem C01_labels_length (labels : Option (List String)) (number : Nat) :
    (sanitizeLabels labels number).length = number := by
  unfold sanitizeLabels
  split
  · simp
  · split
    · simp; omega
    · split
      · simp; omega
      · omega

/-- C01: the label of channel `i` is the `i`-th given label, or the empty string if there is none. -/
theorem C01_labels_content (labels : Option (List String)) (number i : Nat) (hi : i < number) :
    (sanitizeLabels labels number)[i]? = some (((labels.getD [])[i]?).getD "") := by
  unfold sanitizeLabels
  split
  · simp [hi]
  · rename_i l
    simp only [Option.getD_some]
    split
    · rename_i h
      by_cases h' : i < l.length
      · simp [List.getElem?_append, h']
      · have : i - l.length < number - l.length := by omega
        simp [List.getElem?_append, h', this]
    · split
      · have : i < l.length := by omega
        simp [hi, this]
      · have : i < l.length := by omega
        simp [this]

example : sanitizeLabels (some ["a", "b", "c"]) 2 = ["a", "b"] ∧
    sanitizeLabels (some ["a"]) 3 = ["a", "", ""] ∧ sanitizeLabels none 2 = ["", ""] := by decide

/-! ## C02 -/

/-- Python's rounding returns a nearest integer. -/
theorem pyRound_nearest (q : ℚ) : |(pyRound q : ℚ) - q| ≤ 1 / 2 := by
  have h1 := Int.floor_le q
  have h2 := Int.lt_floor_add_one q
  unfold pyRound
  simp only
  split
  · rw [abs_le]; constructor <;> linarith
  · split
    · push_cast; rw [abs_le]; constructor <;> linarith
    · split
      · rw [abs_le]; constructor <;> linarith
      · push_cast; rw [abs_le]; constructor <;> linarith

/-- Integers are not changed by rounding. -/
theorem pyRound_int (i : Int) : pyRound (i : ℚ) = i := by
  unfold pyRound
  simp

/-- Python rounds monotonically. -/
theorem pyRound_mono {p q : ℚ} (h : p ≤ q) : pyRound p ≤ pyRound q := by
  by_contra hc
  push Not at hc
  have hp := abs_le.mp (pyRound_nearest p)
  have hq := abs_le.mp (pyRound_nearest q)
  have h1 : ((pyRound q : ℚ) + 1) ≤ pyRound p := by exact_mod_cast hc
  have h2 : p = q := by linarith
  rw [h2] at hc
  exact lt_irrefl _ hc

theorem loop_of_nonneg {length i : Int} (h : 0 ≤ i) (n : Nat) : loop length (n + 1) i = some i := by
  simp [loop, Int.not_lt.mpr h]

theorem loop_terminates {length : Int} (hl : 0 < length) (m : Nat) :
    ∀ i : Int, -(m : Int) ≤ i → i < 0 → ∃ n, loop length n i = some (i % length) := by
  induction m with
  | zero => intro i h1 h2; omega
  | succ m ih =>
    intro i h1 h2
    by_cases h3 : i + length < 0
    · obtain ⟨n, hn⟩ := ih (i + length) (by omega) h3
      exact ⟨n + 1, by simp [loop, h2, hn]⟩
    · refine ⟨2, ?_⟩
      simp only [loop, h2, h3, if_true, if_false]
      have : i % length = i + length := by
        rw [← Int.add_emod_right]
        exact Int.emod_eq_of_lt (by omega) (by omega)
      rw [this]

theorem loop_diverges {length : Int} (hl : length ≤ 0) (n : Nat) :
    ∀ i : Int, i < 0 → loop length n i = none := by
  induction n with
  | zero => intro i _; rfl
  | succ n ih => intro i h; simp [loop, h, ih (i + length) (by omega)]

theorem loop_mono {length : Int} {n : Nat} : ∀ {i r : Int}, loop length n i = some r →
    ∀ k, loop length (n + k) i = some r := by
  induction n with
  | zero => intro i r h; simp [loop] at h
  | succ n ih =>
    intro i r h k
    have hk : n + 1 + k = (n + k) + 1 := by omega
    rw [hk]
    simp only [loop] at h ⊢
    split
    · rename_i hi; simp only [hi, if_true] at h; exact ih h k
    · rename_i hi; simpa [hi] using h

/-- The closed form `index`, which the other parts of the model use, is the result of the loop of the
code, and it is `none` exactly if the loop runs forever. -/
theorem index_iff_loop (length : Int) (i : Idx) :
    (∀ r, index length i = some r ↔ ∃ n, indexFuel length n i = some r) ∧
    (index length i = none ↔ Diverges length (i.start length)) := by
  unfold index indexFuel Diverges
  simp only
  generalize i.start length = s
  by_cases h0 : 0 ≤ s
  · simp only [h0, if_true]
    refine ⟨fun r => ⟨?_, ?_⟩, ?_⟩
    · intro h; exact ⟨1, by rw [← h]; exact loop_of_nonneg h0 0⟩
    · rintro ⟨n, hn⟩
      cases n with
      | zero => simp [loop] at hn
      | succ n => rw [loop_of_nonneg h0] at hn; exact hn
    · simp only [reduceCtorEq, false_iff, not_forall]
      exact ⟨1, by rw [loop_of_nonneg h0 0]; simp⟩
  · have hneg : s < 0 := by omega
    simp only [h0, if_false]
    by_cases hl : 0 < length
    · simp only [hl, if_true]
      obtain ⟨n, hn⟩ := loop_terminates hl s.natAbs s (by omega) hneg
      refine ⟨fun r => ⟨?_, ?_⟩, ?_⟩
      · intro h; exact ⟨n, by rw [← h]; exact hn⟩
      · rintro ⟨m, hm⟩
        have h1 := loop_mono hn m
        have h2 := loop_mono hm n
        rw [show m + n = n + m by omega, h1] at h2
        exact h2
      · simp only [reduceCtorEq, false_iff, not_forall]
        exact ⟨n, by rw [hn]; simp⟩
    · simp only [hl, if_false]
      refine ⟨fun r => ⟨by simp, ?_⟩, ?_⟩
      · rintro ⟨n, hn⟩
        rw [loop_diverges (by omega) n s hneg] at hn
        simp at hn
      · simp only [true_iff]
        exact fun n => loop_diverges (by omega) n s hneg

/-- C02 (for non-empty axes): the normalisation of an index terminates for every integer or float
and returns a non-negative position that is congruent to the given position modulo the length, where
the given position is the integer itself, or a nearest integer to `fraction * length`.
Non-negative positions are unchanged, negative ones end up inside the axis.
`_partial`: the claim "terminates for every length" is false, see `C02_termination_violated`. -/
theorem C02_index_partial (length : Nat) (hl : 0 < length) (i : Idx) :
    ∃ r p : Int, (∃ n, ∀ k, indexFuel length (n + k) i = some r) ∧
      (match i with
        | .int j => p = j
        | .float q => |(p : ℚ) - q * length| ≤ 1 / 2) ∧
      0 ≤ r ∧ r % length = p % length ∧ (0 ≤ p → r = p) ∧ (p < 0 → r < length) := by
  have key : ∃ r, index length i = some r ∧ 0 ≤ r ∧ r % length = i.start length % length ∧
      (0 ≤ i.start length → r = i.start length) ∧ (i.start length < 0 → r < length) := by
    unfold index
    simp only
    generalize i.start length = s
    by_cases h0 : 0 ≤ s
    · exact ⟨s, by simp [h0], h0, rfl, fun _ => rfl, fun h => by omega⟩
    · have hl' : (0 : Int) < length := by omega
      refine ⟨s % length, by rw [if_neg h0, if_pos hl'], Int.emod_nonneg _ (by omega), by simp, fun h => by omega,
        fun _ => Int.emod_lt_of_pos _ hl'⟩
  obtain ⟨r, hr, h1, h2, h3, h4⟩ := key
  refine ⟨r, i.start length, ?_, ?_, h1, h2, h3, h4⟩
  · obtain ⟨n, hn⟩ := ((index_iff_loop length i).1 r).mp hr
    exact ⟨n, fun k => loop_mono hn k⟩
  · cases i with
    | int j => rfl
    | float q =>
      have := pyRound_nearest (q * (length : Int))
      simpa [Idx.start] using this

example : (0 : Nat) < 5 ∧ indexFuel 5 9 (.int (-12)) = some 3 ∧ indexFuel 5 9 (.int 7) = some 7 := by
  decide

/-- C02 is violated for empty axes: the normalisation of a negative index never terminates
(e.g. a negative `overlap` or interval bound together with the length 0). -/
theorem C02_termination_violated : ∃ (length : Nat) (i : Idx), ∀ n, indexFuel length n i = none :=
  ⟨0, .int (-1), fun n => loop_diverges (by decide) n _ (by decide)⟩

/-- The exact condition for non-termination. -/
theorem C02_termination_iff (length : Nat) (i : Idx) :
    (∀ n, indexFuel length n i = none) ↔ length = 0 ∧ ∃ j, i = .int j ∧ j < 0 := by
  have h := (index_iff_loop length i).2
  unfold Diverges at h
  unfold indexFuel
  rw [← h]
  unfold index
  simp only
  constructor
  · intro hn
    split at hn
    · simp at hn
    · split at hn
      · simp at hn
      · rename_i h0 hl
        have hl0 : length = 0 := by omega
        subst hl0
        refine ⟨rfl, ?_⟩
        cases i with
        | int j => exact ⟨j, rfl, by simpa [Idx.start] using h0⟩
        | float q =>
          exfalso
          apply h0
          simp only [Idx.start]
          have : (q * ((0 : Nat) : Int) : ℚ) = ((0 : Int) : ℚ) := by simp
          rw [this, pyRound_int]
  · rintro ⟨rfl, j, rfl, hj⟩
    simp [Idx.start, hj]

/-- `index` of an iterable normalises each element. -/
theorem C02_index_list (length : Int) (l : List Idx) (js : List Int) :
    indexList length l = some js ↔ l.map (index length) = js.map some := by
  induction l generalizing js with
  | nil => cases js <;> simp [indexList]
  | cons i l ih =>
    cases js with
    | nil =>
      simp only [indexList, List.map_cons, List.map_nil, reduceCtorEq, iff_false]
      split <;> simp
    | cons j js =>
      simp only [indexList, List.map_cons, List.cons.injEq]
      rw [← ih]
      split
      · rename_i a b h1 h2
        simp [h1, h2]
      · rename_i hh
        simp only [reduceCtorEq, false_iff, not_and]
        intro h1 h2
        exact hh _ _ h1 h2

/-! ## C03 -/

/-- Specification: the elements that a python slice selects from an axis with `n` elements. -/
def PySlice.Selects (s : PySlice) (n j : Nat) : Prop := s.lo n ≤ j ∧ j < s.hi n

/-- Specification: `position n k = some j` if python's `seq[k]` is the element `j` of a sequence with
`n` elements; `none` if python raises an `IndexError`. -/
def position (n : Nat) (k : Int) : Option Nat :=
  if 0 ≤ k ∧ k < n then some k.toNat
  else if -(n : Int) ≤ k ∧ k < 0 then some (k + n).toNat
  else none

/-- C03 (integer keys other than -1): exactly the element is selected, which python's indexing
selects; a key out of range selects nothing. -/
theorem C03_int_key_partial (n : Nat) (k : Int) (hk : k ≠ -1) :
    ∃ s, keyToSlice n (.idx (.int k)) = some s ∧
      ∀ j, s.Selects n j ↔ position n k = some j := by
  refine ⟨_, rfl, fun j => ?_⟩
  simp only [PySlice.Selects, PySlice.range, PySlice.lo, PySlice.hi, clampBound, position]
  split <;> split <;> (try split) <;> (try split) <;>
    simp only [Option.some.injEq, reduceCtorEq, iff_false] <;> omega

example : position 4 (-3) = some 1 ∧ position 4 3 = some 3 ∧ position 4 4 = none ∧
    (-3 : Int) ≠ -1 := by decide

/-- C03 is violated for the key -1: python selects the last element, SuMPF selects nothing. -/
theorem C03_last_element_violated (n : Nat) (hn : 0 < n) :
    position n (-1) = some (n - 1) ∧
    ∃ s, keyToSlice n (.idx (.int (-1))) = some s ∧ ∀ j, ¬ s.Selects n j := by
  constructor
  · unfold position
    split
    · omega
    · split
      · congr 1; omega
      · omega
  · refine ⟨_, rfl, fun j => ?_⟩
    simp only [PySlice.Selects, PySlice.range, PySlice.lo, PySlice.hi, clampBound]
    split <;> split <;> omega

/-- C03 (float keys): a float between 0 and 1 selects exactly one element, the one nearest to the
fraction of the way from the first to the last element. -/
theorem C03_float_key (n : Nat) (hn : 0 < n) (q : ℚ) (h0 : 0 ≤ q) (h1 : q ≤ 1) :
    ∃ s j, keyToSlice n (.idx (.float q)) = some s ∧ j < n ∧
      |(j : ℚ) - q * ((n : ℚ) - 1)| ≤ 1 / 2 ∧ ∀ j', s.Selects n j' ↔ j' = j := by
  have hn1 : (0 : ℚ) ≤ (n : ℚ) - 1 := by
    have : (1 : ℚ) ≤ n := by exact_mod_cast hn
    linarith
  have hle : q * (((n : Int) - 1 : Int) : ℚ) ≤ (((n : Int) - 1 : Int) : ℚ) := by
    push_cast
    nlinarith
  have hge : ((0 : Int) : ℚ) ≤ q * (((n : Int) - 1 : Int) : ℚ) := by
    push_cast
    exact mul_nonneg h0 hn1
  have hr0 := pyRound_mono hge
  have hr1 := pyRound_mono hle
  rw [pyRound_int] at hr0 hr1
  obtain ⟨j, hj⟩ : ∃ j : Nat, pyRound (q * (((n : Int) - 1 : Int) : ℚ)) = j :=
    ⟨_, (Int.toNat_of_nonneg hr0).symm⟩
  refine ⟨.range j (j + 1), j, ?_, by omega, ?_, ?_⟩
  · simp only [keyToSlice, index, Idx.start, hj]
    simp
  · have := pyRound_nearest (q * (((n : Int) - 1 : Int) : ℚ))
    rw [hj] at this
    push_cast at this
    exact this
  · intro j'
    simp only [PySlice.Selects, PySlice.range, PySlice.lo, PySlice.hi, clampBound]
    split <;> split <;> omega

example : (0 : Nat) < 3 ∧ (0 : ℚ) ≤ 3 / 4 ∧ (3 / 4 : ℚ) ≤ 1 := by norm_num

/-- A slice bound as a position: a missing bound is the given default, integers are resolved as in
python (from the end if negative, clamped to the axis), floats are scaled with the axis' length. -/
def boundPosition (n : Nat) (default : Nat) : Option Idx → Nat
  | none => default
  | some (.int i) => if i < 0 then (i + n).toNat else min i.toNat n
  | some (.float q) => min (pyRound (q * n)).toNat n

/-- C03 (slices): the selected elements are those between the start and the stop position.  Floats
have to be non-negative here (negative ones are normalised by `index`, see C02). -/
theorem C03_slice_key (n : Nat) (a b : Option Idx)
    (ha : ∀ q, a = some (.float q) → 0 ≤ q) (hb : ∀ q, b = some (.float q) → 0 ≤ q) :
    ∃ s, keyToSlice n (.slice a b) = some s ∧
      ∀ j, s.Selects n j ↔ boundPosition n 0 a ≤ j ∧ j < boundPosition n n b := by
  have hb' : ∀ o : Option Idx, (∀ q, o = some (.float q) → 0 ≤ q) → ∃ o' : Option Int,
      boundOf n o = some o' ∧ ∀ d, (match o' with | none => d | some i => clampBound n i) =
        boundPosition n d o := by
    intro o ho
    match o with
    | none => exact ⟨none, rfl, fun _ => rfl⟩
    | some (.int i) => exact ⟨some i, rfl, fun _ => rfl⟩
    | some (.float q) =>
      have hq := ho q rfl
      have h0 : ((0 : Int) : ℚ) ≤ q * ((n : Int) : ℚ) := by
        push_cast
        exact mul_nonneg hq (by exact_mod_cast Nat.zero_le n)
      have h1 := pyRound_mono h0
      rw [pyRound_int] at h1
      refine ⟨some (pyRound (q * ((n : Int) : ℚ))), by simp only [boundOf, index, Idx.start, h1, if_true]; rfl, ?_⟩
      intro d
      simp only [clampBound, boundPosition]
      rw [if_neg (by omega)]
      push_cast
      rfl
  obtain ⟨a', ha1, ha2⟩ := hb' a ha
  obtain ⟨b', hb1, hb2⟩ := hb' b hb
  refine ⟨{ start := a', stop := b' }, by simp only [keyToSlice, ha1, hb1], fun j => ?_⟩
  rw [← ha2 0, ← hb2 n]
  unfold PySlice.Selects PySlice.lo PySlice.hi
  cases a' <;> cases b' <;> exact Iff.rfl

/-- C03: splitting an axis at any position (`[:x]` and `[x:]`) partitions it. -/
theorem C03_split (n : Nat) (x : Idx) (s t : PySlice)
    (hs : keyToSlice n (.slice none (some x)) = some s)
    (ht : keyToSlice n (.slice (some x) none) = some t) :
    ∀ j, j < n → (s.Selects n j ↔ ¬ t.Selects n j) := by
  intro j hj
  cases x with
  | int i =>
    simp only [keyToSlice, boundOf, Option.some.injEq] at hs ht
    subst hs; subst ht
    simp only [PySlice.Selects, PySlice.lo, PySlice.hi, clampBound]
    omega
  | float q =>
    simp only [keyToSlice, boundOf] at hs ht
    cases h : index (n : Int) (.float q) with
    | none => simp [h] at hs
    | some r =>
      simp only [h, Option.map_some, Option.some.injEq] at hs ht
      subst hs; subst ht
      simp only [PySlice.Selects, PySlice.lo, PySlice.hi, clampBound]
      omega

example : keyToSlice 5 (.slice none (some (.int (-2)))) = some { stop := some (-2) } := by decide

/-- A float key on an empty axis makes the key conversion run forever
(e.g. `signal[0.7]` for a signal without channels): `index` is called with the length -1. -/
theorem C03_empty_axis_violated : ∃ q : ℚ, 0 ≤ q ∧ q ≤ 1 ∧
    Diverges ((0 : Int) - 1) (Idx.start ((0 : Int) - 1) (.float q)) ∧
    keyToSlice 0 (.idx (.float q)) = none := by
  have h : pyRound (1 * (((0 : Int) - 1 : Int) : ℚ)) = -1 := by
    rw [one_mul]; exact pyRound_int _
  refine ⟨1, by norm_num, le_refl _, ?_, ?_⟩
  · intro n
    simp only [Idx.start, h]
    exact loop_diverges (by decide) n _ (by decide)
  · have hs : Idx.start (((0 : Nat) : Int) - 1) (.float 1) = -1 := h
    simp only [keyToSlice, index, hs]
    rfl

end Verif
