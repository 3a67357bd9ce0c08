import Verif.Spectrum
import Verif.SignalAlgebraProps

/-
Property C15 (arithmetic of spectrums) and the part of C05 that concerns spectrums.
-/

namespace Verif
namespace Spectrum

variable {α R : Type}

/-- The bin `k` of channel `c`, where the channel of a one-channel spectrum stands in for every channel. -/
def bin (s : Spectrum α R) (c k : Nat) : Option α :=
  if s.count = 1 ∨ c < s.count then some (s.channels.get (if s.count = 1 then 0 else c) k) else none

/-- The number of channels of the result: one channel is broadcast. -/
def resultCount (s o : Spectrum α R) : Nat :=
  if s.count = 1 then o.count else if o.count = 1 then s.count else max s.count o.count

/-- What C15 demands of the result of a binary operator. -/
def AlgebraSpec (f : α → α → α) (pivot : Option α) (s o : Spectrum α R) (label : String)
    (r : Spectrum α R) : Prop :=
  r.count = resultCount s o ∧ r.length = s.length ∧ r.resolution = s.resolution ∧
  r.labels = List.replicate r.count label ∧
  ∀ c k, c < r.count → k < r.length → r.channels.get c k =
    match bin s c k, bin o c k with
    | some x, some y => f x y
    | some x, none => x
    | none, some y => (match pivot with | none => y | some p => f p y)
    | none, none => r.channels.get c k

theorem algebra_finish (f : α → α → α) (pivot : Option α) (s o : Spectrum α R) (label : String) (C : Mat α)
    (h1 : C.rows = resultCount s o) (h2 : C.cols = s.length)
    (h3 : ∀ c k, c < C.rows → k < C.cols → C.get c k = match bin s c k, bin o c k with
      | some x, some y => f x y
      | some x, none => x
      | none, some y => (match pivot with | none => y | some p => f p y)
      | none, none => C.get c k) :
    AlgebraSpec f pivot s o label (new C s.resolution (some (List.replicate C.rows label))) := by
  refine ⟨h1, h2, rfl, ?_, h3⟩
  show sanitizeLabels (some (List.replicate C.rows label)) C.rows = _
  exact Signal.sanitize_self (by simp)

/-- The last case of `AlgebraSpec` never occurs: every channel of the result belongs to at least one
operand (so that no memory contents can be exposed). -/
theorem C15_covered (s o : Spectrum α R) (c k : Nat) (hc : c < resultCount s o) :
    bin s c k ≠ none ∨ bin o c k ≠ none := by
  unfold resultCount at hc
  unfold bin
  by_cases h1 : s.count = 1
  · left; rw [if_pos (Or.inl h1)]; simp
  · by_cases h2 : o.count = 1
    · right; rw [if_pos (Or.inl h2)]; simp
    · rw [if_neg h1, if_neg h2] at hc
      by_cases h3 : c < s.count
      · left; rw [if_pos (Or.inr h3)]; simp
      · right; rw [if_pos (Or.inr (by omega))]; simp

/-- C15: for all spectrums with the same number of bins, arbitrary numbers of channels, arbitrary operators
and arbitrary contents of the allocated memory.
`_partial`: for different numbers of bins, see `C15_length_mismatch` and `C15_one_bin_violated`. -/
theorem C15_binwise_partial (mem : Nat → Nat → α) (f : α → α → α) (pivot : Option α) (label : String)
    (s o : Spectrum α R) (hlen : o.length = s.length) :
    ∃ r, algebra mem f pivot label s o = .ok r ∧ AlgebraSpec f pivot s o label r := by
  have hsL : s.channels.cols = s.length := rfl
  have hsC : s.channels.rows = s.count := rfl
  have hoL : o.channels.cols = o.length := rfl
  have hoC : o.channels.rows = o.count := rfl
  unfold algebra
  by_cases h1 : s.count = 1
  · simp only [if_pos h1]
    obtain ⟨P, hP, p1, p2, p3⟩ := Mat.broadcastTo_row (A := s.channels.row 0) (r := o.count - 0)
      (c := s.length - 0) rfl rfl
    obtain ⟨Q, hQ, q1, q2, q3⟩ := Mat.broadcastTo_self (A := o.channels) (r := o.count - 0) (c := s.length - 0)
      rfl (by omega)
    obtain ⟨B, hB, b1, b2, b3, b4⟩ := Mat.ufunc2_of_broadcast (f := f) (out := alloc mem o.count s.length)
      (r := .all) (c := .all) 0 o.count 0 s.length rfl rfl rfl rfl hP hQ
    change B.rows = o.count at b1
    change B.cols = s.length at b2
    simp only [bind, Except.bind, hB]
    refine ⟨_, rfl, algebra_finish f pivot s o label B (by unfold resultCount; rw [if_pos h1, b1]) b2 ?_⟩
    intro c k hc hk
    unfold bin
    rw [if_pos (Or.inl h1), if_pos (show o.count = 1 ∨ c < o.count by omega),
      b3 c k (by omega) (by omega) (by omega) (by omega), p3 _ _ (by omega) (by omega), q3 _ _ (by omega) (by omega),
      if_pos h1]
    show f (s.channels.get 0 _) _ = f _ _
    congr 2
    split <;> omega
  · simp only [if_neg h1]
    by_cases h2 : o.count = 1
    · simp only [if_pos h2]
      obtain ⟨P, hP, p1, p2, p3⟩ := Mat.broadcastTo_self (A := s.channels) (r := s.count - 0) (c := s.length - 0) rfl rfl
      obtain ⟨Q, hQ, q1, q2, q3⟩ := Mat.broadcastTo_row (A := o.channels.row 0) (r := s.count - 0)
        (c := s.length - 0) rfl hlen
      obtain ⟨B, hB, b1, b2, b3, b4⟩ := Mat.ufunc2_of_broadcast (f := f) (out := alloc mem s.count s.length)
        (r := .all) (c := .all) 0 s.count 0 s.length rfl rfl rfl rfl hP hQ
      change B.rows = s.count at b1
      change B.cols = s.length at b2
      simp only [bind, Except.bind, hB]
      refine ⟨_, rfl, algebra_finish f pivot s o label B
        (by unfold resultCount; rw [if_neg h1, if_pos h2, b1]) b2 ?_⟩
      intro c k hc hk
      unfold bin
      rw [if_pos (show s.count = 1 ∨ c < s.count by omega), if_pos (Or.inl h2),
        b3 c k (by omega) (by omega) (by omega) (by omega), p3 _ _ (by omega) (by omega), q3 _ _ (by omega) (by omega),
        if_pos h2, if_neg h1]
      rfl
    · simp only [if_neg h2]
      by_cases h3 : s.count < o.count
      · simp only [if_pos h3]
        obtain ⟨P, hP, p1, p2, p3⟩ := Mat.broadcastTo_self (A := s.channels) (r := s.count - 0) (c := s.length - 0) rfl rfl
        obtain ⟨Q, hQ, q1, q2, q3⟩ := Mat.broadcastTo_self (A := o.channels.slice (.range 0 s.count) .all)
          (r := s.count - 0) (c := s.length - 0)
          (by rw [Mat.slice_rows, PySlice.count_range, clampBound_nat, clampBound_zero]; omega)
          (by rw [Mat.slice_cols, PySlice.count_all]; omega)
        obtain ⟨B, hB, b1, b2, b3, b4⟩ := Mat.ufunc2_of_broadcast (f := f) (out := alloc mem o.count s.length)
          (r := .range 0 s.count) (c := .all) 0 s.count 0 s.length (by simp)
          (by rw [PySlice.hi_range, clampBound_nat]; simp only [alloc]; omega) rfl rfl hP hQ
        change B.rows = o.count at b1
        change B.cols = s.length at b2
        simp only [bind, Except.bind, hB]
        have key : ∃ C : Mat α, (match pivot with
            | none => B.assign (.drop s.count) .all (o.channels.slice (.drop s.count) .all)
            | some p => Mat.ufunc2 f (.scalar p) (o.channels.slice (.drop s.count) .all) B (.drop s.count) .all)
              = .ok C ∧ C.rows = B.rows ∧ C.cols = B.cols ∧
            (∀ c k, s.count ≤ c → c < o.count → k < s.length → C.get c k =
              match pivot with | none => o.channels.get c k | some p => f p (o.channels.get c k)) ∧
            (∀ c k, c < s.count → C.get c k = B.get c k) := by
          have hlo : (PySlice.drop s.count).lo B.rows = s.count := by rw [b1]; simp; omega
          have hlo' : (PySlice.drop (s.count : Int)).lo o.channels.rows = s.count := by rw [hoC]; simp; omega
          have hr : (o.channels.slice (.drop s.count) .all).rows = o.count - s.count := by
            rw [Mat.slice_rows, PySlice.count_drop, hoC, clampBound_nat]; omega
          have hc : (o.channels.slice (.drop s.count) .all).cols = s.length - 0 := by
            rw [Mat.slice_cols, PySlice.count_all]; omega
          cases pivot with
          | none =>
            obtain ⟨C, hC, c1, c2, c3, c4⟩ := Mat.assign_ok (A := B) (S := o.channels.slice (.drop s.count) .all)
              (r := .drop s.count) (c := .all) s.count o.count 0 s.length hlo (by rw [b1]; rfl) rfl (by rw [b2]; rfl) hr hc
            refine ⟨C, hC, c1, c2, ?_, ?_⟩
            · intro c k k1 k2 k3
              rw [c3 c k k1 k2 (by omega) k3, Mat.slice_get, hlo', PySlice.lo_all]
              show o.channels.get _ _ = o.channels.get _ _
              congr 1 <;> omega
            · intro c k k1
              exact c4 c k (by omega)
          | some p =>
            obtain ⟨P, hP, p1, p2, p3⟩ := Mat.broadcastTo_scalar p (o.count - s.count) (s.length - 0)
            obtain ⟨Q, hQ, q1, q2, q3⟩ := Mat.broadcastTo_self hr hc
            obtain ⟨C, hC, c1, c2, c3, c4⟩ := Mat.ufunc2_of_broadcast (f := f) (out := B)
              (r := .drop s.count) (c := .all) s.count o.count 0 s.length hlo (by rw [b1]; rfl) rfl (by rw [b2]; rfl) hP hQ
            refine ⟨C, hC, c1, c2, ?_, ?_⟩
            · intro c k k1 k2 k3
              rw [c3 c k k1 k2 (by omega) k3, p3, q3 _ _ (by omega) (by omega), Mat.slice_get, hlo', PySlice.lo_all]
              show f p (o.channels.get _ _) = f p (o.channels.get _ _)
              congr 2 <;> omega
            · intro c k k1
              exact c4 c k (by omega)
        obtain ⟨C, hC, c1, c2, c3, c4⟩ := key
        refine ⟨new C s.resolution (some (List.replicate C.rows label)), ?_, algebra_finish f pivot s o label C
          (by unfold resultCount; rw [if_neg h1, if_neg h2]; omega) (by omega) ?_⟩
        · cases pivot with
          | none => simp only at hC ⊢; rw [hC]; rfl
          | some p => simp only at hC ⊢; rw [hC]; rfl
        · intro c k hc hk
          unfold bin
          rw [if_pos (show o.count = 1 ∨ c < o.count by omega), if_neg h1, if_neg h2]
          by_cases h4 : c < s.count
          · rw [if_pos (Or.inr h4), c4 c k h4, b3 c k (by omega) h4 (by omega) (by omega),
              p3 _ _ (by omega) (by omega), q3 _ _ (by omega) (by omega), Mat.slice_get, PySlice.lo_range, clampBound_zero]
            show f _ (o.channels.get (0 + _) (0 + _)) = _
            rw [Nat.zero_add, Nat.zero_add]
            rfl
          · rw [if_neg (by omega), c3 c k (by omega) (by omega) (by omega)]
      · simp only [if_neg h3]
        obtain ⟨P, hP, p1, p2, p3⟩ := Mat.broadcastTo_self (A := s.channels.slice (.range 0 o.count) .all)
          (r := o.count - 0) (c := s.length - 0)
          (by rw [Mat.slice_rows, PySlice.count_range, clampBound_nat, clampBound_zero]; omega) rfl
        obtain ⟨Q, hQ, q1, q2, q3⟩ := Mat.broadcastTo_self (A := o.channels) (r := o.count - 0) (c := s.length - 0)
          rfl (by omega)
        obtain ⟨B, hB, b1, b2, b3, b4⟩ := Mat.ufunc2_of_broadcast (f := f) (out := alloc mem s.count s.length)
          (r := .range 0 o.count) (c := .all) 0 o.count 0 s.length (by simp)
          (by rw [PySlice.hi_range, clampBound_nat]; simp only [alloc]; omega) rfl rfl hP hQ
        change B.rows = s.count at b1
        change B.cols = s.length at b2
        obtain ⟨C, hC, c1, c2, c3, c4⟩ := Mat.assign_ok (A := B) (S := s.channels.slice (.drop o.count) .all)
          (r := .drop o.count) (c := .all) o.count s.count 0 s.length (by rw [b1]; simp; omega) (by rw [b1]; rfl) rfl
          (by rw [b2]; rfl) (by rw [Mat.slice_rows, PySlice.count_drop, hsC, clampBound_nat]; omega)
          (by rw [Mat.slice_cols, PySlice.count_all]; omega)
        simp only [bind, Except.bind, hB, hC]
        refine ⟨_, rfl, algebra_finish f pivot s o label C
          (by unfold resultCount; rw [if_neg h1, if_neg h2]; omega) (by omega) ?_⟩
        intro c k hc hk
        unfold bin
        rw [if_pos (show s.count = 1 ∨ c < s.count by omega), if_neg h1, if_neg h2]
        by_cases h4 : c < o.count
        · rw [if_pos (Or.inr h4), c4 c k (by omega), b3 c k (by omega) h4 (by omega) (by omega),
            p3 _ _ (by omega) (by omega), q3 _ _ (by omega) (by omega), Mat.slice_get, PySlice.lo_range, clampBound_zero]
          show f (s.channels.get (0 + _) (0 + _)) _ = _
          rw [Nat.zero_add, Nat.zero_add]
          rfl
        · rw [if_neg (by omega), c3 c k (by omega) (by omega) (by omega) (by omega), Mat.slice_get, PySlice.lo_drop,
            hsC, clampBound_nat, PySlice.lo_all]
          show s.channels.get _ _ = s.channels.get _ _
          congr 1 <;> omega

/-- spectrums for examples -/
def demo (rows : List (List Nat)) (n : Nat) : Spectrum Nat Nat := new (Mat.ofRows n rows) 1 none

example : (demo [[1, 2], [3, 4]] 2).length = (demo [[5, 6], [7, 8], [9, 10]] 2).length ∧
    ∃ r, algebra (fun _ _ => 99) (fun x y => 100 * x + y) (some 3) "f" (demo [[1, 2], [3, 4]] 2)
      (demo [[5, 6], [7, 8], [9, 10]] 2) = .ok r ∧ r.channels.flat = [105, 206, 307, 408, 309, 310] :=
  ⟨rfl, _, rfl, rfl⟩

/-- Spectrums with different numbers of bins are rejected, unless the second one has one bin. -/
theorem C15_length_mismatch (mem : Nat → Nat → α) (f : α → α → α) (pivot : Option α) (label : String)
    (s o : Spectrum α R) (h1 : o.length ≠ s.length) (h2 : o.length ≠ 1) :
    algebra mem f pivot label s o = .error .valueError := by
  have aux : ∀ (A B : Mat α) (out : Mat α) (r : PySlice), out.cols = s.length → B.cols = o.length →
      Mat.ufunc2 f A B out r .all = .error .valueError := by
    intro A B out r hout hB
    unfold Mat.ufunc2
    have hb : B.broadcastTo (r.count out.rows) (PySlice.all.count out.cols) = .error .valueError := by
      unfold Mat.broadcastTo
      rw [if_neg]
      rintro ⟨_, h⟩
      rw [PySlice.count_all] at h
      omega
    rw [hb]
    cases hA : A.broadcastTo (r.count out.rows) (PySlice.all.count out.cols) with
    | ok _ => rfl
    | error e =>
      unfold Mat.broadcastTo at hA
      split at hA
      · cases hA
      · simp only at hA ⊢; rw [← hA]
  unfold algebra
  split_ifs
  all_goals simp only
  · rw [aux _ o.channels (alloc mem o.count s.length) _ rfl rfl]; rfl
  · rw [aux _ (o.channels.row 0) (alloc mem s.count s.length) _ rfl rfl]; rfl
  · rw [aux _ (o.channels.slice (.range 0 s.count) .all) (alloc mem o.count s.length) _ rfl rfl]; rfl
  · rw [aux _ o.channels (alloc mem s.count s.length) _ rfl rfl]; rfl

/-- C15 is violated if the second spectrum has only one bin: its value for 0 Hz is combined with all bins of
the first spectrum. -/
theorem C15_one_bin_violated : ∃ s o r : Spectrum Nat Nat, s.length = 3 ∧ o.length = 1 ∧
    (∀ mem, ∃ r', algebra mem (· + ·) none "Sum" s o = .ok r' ∧ r'.channels.get 0 2 = r.channels.get 0 2) ∧
    algebra (fun _ _ => 0) (· + ·) none "Sum" s o = .ok r ∧
    r.channels.get 0 2 = s.channels.get 0 2 + o.channels.get 0 0 ∧ o.channels.get 0 0 = 10 :=
  ⟨demo [[1, 2, 3]] 3, demo [[10]] 1, _, rfl, rfl, fun _ => ⟨_, rfl, rfl⟩, rfl, rfl, rfl⟩

/-- C05 for spectrums. -/
theorem C05_spectrum_pad (mem : Nat → Nat → α) (s : Spectrum α R) (hs : s.labels.length = s.count) (length : Nat)
    (value : α) :
    ∃ r, s.pad mem length value = .ok r ∧
      r.count = s.count ∧ r.length = length ∧ r.resolution = s.resolution ∧ r.labels = s.labels ∧
      ∀ c i, c < s.count → i < length →
        r.channels.get c i = if i < s.length then s.channels.get c i else value := by
  have lab : ∀ C : Mat α, C.rows = s.count → (new C s.resolution (some s.labels)).labels = s.labels :=
    fun C hC => Signal.sanitize_self (by rw [hs, hC])
  unfold pad
  by_cases h : length = s.length
  · rw [if_pos h]
    exact ⟨s, rfl, rfl, h.symm, rfl, rfl, fun c i hc hi => by rw [if_pos (by omega)]⟩
  · rw [if_neg h]
    by_cases h1 : length < s.length
    · simp only [if_pos h1]
      obtain ⟨B, hB, b1, b2, b3, _⟩ := Mat.assign_cols (A := alloc mem s.count length)
        (S := s.channels.slice .all (.range 0 length)) (c := .all) 0 length rfl rfl rfl
        (by simp; have : s.length = s.channels.cols := rfl; omega)
      rw [hB]
      refine ⟨_, rfl, b1, b2, rfl, lab B b1, ?_⟩
      intro c i hc hi
      rw [if_pos (by omega)]
      show B.get c i = _
      rw [b3 c i hc (by omega) hi]
      simp
    · simp only [if_neg h1]
      obtain ⟨B, hB, b1, b2, b3, _⟩ := Mat.assign_cols (A := alloc mem s.count length)
        (S := s.channels) (c := .range 0 s.length) 0 s.length (by simp)
        (by simp [alloc]; omega) rfl rfl
      rw [hB]
      obtain ⟨D, hD, d1, d2, d3, d4⟩ := Mat.assign_cols_scalar (A := B)
        (c := .drop s.length) value s.length length (by rw [b2]; simp [alloc]; omega)
        (by rw [b2]; rfl)
      simp only [bind, Except.bind, hD]
      refine ⟨_, rfl, d1.trans b1, d2.trans b2, rfl, lab D (d1.trans b1), ?_⟩
      intro c i hc hi
      show D.get c i = _
      by_cases h2 : i < s.length
      · rw [if_pos h2, d4 c i (by omega), b3 c i hc (by omega) h2]
        rfl
      · rw [if_neg h2, d3 c i (by rw [b1]; exact hc) (by omega) hi]

example : ∃ r, (demo [[1, 2, 3], [4, 5, 6]] 3).pad (fun _ _ => 99) 5 0 = .ok r ∧
    r.channels.flat = [1, 2, 3, 0, 0, 4, 5, 6, 0, 0] := ⟨_, rfl, rfl⟩

end Spectrum
end Verif
