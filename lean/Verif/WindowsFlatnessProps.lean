import Verif.WindowsOverlapProps
import Mathlib.Algebra.Order.Field.Basic
import Mathlib.Order.Bounds.Basic

/-
C59: flatness and correlation of overlapping windows.
-/

namespace Verif

theorem pyFor_append {α β : Type} (body : β → α → Py β) (l l' : List α) (s : β) :
    pyFor body (l ++ l') s = pyFor body l s >>= pyFor body l' := by
  induction l generalizing s with
  | nil => rfl
  | cons x l ih =>
    show (body s x >>= pyFor body (l ++ l')) = (body s x >>= pyFor body l) >>= pyFor body l'
    cases body s x with
    | error e => rfl
    | ok s' => exact ih s'

namespace Windows

open Indexing Finset

variable {α R : Type}

/-! ### Minimum and maximum -/

theorem foldl_min_spec [LinearOrder α] (l : List α) (x : α) :
    (l.foldl min x = x ∨ l.foldl min x ∈ l) ∧ l.foldl min x ≤ x ∧ ∀ y ∈ l, l.foldl min x ≤ y := by
  induction l generalizing x with
  | nil => simp
  | cons a l ih =>
    obtain ⟨h1, h2, h3⟩ := ih (min x a)
    rw [List.foldl_cons]
    refine ⟨?_, h2.trans (min_le_left _ _), ?_⟩
    · rcases h1 with h | h
      · rw [h]
        rcases min_choice x a with h' | h'
        · exact .inl h'
        · exact .inr (by rw [h']; exact List.mem_cons_self)
      · exact .inr (List.mem_cons_of_mem _ h)
    · intro y hy
      rcases List.mem_cons.mp hy with rfl | hy
      · exact h2.trans (min_le_right _ _)
      · exact h3 y hy

theorem foldl_max_spec [LinearOrder α] (l : List α) (x : α) :
    (l.foldl max x = x ∨ l.foldl max x ∈ l) ∧ x ≤ l.foldl max x ∧ ∀ y ∈ l, y ≤ l.foldl max x := by
  induction l generalizing x with
  | nil => simp
  | cons a l ih =>
    obtain ⟨h1, h2, h3⟩ := ih (max x a)
    rw [List.foldl_cons]
    refine ⟨?_, (le_max_left _ _).trans h2, ?_⟩
    · rcases h1 with h | h
      · rw [h]
        rcases max_choice x a with h' | h'
        · exact .inl h'
        · exact .inr (by rw [h']; exact List.mem_cons_self)
      · exact .inr (List.mem_cons_of_mem _ h)
    · intro y hy
      rcases List.mem_cons.mp hy with rfl | hy
      · exact (le_max_right _ _).trans h2
      · exact h3 y hy

/-- the values of the first `L` samples -/
def values (f : Nat → α) (L : Nat) : Set α := {x | ∃ t, t < L ∧ f t = x}

theorem rowMin_ok [LinearOrder α] (A : Mat α) (L : Nat) (f : Nat → α) (h : Fade.Row A L f) (hL : 0 < L) :
    ∃ m, rowMin A = .ok m ∧ IsLeast (values f L) m := by
  unfold rowMin
  obtain ⟨h1, h2, h3⟩ := h
  have hmem : ∀ y, y ∈ (List.range A.cols).map (A.get 0) ↔ y ∈ values f L := by
    intro y
    simp only [List.mem_map, List.mem_range, values, Set.mem_setOf_eq, h2]
    constructor
    · rintro ⟨t, ht, rfl⟩
      exact ⟨t, ht, (h3 t ht).symm⟩
    · rintro ⟨t, ht, rfl⟩
      exact ⟨t, ht, h3 t ht⟩
  obtain ⟨l, hl⟩ : ∃ l, (List.range A.cols).map (A.get 0) = l := ⟨_, rfl⟩
  rw [hl] at hmem ⊢
  cases l with
  | nil =>
    have := congrArg List.length hl
    simp at this
    omega
  | cons x l =>
    refine ⟨_, rfl, ?_, ?_⟩
    · rw [← hmem]
      rcases (foldl_min_spec l x).1 with h | h
      · rw [h]; exact List.mem_cons_self
      · exact List.mem_cons_of_mem _ h
    · intro y hy
      rw [← hmem] at hy
      rcases List.mem_cons.mp hy with rfl | hy
      · exact (foldl_min_spec l y).2.1
      · exact (foldl_min_spec l x).2.2 y hy

theorem rowMax_ok [LinearOrder α] (A : Mat α) (L : Nat) (f : Nat → α) (h : Fade.Row A L f) (hL : 0 < L) :
    ∃ m, rowMax A = .ok m ∧ IsGreatest (values f L) m := by
  unfold rowMax
  obtain ⟨h1, h2, h3⟩ := h
  have hmem : ∀ y, y ∈ (List.range A.cols).map (A.get 0) ↔ y ∈ values f L := by
    intro y
    simp only [List.mem_map, List.mem_range, values, Set.mem_setOf_eq, h2]
    constructor
    · rintro ⟨t, ht, rfl⟩
      exact ⟨t, ht, (h3 t ht).symm⟩
    · rintro ⟨t, ht, rfl⟩
      exact ⟨t, ht, h3 t ht⟩
  obtain ⟨l, hl⟩ : ∃ l, (List.range A.cols).map (A.get 0) = l := ⟨_, rfl⟩
  rw [hl] at hmem ⊢
  cases l with
  | nil =>
    have := congrArg List.length hl
    simp at this
    omega
  | cons x l =>
    refine ⟨_, rfl, ?_, ?_⟩
    · rw [← hmem]
      rcases (foldl_max_spec l x).1 with h | h
      · rw [h]; exact List.mem_cons_self
      · exact List.mem_cons_of_mem _ h
    · intro y hy
      rw [← hmem] at hy
      rcases List.mem_cons.mp hy with rfl | hy
      · exact (foldl_max_spec l y).2.1
      · exact (foldl_max_spec l x).2.2 y hy

/-! ### Adding the overlapping windows -/

theorem addShifted_ok [AddCommMonoid α] (w ov : Mat α) (L i : Nat) (f g : Nat → α) (hw : Fade.Row w L g)
    (ho : Fade.Row ov L f) (hi0 : 0 < i) (hi : i < L) :
    ∃ C, addShifted w ov (i : Nat) = .ok C ∧ Fade.Row C L fun t =>
      f t + ((if t + i < L then g (t + i) else 0) + if i ≤ t then g (t - i) else 0) := by
  unfold addShifted
  have neg : ∀ n, n = L → clampBound n (-(i : Int)) = L - i := by
    rintro n rfl
    unfold clampBound
    rw [if_pos (by omega)]
    omega
  have s1 : Fade.Row (ov.slice .all (.range 0 (-(i : Int)))) (L - i) f := by
    refine ⟨by simp [ho.1], ?_, ?_⟩
    · rw [Mat.slice_cols, PySlice.count_range, neg _ ho.2.1, clampBound_zero]
      omega
    · intro j hj
      rw [Mat.slice_all_get, PySlice.lo_range, clampBound_zero, Nat.zero_add, ho.2.2 j (by omega)]
  have s2 := Fade.row_drop hw i
  obtain ⟨A1, e1, _, _, e4⟩ := Mat.broadcastTo_self (A := ov.slice .all (.range 0 (-(i : Int)))) (r := 1) (c := L - i)
    s1.1 s1.2.1
  obtain ⟨A2, d1, _, _, d4⟩ := Mat.broadcastTo_self (A := w.slice .all (.drop (i : Nat))) (r := 1) (c := L - i)
    s2.1 s2.2.1
  obtain ⟨B, b1, b2, b3, b4, b5⟩ := Mat.ufunc2_of_broadcast (f := fun x y : α => x + y) (out := ov) (r := .all)
    (c := .range 0 (-(i : Int))) 0 1 0 (L - i) rfl (by simpa using ho.1) (by simp)
    (by rw [PySlice.hi_range, neg _ ho.2.1]) e1 d1
  rw [b1]
  have rB : Fade.Row B L fun t => f t + if t + i < L then g (t + i) else 0 := by
    refine ⟨b2.trans ho.1, b3.trans ho.2.1, ?_⟩
    intro j hj
    beta_reduce
    by_cases h : j + i < L
    · rw [b4 0 j (by omega) (by omega) (by omega) (by omega), if_pos h]
      rw [e4 _ _ (by omega) (by omega), d4 _ _ (by omega) (by omega)]
      simp only [Nat.sub_zero]
      rw [s1.2.2 j (by omega), s2.2.2 j (by omega)]
      beta_reduce
      rw [Nat.add_comm i j]
    · rw [b5 0 j (by omega), if_neg h, add_zero, ho.2.2 j hj]
  have s3 := Fade.row_drop rB i
  have s4 : Fade.Row (w.slice .all (.range 0 (-(i : Int)))) (L - i) g := by
    refine ⟨by simp [hw.1], ?_, ?_⟩
    · rw [Mat.slice_cols, PySlice.count_range, neg _ hw.2.1, clampBound_zero]
      omega
    · intro j hj
      rw [Mat.slice_all_get, PySlice.lo_range, clampBound_zero, Nat.zero_add, hw.2.2 j (by omega)]
  obtain ⟨A3, e1', _, _, e4'⟩ := Mat.broadcastTo_self (A := B.slice .all (.drop (i : Nat))) (r := 1) (c := L - i)
    s3.1 s3.2.1
  obtain ⟨A4, d1', _, _, d4'⟩ := Mat.broadcastTo_self (A := w.slice .all (.range 0 (-(i : Int)))) (r := 1) (c := L - i)
    s4.1 s4.2.1
  obtain ⟨C, c1, c2, c3, c4, c5⟩ := Mat.ufunc2_of_broadcast (f := fun x y : α => x + y) (out := B) (r := .all)
    (c := .drop (i : Nat)) 0 1 i L rfl (by simpa using rB.1)
    (by rw [PySlice.lo_drop, clampBound_nat, rB.2.1]; omega) rB.2.1 e1' d1'
  refine ⟨C, c1, c2.trans rB.1, c3.trans rB.2.1, ?_⟩
  intro j hj
  beta_reduce
  by_cases h : i ≤ j
  · rw [c4 0 j (by omega) (by omega) h hj, if_pos h]
    rw [e4' _ _ (by omega) (by omega), d4' _ _ (by omega) (by omega)]
    rw [s3.2.2 _ (by omega), s4.2.2 _ (by omega)]
    beta_reduce
    rw [show i + (j - i) = j by omega, ← add_assoc]
  · rw [c5 0 j (by omega), if_neg h, rB.2.2 j hj, add_zero]

theorem addAll_ok [AddCommMonoid α] (w ov : Mat α) (L s m : Nat) (g : Nat → α) (hw : Fade.Row w L g)
    (ho : Fade.Row ov L g) (hs : 0 < s) (hm : m ≤ (L - 1) / s) :
    ∃ C, pyFor (addShifted w) ((List.range m).map fun k => (((k + 1) * s : Nat) : Int)) ov = .ok C ∧
      Fade.Row C L (added g L s m) := by
  induction m with
  | zero =>
    refine ⟨ov, rfl, ho.1, ho.2.1, ?_⟩
    intro j hj
    unfold added
    rw [Finset.sum_range_zero, add_zero, ho.2.2 j hj]
  | succ m ih =>
    obtain ⟨B, b1, b2⟩ := ih (by omega)
    rw [List.range_succ, List.map_append, pyFor_append, b1]
    have hlt := succ_mul_lt (L := L) hs (k := m) (by omega)
    obtain ⟨C, c1, c2⟩ := addShifted_ok w B L ((m + 1) * s) (added g L s m) g hw b2 (Nat.mul_pos (by omega) hs) hlt
    refine ⟨C, ?_, c2.1, c2.2.1, ?_⟩
    · show (addShifted w B (((m + 1) * s : Nat) : Int) >>= _) = _
      rw [c1]
      rfl
    · intro j hj
      rw [c2.2.2 j hj]
      unfold added
      rw [Finset.sum_range_succ, ← add_assoc (g j)]

/-- the ratio of the minimum and the maximum of the sum of the overlapping windows -/
theorem flatnessOf_ok [Field α] [LinearOrder α] (mem : Nat → Nat → α) (w : Mat α) (L o : Nat) (g : Nat → α)
    (hw : Fade.Row w L g) (ho : o < L) :
    ∃ a b, flatnessOf mem w (o : Nat) = .ok (a / b) ∧ IsLeast (values (overlapSum g L (L - o)) L) a ∧
      IsGreatest (values (overlapSum g L (L - o)) L) b := by
  unfold flatnessOf
  rw [if_neg (by rw [hw.2.1]; omega)]
  by_cases h0 : o = 0
  · subst h0
    rw [if_pos (by omega)]
    obtain ⟨a, a1, a2⟩ := rowMin_ok w L g hw (by omega)
    obtain ⟨b, b1, b2⟩ := rowMax_ok w L g hw (by omega)
    rw [a1, b1]
    have hv : values (overlapSum g L (L - 0)) L = values g L := by
      have : ∀ t, t < L → overlapSum g L L t = g t := by
        intro t ht
        unfold overlapSum
        rw [Finset.sum_eq_single t]
        · intro j hj hne
          simp only [mem_filter, mem_range] at hj
          rw [Nat.mod_eq_of_lt hj.1, Nat.mod_eq_of_lt ht] at hj
          exact absurd hj.2 hne
        · intro h
          simp [ht] at h
      ext x
      constructor
      · rintro ⟨t, ht, rfl⟩
        exact ⟨t, ht, (this t ht).symm⟩
      · rintro ⟨t, ht, rfl⟩
        exact ⟨t, ht, this t ht⟩
    rw [hv]
    exact ⟨a, b, rfl, a2, b2⟩
  · rw [if_neg (by omega)]
    obtain ⟨A, a1, a2, a3, a4, _⟩ := Mat.assign_cols (A := alloc mem 1 w.cols) (S := w) (c := .all) 0 w.cols rfl rfl hw.1
      (by omega)
    have rA : Fade.Row A L g := by
      refine ⟨a2, a3.trans hw.2.1, ?_⟩
      intro j hj
      rw [a4 0 j (by show 0 < 1; omega) (by omega) (by rw [hw.2.1]; exact hj), Nat.sub_zero, hw.2.2 j hj]
    obtain ⟨s, hs⟩ : ∃ s, L - o = s := ⟨_, rfl⟩
    obtain ⟨B, b1, b2⟩ := addAll_ok w A L s ((L - 1) / s) g hw rA (by omega) (le_refl _)
    rw [← pyRange_steps L s (by omega)] at b1
    dsimp only
    rw [a1]
    show ∃ a b, (pyFor (addShifted w) (pyRange ((w.cols : Int) - (o : Nat)) w.cols ((w.cols : Int) - (o : Nat))) A
      >>= _) = _ ∧ _
    rw [hw.2.1, show (L : Int) - (o : Nat) = (s : Nat) by omega, b1, hs]
    have rB : Fade.Row B L (overlapSum g L s) := by
      refine ⟨b2.1, b2.2.1, ?_⟩
      intro j hj
      rw [b2.2.2 j hj, added_eq g L s j (by omega) hj]
    obtain ⟨a, a1, a2⟩ := rowMin_ok B L _ rB (by omega)
    obtain ⟨b, b1, b2⟩ := rowMax_ok B L _ rB (by omega)
    show ∃ a b, (rowMin B >>= _) = _ ∧ _
    rw [a1]
    show ∃ a b, (rowMax B >>= _) = _ ∧ _
    rw [b1]
    exact ⟨a, b, rfl, a2, b2⟩

/-! ### C59 -/

/-- C59: The amplitude flatness is the ratio of the minimum and the maximum of the sum of the overlapping windows. -/
theorem C59_amplitude_flatness [Field α] [LinearOrder α] (mem : Nat → Nat → α) (w : Mat α) (hw : w.rows = 1)
    (overlap : Idx) (o : Nat) (hi : index w.cols overlap = some (o : Int)) (ho : o < w.cols) :
    ∃ a b, amplitudeFlatness mem w overlap = some (.ok (a / b)) ∧
      IsLeast (values (overlapSum (w.get 0) w.cols (w.cols - o)) w.cols) a ∧
      IsGreatest (values (overlapSum (w.get 0) w.cols (w.cols - o)) w.cols) b := by
  obtain ⟨a, b, h1, h2, h3⟩ := flatnessOf_ok mem w w.cols o (w.get 0) ⟨hw, rfl, fun _ _ => rfl⟩ ho
  refine ⟨a, b, ?_, h2, h3⟩
  unfold amplitudeFlatness
  rw [hi]
  show some (flatnessOf mem w (o : Nat)) = _
  rw [h1]

/-- C59: The power flatness is the ratio of the minimum and the maximum of the sum of the overlapping squared windows. -/
theorem C59_power_flatness [Field α] [LinearOrder α] (mem : Nat → Nat → α) (w : Mat α) (hw : w.rows = 1)
    (overlap : Idx) (o : Nat) (hi : index w.cols overlap = some (o : Int)) (ho : o < w.cols) :
    ∃ a b, powerFlatness mem w overlap = some (.ok (a / b)) ∧
      IsLeast (values (overlapSum (fun t => w.get 0 t * w.get 0 t) w.cols (w.cols - o)) w.cols) a ∧
      IsGreatest (values (overlapSum (fun t => w.get 0 t * w.get 0 t) w.cols (w.cols - o)) w.cols) b := by
  obtain ⟨a, b, h1, h2, h3⟩ := flatnessOf_ok mem (w.map fun x => x * x) w.cols o (fun t => w.get 0 t * w.get 0 t)
    ⟨hw, rfl, fun _ _ => rfl⟩ ho
  refine ⟨a, b, ?_, h2, h3⟩
  unfold powerFlatness
  rw [hi]
  show some (flatnessOf mem (w.map fun x => x * x) (o : Nat)) = _
  rw [h1]

/-- C59: The flatness is one for windows, whose overlapping repetitions add up to a constant. -/
theorem C59_flat [Field α] [LinearOrder α] (mem : Nat → Nat → α) (w : Mat α) (hw : w.rows = 1)
    (overlap : Idx) (o : Nat) (hi : index w.cols overlap = some (o : Int)) (ho : o < w.cols) (c : α) (hc : c ≠ 0)
    (h : ∀ t, t < w.cols → overlapSum (w.get 0) w.cols (w.cols - o) t = c) :
    amplitudeFlatness mem w overlap = some (.ok 1) := by
  obtain ⟨a, b, h1, ⟨⟨t, ht, h2⟩, _⟩, ⟨⟨u, hu, h3⟩, _⟩⟩ := C59_amplitude_flatness mem w hw overlap o hi ho
  rw [h t ht] at h2
  rw [h u hu] at h3
  rw [h1, ← h2, ← h3, div_self hc]

/-- C59: The flatness of a window without negative samples is between zero and one. It is one only, if the sum of the
overlapping windows is constant (unless the window is zero). -/
theorem C59_flatness_range [Field α] [LinearOrder α] [IsStrictOrderedRing α] (mem : Nat → Nat → α) (w : Mat α)
    (hw : w.rows = 1) (overlap : Idx) (o : Nat) (hi : index w.cols overlap = some (o : Int)) (ho : o < w.cols)
    (hpos : ∀ t, t < w.cols → 0 ≤ w.get 0 t) :
    ∃ x, amplitudeFlatness mem w overlap = some (.ok x) ∧ 0 ≤ x ∧ x ≤ 1 ∧
      (x = 1 → ∀ t u, t < w.cols → u < w.cols → overlapSum (w.get 0) w.cols (w.cols - o) t =
        overlapSum (w.get 0) w.cols (w.cols - o) u) := by
  obtain ⟨a, b, h1, ⟨⟨t, ht, h2⟩, h4⟩, ⟨⟨u, hu, h3⟩, h5⟩⟩ := C59_amplitude_flatness mem w hw overlap o hi ho
  have ha : 0 ≤ a := by
    rw [← h2]
    unfold overlapSum
    apply Finset.sum_nonneg
    intro j hj
    exact hpos j (mem_range.mp (mem_filter.mp hj).1)
  have hab : a ≤ b := h5 ⟨t, ht, h2⟩
  refine ⟨a / b, h1, div_nonneg ha (ha.trans hab), div_le_one_of_le₀ hab (ha.trans hab), ?_⟩
  intro h
  have hb : b ≠ 0 := by
    rintro rfl
    simp at h
  have hab' : a = b := by
    rwa [div_eq_one_iff_eq hb] at h
  intro t u ht hu
  have t1 : _ ≤ _ := h4 ⟨t, ht, rfl⟩
  have t2 : _ ≤ _ := h5 ⟨t, ht, rfl⟩
  have u1 : _ ≤ _ := h4 ⟨u, hu, rfl⟩
  have u2 : _ ≤ _ := h5 ⟨u, hu, rfl⟩
  exact le_antisymm (t2.trans (hab' ▸ u1)) (u2.trans (hab' ▸ t1))

theorem rowSum_row [AddCommMonoid α] {A : Mat α} {n : Nat} {f : Nat → α} (h : Fade.Row A n f) :
    rowSum A 0 = ∑ j ∈ range n, f j := by
  unfold rowSum
  rw [h.2.1]
  exact Finset.sum_congr rfl fun j hj => h.2.2 j (mem_range.mp hj)

/-- C59: The overlap correlation is the normalised sum of the products of the overlapping samples. -/
theorem C59_overlap_correlation [Field α] [DecidableEq α] (w : Mat α) (hw : w.rows = 1) (overlap : Idx) (o : Nat)
    (hi : index w.cols overlap = some (o : Int)) (ho : o ≤ w.cols)
    (hE : ∑ t ∈ range w.cols, w.get 0 t * w.get 0 t ≠ 0) :
    overlapCorrelation w overlap = some (.ok ((∑ t ∈ range o, w.get 0 t * w.get 0 (w.cols - o + t)) /
      ∑ t ∈ range w.cols, w.get 0 t * w.get 0 t)) := by
  unfold overlapCorrelation
  rw [hi]
  have rw' : Fade.Row w w.cols (w.get 0) := ⟨hw, rfl, fun _ _ => rfl⟩
  have r1 := Fade.row_slice rw' 0 o ho
  have r2 := Fade.row_drop rw' (w.cols - o)
  rw [show w.cols - (w.cols - o) = o by omega] at r2
  rw [show o - 0 = o by omega] at r1
  obtain ⟨P, p1, p2⟩ := Fade.row_binary (· * ·) r1 r2
  have r3 := Fade.row_map rw' fun x => x * x
  show some (Fade.binary (· * ·) (w.slice .all (.range 0 (o : Nat)))
    (w.slice .all (.drop ((w.cols : Int) - (o : Nat)))) >>= _) = _
  rw [show (w.cols : Int) - (o : Nat) = (w.cols - o : Nat) by omega]
  change Fade.binary (· * ·) (w.slice .all (.range 0 (o : Nat))) _ = _ at p1
  rw [p1]
  show some (if rowSum (w.map fun x => x * x) 0 = 0 then _ else Except.ok (rowSum P 0 / _)) = _
  rw [rowSum_row r3, rowSum_row p2, if_neg hE]
  simp only [Nat.zero_add]

/-- C59: Windows, that overlap completely, are perfectly flat, whatever their samples are. -/
theorem C59_complete_overlap [Field α] [LinearOrder α] (mem : Nat → Nat → α) (w : Mat α) (overlap : Idx)
    (hi : index w.cols overlap = some (w.cols : Int)) :
    amplitudeFlatness mem w overlap = some (.ok 1) ∧ powerFlatness mem w overlap = some (.ok 1) := by
  unfold amplitudeFlatness powerFlatness
  rw [hi]
  exact ⟨congrArg some (if_pos rfl), congrArg some (if_pos rfl)⟩

example : index 4 (.int 4) = some ((4 : Nat) : Int) := by decide

/-- C59: The overlap correlation of a window, whose samples are all zero, is one. -/
theorem C59_correlation_zero [Field α] [DecidableEq α] (w : Mat α) (hw : w.rows = 1) (overlap : Idx) (o : Nat)
    (hi : index w.cols overlap = some (o : Int)) (ho : o ≤ w.cols) (h0 : ∀ t, t < w.cols → w.get 0 t = 0) :
    overlapCorrelation w overlap = some (.ok 1) := by
  unfold overlapCorrelation
  rw [hi]
  have rw' : Fade.Row w w.cols (w.get 0) := ⟨hw, rfl, fun _ _ => rfl⟩
  have r1 := Fade.row_slice rw' 0 o ho
  have r2 := Fade.row_drop rw' (w.cols - o)
  rw [show w.cols - (w.cols - o) = o by omega] at r2
  rw [show o - 0 = o by omega] at r1
  obtain ⟨P, p1, p2⟩ := Fade.row_binary (· * ·) r1 r2
  have r3 := Fade.row_map rw' fun x => x * x
  show some (Fade.binary (· * ·) (w.slice .all (.range 0 (o : Nat)))
    (w.slice .all (.drop ((w.cols : Int) - (o : Nat)))) >>= _) = _
  rw [show (w.cols : Int) - (o : Nat) = (w.cols - o : Nat) by omega]
  change Fade.binary (· * ·) (w.slice .all (.range 0 (o : Nat))) _ = _ at p1
  rw [p1]
  show some (if rowSum (w.map fun x => x * x) 0 = 0 then _ else Except.ok (rowSum P 0 / _)) = _
  rw [rowSum_row r3, if_pos]
  · rfl
  · exact Finset.sum_eq_zero fun t ht => by rw [h0 t (Finset.mem_range.1 ht), zero_mul]

example : (⟨1, 3, fun _ _ => (0 : ℚ)⟩ : Mat ℚ).rows = 1 ∧ index 3 (.int 2) = some ((2 : Nat) : Int) := by decide

/-- C59: The overlap correlation is between -1 and 1 (between 0 and 1, if no sample is negative), 0 without an overlap
and 1 for a complete overlap. -/
theorem C59_correlation_range [Field α] [LinearOrder α] [IsStrictOrderedRing α] (w : Mat α) (hw : w.rows = 1)
    (overlap : Idx) (o : Nat) (hi : index w.cols overlap = some (o : Int)) (ho : o ≤ w.cols)
    (hE : ∑ t ∈ range w.cols, w.get 0 t * w.get 0 t ≠ 0) :
    ∃ x, overlapCorrelation w overlap = some (.ok x) ∧ -1 ≤ x ∧ x ≤ 1 ∧
      ((∀ t, t < w.cols → 0 ≤ w.get 0 t) → 0 ≤ x) ∧ (o = 0 → x = 0) ∧ (o = w.cols → x = 1) := by
  refine ⟨_, C59_overlap_correlation w hw overlap o hi ho hE, ?_⟩
  obtain ⟨E, hEq⟩ : ∃ E, ∑ t ∈ range w.cols, w.get 0 t * w.get 0 t = E := ⟨_, rfl⟩
  obtain ⟨N, hN⟩ : ∃ N, ∑ t ∈ range o, w.get 0 t * w.get 0 (w.cols - o + t) = N := ⟨_, rfl⟩
  have hE0 : 0 ≤ E := by
    rw [← hEq]
    exact Finset.sum_nonneg fun t _ => mul_self_nonneg _
  rw [hEq] at hE
  have hE1 : 0 < E := lt_of_le_of_ne hE0 (Ne.symm hE)
  have hA : ∑ t ∈ range o, w.get 0 t ^ 2 ≤ E := by
    rw [← hEq]
    calc ∑ t ∈ range o, w.get 0 t ^ 2 ≤ ∑ t ∈ range w.cols, w.get 0 t ^ 2 :=
          Finset.sum_le_sum_of_subset_of_nonneg (Finset.range_mono ho) fun t _ _ => sq_nonneg _
      _ = _ := Finset.sum_congr rfl fun t _ => by rw [pow_two]
  have hB : ∑ t ∈ range o, w.get 0 (w.cols - o + t) ^ 2 ≤ E := by
    rw [← hEq]
    have : ∑ t ∈ range w.cols, w.get 0 t * w.get 0 t =
        (∑ t ∈ range (w.cols - o), w.get 0 t * w.get 0 t) +
          ∑ t ∈ range o, w.get 0 (w.cols - o + t) * w.get 0 (w.cols - o + t) := by
      rw [← Finset.sum_range_add fun t => w.get 0 t * w.get 0 t]
      rw [show w.cols - o + o = w.cols by omega]
    rw [this]
    have h0 : 0 ≤ ∑ t ∈ range (w.cols - o), w.get 0 t * w.get 0 t := Finset.sum_nonneg fun t _ => mul_self_nonneg _
    rw [Finset.sum_congr rfl fun t _ => pow_two (w.get 0 (w.cols - o + t))]
    linarith
  have hCS : N ^ 2 ≤ E ^ 2 := by
    have := Finset.sum_mul_sq_le_sq_mul_sq (range o) (fun t => w.get 0 t) (fun t => w.get 0 (w.cols - o + t))
    rw [hN] at this
    refine this.trans ?_
    rw [pow_two E]
    exact mul_le_mul hA hB (Finset.sum_nonneg fun t _ => sq_nonneg _) hE0
  have habs := abs_le_of_sq_le_sq' hCS hE0
  rw [hEq, hN]
  refine ⟨?_, ?_, ?_, ?_, ?_⟩
  · rw [le_div_iff₀ hE1]
    linarith [habs.1]
  · rw [div_le_one hE1]
    exact habs.2
  · intro hpos
    apply div_nonneg _ hE0
    rw [← hN]
    apply Finset.sum_nonneg
    intro t ht
    have := mem_range.mp ht
    exact mul_nonneg (hpos _ (by omega)) (hpos _ (by omega))
  · rintro rfl
    rw [← hN]
    simp
  · rintro rfl
    rw [← hN, ← hEq]
    simp only [Nat.sub_self, Nat.zero_add]
    rw [hEq]
    exact div_self hE

example : index 4 (.int 2) = some ((2 : Nat) : Int) := by decide
example : ∑ t ∈ range 4, (fun i => ([0, 1, 2, 1] : List ℤ).getD i 0) t * (fun i => ([0, 1, 2, 1] : List ℤ).getD i 0) t = 6 := by
  decide

end Windows
end Verif
