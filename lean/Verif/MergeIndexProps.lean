import Verif.Merge
import Mathlib.Data.List.Nodup
import Mathlib.Data.List.Basic
import Mathlib.Algebra.BigOperators.Group.List.Basic

/-
The order of the channels of a merged data set (for C23): the indices which `Merge.__indices` computes are the
positions in the desired order.
-/

namespace Verif
namespace Merge

/-! ### Specification -/

/-- The desired order of the channels: a list of pairs of the number of the data set and the number of the channel
in it.  `lengths` are the numbers of channels. -/
def order : MergeMode → List Nat → List (Nat × Nat)
  | .firstChannelsFirst, lengths =>
    (List.range (lengths.foldl max 0)).flatMap fun i =>
      ((List.range lengths.length).filter fun o => decide (i < lengths.getD o 0)).map fun o => (o, i)
  | _, lengths =>
    (List.range lengths.length).flatMap fun o => (List.range (lengths.getD o 0)).map fun i => (o, i)

example : order .firstDatasetFirst [2, 1, 3] = [(0, 0), (0, 1), (1, 0), (2, 0), (2, 1), (2, 2)] := rfl
example : order .firstChannelsFirst [2, 1, 3] = [(0, 0), (1, 0), (2, 0), (0, 1), (2, 1), (2, 2)] := rfl

/-! ### Lists -/

theorem flatMap_get {β γ : Type} (f : β → List γ) : ∀ (l : List β) (o : Nat) (b : β) (i : Nat),
    l[o]? = some b → i < (f b).length →
    (l.flatMap f)[((l.take o).map fun b => (f b).length).sum + i]? = (f b)[i]? := by
  intro l
  induction l with
  | nil => intro o b i h; simp at h
  | cons a l ih =>
    intro o b i h hi
    cases o with
    | zero =>
      simp only [List.getElem?_cons_zero, Option.some.injEq] at h
      subst h
      simp only [List.take_zero, List.map_nil, List.sum_nil, Nat.zero_add, List.flatMap_cons]
      rw [List.getElem?_append_left hi]
    | succ o =>
      simp only [List.getElem?_cons_succ] at h
      simp only [List.take_succ_cons, List.map_cons, List.sum_cons, List.flatMap_cons]
      rw [List.getElem?_append_right (by omega)]
      rw [show (f a).length + ((l.take o).map fun b => (f b).length).sum + i - (f a).length =
        ((l.take o).map fun b => (f b).length).sum + i by omega]
      exact ih o b i h hi

theorem filter_get {β : Type} (p : β → Bool) : ∀ (l : List β) (o : Nat) (b : β), l[o]? = some b → p b = true →
    (l.filter p)[((l.take o).filter p).length]? = some b := by
  intro l
  induction l with
  | nil => intro o b h; simp at h
  | cons a l ih =>
    intro o b h hp
    cases o with
    | zero =>
      simp only [List.getElem?_cons_zero, Option.some.injEq] at h
      subst h
      simp [hp]
    | succ o =>
      simp only [List.getElem?_cons_succ] at h
      rw [List.take_succ_cons]
      by_cases ha : p a = true
      · rw [List.filter_cons_of_pos ha, List.filter_cons_of_pos ha, List.length_cons, List.getElem?_cons_succ]
        exact ih o b h hp
      · rw [List.filter_cons_of_neg ha, List.filter_cons_of_neg ha]
        exact ih o b h hp

theorem filter_range_getD (q : Nat → Bool) : ∀ (l : List Nat) (o : Nat), o ≤ l.length →
    ((List.range o).filter fun x => q (l.getD x 0)).length = ((l.take o).filter q).length := by
  intro l o ho
  have : (List.range o).map (fun x => l.getD x 0) = l.take o := by
    apply List.ext_getElem?
    intro n
    rw [List.getElem?_map, List.getElem?_take]
    by_cases hn : n < o
    · rw [if_pos hn, List.getElem?_range hn, List.getElem?_eq_getElem (by omega : n < l.length)]
      simp [List.getD_eq_getElem?_getD, List.getElem?_eq_getElem (by omega : n < l.length)]
    · rw [if_neg hn, List.getElem?_eq_none (by simp; omega)]
      rfl
  rw [← this, List.filter_map, List.length_map]
  rfl

/-! ### Positions in the order -/

/-- number of data sets with more than `i` channels -/
def above (i : Nat) (l : List Nat) : Nat := (l.filter fun x => decide (x > i)).length

theorem above_append (i : Nat) (a b : List Nat) : above i (a ++ b) = above i a + above i b := by
  simp [above]

theorem above_split (i o : Nat) (l : List Nat) : above i l = above i (l.take o) + above i (l.drop o) := by
  rw [← above_append, List.take_append_drop]

/-- the position of the channel `i` of data set `o` in the mode `FIRST_CHANNELS_FIRST` -/
def rankC (lengths : List Nat) (o i : Nat) : Nat :=
  ((List.range i).map fun j => above j lengths).sum + above i (lengths.take o)

/-- the position of the channel `i` of data set `o` in the mode `FIRST_DATASET_FIRST` -/
def rankD (lengths : List Nat) (o i : Nat) : Nat := (lengths.take o).sum + i

theorem foldl_max_spec (l : List Nat) : ∀ m, m ≤ l.foldl max m ∧ ∀ x ∈ l, x ≤ l.foldl max m := by
  induction l with
  | nil => intro m; simp
  | cons a l ih =>
    intro m
    obtain ⟨h1, h2⟩ := ih (max m a)
    refine ⟨by rw [List.foldl_cons]; omega, ?_⟩
    intro x hx
    rcases List.mem_cons.1 hx with rfl | hx
    · rw [List.foldl_cons]; omega
    · exact h2 x hx

theorem range_get {n i : Nat} (h : i < n) : (List.range n)[i]? = some i := List.getElem?_range h

theorem order_channels_get {lengths : List Nat} {o i : Nat} (ho : o < lengths.length) (hi : i < lengths.getD o 0) :
    (order .firstChannelsFirst lengths)[rankC lengths o i]? = some (o, i) := by
  have hm : i < lengths.foldl max 0 := by
    have := (foldl_max_spec lengths 0).2 (lengths.getD o 0) (by
      rw [List.getD_eq_getElem?_getD, List.getElem?_eq_getElem ho]; simp)
    omega
  have hf := filter_get (fun o => decide (i < lengths.getD o 0)) (List.range lengths.length) o o (range_get ho)
    (by simpa using hi)
  have key := flatMap_get (fun i => ((List.range lengths.length).filter fun o => decide (i < lengths.getD o 0)).map
    fun o => (o, i)) (List.range (lengths.foldl max 0)) i i
    (((List.range lengths.length).take o).filter fun o => decide (i < lengths.getD o 0)).length (range_get hm)
    (by
      rw [List.length_map]
      obtain ⟨h, _⟩ := List.getElem?_eq_some_iff.1 hf
      exact h)
  rw [List.getElem?_map, hf] at key
  have e1 : ((List.range (lengths.foldl max 0)).take i).map (fun b =>
      (((List.range lengths.length).filter fun o => decide (b < lengths.getD o 0)).map fun o => (o, b)).length) =
      (List.range i).map fun j => above j lengths := by
    rw [List.take_range, Nat.min_eq_left (by omega)]
    apply List.map_congr_left
    intro j _
    rw [List.length_map, filter_range_getD (fun x => decide (j < x)) lengths lengths.length (le_refl _), List.take_length]
    rfl
  have e2 : (((List.range lengths.length).take o).filter fun o => decide (i < lengths.getD o 0)).length =
      above i (lengths.take o) := by
    rw [List.take_range, Nat.min_eq_left (by omega), filter_range_getD (fun x => decide (i < x)) lengths o (by omega)]
    rfl
  rw [e1, e2] at key
  exact key

theorem order_datasets_get {lengths : List Nat} {o i : Nat} (ho : o < lengths.length) (hi : i < lengths.getD o 0) :
    (order .firstDatasetFirst lengths)[rankD lengths o i]? = some (o, i) := by
  have key := flatMap_get (fun o => (List.range (lengths.getD o 0)).map fun i => (o, i))
    (List.range lengths.length) o o i (range_get ho) (by simpa using hi)
  rw [List.getElem?_map, range_get hi] at key
  have e1 : ((List.range lengths.length).take o).map (fun b =>
      ((List.range (lengths.getD b 0)).map fun i => (b, i)).length) = lengths.take o := by
    rw [List.take_range, Nat.min_eq_left (by omega)]
    apply List.ext_getElem?
    intro n
    rw [List.getElem?_map, List.getElem?_take]
    by_cases hn : n < o
    · rw [if_pos hn, List.getElem?_range hn, List.getElem?_eq_getElem (by omega : n < lengths.length)]
      simp [List.getD_eq_getElem?_getD, List.getElem?_eq_getElem (by omega : n < lengths.length)]
    · rw [if_neg hn, List.getElem?_eq_none (by simp; omega)]
      rfl
  rw [e1] at key
  exact key

/-- The positions of the valid modes. -/
def rank : MergeMode → List Nat → Nat → Nat → Nat
  | .firstChannelsFirst => rankC
  | _ => rankD

theorem order_get {mode : MergeMode} {lengths : List Nat} {o i : Nat} (ho : o < lengths.length)
    (hi : i < lengths.getD o 0) : (order mode lengths)[rank mode lengths o i]? = some (o, i) := by
  cases mode with
  | firstDatasetFirst => exact order_datasets_get ho hi
  | firstChannelsFirst => exact order_channels_get ho hi
  | other => exact order_datasets_get ho hi

/-! ### The order is a permutation of all channels -/

theorem order_mem {mode : MergeMode} {lengths : List Nat} {o i : Nat} :
    (o, i) ∈ order mode lengths ↔ o < lengths.length ∧ i < lengths.getD o 0 := by
  constructor
  · intro h
    cases mode <;> simp only [order, List.mem_flatMap, List.mem_map, List.mem_range, List.mem_filter,
      decide_eq_true_eq, Prod.mk.injEq] at h
    · obtain ⟨a, h1, b, h2, rfl, rfl⟩ := h; exact ⟨h1, h2⟩
    · obtain ⟨a, h1, b, ⟨h2, h3⟩, rfl, rfl⟩ := h; exact ⟨h2, h3⟩
    · obtain ⟨a, h1, b, h2, rfl, rfl⟩ := h; exact ⟨h1, h2⟩
  · rintro ⟨h1, h2⟩
    exact List.mem_of_getElem? (order_get (mode := mode) h1 h2)

theorem order_nodup (mode : MergeMode) (lengths : List Nat) : (order mode lengths).Nodup := by
  have h : ∀ (n : Nat) (f : Nat → List Nat), (∀ x, (f x).Nodup) →
      ((List.range n).flatMap fun x => (f x).map fun y => (y, x)).Nodup := by
    intro n f hf
    rw [List.nodup_flatMap]
    refine ⟨?_, ?_⟩
    · intro x _
      exact (hf x).map (fun a b h => (Prod.mk.inj h).1)
    · apply List.nodup_range.imp
      intro a b hab x h1 h2
      obtain ⟨y, _, rfl⟩ := List.mem_map.1 h1
      obtain ⟨z, _, hz⟩ := List.mem_map.1 h2
      exact hab (Prod.mk.inj hz).2.symm
  have h' : ∀ (n : Nat) (f : Nat → List Nat), (∀ x, (f x).Nodup) →
      ((List.range n).flatMap fun x => (f x).map fun y => (x, y)).Nodup := by
    intro n f hf
    rw [List.nodup_flatMap]
    refine ⟨?_, ?_⟩
    · intro x _
      exact (hf x).map (fun a b h => (Prod.mk.inj h).2)
    · apply List.nodup_range.imp
      intro a b hab x h1 h2
      obtain ⟨y, _, rfl⟩ := List.mem_map.1 h1
      obtain ⟨z, _, hz⟩ := List.mem_map.1 h2
      exact hab (Prod.mk.inj hz).1.symm
  cases mode with
  | firstDatasetFirst => exact h' _ _ fun x => List.nodup_range
  | firstChannelsFirst => exact h _ _ fun x => List.nodup_range.filter _
  | other => exact h' _ _ fun x => List.nodup_range

theorem rank_of_get {mode : MergeMode} {lengths : List Nat} {k o i : Nat}
    (h : (order mode lengths)[k]? = some (o, i)) :
    o < lengths.length ∧ i < lengths.getD o 0 ∧ k = rank mode lengths o i := by
  have hm := order_mem.1 (List.mem_of_getElem? h)
  refine ⟨hm.1, hm.2, ?_⟩
  have h2 := order_get (mode := mode) hm.1 hm.2
  obtain ⟨hk, e1⟩ := List.getElem?_eq_some_iff.1 h
  obtain ⟨hr, e2⟩ := List.getElem?_eq_some_iff.1 h2
  exact (order_nodup mode lengths).getElem_inj_iff.1 (e1.trans e2.symm)

theorem sum_ite_lt (l : Nat) : ∀ M, ((List.range M).map fun i => if i < l then 1 else 0).sum = min l M := by
  intro M
  induction M with
  | zero => simp
  | succ M ih =>
    rw [List.range_succ, List.map_append, List.sum_append, ih]
    simp only [List.map_cons, List.map_nil, List.sum_cons, List.sum_nil]
    split <;> omega

theorem sum_above : ∀ (lengths : List Nat) (M : Nat), (∀ x ∈ lengths, x ≤ M) →
    ((List.range M).map fun i => above i lengths).sum = lengths.sum := by
  intro lengths
  induction lengths with
  | nil => intro M _; simp [above]
  | cons l ls ih =>
    intro M h
    have e : (fun i => above i (l :: ls)) = fun i => (if i < l then 1 else 0) + above i ls := by
      funext i
      unfold above
      by_cases hl : i < l
      · rw [List.filter_cons_of_pos (by simpa using hl), if_pos hl, List.length_cons]; omega
      · rw [List.filter_cons_of_neg (by simpa using hl), if_neg hl]; omega
    rw [e, List.sum_map_add, ih M (fun x hx => h x (List.mem_cons_of_mem _ hx)), sum_ite_lt, List.sum_cons]
    have := h l (by simp)
    omega

theorem order_length (mode : MergeMode) (lengths : List Nat) : (order mode lengths).length = lengths.sum := by
  have h1 : (order .firstDatasetFirst lengths).length = lengths.sum := by
    rw [order, List.length_flatMap]
    · congr 1
      apply List.ext_getElem?
      intro n
      rw [List.getElem?_map]
      by_cases hn : n < lengths.length
      · rw [List.getElem?_range hn, List.getElem?_eq_getElem hn]
        simp [List.getD_eq_getElem?_getD, List.getElem?_eq_getElem hn]
      · rw [List.getElem?_eq_none (by simpa using hn), List.getElem?_eq_none (by omega)]
        rfl
    · simp
  cases mode with
  | firstDatasetFirst => exact h1
  | firstChannelsFirst =>
    rw [order, List.length_flatMap]
    rw [← sum_above lengths (lengths.foldl max 0) (foldl_max_spec lengths 0).2]
    congr 1
    apply List.map_congr_left
    intro j _
    rw [List.length_map, filter_range_getD (fun x => decide (j < x)) lengths lengths.length (le_refl _), List.take_length]
    rfl
  | other => exact h1

/-! ### `__indices` computes the positions -/

theorem channelLoop_eq (lengths : List Nat) (o : Nat) :
    ∀ n i, channelLoop lengths o n i (rankC lengths o i) = (List.range n).map fun j => rankC lengths o (i + j) := by
  intro n
  induction n with
  | zero => intro i; rfl
  | succ n ih =>
    intro i
    rw [channelLoop, List.range_succ_eq_map, List.map_cons, List.map_map]
    congr 1
    have e : rankC lengths o i + ((((lengths.drop o).filter fun x => decide (x > i)).length +
        ((lengths.take o).filter fun x => decide (x > i + 1)).length)) = rankC lengths o (i + 1) := by
      have := above_split i o lengths
      unfold rankC
      rw [List.range_succ, List.map_append, List.sum_append]
      simp only [List.map_cons, List.map_nil, List.sum_cons, List.sum_nil]
      unfold above at *
      omega
    rw [e, ih (i + 1)]
    apply List.map_congr_left
    intro j _
    show rankC lengths o (i + 1 + j) = rankC lengths o (i + (j + 1))
    congr 1
    omega

theorem rankC_zero (lengths : List Nat) (o : Nat) (hz : ∀ x ∈ lengths.take o, 0 < x) (ho : o ≤ lengths.length) :
    rankC lengths o 0 = o := by
  unfold rankC above
  rw [List.filter_eq_self.2 (fun x hx => by simpa using hz x hx)]
  simp [ho]

theorem datasetLoop_eq (f : Nat → Nat) : ∀ (l : List Nat) (start : Nat) (b : Nat),
    (∀ o, o < l.length → f (b + o) = start + (l.take o).sum) →
    datasetLoop start l = (l.zipIdx b).flatMap fun lo => (List.range lo.1).map fun i => f lo.2 + i := by
  intro l
  induction l with
  | nil => intro start b _; rfl
  | cons a l ih =>
    intro start b hf
    rw [datasetLoop, List.zipIdx_cons, List.flatMap_cons]
    congr 1
    · have := hf 0 (by simp)
      simp only [Nat.add_zero, List.take_zero, List.sum_nil] at this
      rw [this]
    · apply ih
      intro o ho
      have := hf (o + 1) (by simpa using ho)
      rw [List.take_succ_cons, List.sum_cons] at this
      rw [show b + 1 + o = b + (o + 1) by omega, this]
      omega

/-- The valid modes, with the restriction that the mode `FIRST_CHANNELS_FIRST` needs: there is no data set without
channels. -/
def Valid (mode : MergeMode) (lengths : List Nat) : Prop :=
  mode = .firstDatasetFirst ∨ (mode = .firstChannelsFirst ∧ ∀ l ∈ lengths, 0 < l)

theorem indices_eq {mode : MergeMode} {lengths : List Nat} (h : Valid mode lengths) :
    indices mode lengths = .ok (lengths.zipIdx.flatMap fun lo =>
      (List.range lo.1).map fun i => rank mode lengths lo.2 i) := by
  rcases h with rfl | ⟨rfl, hz⟩
  · show Except.ok (datasetLoop 0 lengths) = _
    congr 1
    exact datasetLoop_eq (fun o => (lengths.take o).sum) lengths 0 0 (by intro o _; simp)
  · show Except.ok (lengths.zipIdx.flatMap fun lo => channelLoop lengths lo.2 lo.1 0 lo.2) = _
    congr 1
    have hc : ∀ lo ∈ lengths.zipIdx, channelLoop lengths lo.2 lo.1 0 lo.2 =
        (List.range lo.1).map fun i => rank .firstChannelsFirst lengths lo.2 i := by
      intro lo hlo
      have ho : lo.2 < lengths.length := by
        have := List.mem_zipIdx hlo
        omega
      have hz' : ∀ x ∈ lengths.take lo.2, 0 < x := fun x hx => hz x (List.mem_of_mem_take hx)
      have := channelLoop_eq lengths lo.2 lo.1 0
      rw [rankC_zero lengths lo.2 hz' (by omega)] at this
      rw [this]
      simp only [Nat.zero_add]
      rfl
    rw [List.flatMap_def, List.flatMap_def, List.map_congr_left hc]

end Merge
end Verif
