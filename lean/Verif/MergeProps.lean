import Verif.MergeIndexProps
import Verif.ConcatenateSpectrogramProps

/-
Property C23: merging of data sets.
-/

namespace Verif
namespace Merge

variable {α R T : Type}

/-! ### The loop over the channels -/

/-- A loop which puts `x` to the place `k` for every pair `(k, x)` in a list, in which no two different values have
the same place. -/
theorem fold_place {S X : Type} (g : S → Nat × X → Py S) (n : Nat) (Inv : S → Prop) (Has : S → Nat → X → Prop)
    (P : X → Prop)
    (hg : ∀ st k x, Inv st → k < n → P x → ∃ st', g st (k, x) = .ok st' ∧ Inv st' ∧ Has st' k x ∧
      ∀ k' x', k' ≠ k → Has st k' x' → Has st' k' x') :
    ∀ (L : List (Nat × X)) (st : S), Inv st → (∀ p ∈ L, p.1 < n ∧ P p.2) →
      (∀ p ∈ L, ∀ q ∈ L, p.1 = q.1 → p.2 = q.2) →
      ∃ st', L.foldlM g st = .ok st' ∧ Inv st' ∧ (∀ p ∈ L, Has st' p.1 p.2) ∧
        ∀ k x, (∀ p ∈ L, p.1 ≠ k) → Has st k x → Has st' k x := by
  intro L
  induction L with
  | nil => intro st h _ _; exact ⟨st, rfl, h, by simp, fun _ _ _ h => h⟩
  | cons p L ih =>
    intro st h hL hc
    obtain ⟨st1, g1, g2, g3, g4⟩ := hg st p.1 p.2 h (hL p (by simp)).1 (hL p (by simp)).2
    obtain ⟨st2, e1, e2, e3, e4⟩ := ih st1 g2 (fun q hq => hL q (List.mem_cons_of_mem _ hq))
      (fun q hq r hr => hc q (List.mem_cons_of_mem _ hq) r (List.mem_cons_of_mem _ hr))
    refine ⟨st2, ?_, e2, ?_, ?_⟩
    · rw [List.foldlM_cons]
      show (g st (p.1, p.2) >>= _) = _
      rw [g1]
      exact e1
    · intro q hq
      rcases List.mem_cons.1 hq with rfl | hq
      · by_cases hex : ∃ r ∈ L, r.1 = q.1
        · obtain ⟨r, hr, hrq⟩ := hex
          have := e3 r hr
          rw [hrq, hc r (List.mem_cons_of_mem _ hr) q (by simp) hrq] at this
          exact this
        · exact e4 _ _ (fun r hr hrq => hex ⟨r, hr, hrq⟩) g3
      · exact e3 q hq
    · intro k x hk hx
      exact e4 k x (fun r hr => hk r (List.mem_cons_of_mem _ hr))
        (g4 k x (fun h => hk p (by simp) h.symm) hx)

theorem zip_flatMap {β γ δ : Type} (n : β → Nat) (F : β → Nat → γ) (G : β → Nat → δ) : ∀ l : List β,
    (l.flatMap fun x => (List.range (n x)).map (F x)).zip (l.flatMap fun x => (List.range (n x)).map (G x)) =
      l.flatMap fun x => (List.range (n x)).map fun i => (F x i, G x i) := by
  intro l
  induction l with
  | nil => rfl
  | cons a l ih =>
    rw [List.flatMap_cons, List.flatMap_cons, List.flatMap_cons, List.zip_append (by simp), ih, List.zip_map']

theorem flatMap_zipIdx {D γ : Type} (data : List D) (f : D → List γ) :
    data.flatMap f = data.zipIdx.flatMap fun x => f x.1 := by
  conv => lhs; rw [← List.zipIdx_map_fst 0 data]
  rw [List.flatMap_map]

theorem labels_eq {l : List String} {n : Nat} (h : l.length = n) : l = (List.range n).map fun i => l.getD i "" := by
  apply List.ext_getElem?
  intro i
  rw [List.getElem?_map]
  by_cases hi : i < n
  · rw [List.getElem?_range hi, List.getElem?_eq_getElem (by omega : i < l.length)]
    simp [List.getD_eq_getElem?_getD, List.getElem?_eq_getElem (by omega : i < l.length)]
  · rw [List.getElem?_eq_none (by omega), List.getElem?_eq_none (by simp; omega)]
    rfl

/-- the list of the indices in the form of the other lists -/
theorem indices_data {D : Type} (mode : MergeMode) (data : List D) (count : D → Nat)
    (h : Valid mode (data.map count)) :
    indices mode (data.map count) = .ok (data.zipIdx.flatMap fun x =>
      (List.range (count x.1)).map fun i => rank mode (data.map count) x.2 i) := by
  rw [indices_eq h, List.zipIdx_map, List.flatMap_map]
  rfl

/-- The items of the loop are places and contents for all channels. -/
theorem items_spec {D X : Type} (mode : MergeMode) (data : List D) (count : D → Nat) (item : D → Nat → X) :
    let L := data.zipIdx.flatMap fun x => (List.range (count x.1)).map fun i =>
      (rank mode (data.map count) x.2 i, item x.1 i)
    (∀ p ∈ L, p.1 < (data.map count).sum ∧ ∃ d ∈ data, ∃ i, i < count d ∧ p.2 = item d i) ∧
    (∀ p ∈ L, ∀ q ∈ L, p.1 = q.1 → p.2 = q.2) ∧
    (∀ k o i d, (order mode (data.map count))[k]? = some (o, i) → data[o]? = some d → (k, item d i) ∈ L) := by
  have hmem : ∀ p, p ∈ (data.zipIdx.flatMap fun x => (List.range (count x.1)).map fun i =>
      (rank mode (data.map count) x.2 i, item x.1 i)) ↔
      ∃ o d i, data[o]? = some d ∧ i < count d ∧ p = (rank mode (data.map count) o i, item d i) := by
    intro p
    simp only [List.mem_flatMap, List.mem_map, List.mem_range, Prod.exists, List.mem_zipIdx_iff_getElem?]
    constructor
    · rintro ⟨d, o, h1, i, h2, h3⟩; exact ⟨o, d, i, h1, h2, h3.symm⟩
    · rintro ⟨o, d, i, h1, h2, h3⟩; exact ⟨d, o, h1, i, h2, h3.symm⟩
  have hlen : ∀ o d, data[o]? = some d → o < (data.map count).length ∧ (data.map count).getD o 0 = count d := by
    intro o d h
    obtain ⟨h1, h2⟩ := List.getElem?_eq_some_iff.1 h
    refine ⟨by simpa using h1, ?_⟩
    rw [List.getD_eq_getElem?_getD, List.getElem?_map, h]
    rfl
  refine ⟨?_, ?_, ?_⟩
  · intro p hp
    obtain ⟨o, d, i, h1, h2, rfl⟩ := (hmem p).1 hp
    obtain ⟨e1, e2⟩ := hlen o d h1
    have := order_get (mode := mode) e1 (by rw [e2]; exact h2)
    obtain ⟨h, _⟩ := List.getElem?_eq_some_iff.1 this
    rw [order_length] at h
    exact ⟨h, d, List.mem_of_getElem? h1, i, h2, rfl⟩
  · intro p hp q hq hpq
    obtain ⟨o, d, i, h1, h2, rfl⟩ := (hmem p).1 hp
    obtain ⟨o', d', i', h1', h2', rfl⟩ := (hmem q).1 hq
    obtain ⟨e1, e2⟩ := hlen o d h1
    obtain ⟨e1', e2'⟩ := hlen o' d' h1'
    have g := order_get (mode := mode) e1 (by rw [e2]; exact h2)
    have g' := order_get (mode := mode) e1' (by rw [e2']; exact h2')
    dsimp only at hpq
    rw [hpq, g', Option.some.injEq, Prod.mk.injEq] at g
    obtain ⟨rfl, rfl⟩ := g
    rw [h1] at h1'
    rw [Option.some.inj h1']
  · intro k o i d h1 h2
    obtain ⟨_, h3, h4⟩ := rank_of_get h1
    obtain ⟨_, e2⟩ := hlen o d h2
    exact (hmem _).2 ⟨o, d, i, h2, by omega, by rw [h4]⟩

theorem setItem_ok {β : Type} {l : List β} {k : Nat} (x : β) (h : k < l.length) :
    setItem l k x = .ok (l.set k x) := by
  unfold setItem
  rw [if_pos h]

/-! ### Extremes -/

theorem foldl_min_spec {D : Type} (f : D → Int) : ∀ (l : List D) (m : Int),
    l.foldl (fun m s => min m (f s)) m ≤ m ∧ (∀ d ∈ l, l.foldl (fun m s => min m (f s)) m ≤ f d) ∧
    (l.foldl (fun m s => min m (f s)) m = m ∨ ∃ d ∈ l, l.foldl (fun m s => min m (f s)) m = f d) := by
  intro l
  induction l with
  | nil => intro m; simp
  | cons a l ih =>
    intro m
    obtain ⟨h1, h2, h3⟩ := ih (min m (f a))
    rw [List.foldl_cons]
    refine ⟨by omega, ?_, ?_⟩
    · intro d hd
      rcases List.mem_cons.1 hd with rfl | hd
      · omega
      · exact h2 d hd
    · rcases h3 with h3 | ⟨d, hd, h3⟩
      · rw [h3]
        by_cases h : m ≤ f a
        · left; omega
        · right; exact ⟨a, by simp, by omega⟩
      · right; exact ⟨d, List.mem_cons_of_mem _ hd, h3⟩

theorem foldl_max_spec_int {D : Type} (f : D → Int) : ∀ (l : List D) (m : Int),
    m ≤ l.foldl (fun m s => max m (f s)) m ∧ (∀ d ∈ l, f d ≤ l.foldl (fun m s => max m (f s)) m) ∧
    (l.foldl (fun m s => max m (f s)) m = m ∨ ∃ d ∈ l, l.foldl (fun m s => max m (f s)) m = f d) := by
  intro l
  induction l with
  | nil => intro m; simp
  | cons a l ih =>
    intro m
    obtain ⟨h1, h2, h3⟩ := ih (max m (f a))
    rw [List.foldl_cons]
    refine ⟨by omega, ?_, ?_⟩
    · intro d hd
      rcases List.mem_cons.1 hd with rfl | hd
      · omega
      · exact h2 d hd
    · rcases h3 with h3 | ⟨d, hd, h3⟩
      · rw [h3]
        by_cases h : f a ≤ m
        · left; omega
        · right; exact ⟨a, by simp, by omega⟩
      · right; exact ⟨d, List.mem_cons_of_mem _ hd, h3⟩

/-! ### Signals -/

theorem assignRow_ok {A S : Mat α} {k : Nat} {c : PySlice} (a b : Nat) (hk : k < A.rows)
    (hc0 : c.lo A.cols = a) (hc1 : c.hi A.cols = b) (hr : S.rows = 1) (hc : S.cols = b - a) :
    ∃ C, A.assignRow k c S = .ok C ∧ C.rows = A.rows ∧ C.cols = A.cols ∧
      (∀ j, a ≤ j → j < b → C.get k j = S.get 0 (j - a)) ∧
      (∀ i j, (i ≠ k ∨ ¬ (a ≤ j ∧ j < b)) → C.get i j = A.get i j) := by
  obtain ⟨C, h1, h2, h3, h4, h5⟩ := Mat.assign_ok (A := A) (S := S) (r := .range k (k + 1)) (c := c) k (k + 1) a b
    (by rw [PySlice.lo_range, clampBound_nat]; omega)
    (by rw [PySlice.hi_range, show ((k : Int) + 1) = ((k + 1 : Nat) : Int) by omega, clampBound_nat]; omega)
    hc0 hc1 (by omega) hc
  unfold Mat.assignRow
  rw [if_pos hk]
  refine ⟨C, h1, h2, h3, ?_, ?_⟩
  · intro j g1 g2
    rw [h4 k j (le_refl _) (by omega) g1 g2]
    congr 1; omega
  · intro i j g
    exact h5 i j (by omega)

theorem assignRow_scalar {A : Mat α} {k : Nat} {c : PySlice} (v : α) (a b : Nat) (hk : k < A.rows)
    (hc0 : c.lo A.cols = a) (hc1 : c.hi A.cols = b) :
    ∃ C, A.assignRow k c (.scalar v) = .ok C ∧ C.rows = A.rows ∧ C.cols = A.cols ∧
      (∀ j, a ≤ j → j < b → C.get k j = v) ∧
      (∀ i j, (i ≠ k ∨ ¬ (a ≤ j ∧ j < b)) → C.get i j = A.get i j) := by
  obtain ⟨C, h1, h2, h3, h4, h5⟩ := Mat.assign_scalar (A := A) (r := .range k (k + 1)) (c := c) v k (k + 1) a b
    (by rw [PySlice.lo_range, clampBound_nat]; omega)
    (by rw [PySlice.hi_range, show ((k : Int) + 1) = ((k + 1 : Nat) : Int) by omega, clampBound_nat]; omega)
    hc0 hc1
  unfold Mat.assignRow
  rw [if_pos hk]
  refine ⟨C, h1, h2, h3, ?_, ?_⟩
  · intro j g1 g2
    exact h4 k j (le_refl _) (by omega) g1 g2
  · intro i j g
    exact h5 i j (by omega)

/-- the row `k` of the array `M` contains the given channel, which is moved by `start` and surrounded by zeros -/
def RowIs [Zero α] (M : Mat α) (k : Nat) (channel : Mat α) (start : Int) : Prop :=
  ∀ j : Nat, j < M.cols → M.get k j =
    if start ≤ j ∧ (j : Int) < start + channel.cols then channel.get 0 ((j : Int) - start).toNat else 0

theorem placeSignal_ok [Zero α] (mergedOffset : Int) (n L : Nat) (st : Mat α × List String) (k : Nat)
    (x : Mat α × Int × String) (h1 : st.1.rows = n) (h2 : st.1.cols = L) (h3 : st.2.length = n) (hk : k < n)
    (hx1 : x.1.rows = 1) (hx2 : mergedOffset ≤ x.2.1) (hx3 : x.2.1 - mergedOffset + x.1.cols ≤ L) :
    ∃ st', placeSignal mergedOffset st (k, x) = .ok st' ∧ (st'.1.rows = n ∧ st'.1.cols = L ∧ st'.2.length = n) ∧
      (RowIs st'.1 k x.1 (x.2.1 - mergedOffset) ∧ st'.2[k]? = some x.2.2) ∧
      ∀ k', k' ≠ k → (∀ j, st'.1.get k' j = st.1.get k' j) ∧ st'.2[k']? = st.2[k']? := by
  obtain ⟨M, ls⟩ := st
  obtain ⟨channel, offset, label⟩ := x
  dsimp only at *
  obtain ⟨a, ha⟩ : ∃ a : Nat, offset - mergedOffset = a := ⟨(offset - mergedOffset).toNat, by omega⟩
  obtain ⟨C1, c1, c2, c3, c4, c5⟩ := assignRow_scalar (A := M) (k := k) (c := .range 0 (offset - mergedOffset)) (0 : α)
    0 a (by omega) (by simp) (by rw [ha]; simp; omega)
  obtain ⟨C2, d1, d2, d3, d4, d5⟩ := assignRow_ok (A := C1) (S := channel) (k := k)
    (c := .range (offset - mergedOffset) (offset - mergedOffset + channel.cols)) a (a + channel.cols) (by omega)
    (by rw [ha]; simp; omega)
    (by rw [PySlice.hi_range, show offset - mergedOffset + (channel.cols : Int) = ((a + channel.cols : Nat) : Int) by
      omega, clampBound_nat]; omega) hx1 (by omega)
  obtain ⟨C3, e1, e2, e3, e4, e5⟩ := assignRow_scalar (A := C2) (k := k)
    (c := .drop (offset - mergedOffset + channel.cols)) (0 : α) (a + channel.cols) L (by omega)
    (by rw [PySlice.lo_drop, show offset - mergedOffset + (channel.cols : Int) = ((a + channel.cols : Nat) : Int) by
      omega, clampBound_nat]; omega) (by rw [PySlice.hi_drop]; omega)
  refine ⟨(C3, ls.set k label), ?_, ⟨by dsimp only; omega, by dsimp only; omega, by simpa using h3⟩, ⟨?_, ?_⟩, ?_⟩
  · unfold placeSignal
    dsimp only
    rw [c1]
    show (C1.assignRow k _ channel >>= _) = _
    rw [d1]
    show (C2.assignRow k _ _ >>= _) = _
    rw [e1]
    show (setItem ls k label >>= _) = _
    rw [setItem_ok _ (by omega)]
    rfl
  · intro j hj
    dsimp only at hj ⊢
    by_cases hin : offset - mergedOffset ≤ (j : Int) ∧ (j : Int) < offset - mergedOffset + channel.cols
    · rw [if_pos hin, e5 k j (Or.inr (by omega)), d4 j (by omega) (by omega)]
      congr 1; omega
    · rw [if_neg hin]
      by_cases hj' : j < a
      · rw [e5 k j (Or.inr (by omega)), d5 k j (Or.inr (by omega)), c4 j (by omega) hj']
      · rw [e4 j (by omega) (by omega)]
  · dsimp only
    rw [List.getElem?_set_self (by omega)]
  · intro k' hk'
    refine ⟨fun j => ?_, ?_⟩
    · dsimp only
      rw [e5 k' j (Or.inl hk'), d5 k' j (Or.inl hk'), c5 k' j (Or.inl hk')]
    · dsimp only
      rw [List.getElem?_set_ne (fun h => hk' h.symm)]

/-- What C23 demands of the result `r` of merging signals. -/
structure SignalSpec [Zero α] (mode : MergeMode) (data : List (Signal α R)) (r : Signal α R) : Prop where
  /-- one channel for each channel of the signals -/
  count : r.count = (data.map fun d => d.count).sum
  /-- the channels are in the desired order, at their time, and zero where there are no samples; labels move along -/
  channel : ∀ k o i d, (order mode (data.map fun d => d.count))[k]? = some (o, i) → data[o]? = some d →
    (∀ t, r.value k t = d.value i t) ∧ r.labels[k]? = d.labels[i]?
  /-- all time ranges are covered, and no more than that -/
  covers : ∀ d ∈ data, r.offset ≤ d.offset ∧ d.offset + d.length ≤ r.offset + r.length
  start : ∃ d ∈ data, r.offset = d.offset
  stop : ∃ d ∈ data, r.offset + r.length = d.offset + d.length
  rate : ∃ d, data.head? = some d ∧ r.rate = d.rate

theorem order_singleton (mode : MergeMode) (n : Nat) {k o i : Nat} (h : (order mode [n])[k]? = some (o, i)) :
    o = 0 ∧ k = i := by
  obtain ⟨h1, h2, h3⟩ := rank_of_get h
  have : o = 0 := by simpa using h1
  subst this
  refine ⟨rfl, ?_⟩
  cases mode with
  | firstDatasetFirst => simpa [rank, rankD] using h3
  | other => simpa [rank, rankD] using h3
  | firstChannelsFirst =>
    rw [h3]
    simp only [rank, rankC, List.take_zero]
    have hn : i < n := by simpa using h2
    have e : (List.range i).map (fun j => above j [n]) = (List.range i).map fun _ => 1 := by
      apply List.map_congr_left
      intro j hj
      have := List.mem_range.1 hj
      have : n > j := by omega
      simp [above, this]
    rw [e]
    simp [above]

theorem signalItems_eq (mode : MergeMode) (data : List (Signal α R)) (hw : ∀ d ∈ data, d.WF) :
    signalItems (data.zipIdx.flatMap fun x =>
      (List.range x.1.count).map fun i => rank mode (data.map fun d => d.count) x.2 i) data =
    data.zipIdx.flatMap fun x => (List.range x.1.count).map fun i =>
      (rank mode (data.map fun d => d.count) x.2 i, x.1.channels.row i, x.1.offset, x.1.labels.getD i "") := by
  unfold signalItems
  rw [flatMap_zipIdx data (fun d => (List.range d.count).map d.channels.row),
    flatMap_zipIdx data (fun d => (List.range d.count).map fun _ => d.offset)]
  have hl : data.flatMap (fun d => d.labels) =
      data.zipIdx.flatMap fun x => (List.range x.1.count).map fun i => x.1.labels.getD i "" := by
    rw [← flatMap_zipIdx data (fun d => (List.range d.count).map fun i => d.labels.getD i ""),
      List.flatMap_def, List.flatMap_def]
    congr 1
    apply List.map_congr_left
    intro d hd
    exact labels_eq (hw d hd)
  rw [hl, zip_flatMap, zip_flatMap, zip_flatMap]

/-- C23 for signals: every valid merge yields the demanded result.
`_partial`: in the mode `FIRST_CHANNELS_FIRST` only if every signal has a channel (`Valid`), see
`C23_empty_dataset_violated`. -/
theorem C23_signals_partial [Zero α] (mem : Nat → Nat → α) (mode : MergeMode) (data : List (Signal α R))
    (hd : data ≠ []) (hw : ∀ d ∈ data, d.WF) (hv : Valid mode (data.map fun d => d.count)) :
    ∃ r, signals mem mode data = .ok r ∧ SignalSpec mode data r := by
  match data, hd with
  | [s], _ =>
    refine ⟨s, rfl, by simp, ?_, by simp, ⟨s, by simp, rfl⟩, ⟨s, by simp, rfl⟩, ⟨s, rfl, rfl⟩⟩
    intro k o i d h1 h2
    obtain ⟨rfl, rfl⟩ := order_singleton mode _ h1
    simp only [List.getElem?_cons_zero, Option.some.injEq] at h2
    subst h2
    exact ⟨fun t => rfl, rfl⟩
  | first :: second :: rest, _ =>
    generalize hdata : first :: second :: rest = data at *
    have hfirst : data.head? = some first := by rw [← hdata]; rfl
    have hfm : first ∈ data := by rw [← hdata]; simp
    rw [show signals mem mode data = signalsMany mem mode first data by rw [← hdata]; rfl]
    unfold signalsMany
    rw [indices_data mode data (fun d => d.count) hv]
    obtain ⟨m1, m2, m3⟩ := foldl_min_spec (fun d : Signal α R => d.offset) data first.offset
    obtain ⟨n1, n2, n3⟩ := foldl_max_spec_int (fun d : Signal α R => d.offset + (d.length : Int)) data
      (first.offset + first.length)
    generalize data.foldl (fun m s => min m s.offset) first.offset = mo at *
    generalize data.foldl (fun m s => max m (s.offset + (s.length : Int))) (first.offset + first.length) = stop at *
    show ∃ r, ((signalItems _ data).foldlM (placeSignal mo) (alloc mem _ (stop - mo).toNat, _) >>= _) = _ ∧ _
    rw [signalItems_eq mode data hw]
    obtain ⟨i1, i2, i3⟩ := items_spec mode data (fun d => d.count)
      (fun d i => (d.channels.row i, d.offset, d.labels.getD i ""))
    generalize hn : (data.map fun d => d.count).sum = n at *
    generalize hL : (stop - mo).toNat = L at *
    obtain ⟨st, f1, ⟨f2, f2', f2''⟩, f3, _⟩ := fold_place (placeSignal (α := α) mo) n
      (fun st => st.1.rows = n ∧ st.1.cols = L ∧ st.2.length = n)
      (fun st k x => RowIs st.1 k x.1 (x.2.1 - mo) ∧ st.2[k]? = some x.2.2)
      (fun x => x.1.rows = 1 ∧ mo ≤ x.2.1 ∧ x.2.1 - mo + x.1.cols ≤ L)
      (by
        rintro st k x ⟨h1, h2, h3⟩ hk ⟨p1, p2, p3⟩
        obtain ⟨st', e1, e2, e3, e4⟩ := placeSignal_ok mo n L st k x h1 h2 h3 hk p1 p2 p3
        refine ⟨st', e1, e2, e3, ?_⟩
        rintro k' x' hk' ⟨r1, r2⟩
        obtain ⟨q1, q2⟩ := e4 k' hk'
        refine ⟨?_, q2.trans r2⟩
        intro j hj
        rw [q1 j]
        exact r1 j (by rw [h2]; rw [e2.2.1] at hj; exact hj))
      _ (alloc mem n L, List.replicate n "") ⟨rfl, rfl, by simp⟩
      (by
        intro p hp
        obtain ⟨h1, d, hd, i, hi, h2⟩ := i1 p hp
        refine ⟨h1, ?_⟩
        rw [h2]
        have g1 := m2 d hd
        have g2 := n2 d hd
        refine ⟨rfl, g1, ?_⟩
        show d.offset - mo + (d.length : Int) ≤ L
        omega) i2
    rw [f1]
    refine ⟨_, rfl, ?_, ?_, ?_, ?_, ?_, ?_⟩
    · show st.1.rows = _
      rw [f2]; exact hn.symm
    · intro k o i d h1 h2
      obtain ⟨r1, r2⟩ := f3 _ (i3 k o i d h1 h2)
      dsimp only at r1 r2
      obtain ⟨g1, g2, g3⟩ := rank_of_get h1
      have hk : k < n := by
        obtain ⟨h, _⟩ := List.getElem?_eq_some_iff.1 h1
        rw [order_length] at h
        omega
      have hi : i < d.count := by
        rw [List.getD_eq_getElem?_getD, List.getElem?_map, h2] at g2
        exact g2
      have hdm := List.mem_of_getElem? h2
      have l1 := m2 d hdm
      have l2 := n2 d hdm
      refine ⟨?_, ?_⟩
      · intro t
        unfold Signal.value
        cases hx : (Signal.new st.1 first.rate mo (some st.2)).at_ k t with
        | some x =>
          obtain ⟨x1, x2, x3, x4⟩ := Signal.at_eq_some.1 hx
          rw [Signal.new_offset] at x2 x3 x4
          rw [Signal.new_length] at x3
          rw [Option.getD_some, ← x4, Signal.new_channels, r1 _ (by omega)]
          show (if d.offset - mo ≤ ((t - mo).toNat : Int) ∧ ((t - mo).toNat : Int) < d.offset - mo + d.length then
            d.channels.get i (((t - mo).toNat : Int) - (d.offset - mo)).toNat else 0) = _
          cases hy : d.at_ i t with
          | some y =>
            obtain ⟨y1, y2, y3, y4⟩ := Signal.at_eq_some.1 hy
            rw [if_pos (by omega), Option.getD_some, ← y4]
            congr 1; omega
          | none =>
            rw [if_neg, Option.getD_none]
            intro hc
            have := (Signal.at_eq_some (s := d) (c := i) (t := t)).2 ⟨hi, by omega, by omega, rfl⟩
            rw [hy] at this
            cases this
        | none =>
          cases hy : d.at_ i t with
          | some y =>
            obtain ⟨y1, y2, y3, y4⟩ := Signal.at_eq_some.1 hy
            have := (Signal.at_eq_some (s := Signal.new st.1 first.rate mo (some st.2)) (c := k) (t := t)).2
              ⟨by rw [Signal.new_count]; omega, by rw [Signal.new_offset]; omega,
               by rw [Signal.new_offset, Signal.new_length]; omega, rfl⟩
            rw [hx] at this
            cases this
          | none => rfl
      · show (sanitizeLabels (some st.2) st.1.rows)[k]? = _
        rw [Signal.sanitize_self (by omega), r2]
        have hwd : d.labels.length = d.count := hw d hdm
        rw [List.getD_eq_getElem?_getD, List.getElem?_eq_getElem (by omega : i < d.labels.length)]
        rfl
    · intro d hdm
      have l1 := m2 d hdm
      have l2 := n2 d hdm
      show mo ≤ _ ∧ _ ≤ mo + (st.1.cols : Int)
      omega
    · rcases m3 with h | ⟨d, hdm, h⟩
      · exact ⟨first, hfm, h⟩
      · exact ⟨d, hdm, h⟩
    · have l1 := m2 first hfm
      have l2 := n2 first hfm
      have : mo + (st.1.cols : Int) = stop := by omega
      rcases n3 with h | ⟨d, hdm, h⟩
      · exact ⟨first, hfm, this.trans h⟩
      · exact ⟨d, hdm, this.trans h⟩
    · exact ⟨first, hfirst, rfl⟩

/-- `C23_signals_partial` in both modes, with different offsets and lengths -/
example : ((signals (fun _ _ => (99 : Int)) .firstChannelsFirst
      [(⟨Mat.ofRows 2 [[1, 2], [3, 4]], (5 : Nat), 1, ["a", "b"]⟩ : Signal Int Nat),
       ⟨Mat.ofRows 1 [[7]], 6, 0, ["c"]⟩]).map fun r => (r.channels.flat, r.offset, r.rate, r.labels)) =
    .ok ([0, 1, 2, 7, 0, 0, 0, 3, 4], 0, 5, ["a", "c", "b"]) := by decide +kernel
example : ((signals (fun _ _ => (99 : Int)) .firstDatasetFirst
      [(⟨Mat.ofRows 2 [[1, 2], [3, 4]], (5 : Nat), 1, ["a", "b"]⟩ : Signal Int Nat),
       ⟨Mat.ofRows 1 [[7]], 6, 0, ["c"]⟩]).map fun r => (r.channels.flat, r.offset, r.rate, r.labels)) =
    .ok ([0, 1, 2, 0, 3, 4, 7, 0, 0], 0, 5, ["a", "b", "c"]) := by decide +kernel
example : Valid .firstChannelsFirst [2, 1] := Or.inr ⟨rfl, by decide⟩

/-- C23 is violated by the mode `FIRST_CHANNELS_FIRST`, when there is a signal without channels: merging it with a
signal, that has two channels, raises an `IndexError`. -/
theorem C23_empty_dataset_violated :
    signals (fun _ _ => (0 : Int)) .firstChannelsFirst
      [(⟨Mat.ofRows 1 [], (1 : Nat), 0, []⟩ : Signal Int Nat),
       ⟨Mat.ofRows 1 [[1], [2]], 1, 0, ["a", "b"]⟩] = .error .indexError := by
  rfl

/-- C23: an invalid mode is rejected. -/
theorem C23_invalid_mode [Zero α] (mem : Nat → Nat → α) (a b : Signal α R) (l : List (Signal α R)) :
    signals mem .other (a :: b :: l) = .error .valueError := rfl

/-! ### Spectrums -/

/-- the row `k` of the array `M` contains the given channel, which is followed by zeros -/
def RowStarts [Zero α] (M : Mat α) (k : Nat) (channel : Mat α) : Prop :=
  ∀ j : Nat, j < M.cols → M.get k j = if j < channel.cols then channel.get 0 j else 0

theorem placeSpectrum_ok [Zero α] (n L : Nat) (st : Mat α × List String) (k : Nat)
    (x : Mat α × String) (h1 : st.1.rows = n) (h2 : st.1.cols = L) (h3 : st.2.length = n) (hk : k < n)
    (hx1 : x.1.rows = 1) (hx3 : x.1.cols ≤ L) :
    ∃ st', placeSpectrum st (k, x) = .ok st' ∧ (st'.1.rows = n ∧ st'.1.cols = L ∧ st'.2.length = n) ∧
      (RowStarts st'.1 k x.1 ∧ st'.2[k]? = some x.2) ∧
      ∀ k', k' ≠ k → (∀ j, st'.1.get k' j = st.1.get k' j) ∧ st'.2[k']? = st.2[k']? := by
  obtain ⟨M, ls⟩ := st
  obtain ⟨channel, label⟩ := x
  dsimp only at *
  obtain ⟨C2, d1, d2, d3, d4, d5⟩ := assignRow_ok (A := M) (S := channel) (k := k)
    (c := .range 0 channel.cols) 0 channel.cols (by omega) (by simp) (by simp; omega) hx1 (by omega)
  obtain ⟨C3, e1, e2, e3, e4, e5⟩ := assignRow_scalar (A := C2) (k := k)
    (c := .drop channel.cols) (0 : α) channel.cols L (by omega) (by simp; omega) (by rw [PySlice.hi_drop]; omega)
  refine ⟨(C3, ls.set k label), ?_, ⟨by dsimp only; omega, by dsimp only; omega, by simpa using h3⟩, ⟨?_, ?_⟩, ?_⟩
  · unfold placeSpectrum
    dsimp only
    rw [d1]
    show (C2.assignRow k _ _ >>= _) = _
    rw [e1]
    show (setItem ls k label >>= _) = _
    rw [setItem_ok _ (by omega)]
    rfl
  · intro j hj
    dsimp only at hj ⊢
    by_cases hin : j < channel.cols
    · rw [if_pos hin, e5 k j (Or.inr (by omega)), d4 j (by omega) hin]
      rfl
    · rw [if_neg hin, e4 j (by omega) (by omega)]
  · dsimp only
    rw [List.getElem?_set_self (by omega)]
  · intro k' hk'
    refine ⟨fun j => ?_, ?_⟩
    · dsimp only
      rw [e5 k' j (Or.inl hk'), d5 k' j (Or.inl hk')]
    · dsimp only
      rw [List.getElem?_set_ne (fun h => hk' h.symm)]

/-- What C23 demands of the result `r` of merging spectrums. -/
structure SpectrumSpec [Zero α] (mode : MergeMode) (data : List (Spectrum α R)) (r : Spectrum α R) : Prop where
  count : r.count = (data.map fun d => d.count).sum
  channel : ∀ k o i d, (order mode (data.map fun d => d.count))[k]? = some (o, i) → data[o]? = some d →
    (∀ j, j < r.length → r.channels.get k j = if j < d.length then d.channels.get i j else 0) ∧
    r.labels[k]? = d.labels[i]?
  covers : ∀ d ∈ data, d.length ≤ r.length
  length : ∃ d ∈ data, r.length = d.length
  resolution : ∃ d, data.head? = some d ∧ r.resolution = d.resolution

theorem foldl_max_spec_nat {D : Type} (f : D → Nat) : ∀ (l : List D) (m : Nat),
    m ≤ l.foldl (fun m s => max m (f s)) m ∧ (∀ d ∈ l, f d ≤ l.foldl (fun m s => max m (f s)) m) ∧
    (l.foldl (fun m s => max m (f s)) m = m ∨ ∃ d ∈ l, l.foldl (fun m s => max m (f s)) m = f d) := by
  intro l m
  obtain ⟨h1, h2⟩ := Concatenate.foldl_max_le f l m
  exact ⟨h1, h2, Concatenate.foldl_max_mem f l m⟩

theorem spectrumItems_eq (mode : MergeMode) (data : List (Spectrum α R))
    (hw : ∀ d ∈ data, d.labels.length = d.count) :
    spectrumItems (data.zipIdx.flatMap fun x =>
      (List.range x.1.count).map fun i => rank mode (data.map fun d => d.count) x.2 i) data =
    data.zipIdx.flatMap fun x => (List.range x.1.count).map fun i =>
      (rank mode (data.map fun d => d.count) x.2 i, x.1.channels.row i, x.1.labels.getD i "") := by
  unfold spectrumItems
  rw [flatMap_zipIdx data (fun d => (List.range d.count).map d.channels.row)]
  have hl : data.flatMap (fun d => d.labels) =
      data.zipIdx.flatMap fun x => (List.range x.1.count).map fun i => x.1.labels.getD i "" := by
    rw [← flatMap_zipIdx data (fun d => (List.range d.count).map fun i => d.labels.getD i ""),
      List.flatMap_def, List.flatMap_def]
    congr 1
    apply List.map_congr_left
    intro d hd
    exact labels_eq (hw d hd)
  rw [hl, zip_flatMap, zip_flatMap]

/-- C23 for spectrums.
`_partial`: in the mode `FIRST_CHANNELS_FIRST` only if every spectrum has a channel. -/
theorem C23_spectrums_partial [Zero α] (mem : Nat → Nat → α) (mode : MergeMode) (data : List (Spectrum α R))
    (hd : data ≠ []) (hw : ∀ d ∈ data, d.labels.length = d.count) (hv : Valid mode (data.map fun d => d.count)) :
    ∃ r, spectrums mem mode data = .ok r ∧ SpectrumSpec mode data r := by
  match data, hd with
  | [s], _ =>
    refine ⟨s, rfl, by simp, ?_, by simp, ⟨s, by simp, rfl⟩, ⟨s, rfl, rfl⟩⟩
    intro k o i d h1 h2
    obtain ⟨rfl, rfl⟩ := order_singleton mode _ h1
    simp only [List.getElem?_cons_zero, Option.some.injEq] at h2
    subst h2
    exact ⟨fun j hj => by rw [if_pos hj], rfl⟩
  | first :: second :: rest, _ =>
    generalize hdata : first :: second :: rest = data at *
    have hfirst : data.head? = some first := by rw [← hdata]; rfl
    have hfm : first ∈ data := by rw [← hdata]; simp
    rw [show spectrums mem mode data = spectrumsMany mem mode first data by rw [← hdata]; rfl]
    unfold spectrumsMany
    rw [indices_data mode data (fun d => d.count) hv]
    obtain ⟨n1, n2, n3⟩ := foldl_max_spec_nat (fun d : Spectrum α R => d.length) data first.length
    generalize data.foldl (fun m s => max m s.length) first.length = L at *
    show ∃ r, ((spectrumItems _ data).foldlM placeSpectrum (alloc mem _ L, _) >>= _) = _ ∧ _
    rw [spectrumItems_eq mode data hw]
    obtain ⟨i1, i2, i3⟩ := items_spec mode data (fun d => d.count)
      (fun d i => (d.channels.row i, d.labels.getD i ""))
    generalize hn : (data.map fun d => d.count).sum = n at *
    obtain ⟨st, f1, ⟨f2, f2', f2''⟩, f3, _⟩ := fold_place (placeSpectrum (α := α)) n
      (fun st => st.1.rows = n ∧ st.1.cols = L ∧ st.2.length = n)
      (fun st k x => RowStarts st.1 k x.1 ∧ st.2[k]? = some x.2)
      (fun x => x.1.rows = 1 ∧ x.1.cols ≤ L)
      (by
        rintro st k x ⟨h1, h2, h3⟩ hk ⟨p1, p3⟩
        obtain ⟨st', e1, e2, e3, e4⟩ := placeSpectrum_ok n L st k x h1 h2 h3 hk p1 p3
        refine ⟨st', e1, e2, e3, ?_⟩
        rintro k' x' hk' ⟨r1, r2⟩
        obtain ⟨q1, q2⟩ := e4 k' hk'
        refine ⟨?_, q2.trans r2⟩
        intro j hj
        rw [q1 j]
        exact r1 j (by rw [h2]; rw [e2.2.1] at hj; exact hj))
      _ (alloc mem n L, List.replicate n "") ⟨rfl, rfl, by simp⟩
      (by
        intro p hp
        obtain ⟨h1, d, hd, i, hi, h2⟩ := i1 p hp
        refine ⟨h1, ?_⟩
        rw [h2]
        exact ⟨rfl, n2 d hd⟩) i2
    rw [f1]
    refine ⟨_, rfl, ?_, ?_, ?_, ?_, ?_⟩
    · show st.1.rows = _
      rw [f2]; exact hn.symm
    · intro k o i d h1 h2
      obtain ⟨r1, r2⟩ := f3 _ (i3 k o i d h1 h2)
      dsimp only at r1 r2
      obtain ⟨g1, g2, g3⟩ := rank_of_get h1
      have hi : i < d.count := by
        rw [List.getD_eq_getElem?_getD, List.getElem?_map, h2] at g2
        exact g2
      have hdm := List.mem_of_getElem? h2
      refine ⟨r1, ?_⟩
      show (sanitizeLabels (some st.2) st.1.rows)[k]? = _
      rw [Signal.sanitize_self (by omega), r2]
      have hwd : d.labels.length = d.count := hw d hdm
      rw [List.getD_eq_getElem?_getD, List.getElem?_eq_getElem (by omega : i < d.labels.length)]
      rfl
    · intro d hdm
      show d.length ≤ st.1.cols
      rw [f2']
      exact n2 d hdm
    · show ∃ d ∈ data, st.1.cols = d.length
      rw [f2']
      rcases n3 with h | h
      · exact ⟨first, hfm, h⟩
      · exact h
    · exact ⟨first, hfirst, rfl⟩

/-! ### Spectrograms -/

/-- the row `k` of the array `M` contains the given channel, which is moved by `start`; all other elements are zero -/
def CubeRowIs [Zero α] (M : Cube α) (k : Nat) (channel : Cube α) (start : Int) : Prop :=
  ∀ f j : Nat, f < M.d1 → j < M.d2 → M.get k f j =
    if f < channel.d1 ∧ start ≤ j ∧ (j : Int) < start + channel.d2 then channel.get 0 f ((j : Int) - start).toNat else 0

/-- The invariant of the loop: a row which has not been written, yet, contains zeros. -/
def ZeroRow [Zero α] (M : Cube α) (k : Nat) : Prop := ∀ f j, f < M.d1 → j < M.d2 → M.get k f j = 0

theorem placeSpectrogram_ok [Zero α] (mergedOffset : Int) (n F L : Nat) (st : Cube α × List String) (k : Nat)
    (x : Cube α × Int × String) (h1 : st.1.d0 = n) (hF : st.1.d1 = F) (h2 : st.1.d2 = L) (h3 : st.2.length = n)
    (hk : k < n) (hx1 : x.1.d0 = 1) (hxF : x.1.d1 ≤ F) (hx2 : mergedOffset ≤ x.2.1)
    (hx3 : x.2.1 - mergedOffset + x.1.d2 ≤ L) :
    ∃ st', placeSpectrogram mergedOffset st (k, x) = .ok st' ∧
      (st'.1.d0 = n ∧ st'.1.d1 = F ∧ st'.1.d2 = L ∧ st'.2.length = n) ∧ st'.2[k]? = some x.2.2 ∧
      (∀ f j : Nat, f < x.1.d1 → x.2.1 - mergedOffset ≤ j → (j : Int) < x.2.1 - mergedOffset + x.1.d2 →
        st'.1.get k f j = x.1.get 0 f ((j : Int) - (x.2.1 - mergedOffset)).toNat) ∧
      (∀ f j : Nat, ¬ (f < x.1.d1 ∧ x.2.1 - mergedOffset ≤ j ∧ (j : Int) < x.2.1 - mergedOffset + x.1.d2) →
        st'.1.get k f j = st.1.get k f j) ∧
      ∀ k', k' ≠ k → (∀ f j, st'.1.get k' f j = st.1.get k' f j) ∧ st'.2[k']? = st.2[k']? := by
  obtain ⟨M, ls⟩ := st
  obtain ⟨channel, offset, label⟩ := x
  dsimp only at *
  obtain ⟨a, ha⟩ : ∃ a : Nat, offset - mergedOffset = a := ⟨(offset - mergedOffset).toNat, by omega⟩
  obtain ⟨C, hC, u⟩ := Cube.assign_ok (A := M) (S := channel) (r := .range k (k + 1)) (s := .range 0 channel.d1)
    (t := .range (offset - mergedOffset) (offset - mergedOffset + channel.d2)) k (k + 1) 0 channel.d1
    a (a + channel.d2)
    ⟨by rw [PySlice.lo_range, clampBound_nat]; omega,
     by rw [PySlice.hi_range, show ((k : Int) + 1) = ((k + 1 : Nat) : Int) by omega, clampBound_nat]; omega⟩
    ⟨by simp, by simp; omega⟩
    ⟨by rw [ha]; simp; omega, by
      rw [PySlice.hi_range, show offset - mergedOffset + (channel.d2 : Int) = ((a + channel.d2 : Nat) : Int) by
        omega, clampBound_nat]; omega⟩
    ⟨Or.inr hx1, Or.inl (by omega), Or.inl (by omega)⟩
  have u0 := u.e0
  have u1 := u.e1
  have u2 := u.e2
  refine ⟨(C, ls.set k label), ?_,
    ⟨by dsimp only; omega, by dsimp only; omega, by dsimp only; omega, by simpa using h3⟩, ?_, ?_, ?_, ?_⟩
  · unfold placeSpectrogram
    dsimp only
    rw [show M.assignRow k (.range 0 channel.d1) (.range (offset - mergedOffset) (offset - mergedOffset + channel.d2))
      channel = .ok C by unfold Cube.assignRow; rw [if_pos (by omega)]; exact hC]
    show (setItem ls k label >>= _) = _
    rw [setItem_ok _ (by omega)]
    rfl
  · dsimp only
    rw [List.getElem?_set_self (by omega)]
  · intro f j g1 g2 g3
    dsimp only
    rw [u.inside k f j ⟨by omega, by omega, by omega⟩, Cube.ix_of_one hx1, Cube.ix_lt (n := channel.d1) (by omega),
      Cube.ix_lt (n := channel.d2) (by omega)]
    congr 1; omega
  · intro f j g
    exact u.outside k f j (fun h => g ⟨h.2.1.2, by have := h.2.2.1; omega, by have := h.2.2.2; omega⟩)
  · intro k' hk'
    refine ⟨fun f j => u.outside k' f j (fun h => hk' (by have := h.1; omega)), ?_⟩
    dsimp only
    rw [List.getElem?_set_ne (fun h => hk' h.symm)]

/-- What C23 demands of the result `r` of merging spectrograms. -/
structure SpectrogramSpec [Zero α] (mode : MergeMode) (data : List (Spectrogram α R)) (r : Spectrogram α R) :
    Prop where
  count : r.count = (data.map fun d => d.count).sum
  channel : ∀ k o i d, (order mode (data.map fun d => d.count))[k]? = some (o, i) → data[o]? = some d →
    (∀ f t, Concatenate.sgValue r k f t = Concatenate.sgValue d i f t) ∧ r.labels[k]? = d.labels[i]?
  covers : ∀ d ∈ data, r.offset ≤ d.offset ∧ d.offset + d.length ≤ r.offset + r.length ∧ d.freqs ≤ r.freqs
  start : ∃ d ∈ data, r.offset = d.offset
  stop : ∃ d ∈ data, r.offset + r.length = d.offset + d.length
  freqs : ∃ d ∈ data, r.freqs = d.freqs
  rates : ∃ d, data.head? = some d ∧ r.rate = d.rate ∧ r.resolution = d.resolution

theorem spectrogramItems_eq (mode : MergeMode) (data : List (Spectrogram α R))
    (hw : ∀ d ∈ data, d.labels.length = d.count) :
    spectrogramItems (data.zipIdx.flatMap fun x =>
      (List.range x.1.count).map fun i => rank mode (data.map fun d => d.count) x.2 i) data =
    data.zipIdx.flatMap fun x => (List.range x.1.count).map fun i =>
      (rank mode (data.map fun d => d.count) x.2 i, x.1.channels.row i, x.1.offset, x.1.labels.getD i "") := by
  unfold spectrogramItems
  rw [flatMap_zipIdx data (fun d => (List.range d.count).map d.channels.row),
    flatMap_zipIdx data (fun d => (List.range d.count).map fun _ => d.offset)]
  have hl : data.flatMap (fun d => d.labels) =
      data.zipIdx.flatMap fun x => (List.range x.1.count).map fun i => x.1.labels.getD i "" := by
    rw [← flatMap_zipIdx data (fun d => (List.range d.count).map fun i => d.labels.getD i ""),
      List.flatMap_def, List.flatMap_def]
    congr 1
    apply List.map_congr_left
    intro d hd
    exact labels_eq (hw d hd)
  rw [hl, zip_flatMap, zip_flatMap, zip_flatMap]

/-- The loop with zero-initialised memory: every item finds its row filled with zeros, because the places of the
items are distinct. -/
theorem fold_spectrograms [Zero α] (mo : Int) (n F L : Nat) : ∀ (items : List (Nat × Cube α × Int × String))
    (st : Cube α × List String),
    st.1.d0 = n → st.1.d1 = F → st.1.d2 = L → st.2.length = n →
    (∀ p ∈ items, p.1 < n ∧ p.2.1.d0 = 1 ∧ p.2.1.d1 ≤ F ∧ mo ≤ p.2.2.1 ∧ p.2.2.1 - mo + p.2.1.d2 ≤ L) →
    (items.map Prod.fst).Nodup → (∀ p ∈ items, ZeroRow st.1 p.1) →
    ∃ st', items.foldlM (placeSpectrogram mo) st = .ok st' ∧
      (st'.1.d0 = n ∧ st'.1.d1 = F ∧ st'.1.d2 = L ∧ st'.2.length = n) ∧
      (∀ p ∈ items, CubeRowIs st'.1 p.1 p.2.1 (p.2.2.1 - mo) ∧ st'.2[p.1]? = some p.2.2.2) ∧
      (∀ k, k ∉ items.map Prod.fst → (∀ f j, st'.1.get k f j = st.1.get k f j) ∧ st'.2[k]? = st.2[k]?) := by
  intro items
  induction items with
  | nil => intro st h1 h2 h3 h4 _ _ _; exact ⟨st, rfl, ⟨h1, h2, h3, h4⟩, by simp, fun _ _ => ⟨fun _ _ => rfl, rfl⟩⟩
  | cons p items ih =>
    intro st h1 h2 h3 h4 hi hn hz
    obtain ⟨q1, q2, q3, q4, q5⟩ := hi p (by simp)
    obtain ⟨st1, e1, ⟨e2, e3, e4, e5⟩, e6, e7, e8, e9⟩ := placeSpectrogram_ok mo n F L st p.1 p.2 h1 h2 h3 h4 q1 q2 q3
      q4 q5
    rw [List.map_cons, List.nodup_cons] at hn
    obtain ⟨st2, g1, g2, g3, g4⟩ := ih st1 e2 e3 e4 e5 (fun q hq => hi q (List.mem_cons_of_mem _ hq)) hn.2
      (by
        intro q hq f j hf hj
        have hne : q.1 ≠ p.1 := fun h => hn.1 (h ▸ List.mem_map_of_mem hq)
        rw [(e9 q.1 hne).1 f j]
        exact hz q (List.mem_cons_of_mem _ hq) f j (by omega) (by omega))
    refine ⟨st2, ?_, g2, ?_, ?_⟩
    · rw [List.foldlM_cons]
      show (placeSpectrogram mo st (p.1, p.2) >>= _) = _
      rw [e1]
      exact g1
    · intro q hq
      rcases List.mem_cons.1 hq with rfl | hq
      · obtain ⟨k1, k2⟩ := g4 q.1 hn.1
        refine ⟨?_, k2.trans e6⟩
        intro f j hf hj
        rw [k1 f j]
        by_cases hin : f < q.2.1.d1 ∧ q.2.2.1 - mo ≤ (j : Int) ∧ (j : Int) < q.2.2.1 - mo + q.2.1.d2
        · rw [if_pos hin, e7 f j hin.1 hin.2.1 hin.2.2]
        · rw [if_neg hin, e8 f j hin]
          exact hz q (by simp) f j (by omega) (by omega)
      · exact g3 q hq
    · intro k hk
      rw [List.map_cons, List.mem_cons, not_or] at hk
      obtain ⟨k1, k2⟩ := g4 k hk.2
      obtain ⟨l1, l2⟩ := e9 k hk.1
      exact ⟨fun f j => (k1 f j).trans (l1 f j), k2.trans l2⟩

/-- the places of the items are distinct -/
theorem items_nodup {D X : Type} (mode : MergeMode) (data : List D) (count : D → Nat) (item : D → Nat → X) :
    ((data.zipIdx.flatMap fun x => (List.range (count x.1)).map fun i =>
      (rank mode (data.map count) x.2 i, item x.1 i)).map Prod.fst).Nodup := by
  have e : (data.zipIdx.flatMap fun x => (List.range (count x.1)).map fun i =>
      (rank mode (data.map count) x.2 i, item x.1 i)).map Prod.fst =
      (order .firstDatasetFirst (data.map count)).map fun oi => rank mode (data.map count) oi.1 oi.2 := by
    rw [order.eq_2 _ _ (by simp), List.map_flatMap, List.map_flatMap, List.length_map]
    have hz : data.zipIdx = (List.range data.length).attach.map fun o =>
        (data[o.1]'(List.mem_range.1 o.2), o.1) := by
      apply List.ext_getElem
      · simp
      · intro n h1 h2
        simp
    rw [hz, List.flatMap_map]
    conv => rhs; rw [← List.attach_map_subtype_val (List.range data.length), List.flatMap_map]
    rw [List.flatMap_def, List.flatMap_def]
    congr 1
    apply List.map_congr_left
    rintro ⟨o, ho⟩ _
    have ho' := List.mem_range.1 ho
    simp [List.getD_eq_getElem?_getD, ho']
  rw [e]
  apply List.Nodup.map_on _ (order_nodup _ _)
  rintro ⟨o, i⟩ h1 ⟨o', i'⟩ h2 h
  have g1 := order_mem.1 h1
  have g2 := order_mem.1 h2
  have k1 := order_get (mode := mode) g1.1 g1.2
  have k2 := order_get (mode := mode) g2.1 g2.2
  dsimp only at h
  rw [h, k2] at k1
  exact (Option.some.inj k1).symm

/-- C23 for spectrograms.
`_partial`: in the mode `FIRST_CHANNELS_FIRST` only if every spectrogram has a channel. -/
theorem C23_spectrograms_partial [Zero α] (mem : Nat → Nat → Nat → α) (mode : MergeMode)
    (data : List (Spectrogram α R)) (hd : data ≠ []) (hw : ∀ d ∈ data, d.labels.length = d.count)
    (hv : Valid mode (data.map fun d => d.count)) :
    ∃ r, spectrograms mem mode data = .ok r ∧ SpectrogramSpec mode data r := by
  match data, hd with
  | [s], _ =>
    refine ⟨s, rfl, by simp, ?_, by simp, ⟨s, by simp, rfl⟩, ⟨s, by simp, rfl⟩, ⟨s, by simp, rfl⟩, ⟨s, rfl, rfl, rfl⟩⟩
    intro k o i d h1 h2
    obtain ⟨rfl, rfl⟩ := order_singleton mode _ h1
    simp only [List.getElem?_cons_zero, Option.some.injEq] at h2
    subst h2
    exact ⟨fun f t => rfl, rfl⟩
  | first :: second :: rest, _ =>
    generalize hdata : first :: second :: rest = data at *
    have hfirst : data.head? = some first := by rw [← hdata]; rfl
    have hfm : first ∈ data := by rw [← hdata]; simp
    rw [show spectrograms mem mode data = spectrogramsMany mem mode first data by rw [← hdata]; rfl]
    unfold spectrogramsMany
    rw [indices_data mode data (fun d => d.count) hv]
    obtain ⟨m1, m2, m3⟩ := foldl_min_spec (fun d : Spectrogram α R => d.offset) data first.offset
    obtain ⟨n1, n2, n3⟩ := foldl_max_spec_int (fun d : Spectrogram α R => d.offset + (d.length : Int)) data
      (first.offset + first.length)
    obtain ⟨k1, k2, k3⟩ := foldl_max_spec_nat (fun d : Spectrogram α R => d.freqs) data first.freqs
    generalize data.foldl (fun m s => min m s.offset) first.offset = mo at *
    generalize data.foldl (fun m s => max m (s.offset + (s.length : Int))) (first.offset + first.length) = stop at *
    generalize data.foldl (fun m s => max m s.freqs) first.freqs = F at *
    generalize hn : (data.map fun d => d.count).sum = n at *
    generalize hL : (stop - mo).toNat = L at *
    obtain ⟨Z, hZ, u⟩ := Cube.assign_ok (A := allocCube mem n F L) (S := .scalar 0) (r := .all) (s := .all)
      (t := .all) 0 n 0 F 0 L ⟨rfl, rfl⟩ ⟨rfl, rfl⟩ ⟨rfl, rfl⟩ ⟨Or.inr rfl, Or.inr rfl, Or.inr rfl⟩
    dsimp only
    rw [hL, hZ]
    show ∃ r, ((spectrogramItems _ data).foldlM (placeSpectrogram mo) (Z, _) >>= _) = _ ∧ _
    rw [spectrogramItems_eq mode data hw]
    obtain ⟨i1, i2, i3⟩ := items_spec mode data (fun d => d.count)
      (fun d i => (d.channels.row i, d.offset, d.labels.getD i ""))
    rw [hn] at i1
    have hnd := items_nodup mode data (fun d => d.count) (fun d i => (d.channels.row i, d.offset, d.labels.getD i ""))
    obtain ⟨st, f1, ⟨f2, f2F, f2', f2''⟩, f3, _⟩ := fold_spectrograms mo n F L _ (Z, List.replicate n "")
      u.e0 u.e1 u.e2 (by simp)
      (by
        intro p hp
        obtain ⟨h1, d, hd, i, hi, h2⟩ := i1 p hp
        refine ⟨h1, ?_⟩
        rw [h2]
        have g1 := m2 d hd
        have g2 := n2 d hd
        refine ⟨rfl, k2 d hd, g1, ?_⟩
        show d.offset - mo + (d.length : Int) ≤ L
        omega) hnd
      (by
        intro p hp f j hf hj
        have h1 := (i1 p hp).1
        have z1 := u.e1
        have z2 := u.e2
        dsimp only [allocCube] at *
        rw [u.inside p.1 f j ⟨by omega, by omega, by omega⟩]
        rfl)
    rw [f1]
    refine ⟨_, rfl, ?_, ?_, ?_, ?_, ?_, ?_, ?_⟩
    · show st.1.d0 = _
      rw [f2]; exact hn.symm
    · intro k o i d h1 h2
      obtain ⟨r1, r2⟩ := f3 _ (i3 k o i d h1 h2)
      dsimp only at r1 r2
      obtain ⟨g1, g2, g3⟩ := rank_of_get h1
      have hk : k < n := by
        obtain ⟨h, _⟩ := List.getElem?_eq_some_iff.1 h1
        rw [order_length] at h
        omega
      have hi : i < d.count := by
        rw [List.getD_eq_getElem?_getD, List.getElem?_map, h2] at g2
        exact g2
      have hdm := List.mem_of_getElem? h2
      have l1 := m2 d hdm
      have l2 := n2 d hdm
      have l3 := k2 d hdm
      refine ⟨?_, ?_⟩
      · intro f t
        unfold Concatenate.sgValue
        show (if k < st.1.d0 ∧ f < st.1.d1 ∧ mo ≤ t ∧ t < mo + st.1.d2 then st.1.get k f (t - mo).toNat else 0) = _
        by_cases hin : i < d.count ∧ f < d.freqs ∧ d.offset ≤ t ∧ t < d.offset + d.length
        · rw [if_pos hin, if_pos ⟨by omega, by omega, by omega, by omega⟩, r1 f _ (by omega) (by omega)]
          show (if f < d.freqs ∧ d.offset - mo ≤ ((t - mo).toNat : Int) ∧
            ((t - mo).toNat : Int) < d.offset - mo + d.length then
            d.channels.get i f (((t - mo).toNat : Int) - (d.offset - mo)).toNat else 0) = _
          rw [if_pos ⟨hin.2.1, by omega, by omega⟩]
          congr 1; omega
        · rw [if_neg hin]
          by_cases hr : k < st.1.d0 ∧ f < st.1.d1 ∧ mo ≤ t ∧ t < mo + st.1.d2
          · rw [if_pos hr, r1 f _ (by omega) (by omega)]
            show (if f < d.freqs ∧ d.offset - mo ≤ ((t - mo).toNat : Int) ∧
              ((t - mo).toNat : Int) < d.offset - mo + d.length then
              d.channels.get i f (((t - mo).toNat : Int) - (d.offset - mo)).toNat else 0) = _
            rw [if_neg]
            intro h
            exact hin ⟨hi, h.1, by omega, by omega⟩
          · rw [if_neg hr]
      · show (sanitizeLabels (some st.2) st.1.d0)[k]? = _
        rw [Signal.sanitize_self (by omega), r2]
        have hwd : d.labels.length = d.count := hw d hdm
        rw [List.getD_eq_getElem?_getD, List.getElem?_eq_getElem (by omega : i < d.labels.length)]
        rfl
    · intro d hdm
      have l1 := m2 d hdm
      have l2 := n2 d hdm
      have l3 := k2 d hdm
      show mo ≤ _ ∧ _ ≤ mo + (st.1.d2 : Int) ∧ _ ≤ st.1.d1
      omega
    · rcases m3 with h | ⟨d, hdm, h⟩
      · exact ⟨first, hfm, h⟩
      · exact ⟨d, hdm, h⟩
    · have l1 := m2 first hfm
      have l2 := n2 first hfm
      have : mo + (st.1.d2 : Int) = stop := by omega
      rcases n3 with h | ⟨d, hdm, h⟩
      · exact ⟨first, hfm, this.trans h⟩
      · exact ⟨d, hdm, this.trans h⟩
    · rcases k3 with h | ⟨d, hdm, h⟩
      · exact ⟨first, hfm, f2F.trans h⟩
      · exact ⟨d, hdm, f2F.trans h⟩
    · exact ⟨first, hfirst, rfl, rfl⟩

/-! ### Filters -/

/-- What C23 demands of the result `r` of merging filters. -/
structure FilterSpec {T : Type} (mode : MergeMode) (data : List (FilterData T)) (r : FilterData (Option T)) : Prop where
  count : r.transferFunctions.length = (data.map fun d => d.transferFunctions.length).sum
  channel : ∀ (k o i : Nat) (d : FilterData T), (order mode (data.map fun d => d.transferFunctions.length))[k]? = some (o, i) →
    data[o]? = some d →
    r.transferFunctions[k]? = d.transferFunctions[i]?.map some ∧ r.labels[k]? = d.labels[i]?

theorem list_eq_range {β : Type} (l : List β) (d : β) : l = (List.range l.length).map fun i => l.getD i d := by
  apply List.ext_getElem?
  intro i
  rw [List.getElem?_map]
  by_cases hi : i < l.length
  · rw [List.getElem?_range hi, List.getElem?_eq_getElem hi]
    simp [List.getD_eq_getElem?_getD, List.getElem?_eq_getElem hi]
  · rw [List.getElem?_eq_none (by omega), List.getElem?_eq_none (by simp; omega)]
    rfl

/-- C23 for filters.
`_partial`: in the mode `FIRST_CHANNELS_FIRST` only if every filter has a channel. -/
theorem C23_filters_partial {T : Type} (mode : MergeMode) (data : List (FilterData T))
    (hd : data ≠ []) (hw : ∀ d ∈ data, d.labels.length = d.transferFunctions.length)
    (hv : Valid mode (data.map fun d => d.transferFunctions.length)) :
    ∃ r, filters mode data = .ok r ∧ FilterSpec mode data r := by
  match data, hd with
  | [s], _ =>
    refine ⟨_, rfl, by simp, ?_⟩
    intro k o i d h1 h2
    obtain ⟨rfl, rfl⟩ := order_singleton mode _ h1
    simp only [List.getElem?_cons_zero, Option.some.injEq] at h2
    subst h2
    exact ⟨by simp, rfl⟩
  | first :: second :: rest, _ =>
    generalize hdata : first :: second :: rest = data at *
    rw [show filters mode data = filtersMany mode data by rw [← hdata]; rfl]
    unfold filtersMany
    rw [indices_data mode data (fun d => d.transferFunctions.length) hv]
    -- a filter without any channel has to be treated separately, because there is no default value
    by_cases hT : Nonempty T
    · obtain ⟨t0⟩ := hT
      have hitems : filterItems (data.zipIdx.flatMap fun x => (List.range x.1.transferFunctions.length).map fun i =>
            rank mode (data.map fun d => d.transferFunctions.length) x.2 i) data =
          data.zipIdx.flatMap fun x => (List.range x.1.transferFunctions.length).map fun i =>
            (rank mode (data.map fun d => d.transferFunctions.length) x.2 i, x.1.transferFunctions.getD i t0,
              x.1.labels.getD i "") := by
        unfold filterItems
        have ht : data.flatMap (fun d => d.transferFunctions) = data.zipIdx.flatMap fun x =>
            (List.range x.1.transferFunctions.length).map fun i => x.1.transferFunctions.getD i t0 := by
          rw [← flatMap_zipIdx data (fun d => (List.range d.transferFunctions.length).map fun i =>
            d.transferFunctions.getD i t0), List.flatMap_def, List.flatMap_def]
          congr 1
          apply List.map_congr_left
          intro d _
          exact list_eq_range _ _
        have hl : data.flatMap (fun d => d.labels) = data.zipIdx.flatMap fun x =>
            (List.range x.1.transferFunctions.length).map fun i => x.1.labels.getD i "" := by
          rw [← flatMap_zipIdx data (fun d => (List.range d.transferFunctions.length).map fun i =>
            d.labels.getD i ""), List.flatMap_def, List.flatMap_def]
          congr 1
          apply List.map_congr_left
          intro d hd
          exact labels_eq (hw d hd)
        rw [ht, hl, zip_flatMap, zip_flatMap]
      obtain ⟨i1, i2, i3⟩ := items_spec mode data (fun d => d.transferFunctions.length)
        (fun d i => (d.transferFunctions.getD i t0, d.labels.getD i ""))
      generalize hn : (data.map fun d => d.transferFunctions.length).sum = n at *
      show ∃ r, ((filterItems _ data).foldlM placeFilter _ >>= _) = _ ∧ _
      rw [hitems]
      obtain ⟨st, f1, ⟨f2, f2'⟩, f3, _⟩ := fold_place (placeFilter (T := T)) n
        (fun st => st.1.length = n ∧ st.2.length = n)
        (fun st k x => st.1[k]? = some (some x.1) ∧ st.2[k]? = some x.2)
        (fun _ => True)
        (by
          rintro ⟨tfs, ls⟩ k ⟨tf, l⟩ ⟨h1, h2⟩ hk _
          dsimp only at *
          refine ⟨(tfs.set k (some tf), ls.set k l), ?_, ?_, ?_, ?_⟩
          · unfold placeFilter
            dsimp only
            rw [setItem_ok _ (by omega)]
            show (setItem ls k l >>= _) = _
            rw [setItem_ok _ (by omega)]
            rfl
          · exact ⟨by simpa using h1, by simpa using h2⟩
          · exact ⟨List.getElem?_set_self (by omega), List.getElem?_set_self (by omega)⟩
          · rintro k' x' hk' ⟨r1, r2⟩
            exact ⟨by rw [List.getElem?_set_ne (fun h => hk' h.symm)]; exact r1,
              by rw [List.getElem?_set_ne (fun h => hk' h.symm)]; exact r2⟩)
        _ (List.replicate n none, List.replicate n "") ⟨by simp, by simp⟩
        (fun p hp => ⟨(i1 p hp).1, trivial⟩) i2
      dsimp only
      rw [f1]
      refine ⟨_, rfl, ?_, ?_⟩
      · show st.1.length = _
        rw [f2]; exact hn.symm
      · intro k o i d h1 h2
        obtain ⟨r1, r2⟩ := f3 _ (i3 k o i d h1 h2)
        dsimp only at r1 r2
        obtain ⟨g1, g2, g3⟩ := rank_of_get h1
        have hi : i < d.transferFunctions.length := by
          rw [List.getD_eq_getElem?_getD, List.getElem?_map, h2] at g2
          exact g2
        have hwd := hw d (List.mem_of_getElem? h2)
        refine ⟨?_, ?_⟩
        · show st.1[k]? = _
          rw [r1, List.getD_eq_getElem?_getD, List.getElem?_eq_getElem hi]
          rfl
        · show (sanitizeLabels (some st.2) st.1.length)[k]? = _
          rw [Signal.sanitize_self (by omega), r2, List.getD_eq_getElem?_getD,
            List.getElem?_eq_getElem (by omega : i < d.labels.length)]
          rfl
    · have h0 : ∀ d ∈ data, d.transferFunctions = [] := by
        intro d _
        cases h : d.transferFunctions with
        | nil => rfl
        | cons a _ => exact absurd ⟨a⟩ hT
      have hs : (data.map fun d => d.transferFunctions.length) = data.map fun _ => 0 := by
        apply List.map_congr_left
        intro d hd
        rw [h0 d hd]
        rfl
      have hitems : ∀ l, filterItems l data = [] := by
        intro l
        unfold filterItems
        rw [List.flatMap_eq_nil_iff.2 h0]
        simp
      show ∃ r, ((filterItems _ data).foldlM placeFilter _ >>= _) = _ ∧ _
      rw [hitems]
      refine ⟨_, rfl, by simp [FilterData.new], ?_⟩
      intro k o i d h1 h2
      obtain ⟨_, g2, _⟩ := rank_of_get h1
      rw [List.getD_eq_getElem?_getD, List.getElem?_map, h2] at g2
      simp [h0 d (List.mem_of_getElem? h2)] at g2

example : ((filters .firstChannelsFirst [(⟨["x", "y"], ["a", "b"]⟩ : FilterData String), ⟨["z"], ["c"]⟩]).map
    fun r => (r.transferFunctions, r.labels)) = .ok ([some "x", some "z", some "y"], ["a", "c", "b"]) := by
  decide +kernel

/-- C23: there is no result, if nothing has been added, and a single data set is the result itself -/
theorem C23_nothing [Zero α] {T : Type} (mem : Nat → Nat → α) (mem' : Nat → Nat → Nat → α) (mode : MergeMode)
    (s : Signal α R) (x : Spectrum α R) (g : Spectrogram α R) (f : FilterData T) :
    signals mem mode ([] : List (Signal α R)) = .error .runtimeError ∧ signals mem mode [s] = .ok s ∧
    spectrums mem mode ([] : List (Spectrum α R)) = .error .runtimeError ∧ spectrums mem mode [x] = .ok x ∧
    spectrograms mem' mode ([] : List (Spectrogram α R)) = .error .runtimeError ∧ spectrograms mem' mode [g] = .ok g ∧
    filters mode ([] : List (FilterData T)) = .error .runtimeError ∧
      filters mode [f] = .ok ⟨f.transferFunctions.map some, f.labels⟩ :=
  ⟨rfl, rfl, rfl, rfl, rfl, rfl, rfl, rfl⟩

end Merge
end Verif
