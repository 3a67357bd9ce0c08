import Verif.ConcatenateProps
import Verif.MergeProps
import Mathlib.Algebra.Order.BigOperators.Group.List

/-
Property C105: splitting and joining signals.  The slices of a signal can be joined to the original signal with
`Concatenate` (slices along the time axis) and with `Merge` (slices of the channels), the original signals can be
cut out of a merged signal, padding can be removed by slicing, and concatenations can be nested
(`_signal.py:99-120, 301-376`, `_concatenate.py:49-163`, `_merge.py:54-300`).
-/

namespace Verif

variable {α R : Type}

namespace Signal

/-! ### Keys -/

/-- the key `a:b` with integers -/
abbrev fromTo (a b : Int) : Indexing.Key := .slice (some (.int a)) (some (.int b))

/-- the key `:b` -/
abbrev upTo (b : Int) : Indexing.Key := .slice none (some (.int b))

/-- the key `:` -/
abbrev whole : Indexing.Key := .slice none none

/-- The key selects `count` elements from the index `first` on, of an axis with `n` elements; and it does not start
with a negative index. -/
structure Selection (n : Nat) (k : Indexing.Key) (first count : Nat) : Prop where
  bound : first + count ≤ n
  slice : ∃ S, Indexing.keyToSlice n k = some S ∧ S.lo n = first ∧ S.count n = count ∧
    (S.start = some (first : Int) ∨ (S.start = none ∧ first = 0))

theorem selection_fromTo {n : Nat} (a k : Nat) (h : a + k ≤ n) : Selection n (fromTo a (a + k : Nat)) a k := by
  refine ⟨h, .range a (a + k : Nat), rfl, ?_, ?_, Or.inl rfl⟩
  · simp only [PySlice.range, PySlice.lo, clampBound]
    rw [if_neg (by omega)]
    omega
  · simp only [PySlice.range, PySlice.lo, PySlice.hi, PySlice.count, clampBound]
    rw [if_neg (by omega), if_neg (by omega)]
    omega

theorem selection_upTo {n : Nat} (k : Nat) (h : k ≤ n) : Selection n (upTo k) 0 k := by
  refine ⟨by omega, .take k, rfl, rfl, ?_, Or.inr ⟨rfl, rfl⟩⟩
  simp only [PySlice.take, PySlice.lo, PySlice.hi, PySlice.count, clampBound]
  rw [if_neg (by omega)]
  omega

theorem selection_whole (n : Nat) : Selection n whole 0 n :=
  ⟨by omega, .all, rfl, rfl, rfl, Or.inr ⟨rfl, rfl⟩⟩

theorem selection_idx {n : Nat} (k : Nat) (h : k < n) : Selection n (.idx (.int k)) k 1 := by
  refine ⟨by omega, .range k (k + 1 : Int), rfl, ?_, ?_, Or.inl rfl⟩
  · simp only [PySlice.range, PySlice.lo, clampBound]
    rw [if_neg (by omega)]
    omega
  · simp only [PySlice.range, PySlice.lo, PySlice.hi, PySlice.count, clampBound]
    rw [if_neg (by omega), if_neg (by omega)]
    omega

/-- What it means, that `r` is cut out of `s`. -/
structure IsCut (s r : Signal α R) (a0 n0 a1 n1 : Nat) : Prop where
  count : r.count = n0
  length : r.length = n1
  rate : r.rate = s.rate
  offset : r.offset = s.offset + a1
  labels : r.labels = (s.labels.drop a0).take n0
  wf : r.WF
  get : ∀ c i, r.channels.get c i = s.channels.get (a0 + c) (a1 + i)

theorem cut_of {s : Signal α R} (hs : s.WF) {C T : PySlice} {a0 n0 a1 n1 : Nat} (h0 : a0 + n0 ≤ s.count)
    (c1 : C.lo s.count = a0) (c2 : C.count s.count = n0) (t1 : T.lo s.length = a1) (t2 : T.count s.length = n1)
    (o : Int) (ho : o = s.offset + a1) :
    IsCut s (new (s.channels.slice C T) s.rate o (some (sliceList s.labels C))) a0 n0 a1 n1 := by
  refine ⟨c2, t2, rfl, ho, ?_, new_wf _ _ _ _, ?_⟩
  · show sanitizeLabels (some (sliceList s.labels C)) (C.count s.count) = _
    have e : sliceList s.labels C = (s.labels.drop a0).take n0 := by
      unfold sliceList
      rw [hs, c1, c2]
    rw [e, c2]
    refine sanitize_self ?_
    rw [List.length_take, List.length_drop, hs]
    omega
  · intro c i
    show s.channels.get (C.lo s.count + c) (T.lo s.length + i) = _
    rw [c1, t1]

/-- `signal[k0, k1]` for keys with non-negative integers -/
theorem getItem_cut {s : Signal α R} (hs : s.WF) {k0 k1 : Indexing.Key} {a0 n0 a1 n1 : Nat}
    (h0 : Selection s.count k0 a0 n0) (h1 : Selection s.length k1 a1 n1) :
    ∃ r, s.getItem k0 k1 = some r ∧ IsCut s r a0 n0 a1 n1 := by
  obtain ⟨b0, C, hC, c1, c2, -⟩ := h0
  obtain ⟨b1, T, hT, t1, t2, t3⟩ := h1
  refine ⟨_, by unfold getItem; rw [hC, hT], cut_of hs b0 c1 c2 t1 t2 _ ?_⟩
  unfold sliceOffset
  rcases t3 with h | ⟨h, h'⟩
  · rw [h]
    dsimp only
    split_ifs <;> omega
  · rw [h]
    dsimp only
    omega

/-- `signal[k]` for a key with non-negative integers -/
theorem getChannels_cut {s : Signal α R} (hs : s.WF) {k : Indexing.Key} {a0 n0 : Nat}
    (h0 : Selection s.count k a0 n0) :
    ∃ r, s.getChannels k = some r ∧ IsCut s r a0 n0 0 s.length := by
  obtain ⟨b0, C, hC, c1, c2, -⟩ := h0
  refine ⟨_, by unfold getChannels; rw [hC]; rfl, cut_of hs b0 c1 c2 rfl rfl _ (Int.add_zero _).symm⟩

/-! ### Values -/

theorem value_of_covered [Zero α] (s : Signal α R) {c : Nat} {t : Int} (hc : c < s.count) (h1 : s.offset ≤ t)
    (h2 : t < s.offset + s.length) : s.value c t = s.channels.get c (t - s.offset).toNat := by
  unfold value
  rw [at_eq_some.mpr ⟨hc, h1, h2, rfl⟩]
  rfl

theorem value_of_not [Zero α] (s : Signal α R) {c : Nat} {t : Int}
    (h : ¬ (c < s.count ∧ s.offset ≤ t ∧ t < s.offset + s.length)) : s.value c t = 0 := by
  unfold value
  cases e : s.at_ c t with
  | none => rfl
  | some x =>
    obtain ⟨h1, h2, h3, _⟩ := at_eq_some.mp e
    exact absurd ⟨h1, h2, h3⟩ h

theorem sameSamples_of_value [Zero α] {r q : Signal α R} (h1 : r.rate = q.rate) (h2 : r.offset = q.offset)
    (h3 : r.count = q.count) (h4 : r.length = q.length)
    (h : ∀ c t, c < r.count → r.offset ≤ t → t < r.offset + r.length → r.value c t = q.value c t) :
    SameSamples r q := by
  refine sameSamples_of_at h1 h2 h3 h4 fun c t hc k1 k2 => ?_
  exact at_of_value hc (by omega) k1 k2 (by omega) (by omega) (h c t hc k1 k2)

theorem same_of_samples {r q : Signal α R} (h : SameSamples r q) (hl : r.labels = q.labels) : Same r q :=
  ⟨h.1, h.2.1, hl, h.2.2⟩

/-! ### Slices of slices and of padded signals -/

/-- C105: a slice of a slice is a slice of the original signal. -/
theorem C105_slice_slice (s : Signal α R) (hs : s.WF) {k0 k1 k0' k1' K0 K1 : Indexing.Key}
    {a0 n0 a1 n1 b0 m0 b1 m1 : Nat}
    (h0 : Selection s.count k0 a0 n0) (h1 : Selection s.length k1 a1 n1)
    (h0' : Selection n0 k0' b0 m0) (h1' : Selection n1 k1' b1 m1)
    (H0 : Selection s.count K0 (a0 + b0) m0) (H1 : Selection s.length K1 (a1 + b1) m1) :
    ∃ r q p, s.getItem k0 k1 = some r ∧ r.getItem k0' k1' = some q ∧ s.getItem K0 K1 = some p ∧ Same q p := by
  obtain ⟨r, hr, cr⟩ := getItem_cut hs h0 h1
  obtain ⟨q, hq, cq⟩ := getItem_cut cr.wf (k0 := k0') (k1 := k1') (by rw [cr.count]; exact h0')
    (by rw [cr.length]; exact h1')
  obtain ⟨p, hp, cp⟩ := getItem_cut hs H0 H1
  refine ⟨r, q, p, hr, hq, hp, ?_, ?_, ?_, ?_, ?_, ?_⟩
  · rw [cq.rate, cr.rate, cp.rate]
  · rw [cq.offset, cr.offset, cp.offset]
    omega
  · rw [cq.labels, cr.labels, cp.labels, List.drop_take, List.drop_drop, List.take_take]
    have := h0'.bound
    rw [show min m0 (n0 - b0) = m0 by omega]
  · exact cq.count.trans cp.count.symm
  · exact cq.length.trans cp.length.symm
  · intro c t _ _
    rw [cq.get, cr.get, cp.get, Nat.add_assoc, Nat.add_assoc]

example : ∃ r q p, demo.getItem (fromTo 0 2) (fromTo 1 3) = some r ∧ r.getItem (fromTo 1 2) (fromTo 1 2) = some q ∧
    demo.getItem (fromTo 1 2) (fromTo 2 3) = some p ∧ Same q p :=
  C105_slice_slice demo rfl (selection_fromTo 0 2 (by decide)) (selection_fromTo 1 2 (by decide))
    (selection_fromTo 1 1 (by decide)) (selection_fromTo 1 1 (by decide)) (selection_fromTo 1 1 (by decide))
    (selection_fromTo 2 1 (by decide))

/-- C105: the samples, with which a signal has been padded, can be cut off by slicing. -/
theorem C105_pad_slice (mem : Nat → Nat → α) (s : Signal α R) (hs : s.WF) (length : Nat) (value : α)
    (hl : s.length ≤ length) :
    ∃ p r, s.pad mem length value = .ok p ∧ p.getItem whole (upTo s.length) = some r ∧ Same r s := by
  obtain ⟨p, hp, h1, h2, h3, h4, h5, h6⟩ := C05_pad mem s hs length value
  have hpw : p.WF := by rw [WF, h5, h1]; exact hs
  obtain ⟨r, hr, c⟩ := getItem_cut hpw (selection_whole p.count)
    (selection_upTo (n := p.length) s.length (by omega))
  refine ⟨p, r, hp, hr, c.rate.trans h3, ?_, ?_, c.count.trans h1, c.length, ?_⟩
  · rw [c.offset, h4]
    simp
  · rw [c.labels, h5, List.drop_zero, h1, List.take_of_length_le (by rw [hs])]
  · intro k t hk ht
    have hk' : k < s.count := by rw [← h1, ← c.count]; exact hk
    have ht' : t < s.length := by rw [← c.length]; exact ht
    have e := h6 k t hk' (by omega)
    rw [if_pos ht', sample_of_lt hk' ht', sample_of_lt (by omega) (by omega)] at e
    rw [c.get, Nat.zero_add, Nat.zero_add]
    exact Option.some.inj e

example : ∃ p r, demo.pad (fun _ _ => 99) 7 5 = .ok p ∧ p.getItem whole (upTo demo.length) = some r ∧ Same r demo :=
  C105_pad_slice _ demo rfl 7 5 (by decide)

end Signal

namespace Concatenate

open Signal

/-! ### Blocks of the time axis -/

/-- The blocks of the signal `s` with the given widths, the first of which begins at the sample `p`, and the offset
of which is removed: `[s[:, p:p+w].shift(None), s[:, p+w:p+w+w'].shift(None), …]` -/
def blocks [Zero α] (mem : Nat → Nat → α) (s : Signal α R) : Nat → List Nat → Option (List (Signal α R))
  | _, [] => some []
  | p, w :: ws =>
    match s.getItem whole (fromTo p (p + w : Nat)), blocks mem s (p + w) ws with
    | some b, some bs =>
      match b.shift mem none .offset with
      | .ok b => some (b :: bs)
      | .error _ => none
    | _, _ => none

/-- the end of the last signal -/
def endOf (n : Int) (l : List (Signal α R)) : Int := n + (l.map fun s => s.offset + (s.length : Int)).sum

theorem delayed_append (l l' : List (Signal α R)) : ∀ n : Int,
    delayed n (l ++ l') = delayed n l ++ delayed (endOf n l) l' := by
  induction l with
  | nil => intro n; simp [delayed, endOf]
  | cons s l ih =>
    intro n
    show (n, s) :: delayed (n + s.offset + s.length) (l ++ l') = (n, s) :: (delayed _ l ++ _)
    rw [ih]
    congr 3
    simp only [endOf, List.map_cons, List.sum_cons]
    omega

theorem delayed_shift (l : List (Signal α R)) : ∀ n m : Int,
    delayed (n + m) l = (delayed n l).map fun x => (x.1 + m, x.2) := by
  induction l with
  | nil => intro n m; rfl
  | cons s l ih =>
    intro n m
    show (n + m, s) :: delayed (n + m + s.offset + s.length) l =
      (n + m, s) :: (delayed (n + s.offset + s.length) l).map _
    rw [← ih, show n + m + s.offset + (s.length : Int) = n + s.offset + s.length + m by omega]

theorem endOf_mem (n : Int) (l : List (Signal α R)) (h : l ≠ []) :
    ∃ x ∈ delayed n l, endOf n l = x.1 + x.2.offset + x.2.length := by
  obtain ⟨i, z, hz⟩ : ∃ i z, l = i ++ [z] := ⟨l.dropLast, l.getLast h, (List.dropLast_append_getLast h).symm⟩
  refine ⟨(endOf n i, z), ?_, ?_⟩
  · rw [hz, delayed_append]
    simp [delayed]
  · rw [hz]
    simp only [endOf, List.map_append, List.sum_append, List.map_cons, List.map_nil, List.sum_cons, List.sum_nil]
    omega

theorem le_endOf (l : List (Signal α R)) : ∀ n : Int, (∀ s ∈ l.tail, 0 ≤ s.offset + (s.length : Int)) →
    ∀ x ∈ delayed n l, x.1 + x.2.offset + x.2.length ≤ endOf n l := by
  induction l with
  | nil => intro n _ x hx; simp [delayed] at hx
  | cons s l ih =>
    intro n h x hx
    rw [List.tail_cons] at h
    have hsum : 0 ≤ (l.map fun s => s.offset + (s.length : Int)).sum := by
      apply List.sum_nonneg
      intro y hy
      obtain ⟨z, hz, rfl⟩ := List.mem_map.1 hy
      exact h z hz
    rw [delayed, List.mem_cons] at hx
    rcases hx with rfl | hx
    · simp only [endOf, List.map_cons, List.sum_cons]
      omega
    · have := ih _ (fun y hy => h y (List.mem_of_mem_tail hy)) x hx
      simp only [endOf, List.map_cons, List.sum_cons] at this ⊢
      omega

/-- the sum of the delayed signals -/
def totalFrom [AddCommMonoid α] (n : Int) (l : List (Signal α R)) (c : Nat) (t : Int) : α :=
  ((delayed n l).map fun x => x.2.value c (t - x.1)).sum

theorem totalFrom_cons [AddCommMonoid α] (n : Int) (s : Signal α R) (l : List (Signal α R)) (c : Nat) (t : Int) :
    totalFrom n (s :: l) c t = s.value c (t - n) + totalFrom (n + s.offset + s.length) l c t := by
  simp [totalFrom, delayed]

theorem totalFrom_append [AddCommMonoid α] (n : Int) (l l' : List (Signal α R)) (c : Nat) (t : Int) :
    totalFrom n (l ++ l') c t = totalFrom n l c t + totalFrom (endOf n l) l' c t := by
  simp [totalFrom, delayed_append]

theorem totalFrom_shift [AddCommMonoid α] (n m : Int) (l : List (Signal α R)) (c : Nat) (t : Int) :
    totalFrom (n + m) l c t = totalFrom n l c (t - m) := by
  unfold totalFrom
  rw [delayed_shift, List.map_map]
  congr 1
  apply List.map_congr_left
  intro x _
  show x.2.value c (t - (x.1 + m)) = x.2.value c (t - m - x.1)
  congr 1
  omega

/-- What the blocks are. -/
theorem blocks_spec [AddCommMonoid α] (mem : Nat → Nat → α) (s : Signal α R) (hs : s.WF) : ∀ (ws : List Nat) (p : Nat),
    p + ws.sum ≤ s.length → ∃ l, blocks mem s p ws = some l ∧ l.length = ws.length ∧
      (∀ b ∈ l, b.offset = 0 ∧ b.rate = s.rate ∧ b.count = s.count) ∧
      (∀ n : Int, endOf n l = n + ws.sum) ∧
      (∀ (n : Int), ∀ x ∈ delayed n l, n ≤ x.1 ∧ x.1 + x.2.length ≤ n + ws.sum) ∧
      ∀ (n : Int) c t, totalFrom n l c t =
        if c < s.count ∧ n ≤ t ∧ t < n + ws.sum then s.channels.get c (p + (t - n).toNat) else 0 := by
  intro ws
  induction ws with
  | nil =>
    intro p _
    refine ⟨[], rfl, rfl, by simp, by simp [endOf], by simp [delayed], ?_⟩
    intro n c t
    rw [if_neg (by rw [List.sum_nil]; omega)]
    rfl
  | cons w ws ih =>
    intro p hp
    rw [List.sum_cons] at hp
    obtain ⟨l, e1, e2, e3, e4, e5, e6⟩ := ih (p + w) (by omega)
    obtain ⟨b, hb, cb⟩ := getItem_cut hs (selection_whole s.count) (selection_fromTo (n := s.length) p w (by omega))
    have hn1 := cb.count
    have hn2 := cb.length
    set b' : Signal α R := new b.channels b.rate 0 (some b.labels) with hb'
    have hl' : b'.length = w := hn2
    have hc' : b'.count = s.count := hn1
    have ho' : b'.offset = 0 := rfl
    refine ⟨b' :: l, ?_, by simp [e2], ?_, ?_, ?_, ?_⟩
    · simp only [blocks, hb, e1]
      rfl
    · intro x hx
      rcases List.mem_cons.1 hx with rfl | hx
      · exact ⟨rfl, cb.rate, hn1⟩
      · exact e3 x hx
    · intro n
      have := e4 (n + w)
      simp only [endOf, List.map_cons, List.sum_cons, ho', hl'] at this ⊢
      push_cast
      omega
    · intro n x hx
      rw [delayed, List.mem_cons] at hx
      rcases hx with rfl | hx
      · dsimp only
        rw [hl', List.sum_cons]
        push_cast
        omega
      · have := e5 _ x hx
        rw [ho', hl'] at this
        rw [List.sum_cons]
        push_cast
        omega
    · intro n c t
      rw [totalFrom_cons, e6, ho', hl', List.sum_cons]
      push_cast
      by_cases hc : c < s.count
      · by_cases h1 : n ≤ t ∧ t < n + w
        · rw [value_of_covered b' (by omega) (by omega) (by omega), if_neg (by omega), if_pos (by omega), add_zero]
          show b.channels.get c (t - n - 0).toNat = _
          rw [cb.get, Nat.zero_add, Int.sub_zero]
        · rw [value_of_not b' (by omega), zero_add]
          by_cases h2 : n + w ≤ t ∧ t < n + w + ws.sum
          · rw [if_pos (by omega), if_pos (by omega)]
            congr 1
            omega
          · rw [if_neg (by omega), if_neg (by omega)]
      · rw [value_of_not b' (by omega), if_neg (by omega), if_neg (by omega), add_zero]

/-- C105: a signal, that has been split in blocks along its time axis, can be restored by concatenating the blocks (but
for its offset and its labels). -/
theorem C105_concatenate_blocks [AddCommMonoid α] (mem mem' : Nat → Nat → α) (s : Signal α R) (hs : s.WF)
    (ws : List Nat) (hw : ws ≠ []) (hsum : ws.sum = s.length) :
    ∃ l r, blocks mem s 0 ws = some l ∧ signals mem' l = .ok r ∧ SameSamples r { s with offset := 0 } := by
  obtain ⟨l, e1, e2, e3, e4, e5, e6⟩ := blocks_spec mem s hs ws 0 (by omega)
  have hl : l ≠ [] := by
    rintro rfl
    exact hw (List.length_eq_zero_iff.1 e2.symm)
  obtain ⟨r, hr, sp⟩ := C22_signals mem' l hl
  refine ⟨l, r, e1, hr, ?_⟩
  have ro : r.offset = 0 ∧ r.length = s.length := by
    match l, hl with
    | b :: l', _ =>
      have h1 := sp.covers (0, b) (by simp [delayed])
      have h2 := e3 b (by simp)
      obtain ⟨x, hx, h3⟩ := sp.start
      have h4 := e3 x.2 (mem_delayed hx)
      have h5 := e5 0 x hx
      obtain ⟨y, hy, h6⟩ := sp.stop
      have h7 := e3 y.2 (mem_delayed hy)
      have h8 := e5 0 y hy
      dsimp only at h1
      have o0 : r.offset = 0 := by omega
      refine ⟨o0, ?_⟩
      obtain ⟨z, hz, h10⟩ := endOf_mem 0 (b :: l') (by simp)
      have h9 := sp.covers z hz
      have hlast := e4 0
      omega
  have hcount : r.count = s.count := by
    obtain ⟨b, hb, h⟩ := sp.count
    rw [h, (e3 b hb).2.2]
  have hrate : r.rate = s.rate := by
    obtain ⟨b, hb, h⟩ := sp.rate
    rw [h, (e3 b (List.mem_of_mem_head? hb)).2.1]
  refine sameSamples_of_value hrate ro.1 hcount ro.2 ?_
  intro c t hc k1 k2
  rw [sp.value]
  show totalFrom 0 l c t = _
  have e0 : (({ s with offset := 0 } : Signal α R)).value c t = s.channels.get c (t - 0).toNat :=
    value_of_covered { s with offset := 0 } (show c < s.count by omega) (show (0 : Int) ≤ t by omega)
      (show t < 0 + (s.length : Int) by omega)
  rw [e0, e6, if_pos (by omega), Nat.zero_add]

example : ∃ l r, blocks (fun _ _ => 9) demo 0 [1, 0, 2] = some l ∧ signals (fun _ _ => 8) l = .ok r ∧
    SameSamples r { demo with offset := 0 } :=
  C105_concatenate_blocks _ _ demo rfl [1, 0, 2] (by simp) rfl

/-! ### Nested concatenations -/

/-- Concatenations are the same, if their inputs cover each other. -/
theorem same_of_spec [AddCommMonoid α] {l l' : List (Signal α R)} {r r' : Signal α R} (h : SumSpec l r)
    (h' : SumSpec l' r') (hrate : r.rate = r'.rate)
    (w : ∀ x ∈ delayed 0 l, r'.offset ≤ x.1 + x.2.offset ∧ x.1 + x.2.offset + x.2.length ≤ r'.offset + r'.length)
    (w' : ∀ x ∈ delayed 0 l', r.offset ≤ x.1 + x.2.offset ∧ x.1 + x.2.offset + x.2.length ≤ r.offset + r.length)
    (k : ∀ s ∈ l, s.count ≤ r'.count) (k' : ∀ s ∈ l', s.count ≤ r.count)
    (ht : ∀ c t, total l c t = total l' c t) : SameSamples r r' := by
  obtain ⟨x1, m1, e1⟩ := h.start
  obtain ⟨x2, m2, e2⟩ := h.stop
  obtain ⟨x3, m3, e3⟩ := h'.start
  obtain ⟨x4, m4, e4⟩ := h'.stop
  obtain ⟨y1, n1, f1⟩ := h.count
  obtain ⟨y2, n2, f2⟩ := h'.count
  have := w x1 m1
  have := w x2 m2
  have := w' x3 m3
  have := w' x4 m4
  have := k y1 n1
  have := k' y2 n2
  refine sameSamples_of_value hrate (by omega) (by omega) (by omega) fun c t _ _ _ => ?_
  rw [h.value, h'.value, ht]

theorem total_eq [AddCommMonoid α] (l : List (Signal α R)) (c : Nat) (t : Int) : total l c t = totalFrom 0 l c t := rfl

/-- C105: delaying the first signal delays the whole concatenation. -/
theorem C105_concatenate_shift [AddCommMonoid α] (m m' mem mem' : Nat → Nat → α) (a : Signal α R)
    (l : List (Signal α R)) (ha : a.WF) (n : Int) :
    ∃ a' r r' q, a.shift m (some n) .offset = .ok a' ∧ signals mem (a' :: l) = .ok r ∧
      signals mem' (a :: l) = .ok r' ∧ r'.shift m' (some n) .offset = .ok q ∧ SameSamples r q := by
  obtain ⟨a', h1, b1, b2, b3, b4⟩ := shift_offset_fields m a ha n
  obtain ⟨r, h2, s2⟩ := C22_signals mem (a' :: l) (by simp)
  obtain ⟨r', h3, s3⟩ := C22_signals mem' (a :: l) (by simp)
  have hq : ∃ q, r'.shift m' (some n) .offset = .ok q ∧ q.channels = r'.channels ∧ q.rate = r'.rate ∧
      q.offset = r'.offset + n := by
    unfold Signal.shift
    by_cases h : n = 0
    · subst h; exact ⟨r', by simp, rfl, rfl, by simp⟩
    · rw [if_neg (by simpa using h)]
      exact ⟨_, rfl, rfl, rfl, rfl⟩
  obtain ⟨q, h4, q1, q2, q3⟩ := hq
  have hc : a'.count = a.count := by unfold Signal.count; rw [b1]
  have hlen : a'.length = a.length := by unfold Signal.length; rw [b1]
  have hql : q.length = r'.length := by unfold Signal.length; rw [q1]
  have hqc : q.count = r'.count := by unfold Signal.count; rw [q1]
  refine ⟨a', r, r', q, h1, h2, h3, h4, ?_⟩
  have D : delayed 0 (a' :: l) = (0, a') :: (delayed (a.offset + a.length) l).map fun x => (x.1 + n, x.2) := by
    rw [← delayed_shift, delayed, b4, hlen, show (0 : Int) + (a.offset + n) + a.length = a.offset + a.length + n by omega]
  have D' : delayed 0 (a :: l) = (0, a) :: delayed (a.offset + a.length) l := by
    rw [delayed, show (0 : Int) + a.offset + a.length = a.offset + a.length by omega]
  -- the start and the end
  have start_le : r'.offset + n ≤ r.offset := by
    obtain ⟨x, hx, e⟩ := s2.start
    rw [D, List.mem_cons, List.mem_map] at hx
    rcases hx with rfl | ⟨y, hy, rfl⟩
    · have := (s3.covers (0, a) (by rw [D']; simp)).1
      dsimp only at this e
      omega
    · have := (s3.covers y (by rw [D']; simp [hy])).1
      dsimp only at e
      omega
  have le_start : r.offset ≤ r'.offset + n := by
    obtain ⟨x, hx, e⟩ := s3.start
    rw [D', List.mem_cons] at hx
    rcases hx with rfl | hx
    · have := (s2.covers (0, a') (by rw [D]; simp)).1
      dsimp only at this e
      omega
    · have := (s2.covers (x.1 + n, x.2) (by
        rw [D, List.mem_cons, List.mem_map]; exact Or.inr ⟨x, hx, rfl⟩)).1
      dsimp only at this
      omega
  have stop_le : r.offset + r.length ≤ r'.offset + n + r'.length := by
    obtain ⟨x, hx, e⟩ := s2.stop
    rw [D, List.mem_cons, List.mem_map] at hx
    rcases hx with rfl | ⟨y, hy, rfl⟩
    · have := (s3.covers (0, a) (by rw [D']; simp)).2
      dsimp only at this e
      omega
    · have := (s3.covers y (by rw [D']; simp [hy])).2
      dsimp only at e
      omega
  have le_stop : r'.offset + n + r'.length ≤ r.offset + r.length := by
    obtain ⟨x, hx, e⟩ := s3.stop
    rw [D', List.mem_cons] at hx
    rcases hx with rfl | hx
    · have := (s2.covers (0, a') (by rw [D]; simp)).2
      dsimp only at this e
      omega
    · have := (s2.covers (x.1 + n, x.2) (by
        rw [D, List.mem_cons, List.mem_map]; exact Or.inr ⟨x, hx, rfl⟩)).2
      dsimp only at this
      omega
  have hcount : r.count = r'.count := by
    apply Nat.le_antisymm
    · obtain ⟨x, hx, e⟩ := s2.count
      rw [e]
      rcases List.mem_cons.1 hx with rfl | hx
      · rw [hc]; exact s3.count_ge a (by simp)
      · exact s3.count_ge x (by simp [hx])
    · obtain ⟨x, hx, e⟩ := s3.count
      rw [e]
      rcases List.mem_cons.1 hx with rfl | hx
      · rw [← hc]; exact s2.count_ge a' (by simp)
      · exact s2.count_ge x (by simp [hx])
  have hrate : r.rate = q.rate := by
    obtain ⟨x, hx, e⟩ := s2.rate
    obtain ⟨y, hy, e'⟩ := s3.rate
    simp only [List.head?_cons, Option.some.injEq] at hx hy
    rw [q2, e, e', ← hx, ← hy, b2]
  refine sameSamples_of_value hrate (by omega) (by omega) (by omega) fun c t hc' k1 k2 => ?_
  have hv : q.value c t = r'.value c (t - n) := by
    rw [value_of_covered q (by omega) (by omega) (by omega), value_of_covered r' (by omega) (by omega) (by omega),
      q1, q3]
    congr 1
    omega
  have hv' : a'.value c t = a.value c (t - n) := by
    by_cases h : c < a.count ∧ a.offset ≤ t - n ∧ t - n < a.offset + a.length
    · rw [value_of_covered a' (by omega) (by omega) (by omega), value_of_covered a (by omega) (by omega) (by omega),
        b1, b4]
      congr 1
      omega
    · rw [value_of_not a (by omega), value_of_not a' (by omega)]
  rw [hv, s2.value, s3.value, total_eq, total_eq, totalFrom_cons, totalFrom_cons, b4, hlen, Int.sub_zero,
    Int.sub_zero, hv', show (0 : Int) + (a.offset + n) + a.length = 0 + a.offset + a.length + n by omega,
    totalFrom_shift]

/-- a signal with one channel -/
abbrev mono (samples : List Int) (offset : Int) : Signal Int Nat :=
  ⟨Mat.ofRows samples.length [samples], 1, offset, ["x"]⟩

example : ∃ a' r r' q, (mono [1, 2] 3).shift (fun _ _ => 9) (some (-4)) .offset = .ok a' ∧
    signals (fun _ _ => 9) [a', mono [5] (-1)] = .ok r ∧ signals (fun _ _ => 9) [mono [1, 2] 3, mono [5] (-1)] = .ok r' ∧
    r'.shift (fun _ _ => 9) (some (-4)) .offset = .ok q ∧ SameSamples r q :=
  C105_concatenate_shift _ _ _ _ (mono [1, 2] 3) [mono [5] (-1)] rfl (-4)

/-- C105: the last signals can be concatenated in advance. -/
theorem C105_concatenate_nested_last [AddCommMonoid α] (m1 m2 m3 : Nat → Nat → α) (l1 l2 : List (Signal α R))
    (h2 : l2 ≠ []) :
    ∃ r2 r q, signals m1 l2 = .ok r2 ∧ signals m2 (l1 ++ [r2]) = .ok r ∧ signals m3 (l1 ++ l2) = .ok q ∧
      SameSamples r q := by
  obtain ⟨r2, e2, s2⟩ := C22_signals m1 l2 h2
  obtain ⟨r, e, s⟩ := C22_signals m2 (l1 ++ [r2]) (by simp)
  obtain ⟨q, e', s'⟩ := C22_signals m3 (l1 ++ l2) (by simp [h2])
  refine ⟨r2, r, q, e2, e, e', ?_⟩
  have D : delayed 0 (l1 ++ [r2]) = delayed 0 l1 ++ [(endOf 0 l1, r2)] := by
    rw [delayed_append]
    rfl
  have D' : delayed 0 (l1 ++ l2) = delayed 0 l1 ++ (delayed 0 l2).map fun x => (x.1 + endOf 0 l1, x.2) := by
    rw [delayed_append, ← delayed_shift, Int.zero_add]
  have hin : ∀ y ∈ delayed 0 l2, (y.1 + endOf 0 l1, y.2) ∈ delayed 0 (l1 ++ l2) := by
    intro y hy
    rw [D', List.mem_append, List.mem_map]
    exact Or.inr ⟨y, hy, rfl⟩
  have hr2 : (endOf 0 l1, r2) ∈ delayed 0 (l1 ++ [r2]) := by
    rw [D]
    simp
  refine same_of_spec s s' ?_ ?_ ?_ ?_ ?_ ?_
  · obtain ⟨x, hx, f⟩ := s.rate
    obtain ⟨y, hy, f'⟩ := s'.rate
    rw [f, f']
    cases l1 with
    | nil =>
      obtain ⟨z, hz, f2⟩ := s2.rate
      rw [List.nil_append] at hx hy
      rw [hz] at hy
      simp only [List.head?_cons, Option.some.injEq] at hx hy
      rw [← hx, ← hy, f2]
    | cons a l1 =>
      simp only [List.cons_append, List.head?_cons, Option.some.injEq] at hx hy
      rw [← hx, ← hy]
  · intro x hx
    rw [D, List.mem_append, List.mem_singleton] at hx
    rcases hx with hx | rfl
    · exact s'.covers x (by rw [D']; simp [hx])
    · obtain ⟨y, hy, f⟩ := s2.start
      obtain ⟨z, hz, g⟩ := s2.stop
      have a1 := s'.covers _ (hin y hy)
      have a2 := s'.covers _ (hin z hz)
      dsimp only at a1 a2 ⊢
      omega
  · intro x hx
    rw [D', List.mem_append, List.mem_map] at hx
    rcases hx with hx | ⟨y, hy, rfl⟩
    · exact s.covers x (by rw [D]; simp [hx])
    · have a1 := s2.covers y hy
      have a2 := s.covers _ hr2
      dsimp only at a2 ⊢
      omega
  · intro x hx
    rw [List.mem_append, List.mem_singleton] at hx
    rcases hx with hx | rfl
    · exact s'.count_ge x (by simp [hx])
    · obtain ⟨y, hy, f⟩ := s2.count
      rw [f]
      exact s'.count_ge y (by simp [hy])
  · intro x hx
    rw [List.mem_append] at hx
    rcases hx with hx | hx
    · exact s.count_ge x (by simp [hx])
    · exact (s2.count_ge x hx).trans (s.count_ge r2 (by simp))
  · intro c t
    rw [total_eq, total_eq, totalFrom_append, totalFrom_append]
    congr 1
    have h0 := totalFrom_shift 0 (endOf 0 l1) l2 c t
    rw [Int.zero_add] at h0
    rw [h0, totalFrom_cons, s2.value]
    show total l2 c (t - endOf 0 l1) + totalFrom _ [] c t = _
    rw [total_eq]
    simp [totalFrom, delayed]

example : ∃ r2 r q, signals (fun _ _ => 9) [mono [4] (-3), mono [5] 0] = .ok r2 ∧
    signals (fun _ _ => 9) ([mono [1, 2, 3] 0] ++ [r2]) = .ok r ∧
    signals (fun _ _ => 9) ([mono [1, 2, 3] 0] ++ [mono [4] (-3), mono [5] 0]) = .ok q ∧ SameSamples r q :=
  C105_concatenate_nested_last _ _ _ _ _ (by simp)

/-- C105: the first signals can be concatenated in advance.
`_partial`: only if no signal among them ends before the end of its predecessor, see
`C105_concatenate_nested_first_violated`. -/
theorem C105_concatenate_nested_first_partial [AddCommMonoid α] (m1 m2 m3 : Nat → Nat → α) (l1 l2 : List (Signal α R))
    (h1 : l1 ≠ []) (hp : ∀ s ∈ l1.tail, 0 ≤ s.offset + (s.length : Int)) :
    ∃ r1 r q, signals m1 l1 = .ok r1 ∧ signals m2 (r1 :: l2) = .ok r ∧ signals m3 (l1 ++ l2) = .ok q ∧
      SameSamples r q := by
  obtain ⟨r1, e1, s1⟩ := C22_signals m1 l1 h1
  obtain ⟨r, e, s⟩ := C22_signals m2 (r1 :: l2) (by simp)
  obtain ⟨q, e', s'⟩ := C22_signals m3 (l1 ++ l2) (by simp [h1])
  refine ⟨r1, r, q, e1, e, e', ?_⟩
  have hE : endOf 0 l1 = r1.offset + r1.length := by
    obtain ⟨x, hx, f⟩ := endOf_mem 0 l1 h1
    obtain ⟨y, hy, g⟩ := s1.stop
    have a1 := (s1.covers x hx).2
    have a2 := le_endOf l1 0 hp y hy
    omega
  have D : delayed 0 (r1 :: l2) = (0, r1) :: delayed (endOf 0 l1) l2 := by
    rw [delayed, hE, Int.zero_add]
  have D' : delayed 0 (l1 ++ l2) = delayed 0 l1 ++ delayed (endOf 0 l1) l2 := delayed_append l1 l2 0
  have hr1 : (0, r1) ∈ delayed 0 (r1 :: l2) := by rw [D]; simp
  refine same_of_spec s s' ?_ ?_ ?_ ?_ ?_ ?_
  · obtain ⟨x, hx, f⟩ := s.rate
    obtain ⟨y, hy, f'⟩ := s'.rate
    obtain ⟨z, hz, f1⟩ := s1.rate
    cases l1 with
    | nil => exact absurd rfl h1
    | cons a l1 =>
      simp only [List.cons_append, List.head?_cons, Option.some.injEq] at hx hy hz
      rw [f, f', ← hx, ← hy, f1, ← hz]
  · intro x hx
    rw [D, List.mem_cons] at hx
    rcases hx with rfl | hx
    · obtain ⟨y, hy, f⟩ := s1.start
      obtain ⟨z, hz, g⟩ := s1.stop
      have a1 := s'.covers y (by rw [D']; simp [hy])
      have a2 := s'.covers z (by rw [D']; simp [hz])
      dsimp only
      omega
    · exact s'.covers x (by rw [D']; simp [hx])
  · intro x hx
    rw [D', List.mem_append] at hx
    rcases hx with hx | hx
    · have a1 := s1.covers x hx
      have a2 := s.covers _ hr1
      dsimp only at a2
      omega
    · exact s.covers x (by rw [D]; simp [hx])
  · intro x hx
    rcases List.mem_cons.1 hx with rfl | hx
    · obtain ⟨y, hy, f⟩ := s1.count
      rw [f]
      exact s'.count_ge y (by simp [hy])
    · exact s'.count_ge x (by simp [hx])
  · intro x hx
    rw [List.mem_append] at hx
    rcases hx with hx | hx
    · exact (s1.count_ge x hx).trans (s.count_ge r1 (by simp))
    · exact s.count_ge x (by simp [hx])
  · intro c t
    rw [total_eq, total_eq, totalFrom_append, totalFrom_cons, hE, s1.value, total_eq, Int.sub_zero, Int.zero_add]

example : [mono [1, 2] 3, mono [5] (-1)] ≠ [] ∧
    ∀ s ∈ [mono [1, 2] 3, mono [5] (-1)].tail, 0 ≤ s.offset + (s.length : Int) := by
  decide +kernel

/-- C105 is violated by signals, that end before the end of their predecessor, because the following signal is placed
at the end of its predecessor rather than at the end of the previous concatenation. -/
theorem C105_concatenate_nested_first_violated : ∃ (a b c r1 r q : Signal Int Nat),
    signals (fun _ _ => 9) [a, b] = .ok r1 ∧ signals (fun _ _ => 9) [r1, c] = .ok r ∧
    signals (fun _ _ => 9) [a, b, c] = .ok q ∧ r.length = 4 ∧ q.length = 3 :=
  ⟨mono [1, 2, 3] 0, mono [4] (-3), mono [5] 0, _, _, _, rfl, rfl, rfl, by decide +kernel, by decide +kernel⟩

end Concatenate

namespace Merge

open Signal

/-! ### Groups of channels -/

/-- The groups of channels of the signal `s` with the given sizes, the first of which begins at the channel `p`:
`[s[p:p+n], s[p+n:p+n+n'], …]` -/
def groups (s : Signal α R) : Nat → List Nat → Option (List (Signal α R))
  | _, [] => some []
  | p, n :: ns =>
    match s.getChannels (fromTo p (p + n : Nat)), groups s (p + n) ns with
    | some b, some bs => some (b :: bs)
    | _, _ => none

theorem groups_spec (s : Signal α R) (hs : s.WF) : ∀ (ns : List Nat) (p : Nat), p + ns.sum ≤ s.count →
    ∃ l, groups s p ns = some l ∧ l.map (fun d => d.count) = ns ∧
      ∀ o d, l[o]? = some d → IsCut s d (p + (ns.take o).sum) (ns.getD o 0) 0 s.length := by
  intro ns
  induction ns with
  | nil => intro p _; exact ⟨[], rfl, rfl, by simp⟩
  | cons n ns ih =>
    intro p hp
    rw [List.sum_cons] at hp
    obtain ⟨l, e1, e2, e3⟩ := ih (p + n) (by omega)
    obtain ⟨b, hb, cb⟩ := getChannels_cut hs (selection_fromTo (n := s.count) p n (by omega))
    refine ⟨b :: l, by simp only [groups, hb, e1], by rw [List.map_cons, e2, cb.count], ?_⟩
    intro o d h
    cases o with
    | zero =>
      simp only [List.getElem?_cons_zero, Option.some.injEq] at h
      subst h
      simpa using cb
    | succ o =>
      have := e3 o d (by simpa using h)
      rw [List.take_succ_cons, List.sum_cons, List.getD_cons_succ, ← Nat.add_assoc]
      exact this

theorem signals_wf [Zero α] {mem : Nat → Nat → α} {mode : MergeMode} {data : List (Signal α R)} {r : Signal α R}
    (h : signals mem mode data = .ok r) (hw : ∀ d ∈ data, d.WF) : r.WF := by
  match data, h with
  | [s], h =>
    obtain rfl := Except.ok.inj h
    exact hw s (by simp)
  | a :: b :: l, h =>
    unfold signals signalsMany at h
    simp only [bind, Except.bind] at h
    split at h
    · cases h
    · split at h
      · cases h
      · obtain rfl := Except.ok.inj h
        exact new_wf _ _ _ _

/-- C105: a signal, that has been split in groups of channels, can be restored by merging the groups. -/
theorem C105_merge_groups [Zero α] (mem : Nat → Nat → α) (s : Signal α R) (hs : s.WF) (ns : List Nat) (hn : ns ≠ [])
    (hsum : ns.sum = s.count) :
    ∃ l r, groups s 0 ns = some l ∧ signals mem .firstDatasetFirst l = .ok r ∧ Same r s := by
  obtain ⟨l, e1, e2, e3⟩ := groups_spec s hs ns 0 (by omega)
  have hl : l ≠ [] := by
    rintro rfl
    exact hn e2.symm
  have hcut : ∀ d ∈ l, d.WF ∧ d.offset = s.offset ∧ d.length = s.length ∧ d.rate = s.rate := by
    intro d hd
    obtain ⟨o, ho⟩ := List.getElem?_of_mem hd
    have := e3 o d ho
    exact ⟨this.wf, by rw [this.offset]; simp, this.length, this.rate⟩
  obtain ⟨r, hr, sp⟩ := C23_signals_partial mem .firstDatasetFirst l hl (fun d hd => (hcut d hd).1) (Or.inl rfl)
  have hcount : r.count = s.count := by rw [sp.count, e2, hsum]
  have hoff : r.offset = s.offset := by
    obtain ⟨d, hd, h⟩ := sp.start
    rw [h, (hcut d hd).2.1]
  have hlen : r.length = s.length := by
    obtain ⟨d, hd, h⟩ := sp.stop
    have := hcut d hd
    omega
  have hrate : r.rate = s.rate := by
    obtain ⟨d, hd, h⟩ := sp.rate
    rw [h, (hcut d (List.mem_of_mem_head? hd)).2.2.2]
  -- every channel
  have hchan : ∀ k, k < s.count → (∀ t, r.value k t = s.value k t) ∧ r.labels[k]? = s.labels[k]? := by
    intro k hk
    have hk' : k < (order .firstDatasetFirst (l.map fun d => d.count)).length := by
      rw [order_length, e2, hsum]
      exact hk
    obtain ⟨⟨o, i⟩, hoi⟩ : ∃ x, (order .firstDatasetFirst (l.map fun d => d.count))[k]? = some x :=
      ⟨_, List.getElem?_eq_getElem hk'⟩
    obtain ⟨h1, h2, h3⟩ := rank_of_get hoi
    rw [List.length_map] at h1
    have hd : l[o]? = some l[o] := List.getElem?_eq_getElem h1
    have cut := e3 o _ hd
    obtain ⟨v, lab⟩ := sp.channel k o i _ hoi hd
    rw [e2] at h2 h3
    have h3' : k = (ns.take o).sum + i := h3
    have hi : i < (l[o]).count := by rw [cut.count]; exact h2
    have c1 := cut.length
    have c2 := cut.offset
    refine ⟨fun t => ?_, ?_⟩
    · rw [v]
      by_cases h : s.offset ≤ t ∧ t < s.offset + s.length
      · rw [value_of_covered (l[o]) hi (by omega) (by omega), value_of_covered s hk (by omega) (by omega), cut.get,
          h3']
        congr 1
        · omega
        · omega
      · rw [value_of_not s (by omega), value_of_not (l[o]) (by omega)]
    · rw [lab, cut.labels, List.getElem?_take_of_lt h2, List.getElem?_drop, h3', Nat.zero_add]
  refine ⟨l, r, e1, hr, same_of_samples (sameSamples_of_value hrate hoff hcount hlen ?_) ?_⟩
  · intro c t hc _ _
    exact (hchan c (by omega)).1 t
  · apply List.ext_getElem?
    intro k
    by_cases hk : k < s.count
    · exact (hchan k hk).2
    · have hrw : r.labels.length = r.count := signals_wf hr fun d hd => (hcut d hd).1
      rw [List.getElem?_eq_none (l := r.labels) (by omega), List.getElem?_eq_none (l := s.labels) (by rw [hs]; omega)]

example : ∃ l r, groups demo 0 [1, 1] = some l ∧ signals (fun _ _ => 9) .firstDatasetFirst l = .ok r ∧ Same r demo :=
  C105_merge_groups _ demo rfl [1, 1] (by simp) rfl

/-- C105: the signals can be cut out of a merged signal. -/
theorem C105_cut_merged [Zero α] (mem : Nat → Nat → α) (data : List (Signal α R)) (hd : data ≠ [])
    (hw : ∀ d ∈ data, d.WF) (o : Nat) (d : Signal α R) (ho : data[o]? = some d) (hrate : ∀ e ∈ data, e.rate = d.rate) :
    ∃ m r, signals mem .firstDatasetFirst data = .ok m ∧
      m.getItem (fromTo (((data.take o).map fun d => d.count).sum : Nat)
          (((data.take o).map fun d => d.count).sum + d.count : Nat))
        (fromTo (d.offset - m.offset) (d.offset - m.offset + d.length)) = some r ∧ Same r d := by
  obtain ⟨m, hm, sp⟩ := C23_signals_partial mem .firstDatasetFirst data hd hw (Or.inl rfl)
  have hmem : d ∈ data := List.mem_of_getElem? ho
  have ho' : o < data.length := (List.getElem?_eq_some_iff.1 ho).1
  have hmw := signals_wf hm hw
  have hcov := sp.covers d hmem
  set p := ((data.take o).map fun d => d.count).sum with hp
  have hbound : p + d.count ≤ m.count := by
    have e : data = data.take o ++ d :: data.drop (o + 1) := by
      have := List.take_append_drop o data
      rw [List.drop_eq_getElem_cons ho', (List.getElem?_eq_some_iff.1 ho).2] at this
      exact this.symm
    rw [sp.count, e, List.map_append, List.sum_append, List.map_cons, List.sum_cons]
    omega
  obtain ⟨j, hj⟩ : ∃ j : Nat, (j : Int) = d.offset - m.offset := ⟨(d.offset - m.offset).toNat, by omega⟩
  obtain ⟨r, hr, cut⟩ := getItem_cut hmw (selection_fromTo (n := m.count) p d.count hbound)
    (selection_fromTo (n := m.length) j d.length (by omega))
  have c1 := cut.count
  have c2 := cut.length
  have c3 := cut.offset
  have hlens : (data.map fun d => d.count).getD o 0 = d.count := by
    rw [List.getD_eq_getElem?_getD, List.getElem?_map, ho]
    rfl
  have hchan : ∀ i, i < d.count → (∀ t, m.value (p + i) t = d.value i t) ∧ m.labels[p + i]? = d.labels[i]? := by
    intro i hi
    have h := order_get (mode := .firstDatasetFirst) (lengths := data.map fun d => d.count) (o := o) (i := i)
      (by rw [List.length_map]; exact ho') (by rw [hlens]; exact hi)
    have e : rank .firstDatasetFirst (data.map fun d => d.count) o i = p + i := by
      show ((data.map fun d => d.count).take o).sum + i = _
      rw [← List.map_take]
    rw [e] at h
    exact sp.channel _ _ _ _ h ho
  have hrate' : r.rate = d.rate := by
    obtain ⟨e, he, h⟩ := sp.rate
    rw [cut.rate, h, hrate e (List.mem_of_mem_head? he)]
  refine ⟨m, r, hm, ?_, same_of_samples (sameSamples_of_value hrate' (by omega) c1 c2 ?_) ?_⟩
  · rw [← hr, hj.symm]
    rfl
  · intro c t hc k1 k2
    rw [← (hchan c (by omega)).1, value_of_covered r hc k1 k2, value_of_covered m (by omega) (by omega) (by omega),
      cut.get]
    congr 1
    omega
  · apply List.ext_getElem?
    intro i
    rw [cut.labels]
    by_cases hi : i < d.count
    · rw [List.getElem?_take_of_lt hi, List.getElem?_drop]
      exact (hchan i hi).2
    · rw [List.getElem?_eq_none (by rw [List.length_take]; omega),
        List.getElem?_eq_none (by rw [hw d hmem]; omega)]

example : ∃ m r, signals (fun _ _ => 9) .firstDatasetFirst [demo, { demo with offset := -7 }] = .ok m ∧
    m.getItem (fromTo 2 4) (fromTo (-7 - m.offset) (-7 - m.offset + 3)) = some r ∧
    Same r { demo with offset := -7 } :=
  C105_cut_merged _ [demo, { demo with offset := -7 }] (by simp) (by
    intro d hd
    rcases List.mem_pair.1 hd with rfl | rfl <;> rfl) 1 _ rfl
    (by simp)

/-- C105: in every valid mode, each channel can be cut out of the merged signal. -/
theorem C105_cut_channel [Zero α] (mem : Nat → Nat → α) (mode : MergeMode) (data : List (Signal α R)) (hd : data ≠ [])
    (hw : ∀ d ∈ data, d.WF) (hv : Valid mode (data.map fun d => d.count)) (k o i : Nat) (d : Signal α R)
    (hk : (order mode (data.map fun d => d.count))[k]? = some (o, i)) (ho : data[o]? = some d)
    (hrate : ∀ e ∈ data, e.rate = d.rate) :
    ∃ m r q, signals mem mode data = .ok m ∧
      m.getItem (.idx (.int k)) (fromTo (d.offset - m.offset) (d.offset - m.offset + d.length)) = some r ∧
      d.getChannels (.idx (.int i)) = some q ∧ Same r q := by
  obtain ⟨m, hm, sp⟩ := C23_signals_partial mem mode data hd hw hv
  have hmem : d ∈ data := List.mem_of_getElem? ho
  have hmw := signals_wf hm hw
  have hdw := hw d hmem
  have hcov := sp.covers d hmem
  obtain ⟨v, lab⟩ := sp.channel k o i d hk ho
  obtain ⟨-, hi, -⟩ := rank_of_get hk
  rw [List.getD_eq_getElem?_getD, List.getElem?_map, ho] at hi
  change i < d.count at hi
  have hkm : k < m.count := by
    rw [sp.count, ← order_length mode]
    exact (List.getElem?_eq_some_iff.1 hk).1
  obtain ⟨j, hj⟩ : ∃ j : Nat, (j : Int) = d.offset - m.offset := ⟨(d.offset - m.offset).toNat, by omega⟩
  obtain ⟨r, hr, cut⟩ := getItem_cut hmw (selection_idx (n := m.count) k hkm)
    (selection_fromTo (n := m.length) j d.length (by omega))
  obtain ⟨q, hq, cut'⟩ := getChannels_cut hdw (selection_idx (n := d.count) i hi)
  have c1 := cut.count
  have c2 := cut.length
  have c3 := cut.offset
  have c1' := cut'.count
  have c2' := cut'.length
  have c3' := cut'.offset
  have hrate' : r.rate = q.rate := by
    obtain ⟨e, he, h⟩ := sp.rate
    rw [cut.rate, cut'.rate, h, hrate e (List.mem_of_mem_head? he)]
  refine ⟨m, r, q, hm, ?_, hq, same_of_samples (sameSamples_of_value hrate' (by omega) (by omega) (by omega) ?_) ?_⟩
  · rw [← hr, hj.symm]
    rfl
  · intro c t hc k1 k2
    obtain rfl : c = 0 := by omega
    have e1 : r.value 0 t = m.value k t := by
      rw [value_of_covered r hc k1 k2, value_of_covered m hkm (by omega) (by omega), cut.get]
      congr 1
      omega
    have e2 : q.value 0 t = d.value i t := by
      rw [value_of_covered q (by omega) (by omega) (by omega), value_of_covered d hi (by omega) (by omega), cut'.get]
      congr 1
      omega
    rw [e1, e2, v]
  · apply List.ext_getElem?
    intro x
    rw [cut.labels, cut'.labels, List.getElem?_take, List.getElem?_take, List.getElem?_drop, List.getElem?_drop]
    by_cases hx : x < 1
    · obtain rfl : x = 0 := by omega
      rw [if_pos hx, if_pos hx]
      exact lab
    · rw [if_neg hx, if_neg hx]

example : (order .firstChannelsFirst ([demo, { demo with offset := -7 }].map fun d => d.count))[3]? = some (1, 1) ∧
    Valid .firstChannelsFirst ([demo, { demo with offset := -7 }].map fun d => d.count) :=
  ⟨rfl, Or.inr ⟨rfl, by decide⟩⟩

end Merge
end Verif
