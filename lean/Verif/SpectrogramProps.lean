import Verif.Spectrogram
import Verif.SignalAlgebraProps

/-
Property C16: arithmetic of two spectrograms.
-/

namespace Verif
namespace Spectrogram

open Cube

variable {α R : Type}

/-! ### Specification -/

/-- The sample of channel `c` and frequency bin `k` at time `t`, where the channel of a one-channel
spectrogram stands in for every channel. -/
def bcast (s : Spectrogram α R) (c k : Nat) (t : Int) : Option α :=
  if (s.count = 1 ∨ c < s.count) ∧ k < s.freqs ∧ s.offset ≤ t ∧ t < s.offset + s.length then
    some (s.channels.get (if s.count = 1 then 0 else c) k (t - s.offset).toNat)
  else none

/-- The numbers of channels which can be combined: not one with none. -/
def Compatible (s o : Spectrogram α R) : Prop :=
  ¬ (s.count = 1 ∧ o.count = 0) ∧ ¬ (s.count = 0 ∧ o.count = 1)

/-- What C16 demands of the result of a binary operator. -/
structure AlgebraSpec [Zero α] (f : α → α → α) (pivot : Option α) (s o : Spectrogram α R) (label : String)
    (r : Spectrogram α R) : Prop where
  count : r.count = max s.count o.count
  freqs : r.freqs = max s.freqs o.freqs
  offset : r.offset = min s.offset o.offset
  stop : r.offset + r.length = max (s.offset + s.length) (o.offset + o.length)
  resolution : r.resolution = s.resolution
  rate : r.rate = s.rate
  labels : r.labels = List.replicate r.count label
  value : ∀ c k t, c < r.count → k < r.freqs → t < r.length →
    r.channels.get c k t = Signal.combine f pivot (s.bcast c k (r.offset + t)) (o.bcast c k (r.offset + t))

/-! ### The loops over the channels -/

theorem fold_rows (g : Cube α → Nat → Py (Cube α)) (P : Nat → Nat → Prop) (v : Nat → Nat → α) (M : Cube α)
    (hg : ∀ M' c, M'.d0 = M.d0 → M'.d1 = M.d1 → M'.d2 = M.d2 → (∀ j k, M'.get 0 j k = M.get 0 j k) →
      1 ≤ c → c < M.d0 → ∃ C, g M' c = .ok C ∧ Upd M' C (fun i j k => i = c ∧ P j k) (fun _ j k => v j k))
    (n : Nat) (hn : n ≤ M.d0 - 1) :
    ∃ C, (List.range' 1 n).foldlM g M = .ok C ∧
      Upd M C (fun i j k => (1 ≤ i ∧ i ≤ n) ∧ P j k) (fun _ j k => v j k) := by
  induction n with
  | zero => exact ⟨M, rfl, rfl, rfl, rfl, by intro i j k h; omega, by intros; rfl⟩
  | succ n ih =>
    obtain ⟨C, h1, u⟩ := ih (by omega)
    obtain ⟨D, g1, w⟩ := hg C (1 + n) u.e0 u.e1 u.e2 (fun j k => u.outside 0 j k (by omega)) (by omega) (by omega)
    refine ⟨D, ?_, w.e0.trans u.e0, w.e1.trans u.e1, w.e2.trans u.e2, ?_, ?_⟩
    · rw [List.range'_1_concat, List.foldlM_append, h1]
      simp only [bind, Except.bind, List.foldlM_cons, List.foldlM_nil, g1]
      rfl
    · rintro i j k ⟨h, hP⟩
      by_cases hi : i = 1 + n
      · exact w.inside i j k ⟨hi, hP⟩
      · rw [w.outside i j k (fun h' => hi h'.1)]
        exact u.inside i j k ⟨by omega, hP⟩
    · intro i j k h
      rw [w.outside i j k (fun h' => h ⟨by omega, h'.2⟩)]
      exact u.outside i j k (fun h' => h ⟨by omega, h'.2⟩)

theorem lo_range_one {n c : Nat} (h : c < n) :
    (PySlice.range (c : Int) (c + 1)).lo n = c ∧ (PySlice.range (c : Int) (c + 1)).hi n = c + 1 := by
  refine ⟨?_, ?_⟩
  · rw [PySlice.lo_range, clampBound_nat]; omega
  · rw [PySlice.hi_range, clampBound_nonneg (by omega)]; omega

theorem range_zero {n c : Nat} (h : c ≤ n) :
    (PySlice.range 0 (c : Int)).lo n = 0 ∧ (PySlice.range 0 (c : Int)).hi n = c := by
  refine ⟨?_, ?_⟩
  · rw [PySlice.lo_range, clampBound_zero]
  · rw [PySlice.hi_range, clampBound_nat]; omega

theorem drop_nat {n c : Nat} (h : c ≤ n) :
    (PySlice.drop (c : Int)).lo n = c ∧ (PySlice.drop (c : Int)).hi n = n := by
  refine ⟨?_, rfl⟩
  rw [PySlice.lo_drop, clampBound_nat]; omega

theorem copyRows_ok (fs ts : PySlice) (row M : Cube α) (n1 a b : Nat)
    (hf : fs.lo M.d1 = 0 ∧ fs.hi M.d1 = n1) (ht : ts.lo M.d2 = a ∧ ts.hi M.d2 = b)
    (h0 : row.d0 = 1) (h1 : row.d1 = n1) (h2 : row.d2 = b - a) :
    ∃ C, copyRows fs ts row M = .ok C ∧
      Upd M C (fun i j k => (1 ≤ i ∧ i < M.d0) ∧ j < n1 ∧ a ≤ k ∧ k < b) (fun _ j k => row.get 0 j (k - a)) := by
  obtain ⟨C, hC, u⟩ := fold_rows (fun channels c => channels.assign (.range c (c + 1)) fs ts row)
    (fun j k => j < n1 ∧ a ≤ k ∧ k < b) (fun j k => row.get 0 j (k - a)) M (by
      intro M' c e0 e1 e2 _ hc1 hc2
      obtain ⟨C, g1, u⟩ := Cube.assign_ok (A := M') (S := row) (r := .range c (c + 1)) (s := fs) (t := ts)
        c (c + 1) 0 n1 a b (lo_range_one (by omega)) (by rw [e1]; exact hf) (by rw [e2]; exact ht)
        ⟨Or.inr h0, Or.inl (by omega), Or.inl h2⟩
      refine ⟨C, g1, u.e0, u.e1, u.e2, ?_, ?_⟩
      · rintro i j k ⟨hi, hj, hk1, hk2⟩
        rw [u.inside i j k ⟨by omega, by omega, hk1, hk2⟩, ix_of_one h0, ix_lt (by omega), ix_lt (by omega)]
        simp
      · intro i j k h
        refine u.outside i j k (fun h' => h ?_)
        obtain ⟨p1, p2, p3, p4⟩ := h'
        exact ⟨by omega, p2.2, p3, p4⟩) (M.d0 - 1) (by omega)
  refine ⟨C, hC, u.e0, u.e1, u.e2, ?_, ?_⟩
  · rintro i j k ⟨h, h'⟩
    exact u.inside i j k ⟨by omega, h'⟩
  · intro i j k h
    exact u.outside i j k (fun h' => h ⟨by omega, h'.2⟩)

theorem copyFirstRow_ok (fs ts : PySlice) (M : Cube α) (n1 a b : Nat)
    (hf : fs.lo M.d1 = 0 ∧ fs.hi M.d1 = n1) (ht : ts.lo M.d2 = a ∧ ts.hi M.d2 = b) :
    ∃ C, copyFirstRow fs ts M = .ok C ∧
      Upd M C (fun i j k => (1 ≤ i ∧ i < M.d0) ∧ j < n1 ∧ a ≤ k ∧ k < b) (fun _ j k => M.get 0 j k) := by
  obtain ⟨C, hC, u⟩ := fold_rows
    (fun channels c => channels.assign (.range c (c + 1)) fs ts (channels.slice (.range 0 1) fs ts))
    (fun j k => j < n1 ∧ a ≤ k ∧ k < b) (fun j k => M.get 0 j k) M (by
      intro M' c e0 e1 e2 e3 hc1 hc2
      have hr : (PySlice.range 0 1).lo M'.d0 = 0 ∧ (PySlice.range 0 1).hi M'.d0 = 1 := range_zero (c := 1) (by omega)
      have hd1 : (M'.slice (.range 0 1) fs ts).d1 = n1 := by
        show fs.hi M'.d1 - fs.lo M'.d1 = _
        rw [e1, hf.1, hf.2]; rfl
      have hd2 : (M'.slice (.range 0 1) fs ts).d2 = b - a := by
        show ts.hi M'.d2 - ts.lo M'.d2 = _
        rw [e2, ht.1, ht.2]
      have hd0 : (M'.slice (.range 0 1) fs ts).d0 = 1 := by
        show (PySlice.range 0 1).hi M'.d0 - (PySlice.range 0 1).lo M'.d0 = 1
        rw [hr.1, hr.2]
      obtain ⟨C, g1, u⟩ := Cube.assign_ok (A := M') (S := M'.slice (.range 0 1) fs ts) (r := .range c (c + 1))
        (s := fs) (t := ts)
        c (c + 1) 0 n1 a b (lo_range_one (by omega)) (by rw [e1]; exact hf) (by rw [e2]; exact ht)
        ⟨Or.inr hd0, Or.inl (by omega), Or.inl hd2⟩
      refine ⟨C, g1, u.e0, u.e1, u.e2, ?_, ?_⟩
      · rintro i j k ⟨hi, hj, hk1, hk2⟩
        rw [u.inside i j k ⟨by omega, by omega, hk1, hk2⟩, ix_of_one hd0, ix_lt (by omega), ix_lt (by omega)]
        show M'.get ((PySlice.range 0 1).lo M'.d0 + 0) (fs.lo M'.d1 + (j - 0)) (ts.lo M'.d2 + (k - a)) = _
        rw [hr.1, e1, hf.1, e2, ht.1, ← e3]
        congr 1 <;> omega
      · intro i j k h
        refine u.outside i j k (fun h' => h ?_)
        obtain ⟨p1, p2, p3, p4⟩ := h'
        exact ⟨by omega, p2.2, p3, p4⟩) (M.d0 - 1) (by omega)
  refine ⟨C, hC, u.e0, u.e1, u.e2, ?_, ?_⟩
  · rintro i j k ⟨h, h'⟩
    exact u.inside i j k ⟨by omega, h'⟩
  · intro i j k h
    exact u.outside i j k (fun h' => h ⟨by omega, h'.2⟩)

/-- Copying of an array `X` to all channels from the index `a` on. -/
theorem place_ok (M X : Cube α) (fs ts : PySlice) (a b : Nat)
    (hf : fs.lo M.d1 = 0 ∧ fs.hi M.d1 = X.d1) (ht : ts.lo M.d2 = a ∧ ts.hi M.d2 = b)
    (h2 : X.d2 = b - a) (h0 : X.d0 ≤ M.d0) :
    ∃ C, (M.assign (.range 0 X.d0) fs ts X >>= fun C =>
        if X.d0 = 1 then copyRows fs ts (X.row 0) C else pure C) = .ok C ∧
      Upd M C (fun i j k => (i < X.d0 ∨ X.d0 = 1 ∧ i < M.d0) ∧ j < X.d1 ∧ a ≤ k ∧ k < b)
        (fun i j k => X.get (ix X.d0 i) j (k - a)) := by
  obtain ⟨B, hB, u⟩ := Cube.assign_ok (A := M) (S := X) (r := .range 0 X.d0) (s := fs) (t := ts) 0 X.d0 0 X.d1 a b
    (range_zero h0) hf ht ⟨Or.inl rfl, Or.inl rfl, Or.inl h2⟩
  simp only [bind, Except.bind, hB]
  by_cases h1 : X.d0 = 1
  · rw [if_pos h1]
    obtain ⟨C, hC, w⟩ := copyRows_ok fs ts (X.row 0) B X.d1 a b (by rw [u.e1]; exact hf) (by rw [u.e2]; exact ht)
      rfl rfl h2
    refine ⟨C, hC, w.e0.trans u.e0, w.e1.trans u.e1, w.e2.trans u.e2, ?_, ?_⟩
    · rintro i j k ⟨hi, hj, hk⟩
      rw [ix_of_one h1]
      by_cases hi0 : i = 0
      · rw [w.outside i j k (by omega), u.inside i j k ⟨by omega, by omega, hk⟩, ix_of_one h1,
          ix_lt (by omega), ix_lt (by omega)]
        rfl
      · rw [w.inside i j k ⟨by rw [u.e0]; omega, hj, hk⟩]
        rfl
    · intro i j k h
      rw [w.outside i j k (by rw [u.e0]; exact fun h' => h ⟨Or.inr ⟨h1, h'.1.2⟩, h'.2⟩),
        u.outside i j k (fun h' => h ⟨Or.inl h'.1.2, h'.2.1.2, h'.2.2⟩)]
  · rw [if_neg h1]
    refine ⟨B, rfl, u.e0, u.e1, u.e2, ?_, ?_⟩
    · rintro i j k ⟨hi, hj, hk⟩
      rw [u.inside i j k ⟨by omega, by omega, hk⟩, ix_lt (i := j - 0) (by omega), ix_lt (i := k - a) (by omega)]
      rfl
    · intro i j k h
      exact u.outside i j k (fun h' => h ⟨Or.inl h'.1.2, h'.2.1.2, h'.2.2⟩)

/-- The same for `function(pivot, X)`. -/
theorem place_pivot_ok (f : α → α → α) (p : α) (M X : Cube α) (fs ts : PySlice) (a b : Nat)
    (hf : fs.lo M.d1 = 0 ∧ fs.hi M.d1 = X.d1) (ht : ts.lo M.d2 = a ∧ ts.hi M.d2 = b)
    (h2 : X.d2 = b - a) (h0 : X.d0 ≤ M.d0) :
    ∃ C, (Cube.ufunc2 f (.scalar p) X M (.range 0 X.d0) fs ts >>= fun C =>
        if X.d0 = 1 then copyFirstRow fs ts C else pure C) = .ok C ∧
      Upd M C (fun i j k => (i < X.d0 ∨ X.d0 = 1 ∧ i < M.d0) ∧ j < X.d1 ∧ a ≤ k ∧ k < b)
        (fun i j k => f p (X.get (ix X.d0 i) j (k - a))) := by
  obtain ⟨B, hB, u⟩ := Cube.ufunc2_ok (f := f) (A := .scalar p) (B := X) (out := M) (r := .range 0 X.d0) (s := fs)
    (t := ts) 0 X.d0 0 X.d1 a b (range_zero h0) hf ht ⟨Or.inr rfl, Or.inr rfl, Or.inr rfl⟩
    ⟨Or.inl rfl, Or.inl rfl, Or.inl h2⟩
  simp only [bind, Except.bind, hB]
  have first : ∀ i j k, i < X.d0 → j < X.d1 → a ≤ k → k < b → B.get i j k = f p (X.get (ix X.d0 i) j (k - a)) := by
    intro i j k hi hj hk hk'
    rw [u.inside i j k ⟨by omega, by omega, hk, hk'⟩, ix_lt (n := X.d1) (i := j - 0) (by omega),
      ix_lt (n := X.d2) (i := k - a) (by omega)]
    rfl
  by_cases h1 : X.d0 = 1
  · rw [if_pos h1]
    obtain ⟨C, hC, w⟩ := copyFirstRow_ok fs ts B X.d1 a b (by rw [u.e1]; exact hf) (by rw [u.e2]; exact ht)
    refine ⟨C, hC, w.e0.trans u.e0, w.e1.trans u.e1, w.e2.trans u.e2, ?_, ?_⟩
    · rintro i j k ⟨hi, hj, hk⟩
      by_cases hi0 : i = 0
      · rw [w.outside i j k (by omega), first i j k (by omega) hj hk.1 hk.2]
      · rw [w.inside i j k ⟨by rw [u.e0]; omega, hj, hk⟩, first 0 j k (by omega) hj hk.1 hk.2, ix_of_one h1,
          ix_of_one h1]
    · intro i j k h
      rw [w.outside i j k (by rw [u.e0]; exact fun h' => h ⟨Or.inr ⟨h1, h'.1.2⟩, h'.2⟩),
        u.outside i j k (fun h' => h ⟨Or.inl h'.1.2, h'.2.1.2, h'.2.2⟩)]
  · rw [if_neg h1]
    refine ⟨B, rfl, u.e0, u.e1, u.e2, ?_, ?_⟩
    · rintro i j k ⟨hi, hj, hk⟩
      exact first i j k (by omega) hj hk.1 hk.2
    · intro i j k h
      exact u.outside i j k (fun h' => h ⟨Or.inl h'.1.2, h'.2.1.2, h'.2.2⟩)

/-! ### The three steps for spectrograms with different shapes -/

theorem bcast_eq (s : Spectrogram α R) (c k : Nat) (t : Int) (a j : Nat) (ha : s.offset + j = t + a) (hj : a ≤ j)
    (h : (s.count = 1 ∨ c < s.count) ∧ k < s.freqs ∧ j < a + s.length) :
    s.bcast c k t = some (s.channels.get (ix s.count c) k (j - a)) := by
  unfold bcast
  rw [if_pos ⟨h.1, h.2.1, by omega, by omega⟩]
  unfold ix
  congr 2
  omega

theorem bcast_none (s : Spectrogram α R) (c k : Nat) (t : Int)
    (h : ¬ ((s.count = 1 ∨ c < s.count) ∧ k < s.freqs ∧ s.offset ≤ t ∧ t < s.offset + s.length)) :
    s.bcast c k t = none := if_neg h

theorem bcast_some (s : Spectrogram α R) (c k : Nat) (t : Int) (j : Nat) (ha : t - s.offset = j)
    (h : (s.count = 1 ∨ c < s.count) ∧ k < s.freqs ∧ s.offset ≤ t ∧ t < s.offset + s.length) :
    s.bcast c k t = some (s.channels.get (ix s.count c) k j) := by
  unfold bcast
  rw [if_pos h, ha]
  rfl

section
variable [Zero α] (mem : Nat → Nat → Nat → α) (f : α → α → α) (pivot : Option α) (s o : Spectrogram α R)

/-- The common shape of the intermediate arrays. -/
structure HullShape (M : Cube α) : Prop where
  d0 : M.d0 = max s.count o.count
  d1 : M.d1 = max s.freqs o.freqs
  d2 : M.d2 = (max (s.offset + s.length) (o.offset + o.length) - min s.offset o.offset).toNat

theorem range_int {n : Nat} {x y : Int} (hx : 0 ≤ x) (hxy : x ≤ y) (hy : y ≤ n) :
    (PySlice.range x y).lo n = x.toNat ∧ (PySlice.range x y).hi n = y.toNat := by
  rw [PySlice.lo_range, PySlice.hi_range, clampBound_nonneg hx, clampBound_nonneg (by omega)]
  omega

theorem copySelf_ok :
    ∃ C, copySelf mem s o = .ok C ∧ HullShape s o C ∧
      ∀ i j k, i < C.d0 → j < C.d1 → k < C.d2 →
        C.get i j k = (s.bcast i j (min s.offset o.offset + k)).getD 0 := by
  unfold copySelf
  simp only
  obtain ⟨A, hA, u⟩ := Cube.assign_ok (A := allocCube mem (max s.count o.count) (max s.freqs o.freqs)
      (max (s.offset + s.length) (o.offset + o.length) - min s.offset o.offset).toNat)
    (S := .scalar (0 : α)) (r := .all) (s := .all) (t := .all) 0 (max s.count o.count) 0 (max s.freqs o.freqs)
    0 (max (s.offset + s.length) (o.offset + o.length) - min s.offset o.offset).toNat
    ⟨rfl, rfl⟩ ⟨rfl, rfl⟩ ⟨rfl, rfl⟩ ⟨Or.inr rfl, Or.inr rfl, Or.inr rfl⟩
  have e0 : A.d0 = max s.count o.count := u.e0
  have e1 : A.d1 = max s.freqs o.freqs := u.e1
  have e2 : A.d2 = (max (s.offset + s.length) (o.offset + o.length) - min s.offset o.offset).toNat := u.e2
  simp only [bind, Except.bind, hA]
  have hF : s.channels.d1 = s.freqs := rfl
  have hC : s.channels.d0 = s.count := rfl
  have hL : s.channels.d2 = s.length := rfl
  obtain ⟨C, hC', w⟩ := place_ok A s.channels (.range 0 s.freqs)
    (.range (s.offset - min s.offset o.offset) (s.offset - min s.offset o.offset + s.length))
    (s.offset - min s.offset o.offset).toNat (s.offset - min s.offset o.offset + s.length).toNat
    (range_zero (by omega)) (range_int (by omega) (by omega) (by omega)) (by omega) (by omega)
  refine ⟨C, hC', ⟨w.e0.trans e0, w.e1.trans e1, w.e2.trans e2⟩, ?_⟩
  intro i j k hi hj hk
  rw [w.e0, e0] at hi
  rw [w.e1, e1] at hj
  rw [w.e2, e2] at hk
  by_cases h : (s.count = 1 ∨ i < s.count) ∧ j < s.freqs ∧ s.offset ≤ min s.offset o.offset + (k : Int) ∧
      min s.offset o.offset + (k : Int) < s.offset + s.length
  · rw [bcast_some s i j _ (k - (s.offset - min s.offset o.offset).toNat) (by omega) h, Option.getD_some]
    exact w.inside i j k ⟨by omega, by omega, by omega, by omega⟩
  · rw [bcast_none s i j _ h, Option.getD_none, w.outside i j k (by omega),
      u.inside i j k ⟨⟨by omega, hi⟩, ⟨by omega, hj⟩, by omega, hk⟩]
    rfl

omit [Zero α] in
theorem copyOther_ok (M : Cube α) (hM : HullShape s o M) :
    ∃ C, copyOther f pivot s o M = .ok C ∧ HullShape s o C ∧
      ∀ i j k, i < C.d0 → j < C.d1 → k < C.d2 →
        C.get i j k = ((o.bcast i j (min s.offset o.offset + k)).map (Signal.onlyOther f pivot)).getD (M.get i j k) := by
  obtain ⟨m0, m1, m2⟩ := hM
  have hF : o.channels.d1 = o.freqs := rfl
  have hC : o.channels.d0 = o.count := rfl
  have hL : o.channels.d2 = o.length := rfl
  have key : ∃ C, copyOther f pivot s o M = .ok C ∧ Upd M C
      (fun i j k => (i < o.channels.d0 ∨ o.channels.d0 = 1 ∧ i < M.d0) ∧ j < o.channels.d1 ∧
        (o.offset - min s.offset o.offset).toNat ≤ k ∧ k < (o.offset - min s.offset o.offset + o.length).toNat)
      (fun i j k => Signal.onlyOther f pivot (o.channels.get (ix o.channels.d0 i) j
        (k - (o.offset - min s.offset o.offset).toNat))) := by
    cases pivot with
    | none =>
      exact place_ok M o.channels (.range 0 o.freqs)
        (.range (o.offset - min s.offset o.offset) (o.offset - min s.offset o.offset + o.length))
        (o.offset - min s.offset o.offset).toNat (o.offset - min s.offset o.offset + o.length).toNat
        (range_zero (by omega)) (range_int (by omega) (by omega) (by omega)) (by omega) (by omega)
    | some p =>
      exact place_pivot_ok f p M o.channels (.range 0 o.freqs)
        (.range (o.offset - min s.offset o.offset) (o.offset - min s.offset o.offset + o.length))
        (o.offset - min s.offset o.offset).toNat (o.offset - min s.offset o.offset + o.length).toNat
        (range_zero (by omega)) (range_int (by omega) (by omega) (by omega)) (by omega) (by omega)
  obtain ⟨C, hC', w⟩ := key
  refine ⟨C, hC', ⟨w.e0.trans m0, w.e1.trans m1, w.e2.trans m2⟩, ?_⟩
  intro i j k hi hj hk
  rw [w.e0, m0] at hi
  rw [w.e1, m1] at hj
  rw [w.e2, m2] at hk
  by_cases h : (o.count = 1 ∨ i < o.count) ∧ j < o.freqs ∧ o.offset ≤ min s.offset o.offset + (k : Int) ∧
      min s.offset o.offset + (k : Int) < o.offset + o.length
  · rw [bcast_some o i j _ (k - (o.offset - min s.offset o.offset).toNat) (by omega) h, Option.map_some,
      Option.getD_some]
    exact w.inside i j k ⟨by omega, by omega, by omega, by omega⟩
  · rw [bcast_none o i j _ h, Option.map_none, Option.getD_none, w.outside i j k (by omega)]

/-- The indices on the overlap of the intervals which start at `x` and `y`. -/
theorem overlap_arith (x y : Int) (n m k : Nat) (st S ba bb : Int) (hst : st = min x y) (hS : S = max x y)
    (hba : ba = S - st) (hbb : bb = min (x + n) (y + m) - st) :
    (x ≤ st + (k : Int) → y ≤ st + (k : Int) → st + (k : Int) < x + n → st + (k : Int) < y + m →
      ba.toNat ≤ k ∧ k < bb.toNat ∧ k - ba.toNat < (bb - ba).toNat ∧
      st + (k : Int) - x = ((S - x).toNat + (k - ba.toNat) : Nat) ∧
      st + (k : Int) - y = ((S - y).toNat + (k - ba.toNat) : Nat)) ∧
    (ba.toNat ≤ k → k < bb.toNat → x ≤ st + (k : Int) ∧ y ≤ st + (k : Int) ∧ st + (k : Int) < x + n ∧
      st + (k : Int) < y + m) := by
  subst hst hba hbb hS
  refine ⟨fun h1 h2 h3 h4 => ⟨by omega, by omega, by omega, by omega, by omega⟩, fun h1 h2 => ⟨by omega, by omega, by omega, by omega⟩⟩

omit [Zero α] in
/-- The computation on the overlap, for the part `A` of the first and the part `B` of the second spectrogram. -/
theorem overlap_step (M A B : Cube α) (hM : HullShape s o M) (r : PySlice) (n bf : Nat) (ba bb : Int)
    (hbf : bf = min s.freqs o.freqs)
    (hba : ba = max s.offset o.offset - min s.offset o.offset)
    (hbb : bb = min (s.offset + s.length) (o.offset + o.length) - min s.offset o.offset)
    (hov : ba < bb) (hr : r.lo M.d0 = 0 ∧ r.hi M.d0 = n)
    (hn : ∀ i, i < M.d0 → (i < n ↔ (s.count = 1 ∨ i < s.count) ∧ (o.count = 1 ∨ i < o.count)))
    (hA : A.Fits n bf (bb - ba).toNat) (hB : B.Fits n bf (bb - ba).toNat)
    (hA1 : A.d1 = bf) (hA2 : A.d2 = (bb - ba).toNat) (hB1 : B.d1 = bf) (hB2 : B.d2 = (bb - ba).toNat)
    (p : ∀ i j k, i < n → A.get (ix A.d0 i) j k =
      s.channels.get (ix s.count i) j ((max s.offset o.offset - s.offset).toNat + k))
    (q : ∀ i j k, i < n → B.get (ix B.d0 i) j k =
      o.channels.get (ix o.count i) j ((max s.offset o.offset - o.offset).toNat + k)) :
    ∃ C, Cube.ufunc2 f A B M r (.range 0 bf) (.range ba bb) = .ok C ∧ HullShape s o C ∧
      ∀ i j k, i < C.d0 → j < C.d1 → k < C.d2 → C.get i j k =
        match s.bcast i j (min s.offset o.offset + k), o.bcast i j (min s.offset o.offset + k) with
        | some x, some y => f x y
        | _, _ => M.get i j k := by
  obtain ⟨m0, m1, m2⟩ := hM
  have s9 : bb ≤ M.d2 := by omega
  have s10 : bf ≤ M.d1 := by omega
  have s11 : ∀ j, j < bf ↔ j < s.freqs ∧ j < o.freqs := by omega
  have s12 : 0 ≤ ba := by omega
  have ar := overlap_arith s.offset o.offset s.length o.length
  have sub : bb.toNat - ba.toNat = (bb - ba).toNat := by clear * - s12; omega
  obtain ⟨C, hC, w⟩ := Cube.ufunc2_ok (f := f) (A := A) (B := B) (out := M) (r := r) (s := .range 0 bf)
    (t := .range ba bb) 0 n 0 bf ba.toNat bb.toNat hr (range_zero s10)
    (range_int s12 (Int.le_of_lt hov) s9) (by rw [sub]; exact hA) (by rw [sub]; exact hB)
  refine ⟨C, hC, ⟨w.e0.trans m0, w.e1.trans m1, w.e2.trans m2⟩, ?_⟩
  intro i j k hi hj hk
  have hi' : i < M.d0 := by rw [← w.e0]; exact hi
  obtain ⟨ar1, ar2⟩ := ar k _ _ ba bb rfl rfl hba hbb
  by_cases h1 : (s.count = 1 ∨ i < s.count) ∧ j < s.freqs ∧ s.offset ≤ min s.offset o.offset + (k : Int) ∧
      min s.offset o.offset + (k : Int) < s.offset + s.length
  · by_cases h2 : (o.count = 1 ∨ i < o.count) ∧ j < o.freqs ∧ o.offset ≤ min s.offset o.offset + (k : Int) ∧
        min s.offset o.offset + (k : Int) < o.offset + o.length
    · have hin : i < n := (hn i hi').mpr ⟨h1.1, h2.1⟩
      have hjf := (s11 j).mpr ⟨h1.2.1, h2.2.1⟩
      obtain ⟨e1, e2, e5, e3, e4⟩ := ar1 h1.2.2.1 h2.2.2.1 h1.2.2.2 h2.2.2.2
      rw [bcast_some s i j _ _ e3 h1, bcast_some o i j _ _ e4 h2,
        w.inside i j k ⟨⟨Nat.zero_le _, hin⟩, ⟨Nat.zero_le _, hjf⟩, e1, e2⟩,
        hA1, hB1, hA2, hB2, ix_lt (n := bf) (i := j - 0) hjf, ix_lt (n := (bb - ba).toNat) e5]
      simp only [Nat.sub_zero]
      rw [p i j _ hin, q i j _ hin]
    · rw [bcast_none o i j _ h2, w.outside i j k]
      · split
        · rename_i heq; cases heq
        · rfl
      · rintro ⟨⟨_, k1⟩, ⟨_, k2⟩, k3, k4⟩
        obtain ⟨a1, a2, a3, a4⟩ := ar2 k3 k4
        exact h2 ⟨((hn i hi').mp k1).2, ((s11 j).mp k2).2, a2, a4⟩
  · rw [bcast_none s i j _ h1, w.outside i j k]
    rintro ⟨⟨_, k1⟩, ⟨_, k2⟩, k3, k4⟩
    obtain ⟨a1, a2, a3, a4⟩ := ar2 k3 k4
    exact h1 ⟨((hn i hi').mp k1).1, ((s11 j).mp k2).1, a1, a3⟩

omit [Zero α] in
theorem computeOverlap_ok (M : Cube α) (hM : HullShape s o M) (hc : Compatible s o) :
    ∃ C, computeOverlap f s o M = .ok C ∧ HullShape s o C ∧
      ∀ i j k, i < C.d0 → j < C.d1 → k < C.d2 → C.get i j k =
        match s.bcast i j (min s.offset o.offset + k), o.bcast i j (min s.offset o.offset + k) with
        | some x, some y => f x y
        | _, _ => M.get i j k := by
  unfold computeOverlap
  simp only
  obtain ⟨c1, c2⟩ := hc
  have m0 := hM.d0
  have hsF : s.channels.d1 = s.freqs := rfl
  have hsC : s.channels.d0 = s.count := rfl
  have hsL : s.channels.d2 = s.length := rfl
  have hoF : o.channels.d1 = o.freqs := rfl
  have hoC : o.channels.d0 = o.count := rfl
  have hoL : o.channels.d2 = o.length := rfl
  generalize hbf : min s.freqs o.freqs = bf
  generalize hba : max s.offset o.offset - min s.offset o.offset = ba
  generalize hbb : min (s.offset + s.length) (o.offset + o.length) - min s.offset o.offset = bb
  by_cases hov : bf ≠ 0 ∧ ba < bb
  · rw [if_pos hov]
    -- the selected parts
    have ss := range_int (n := s.channels.d2) (x := ba + min s.offset o.offset - s.offset)
      (y := bb + min s.offset o.offset - s.offset) (by omega) (by omega) (by omega)
    have os := range_int (n := o.channels.d2) (x := ba + min s.offset o.offset - o.offset)
      (y := bb + min s.offset o.offset - o.offset) (by omega) (by omega) (by omega)
    have sf := range_zero (n := s.channels.d1) (c := bf) (by omega)
    have of := range_zero (n := o.channels.d1) (c := bf) (by omega)
    have sd1 : ∀ (X : Cube α) (r t : PySlice), X.d1 = s.freqs → (X.slice r (.range 0 bf) t).d1 = bf := by
      intro X r t hX
      show (PySlice.range 0 (bf : Int)).hi X.d1 - (PySlice.range 0 (bf : Int)).lo X.d1 = bf
      rw [hX, ← hsF, sf.1, sf.2]; rfl
    have od1 : ∀ (X : Cube α) (r t : PySlice), X.d1 = o.freqs → (X.slice r (.range 0 bf) t).d1 = bf := by
      intro X r t hX
      show (PySlice.range 0 (bf : Int)).hi X.d1 - (PySlice.range 0 (bf : Int)).lo X.d1 = bf
      rw [hX, ← hoF, of.1, of.2]; rfl
    have sd2 : ∀ (X : Cube α) (r t : PySlice), X.d2 = s.length → (X.slice r t
        (.range (ba + min s.offset o.offset - s.offset) (bb + min s.offset o.offset - s.offset))).d2 = (bb - ba).toNat := by
      intro X r t hX
      show (PySlice.range _ _).hi X.d2 - (PySlice.range _ _).lo X.d2 = _
      rw [hX, ← hsL, ss.1, ss.2]; omega
    have od2 : ∀ (X : Cube α) (r t : PySlice), X.d2 = o.length → (X.slice r t
        (.range (ba + min s.offset o.offset - o.offset) (bb + min s.offset o.offset - o.offset))).d2 = (bb - ba).toNat := by
      intro X r t hX
      show (PySlice.range _ _).hi X.d2 - (PySlice.range _ _).lo X.d2 = _
      rw [hX, ← hoL, os.1, os.2]; omega
    have sg : ∀ (X : Cube α) (r : PySlice) i j k, X.d1 = s.freqs → X.d2 = s.length → r.lo X.d0 = 0 →
        (X.slice r (.range 0 bf) (.range (ba + min s.offset o.offset - s.offset)
          (bb + min s.offset o.offset - s.offset))).get i j k =
        X.get i j ((max s.offset o.offset - s.offset).toNat + k) := by
      intro X r i j k h1 h2 h3
      show X.get (r.lo X.d0 + i) ((PySlice.range 0 (bf : Int)).lo X.d1 + j) ((PySlice.range _ _).lo X.d2 + k) = _
      rw [h1, h2, h3, ← hsF, ← hsL, sf.1, ss.1]
      congr 1 <;> omega
    have og : ∀ (X : Cube α) (r : PySlice) i j k, X.d1 = o.freqs → X.d2 = o.length → r.lo X.d0 = 0 →
        (X.slice r (.range 0 bf) (.range (ba + min s.offset o.offset - o.offset)
          (bb + min s.offset o.offset - o.offset))).get i j k =
        X.get i j ((max s.offset o.offset - o.offset).toNat + k) := by
      intro X r i j k h1 h2 h3
      show X.get (r.lo X.d0 + i) ((PySlice.range 0 (bf : Int)).lo X.d1 + j) ((PySlice.range _ _).lo X.d2 + k) = _
      rw [h1, h2, h3, ← hoF, ← hoL, of.1, os.1]
      congr 1 <;> omega
    by_cases h1 : s.count = 1
    · rw [if_pos h1]
      refine overlap_step f s o M _ _ hM .all o.count bf ba bb hbf.symm hba.symm hbb.symm hov.2
        ⟨rfl, by show M.d0 = _; omega⟩ (by intro i hi; omega) ⟨Or.inr rfl, Or.inl ?_, Or.inl ?_⟩
        ⟨Or.inl rfl, Or.inl ?_, Or.inl ?_⟩ ?_ ?_ ?_ ?_ ?_ ?_
      · exact sd1 _ _ _ rfl
      · exact sd2 _ _ _ rfl
      · exact od1 _ _ _ rfl
      · exact od2 _ _ _ rfl
      · exact sd1 _ _ _ rfl
      · exact sd2 _ _ _ rfl
      · exact od1 _ _ _ rfl
      · exact od2 _ _ _ rfl
      · intro i j k hi
        rw [sg (s.channels.row 0) _ _ _ _ rfl rfl rfl, ix_of_one h1]
        rfl
      · intro i j k hi
        rw [og _ _ _ _ _ rfl rfl rfl]
        rfl
    · rw [if_neg h1]
      by_cases h2 : o.count = 1
      · rw [if_pos h2]
        refine overlap_step f s o M _ _ hM .all s.count bf ba bb hbf.symm hba.symm hbb.symm hov.2
          ⟨rfl, by show M.d0 = _; omega⟩ (by intro i hi; omega) ⟨Or.inl rfl, Or.inl ?_, Or.inl ?_⟩
          ⟨Or.inr rfl, Or.inl ?_, Or.inl ?_⟩ ?_ ?_ ?_ ?_ ?_ ?_
        · exact sd1 _ _ _ rfl
        · exact sd2 _ _ _ rfl
        · exact od1 _ _ _ rfl
        · exact od2 _ _ _ rfl
        · exact sd1 _ _ _ rfl
        · exact sd2 _ _ _ rfl
        · exact od1 _ _ _ rfl
        · exact od2 _ _ _ rfl
        · intro i j k hi
          rw [sg _ _ _ _ _ rfl rfl rfl]
          rfl
        · intro i j k hi
          rw [og (o.channels.row 0) _ _ _ _ rfl rfl rfl, ix_of_one h2]
          rfl
      · rw [if_neg h2]
        have rs : (PySlice.range 0 ((min s.count o.count : Nat) : Int)).lo s.channels.d0 = 0 ∧ _ :=
          range_zero (n := s.channels.d0) (c := min s.count o.count) (by omega)
        have ro : (PySlice.range 0 ((min s.count o.count : Nat) : Int)).lo o.channels.d0 = 0 ∧ _ :=
          range_zero (n := o.channels.d0) (c := min s.count o.count) (by omega)
        have s0 : ∀ t u, (s.channels.slice (.range 0 ((min s.count o.count : Nat) : Int)) t u).d0 = min s.count o.count := by
          intro t u
          show (PySlice.range _ _).hi _ - (PySlice.range _ _).lo _ = _
          rw [rs.1, rs.2]; omega
        have o0 : ∀ t u, (o.channels.slice (.range 0 ((min s.count o.count : Nat) : Int)) t u).d0 = min s.count o.count := by
          intro t u
          show (PySlice.range _ _).hi _ - (PySlice.range _ _).lo _ = _
          rw [ro.1, ro.2]; omega
        refine overlap_step f s o M _ _ hM _ (min s.count o.count) bf ba bb hbf.symm hba.symm hbb.symm hov.2
          (range_zero (by omega)) (by intro i hi; omega) ⟨Or.inl (s0 _ _), Or.inl ?_, Or.inl ?_⟩
          ⟨Or.inl (o0 _ _), Or.inl ?_, Or.inl ?_⟩ ?_ ?_ ?_ ?_ ?_ ?_
        · exact sd1 _ _ _ rfl
        · exact sd2 _ _ _ rfl
        · exact od1 _ _ _ rfl
        · exact od2 _ _ _ rfl
        · exact sd1 _ _ _ rfl
        · exact sd2 _ _ _ rfl
        · exact od1 _ _ _ rfl
        · exact od2 _ _ _ rfl
        · intro i j k hi
          rw [sg _ _ _ _ _ rfl rfl rs.1, s0, ix_lt hi, ix_lt (by omega)]
        · intro i j k hi
          rw [og _ _ _ _ _ rfl rfl ro.1, o0, ix_lt hi, ix_lt (by omega)]
  · rw [if_neg hov]
    refine ⟨M, rfl, hM, ?_⟩
    intro i j k hi hj hk
    by_cases h1 : (s.count = 1 ∨ i < s.count) ∧ j < s.freqs ∧ s.offset ≤ min s.offset o.offset + (k : Int) ∧
        min s.offset o.offset + (k : Int) < s.offset + s.length
    · rw [bcast_none o i j _ (by omega)]
      split
      · rename_i heq; cases heq
      · rfl
    · rw [bcast_none s i j _ h1]

end

/-! ### C16 -/

/-- The samples of a spectrogram which has the time range of both operands. -/
theorem value_same [Zero α] (f : α → α → α) (pivot : Option α) (s o : Spectrogram α R)
    (h : s.freqs = o.freqs ∧ s.length = o.length ∧ s.offset = o.offset) (c k t : Nat)
    (hc : c < max s.count o.count) (hcomp : Compatible s o) (hk : k < s.freqs) (ht : t < s.length) :
    Signal.combine f pivot (s.bcast c k (s.offset + t)) (o.bcast c k (s.offset + t)) =
      if (s.count = 1 ∨ c < s.count) then
        if (o.count = 1 ∨ c < o.count) then f (s.channels.get (ix s.count c) k t) (o.channels.get (ix o.count c) k t)
        else s.channels.get (ix s.count c) k t
      else Signal.onlyOther f pivot (o.channels.get (ix o.count c) k t) := by
  obtain ⟨h1, h2, h3⟩ := h
  obtain ⟨k1, k2⟩ := hcomp
  by_cases hs : s.count = 1 ∨ c < s.count
  · rw [if_pos hs, bcast_some s c k _ t (by omega) ⟨hs, hk, by omega, by omega⟩]
    by_cases ho : o.count = 1 ∨ c < o.count
    · rw [if_pos ho, bcast_some o c k _ t (by omega) ⟨ho, by omega, by omega, by omega⟩]
      rfl
    · rw [if_neg ho, bcast_none o c k _ (fun h => ho h.1)]
      rfl
  · rw [if_neg hs, bcast_none s c k _ (fun h => hs h.1),
      bcast_some o c k _ t (by omega) ⟨by omega, by omega, by omega, by omega⟩]
    rfl

/-- The parameters of the result. -/
theorem finish [Zero α] (f : α → α → α) (pivot : Option α) (s o : Spectrogram α R) (label : String) (C : Cube α)
    (n : Nat) (off : Int) (hn : n = max s.count o.count) (hoff : off = min s.offset o.offset)
    (h0 : C.d0 = max s.count o.count) (h1 : C.d1 = max s.freqs o.freqs)
    (h2 : off + C.d2 = max (s.offset + s.length) (o.offset + o.length))
    (hv : ∀ c k t, c < C.d0 → k < C.d1 → t < C.d2 →
      C.get c k t = Signal.combine f pivot (s.bcast c k (off + t)) (o.bcast c k (off + t))) :
    AlgebraSpec f pivot s o label (new C s.resolution s.rate off (some (List.replicate n label))) := by
  refine ⟨h0, h1, hoff, h2, rfl, rfl, ?_, hv⟩
  show sanitizeLabels (some (List.replicate n label)) C.d0 = List.replicate C.d0 label
  rw [hn, h0]
  exact Signal.sanitize_self (by simp)

/-- C16: for all spectrograms, in particular with arbitrary numbers of channels and frequencies, lengths and
offsets, arbitrary operators and arbitrary contents of the allocated memory.  The pivot has to be neutral as
second operand (like `0.0` for the subtraction and `1.0` for the division), because the code applies the
operator with the pivot to the remaining channels of the first operand, if only the numbers of channels differ.
`_partial`: a spectrogram with one channel cannot be combined with one without channels. -/
theorem C16_pointwise_partial [Zero α] (mem : Nat → Nat → Nat → α) (f : α → α → α) (pivot : Option α)
    (label : String) (s o : Spectrogram α R) (hc : Compatible s o) (hp : ∀ p ∈ pivot, ∀ x, f x p = x) :
    ∃ r, algebra mem f pivot label s o = .ok r ∧ AlgebraSpec f pivot s o label r := by
  have hsF : s.channels.d1 = s.freqs := rfl
  have hsC : s.channels.d0 = s.count := rfl
  have hsL : s.channels.d2 = s.length := rfl
  have hoF : o.channels.d1 = o.freqs := rfl
  have hoC : o.channels.d0 = o.count := rfl
  have hoL : o.channels.d2 = o.length := rfl
  unfold algebra
  by_cases hsame : s.freqs = o.freqs ∧ s.length = o.length ∧ s.offset = o.offset
  · rw [if_pos hsame]
    have ov : ∀ (a b : Cube α) (n0 : Nat), n0 = max s.count o.count →
        a.Fits (n0 - 0) (s.freqs - 0) (s.length - 0) → b.Fits (n0 - 0) (s.freqs - 0) (s.length - 0) →
        (∀ c k t, c < n0 → k < s.freqs → t < s.length → (s.count = 1 ∨ c < s.count) ∧ (o.count = 1 ∨ c < o.count) ∧
          a.get (ix a.d0 c) (ix a.d1 k) (ix a.d2 t) = s.channels.get (ix s.count c) k t ∧
          b.get (ix b.d0 c) (ix b.d1 k) (ix b.d2 t) = o.channels.get (ix o.count c) k t) →
        ∃ r, overlaps mem f label s a b n0 s.freqs s.length = .ok r ∧ AlgebraSpec f pivot s o label r := by
      intro a b n0 hn0 ha hb hv
      obtain ⟨C, hC, u⟩ := Cube.ufunc2_ok (f := f) (A := a) (B := b) (out := allocCube mem n0 s.freqs s.length)
        (r := .all) (s := .all) (t := .all) 0 n0 0 s.freqs 0 s.length ⟨rfl, rfl⟩ ⟨rfl, rfl⟩ ⟨rfl, rfl⟩ ha hb
      unfold overlaps
      simp only [bind, Except.bind, hC]
      have e0 : C.d0 = n0 := u.e0
      have e1 : C.d1 = s.freqs := u.e1
      have e2 : C.d2 = s.length := u.e2
      refine ⟨_, rfl, finish f pivot s o label C C.d0 s.offset (by omega) (by omega) (by omega) (by omega)
        (by omega) ?_⟩
      intro c k t h1 h2 h3
      obtain ⟨q1, q2, q3, q4⟩ := hv c k t (by omega) (by omega) (by omega)
      rw [value_same f pivot s o hsame c k t (by omega) hc (by omega) (by omega), if_pos q1, if_pos q2,
        u.inside c k t ⟨by omega, by omega, by omega⟩]
      simp only [Nat.sub_zero]
      rw [q3, q4]
    obtain ⟨f1, f2, f3⟩ := hsame
    obtain ⟨k1, k2⟩ := hc
    by_cases h1 : s.count = 1
    · rw [if_pos h1, ← f1, ← f2]
      refine ov (s.channels.row 0) o.channels o.count (by omega) ⟨Or.inr rfl, Or.inl rfl, Or.inl rfl⟩
        ⟨Or.inl rfl, Or.inl (by omega), Or.inl (by omega)⟩ ?_
      intro c k t g1 g2 g3
      refine ⟨Or.inl h1, Or.inr g1, ?_, ?_⟩
      · rw [ix_of_one h1, ix_lt (n := (s.channels.row 0).d1) (by exact g2), ix_lt (n := (s.channels.row 0).d2) (by exact g3)]
        rfl
      · rw [ix_lt (n := o.channels.d1) (by omega), ix_lt (n := o.channels.d2) (by omega)]
        rfl
    · rw [if_neg h1]
      by_cases h2 : o.count = 1
      · rw [if_pos h2]
        refine ov s.channels (o.channels.row 0) s.count (by omega) ⟨Or.inl rfl, Or.inl rfl, Or.inl rfl⟩
          ⟨Or.inr rfl, Or.inl (by show o.channels.d1 = _; omega), Or.inl (by show o.channels.d2 = _; omega)⟩ ?_
        intro c k t g1 g2 g3
        refine ⟨Or.inr g1, Or.inl h2, ?_, ?_⟩
        · rw [ix_lt (n := s.channels.d1) (by omega), ix_lt (n := s.channels.d2) (by omega)]
          rfl
        · rw [ix_of_one h2, ix_lt (n := (o.channels.row 0).d1) (by show k < o.channels.d1; omega),
            ix_lt (n := (o.channels.row 0).d2) (by show t < o.channels.d2; omega)]
          rfl
      · rw [if_neg h2]
        by_cases h3 : s.count = o.count
        · rw [if_pos h3]
          refine ov s.channels o.channels s.count (by omega) ⟨Or.inl rfl, Or.inl rfl, Or.inl rfl⟩
            ⟨Or.inl (by omega), Or.inl (by omega), Or.inl (by omega)⟩ ?_
          intro c k t g1 g2 g3
          refine ⟨Or.inr g1, Or.inr (by omega), ?_, ?_⟩
          · rw [ix_lt (n := s.channels.d1) (by omega), ix_lt (n := s.channels.d2) (by omega)]
            rfl
          · rw [ix_lt (n := o.channels.d1) (by omega), ix_lt (n := o.channels.d2) (by omega)]
            rfl
        · rw [if_neg h3]
          unfold differentChannels
          by_cases h4 : s.count > o.count
          · rw [if_pos h4]
            have rs := range_zero (n := s.channels.d0) (c := o.count) (by omega)
            have ds := drop_nat (n := s.channels.d0) (c := o.count) (by omega)
            have d0 : (s.channels.slice (.range 0 (o.count : Int)) .all .all).d0 = o.count := by
              show (PySlice.range _ _).hi _ - (PySlice.range _ _).lo _ = _
              rw [rs.1, rs.2]; omega
            have d0' : (s.channels.slice (.drop (o.count : Int)) .all .all).d0 = s.count - o.count := by
              show (PySlice.drop _).hi _ - (PySlice.drop _).lo _ = _
              rw [ds.1, ds.2]; omega
            obtain ⟨A, hA, u⟩ := Cube.ufunc2_ok (f := f) (A := s.channels.slice (.range 0 (o.count : Int)) .all .all)
              (B := o.channels) (out := allocCube mem s.count s.freqs s.length)
              (r := .range 0 (o.count : Int)) (s := .all) (t := .all) 0 o.count 0 s.freqs 0 s.length
              (range_zero (by show o.count ≤ s.count; omega)) ⟨rfl, rfl⟩ ⟨rfl, rfl⟩
              ⟨Or.inl (by omega), Or.inl rfl, Or.inl rfl⟩ ⟨Or.inl (by omega), Or.inl (by omega), Or.inl (by omega)⟩
            have e0 : A.d0 = s.count := u.e0
            have e1 : A.d1 = s.freqs := u.e1
            have e2 : A.d2 = s.length := u.e2
            have rest : ∃ C, fillSelf f pivot o.count (s.channels.slice (.drop o.count) .all .all) A = .ok C ∧
                Upd A C (Box o.count s.count 0 s.freqs 0 s.length) (fun i j k => s.channels.get i j k) := by
              have sget : ∀ i j k, (s.channels.slice (.drop (o.count : Int)) .all .all).get i j k
                  = s.channels.get (o.count + i) j k := by
                intro i j k
                show s.channels.get ((PySlice.drop _).lo _ + i) (0 + j) (0 + k) = _
                rw [ds.1, Nat.zero_add, Nat.zero_add]
              unfold fillSelf
              cases pivot with
              | none =>
                obtain ⟨C, hC, w⟩ := Cube.assign_ok (A := A) (S := s.channels.slice (.drop (o.count : Int)) .all .all)
                  (r := .drop (o.count : Int)) (s := .all) (t := .all) o.count s.count 0 s.freqs 0 s.length
                  (by rw [e0, ← hsC]; exact ds) ⟨rfl, e1⟩ ⟨rfl, e2⟩ ⟨Or.inl (by omega), Or.inl rfl, Or.inl rfl⟩
                refine ⟨C, hC, w.e0, w.e1, w.e2, ?_, w.outside⟩
                intro i j k hb
                obtain ⟨p1, p2, p3⟩ := hb
                rw [w.inside i j k ⟨p1, p2, p3⟩, d0', ix_lt (n := s.count - o.count) (by omega)]
                change (s.channels.slice (.drop (o.count : Int)) .all .all).get _ (ix s.freqs _) (ix s.length _) = _
                rw [ix_lt (n := s.freqs) (by omega), ix_lt (n := s.length) (by omega), sget]
                congr 1; omega
              | some p =>
                obtain ⟨C, hC, w⟩ := Cube.ufunc2_ok (f := f) (A := s.channels.slice (.drop (o.count : Int)) .all .all)
                  (B := .scalar p) (out := A)
                  (r := .drop (o.count : Int)) (s := .all) (t := .all) o.count s.count 0 s.freqs 0 s.length
                  (by rw [e0, ← hsC]; exact ds) ⟨rfl, e1⟩ ⟨rfl, e2⟩ ⟨Or.inl (by omega), Or.inl rfl, Or.inl rfl⟩
                  ⟨Or.inr rfl, Or.inr rfl, Or.inr rfl⟩
                refine ⟨C, hC, w.e0, w.e1, w.e2, ?_, w.outside⟩
                intro i j k hb
                obtain ⟨p1, p2, p3⟩ := hb
                rw [w.inside i j k ⟨p1, p2, p3⟩, d0', ix_lt (n := s.count - o.count) (by omega)]
                change f ((s.channels.slice (.drop (o.count : Int)) .all .all).get _ (ix s.freqs _) (ix s.length _)) p = _
                rw [ix_lt (n := s.freqs) (by omega), ix_lt (n := s.length) (by omega), sget, hp p rfl]
                congr 1; omega
            obtain ⟨C, hC, w⟩ := rest
            simp only [bind, Except.bind, hA, hC]
            have e0' := w.e0
            have e1' := w.e1
            have e2' := w.e2
            refine ⟨_, rfl, finish f pivot s o label C s.count s.offset (by omega) (by omega) (by omega) (by omega)
              (by omega) ?_⟩
            intro c k t g1 g2 g3
            rw [value_same f pivot s o ⟨f1, f2, f3⟩ c k t (by omega) ⟨k1, k2⟩ (by omega) (by omega),
              if_pos (by omega), ix_lt (n := s.count) (by omega)]
            by_cases h5 : c < o.count
            · rw [if_pos (Or.inr h5), w.outside c k t (by unfold Box; omega),
                u.inside c k t ⟨by omega, by omega, by omega⟩, d0, ix_lt (n := o.count) (by omega),
                ix_lt (n := o.channels.d1) (by omega), ix_lt (n := o.channels.d2) (by omega),
                ix_lt (n := o.channels.d0) (by omega), ix_lt (n := o.count) h5]
              change f (s.channels.get _ _ _) _ = _
              rw [rs.1, Nat.zero_add, PySlice.lo_all, Nat.zero_add, PySlice.lo_all, Nat.zero_add]
              change f (s.channels.get _ (ix s.freqs _) (ix s.length _)) _ = _
              rw [ix_lt (n := s.freqs) (by omega), ix_lt (n := s.length) (by omega)]
              rfl
            · rw [if_neg (by omega), w.inside c k t ⟨by omega, by omega, by omega⟩]
          · rw [if_neg h4]
            have rs := range_zero (n := o.channels.d0) (c := s.count) (by omega)
            have ds := drop_nat (n := o.channels.d0) (c := s.count) (by omega)
            have d0 : (o.channels.slice (.range 0 (s.count : Int)) .all .all).d0 = s.count := by
              show (PySlice.range _ _).hi _ - (PySlice.range _ _).lo _ = _
              rw [rs.1, rs.2]; omega
            have d0' : (o.channels.slice (.drop (s.count : Int)) .all .all).d0 = o.count - s.count := by
              show (PySlice.drop _).hi _ - (PySlice.drop _).lo _ = _
              rw [ds.1, ds.2]; omega
            obtain ⟨A, hA, u⟩ := Cube.ufunc2_ok (f := f) (A := s.channels)
              (B := o.channels.slice (.range 0 (s.count : Int)) .all .all) (out := allocCube mem o.count o.freqs o.length)
              (r := .range 0 (s.count : Int)) (s := .all) (t := .all) 0 s.count 0 o.freqs 0 o.length
              (range_zero (by show s.count ≤ o.count; omega)) ⟨rfl, rfl⟩ ⟨rfl, rfl⟩
              ⟨Or.inl (by omega), Or.inl (by omega), Or.inl (by omega)⟩ ⟨Or.inl (by omega), Or.inl rfl, Or.inl rfl⟩
            have e0 : A.d0 = o.count := u.e0
            have e1 : A.d1 = o.freqs := u.e1
            have e2 : A.d2 = o.length := u.e2
            have rest : ∃ C, fillOther f pivot s.count (o.channels.slice (.drop s.count) .all .all) A = .ok C ∧
                Upd A C (Box s.count o.count 0 o.freqs 0 o.length)
                  (fun i j k => Signal.onlyOther f pivot (o.channels.get i j k)) := by
              have sget : ∀ i j k, (o.channels.slice (.drop (s.count : Int)) .all .all).get i j k
                  = o.channels.get (s.count + i) j k := by
                intro i j k
                show o.channels.get ((PySlice.drop _).lo _ + i) (0 + j) (0 + k) = _
                rw [ds.1, Nat.zero_add, Nat.zero_add]
              unfold fillOther
              cases pivot with
              | none =>
                obtain ⟨C, hC, w⟩ := Cube.assign_ok (A := A) (S := o.channels.slice (.drop (s.count : Int)) .all .all)
                  (r := .drop (s.count : Int)) (s := .all) (t := .all) s.count o.count 0 o.freqs 0 o.length
                  (by rw [e0, ← hoC]; exact ds) ⟨rfl, e1⟩ ⟨rfl, e2⟩ ⟨Or.inl (by omega), Or.inl rfl, Or.inl rfl⟩
                refine ⟨C, hC, w.e0, w.e1, w.e2, ?_, w.outside⟩
                intro i j k hb
                obtain ⟨p1, p2, p3⟩ := hb
                rw [w.inside i j k ⟨p1, p2, p3⟩, d0', ix_lt (n := o.count - s.count) (by omega)]
                change (o.channels.slice (.drop (s.count : Int)) .all .all).get _ (ix o.freqs _) (ix o.length _) = o.channels.get i j k
                rw [ix_lt (n := o.freqs) (by omega), ix_lt (n := o.length) (by omega), sget]
                congr 1; omega
              | some p =>
                obtain ⟨C, hC, w⟩ := Cube.ufunc2_ok (f := f) (A := .scalar p)
                  (B := o.channels.slice (.drop (s.count : Int)) .all .all) (out := A)
                  (r := .drop (s.count : Int)) (s := .all) (t := .all) s.count o.count 0 o.freqs 0 o.length
                  (by rw [e0, ← hoC]; exact ds) ⟨rfl, e1⟩ ⟨rfl, e2⟩ ⟨Or.inr rfl, Or.inr rfl, Or.inr rfl⟩
                  ⟨Or.inl (by omega), Or.inl rfl, Or.inl rfl⟩
                refine ⟨C, hC, w.e0, w.e1, w.e2, ?_, w.outside⟩
                intro i j k hb
                obtain ⟨p1, p2, p3⟩ := hb
                rw [w.inside i j k ⟨p1, p2, p3⟩, d0', ix_lt (n := o.count - s.count) (by omega)]
                change f p ((o.channels.slice (.drop (s.count : Int)) .all .all).get _ (ix o.freqs _) (ix o.length _))
                  = f p (o.channels.get i j k)
                rw [ix_lt (n := o.freqs) (by omega), ix_lt (n := o.length) (by omega), sget]
                congr 2; omega
            obtain ⟨C, hC, w⟩ := rest
            simp only [bind, Except.bind, hA, hC]
            have e0' := w.e0
            have e1' := w.e1
            have e2' := w.e2
            refine ⟨_, rfl, finish f pivot s o label C o.count s.offset (by omega) (by omega) (by omega) (by omega)
              (by omega) ?_⟩
            intro c k t g1 g2 g3
            rw [value_same f pivot s o ⟨f1, f2, f3⟩ c k t (by omega) ⟨k1, k2⟩ (by omega) (by omega),
              ix_lt (n := o.count) (by omega)]
            by_cases h5 : c < s.count
            · rw [if_pos (Or.inr h5), if_pos (by omega), w.outside c k t (by unfold Box; omega),
                u.inside c k t ⟨by omega, by omega, by omega⟩, d0, ix_lt (n := s.count) (by omega),
                ix_lt (n := s.channels.d1) (by omega), ix_lt (n := s.channels.d2) (by omega),
                ix_lt (n := s.channels.d0) (by omega), ix_lt (n := s.count) h5]
              change f _ (o.channels.get _ _ _) = _
              rw [rs.1, Nat.zero_add, PySlice.lo_all, Nat.zero_add, PySlice.lo_all, Nat.zero_add]
              change f _ (o.channels.get _ (ix o.freqs _) (ix o.length _)) = _
              rw [ix_lt (n := o.freqs) (by omega), ix_lt (n := o.length) (by omega)]
              rfl
            · rw [if_neg (by omega), w.inside c k t ⟨by omega, by omega, by omega⟩]
  · rw [if_neg hsame]
    unfold differentShapes
    obtain ⟨A, hA, a1, a2⟩ := copySelf_ok mem s o
    obtain ⟨B, hB, b1, b2⟩ := copyOther_ok f pivot s o A a1
    obtain ⟨C, hC, c1, c2⟩ := computeOverlap_ok f s o B b1 hc
    simp only [bind, Except.bind, hA, hB, hC]
    refine ⟨_, rfl, finish f pivot s o label C _ _ rfl rfl c1.d0 c1.d1 (by rw [c1.d2]; omega) ?_⟩
    intro c k t h1 h2 h3
    have g0 := c1.d0.trans b1.d0.symm
    have g1 := c1.d1.trans b1.d1.symm
    have g2 := c1.d2.trans b1.d2.symm
    have g3 := c1.d0.trans a1.d0.symm
    have g4 := c1.d1.trans a1.d1.symm
    have g5 := c1.d2.trans a1.d2.symm
    rw [c2 c k t h1 h2 h3, b2 c k t (g0 ▸ h1) (g1 ▸ h2) (g2 ▸ h3), a2 c k t (g3 ▸ h1) (g4 ▸ h2) (g5 ▸ h3)]
    cases s.bcast c k (min s.offset o.offset + t) <;> cases o.bcast c k (min s.offset o.offset + t) <;> rfl

/-- spectrograms for examples -/
def demo (offset : Int) (d1 d2 : Nat) (l : List (List (List Nat))) : Spectrogram Nat Nat :=
  new (Cube.ofLists d1 d2 l) 1 1 offset none

-- the hypotheses are satisfiable, and the operands differ in channels, frequencies, lengths and offsets
example : Compatible (demo 0 1 2 [[[1, 2]], [[3, 4]]]) (demo 1 2 3 [[[10, 20, 30], [40, 50, 60]]]) ∧
    (∀ p ∈ some 0, ∀ x : Nat, x - p = x) ∧
    ∃ r, algebra (fun _ _ _ => 99) (· - ·) (some 0) "Difference" (demo 0 1 2 [[[1, 200]], [[3, 4]]])
      (demo 1 2 3 [[[10, 20, 30], [40, 50, 60]]]) = .ok r ∧ r.offset = 0 ∧ r.channels.flat =
      [1, 190, 0, 0, 0, 0, 0, 0, 3, 0, 0, 0, 0, 0, 0, 0] := by
  refine ⟨⟨?_, ?_⟩, ?_, _, rfl, rfl, rfl⟩
  · rintro ⟨h, _⟩; cases h
  · rintro ⟨h, _⟩; cases h
  · intro p hp x; cases hp; rfl

/-- C16 is violated for one channel and zero channels with different shapes: the computation fails. -/
theorem C16_zero_channels_violated : ∃ s o : Spectrogram Nat Nat, s.count = 1 ∧ o.count = 0 ∧
    ∀ mem, algebra mem (· + ·) none "Sum" s o = .error .valueError :=
  ⟨demo 0 1 2 [[[1, 2]]], demo 1 1 2 [], rfl, rfl, fun _ => rfl⟩

end Spectrogram
end Verif
