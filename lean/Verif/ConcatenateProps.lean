import Verif.Concatenate
import Verif.SignalLawsProps
import Mathlib.Algebra.BigOperators.Group.List.Basic

/-
Property C22: the concatenation is the sum of the delayed data sets.
-/

namespace Verif
namespace Concatenate

variable {α R : Type}

/-! ### Specification -/

/-- The signals with the time by which they are delayed: the end of the predecessors. -/
def delayed : Int → List (Signal α R) → List (Int × Signal α R)
  | _, [] => []
  | n, s :: rest => (n, s) :: delayed (n + s.offset + s.length) rest

/-- What the concatenation shall be at the time index `t`: the sum of all delayed signals. -/
def total [AddCommMonoid α] (l : List (Signal α R)) (c : Nat) (t : Int) : α :=
  ((delayed 0 l).map fun x => x.2.value c (t - x.1)).sum

/-! ### Writing and adding -/

theorem addTo_ok [Add α] {A S : Mat α} {r c : PySlice} (b a' b' : Nat)
    (hr0 : r.lo A.rows = 0) (hr1 : r.hi A.rows = b) (hc0 : c.lo A.cols = a') (hc1 : c.hi A.cols = b')
    (hr : S.rows = b) (hc : S.cols = b' - a') :
    ∃ C, A.addTo r c S = .ok C ∧ C.rows = A.rows ∧ C.cols = A.cols ∧
      (∀ i j, i < b → a' ≤ j → j < b' → C.get i j = A.get i j + S.get i (j - a')) ∧
      (∀ i j, ¬ (i < b ∧ a' ≤ j ∧ j < b') → C.get i j = A.get i j) := by
  obtain ⟨B1, h1, _, _, h1'⟩ := Mat.broadcastTo_self (A := A.slice r c) (r := b - 0) (c := b' - a')
    (by rw [Mat.slice_rows, PySlice.count, hr0, hr1]) (by rw [Mat.slice_cols, PySlice.count, hc0, hc1])
  obtain ⟨B2, h2, _, _, h2'⟩ := Mat.broadcastTo_self (A := S) (r := b - 0) (c := b' - a') (by omega) hc
  obtain ⟨C, e1, e2, e3, e4, e5⟩ := Mat.ufunc2_of_broadcast (f := (· + ·)) (out := A) (r := r) (c := c) 0 b a' b'
    hr0 hr1 hc0 hc1 h1 h2
  refine ⟨C, e1, e2, e3, ?_, ?_⟩
  · intro i j g1 g2 g3
    rw [e4 i j (by omega) g1 g2 g3, h1' _ _ (by omega) (by omega), h2' _ _ (by omega) (by omega),
      Mat.slice_get, hr0, hc0]
    congr 2
    · omega
    · omega
  · intro i j g
    exact e5 i j (by omega)

theorem writeSignal_ok [Zero α] {M data : Mat α} {number : Nat} (a b : Nat) (start stop : Int)
    (ha : start = a) (hb : stop = b) (hab : a ≤ b) (hM : M.rows = number) (hbM : b ≤ M.cols)
    (hr : data.rows ≤ number) (hc : data.cols = b - a) :
    ∃ C, writeSignal number M start stop data = .ok C ∧ C.rows = M.rows ∧ C.cols = M.cols ∧
      (∀ i j, i < number → a ≤ j → j < b →
        C.get i j = if i < data.rows then data.get i (j - a) else 0) ∧
      (∀ i j, ¬ (a ≤ j ∧ j < b) → C.get i j = M.get i j) := by
  subst ha hb
  obtain ⟨C, h1, h2, h3, h4, h5⟩ := Mat.assign_ok (A := M) (S := data) (r := .range 0 data.rows)
    (c := .range a b) 0 data.rows a b (by simp) (by simp; omega) (by simp; omega) (by simp; omega)
    (by omega) hc
  unfold writeSignal
  rw [h1]
  show ∃ C', (if data.rows < number then _ else _) = _ ∧ _
  by_cases h : data.rows < number
  · rw [if_pos h]
    obtain ⟨C', g1, g2, g3, g4, g5⟩ := Mat.assign_scalar (A := C) (r := .drop data.rows) (c := .range a b) (0 : α)
      data.rows number a b (by simp; omega) (by simp; omega) (by simp; omega) (by simp; omega)
    refine ⟨C', g1, g2.trans h2, g3.trans h3, ?_, ?_⟩
    · intro i j k1 k2 k3
      by_cases hi : i < data.rows
      · rw [if_pos hi, g5 i j (by omega), h4 i j (by omega) hi k2 k3]; rfl
      · rw [if_neg hi, g4 i j (by omega) k1 k2 k3]
    · intro i j k
      rw [g5 i j (by omega), h5 i j (by omega)]
  · rw [if_neg h]
    refine ⟨C, rfl, h2, h3, ?_, ?_⟩
    · intro i j k1 k2 k3
      rw [if_pos (by omega), h4 i j (by omega) (by omega) k2 k3]; rfl
    · intro i j k
      exact h5 i j (by omega)

/-! ### The loop -/

/-- the contribution of one entry at the absolute time index `t` -/
def contrib [Zero α] (e : Entry (Mat α)) (c : Nat) (t : Int) : α :=
  if c < e.data.rows ∧ e.start ≤ t ∧ t < e.stop then e.data.get c (t - e.start).toNat else 0

theorem copySignal_ok [AddCommMonoid α] {M : Mat α} {number : Nat} {offset lastIndex : Int}
    {previous e : Entry (Mat α)} (last : Nat)
    (hlast : max lastIndex (previous.stop - offset) = last) (hM : M.rows = number)
    (he : e.stop = e.start + e.data.cols) (hs : offset ≤ e.start) (hr : e.data.rows ≤ number)
    (hc : e.stop - offset ≤ M.cols) (hlM : last ≤ M.cols) :
    ∃ C, copySignal offset number M lastIndex previous e = .ok (C, (last : Int)) ∧
      C.rows = M.rows ∧ C.cols = M.cols ∧
      (∀ c (t : Nat), c < number → t < last → C.get c t = M.get c t + contrib e c (offset + t)) ∧
      (∀ c (t : Nat), c < number → last ≤ t → (t : Int) < e.stop - offset → C.get c t = contrib e c (offset + t)) := by
  unfold copySignal
  simp only [hlast]
  obtain ⟨a, ha⟩ : ∃ a : Nat, e.start - offset = a := ⟨(e.start - offset).toNat, by omega⟩
  obtain ⟨b, hb⟩ : ∃ b : Nat, e.stop - offset = b := ⟨(e.stop - offset).toNat, by omega⟩
  have hab : b = a + e.data.cols := by omega
  rw [ha, hb]
  by_cases h1 : (a : Int) < last
  · rw [if_pos h1]
    by_cases h2 : (last : Int) ≥ b
    · rw [if_pos h2]
      obtain ⟨C, g1, g2, g3, g4, g5⟩ := addTo_ok (A := M) (S := e.data) (r := .range 0 e.data.rows)
        (c := .range a (a + e.data.cols)) e.data.rows a b (by simp) (by simp; omega) (by simp; omega)
        (by rw [show (a : Int) + e.data.cols = b by omega]; simp; omega) rfl (by omega)
      rw [g1]
      refine ⟨C, rfl, g2, g3, ?_, ?_⟩
      · intro c t k1 k2
        unfold contrib
        by_cases h : c < e.data.rows ∧ e.start ≤ offset + t ∧ offset + t < e.stop
        · rw [if_pos h, g4 c t h.1 (by omega) (by omega)]
          congr 2; omega
        · rw [if_neg h, g5 c t (by omega), add_zero]
      · intro c t k1 k2 k3
        omega
    · rw [if_neg h2]
      obtain ⟨C, g1, g2, g3, g4, g5⟩ := addTo_ok (A := M) (S := e.data.slice .all (.range 0 (last - a)))
        (r := .range 0 e.data.rows)
        (c := .range a last) e.data.rows a last (by simp) (by simp; omega) (by simp; omega)
        (by simp; omega) rfl
        (by rw [Mat.slice_cols, show ((last : Int) - a) = ((last - a : Nat) : Int) by omega]; simp; omega)
      rw [g1]
      obtain ⟨D, k1, k2, k3, k4, k5⟩ := writeSignal_ok (M := C) (data := e.data.slice .all (.drop (last - a)))
        (number := number) last b last b rfl rfl (by omega) (by omega) (by omega) (by simpa using hr)
        (by rw [Mat.slice_cols, show ((last : Int) - a) = ((last - a : Nat) : Int) by omega]; simp; omega)
      show ∃ C', (writeSignal number C last b (e.data.slice .all (.drop (last - a))) >>= _) = _ ∧ _
      rw [k1]
      refine ⟨D, rfl, k2.trans g2, k3.trans g3, ?_, ?_⟩
      · intro c t l1 l2
        rw [k5 c t (by omega)]
        unfold contrib
        by_cases h : c < e.data.rows ∧ e.start ≤ offset + t ∧ offset + t < e.stop
        · rw [if_pos h, g4 c t h.1 (by omega) (by omega), Mat.slice_all_get]
          congr 2; simp; omega
        · rw [if_neg h, g5 c t (by omega), add_zero]
      · intro c t l1 l2 l3
        rw [k4 c t l1 l2 (by omega), Mat.slice_all_get, Mat.slice_rows, PySlice.count_all]
        unfold contrib
        by_cases h : c < e.data.rows
        · rw [if_pos h, if_pos ⟨h, by omega, by omega⟩]
          congr 1
          rw [show ((last : Int) - a) = ((last - a : Nat) : Int) by omega]
          simp; omega
        · rw [if_neg h, if_neg (by omega)]
  · rw [if_neg h1]
    have main : ∀ N : Mat α, N.rows = M.rows → N.cols = M.cols →
        (∀ c (t : Nat), t < last → N.get c t = M.get c t) →
        (∀ c (t : Nat), c < number → last ≤ t → t < a → N.get c t = 0) →
        ∃ C, writeSignal number N a b e.data = .ok C ∧ C.rows = M.rows ∧ C.cols = M.cols ∧
          (∀ c (t : Nat), c < number → t < last → C.get c t = M.get c t + contrib e c (offset + t)) ∧
          (∀ c (t : Nat), c < number → last ≤ t → (t : Int) < b → C.get c t = contrib e c (offset + t)) := by
      intro N n1 n2 n3 n4
      obtain ⟨D, k1, k2, k3, k4, k5⟩ := writeSignal_ok (M := N) (data := e.data)
        (number := number) a b a b rfl rfl (by omega) (by omega) (by omega) hr (by omega)
      refine ⟨D, k1, k2.trans n1, k3.trans n2, ?_, ?_⟩
      · intro c t l1 l2
        rw [k5 c t (by omega), n3 c t l2]
        unfold contrib
        rw [if_neg (by omega), add_zero]
      · intro c t l1 l2 l3
        unfold contrib
        by_cases h : a ≤ t
        · rw [k4 c t l1 h (by omega)]
          by_cases h' : c < e.data.rows
          · rw [if_pos h', if_pos ⟨h', by omega, by omega⟩]
            congr 1; omega
          · rw [if_neg h', if_neg (by omega)]
        · rw [k5 c t (by omega), n4 c t l1 l2 (by omega), if_neg (by omega)]
    by_cases h2 : (a : Int) > last
    · rw [if_pos h2]
      obtain ⟨N, g1, g2, g3, g4, g5⟩ := Mat.assign_cols_scalar (A := M) (c := .range last a) (0 : α) last a
        (by simp; omega) (by simp; omega)
      rw [g1]
      obtain ⟨C, k1, k2⟩ := main N g2 g3 (fun c t h => g5 c t (by omega))
        (fun c t h h' h'' => g4 c t (by omega) h' h'')
      show ∃ C', (writeSignal number N a b e.data >>= _) = _ ∧ _
      rw [k1]
      exact ⟨C, rfl, k2⟩
    · rw [if_neg h2]
      obtain ⟨C, k1, k2⟩ := main M rfl rfl (fun c t h => rfl) (fun c t h h' h'' => by omega)
      rw [k1]
      exact ⟨C, rfl, k2⟩

/-- The claim about the loop: the first samples of the channels array contain the sum of the entries `done`. -/
theorem copySignals_ok [AddCommMonoid α] {number : Nat} {offset : Int} (L : Nat) :
    ∀ (rest done : List (Entry (Mat α))) (previous : Entry (Mat α)) (M : Mat α) (lastIndex : Int) (last : Nat),
    max lastIndex (previous.stop - offset) = last → M.rows = number → M.cols = L →
    (∀ e ∈ done, e.stop - offset ≤ last) → last ≤ L →
    (∀ c (t : Nat), c < number → t < last → M.get c t = (done.map fun e => contrib e c (offset + t)).sum) →
    (∀ e ∈ rest, e.stop = e.start + e.data.cols ∧ offset ≤ e.start ∧ e.data.rows ≤ number ∧ e.stop - offset ≤ L) →
    ∃ C, copySignals offset number M lastIndex previous rest = .ok C ∧ C.rows = number ∧ C.cols = L ∧
      ∀ c (t : Nat), c < number → (t < last ∨ ∃ e ∈ rest, (t : Int) < e.stop - offset) →
        C.get c t = ((done ++ rest).map fun e => contrib e c (offset + t)).sum := by
  intro rest
  induction rest with
  | nil =>
    intro done previous M lastIndex last h1 h2 h3 h4 h5 h6 _
    refine ⟨M, rfl, h2, h3, ?_⟩
    rintro c t hc (ht | ⟨e, he, _⟩)
    · rw [List.append_nil]; exact h6 c t hc ht
    · cases he
  | cons e rest ih =>
    intro done previous M lastIndex last h1 h2 h3 h4 h5 h6 h7
    obtain ⟨e1, e2, e3, e4⟩ := h7 e (by simp)
    obtain ⟨C, g1, g2, g3, g4, g5⟩ := copySignal_ok (M := M) (number := number) (offset := offset)
      (lastIndex := lastIndex) (previous := previous) (e := e) last h1 h2 e1 e2 e3 (by omega) (by omega)
    obtain ⟨D, k1, k2, k3, k4⟩ := ih (done ++ [e]) e C last (max last (e.stop - offset).toNat) (by omega)
      (g2.trans h2) (g3.trans h3)
      (by
        intro e' he'
        rcases List.mem_append.1 he' with h | h
        · have := h4 e' h; omega
        · rw [List.mem_singleton.1 h]; omega)
      (by omega)
      (by
        intro c t hc ht
        rw [List.map_append, List.sum_append]
        simp only [List.map_cons, List.map_nil, List.sum_cons, List.sum_nil, add_zero]
        by_cases hl : t < last
        · rw [g4 c t hc hl, h6 c t hc hl]
        · rw [g5 c t hc (by omega) (by omega)]
          rw [List.sum_eq_zero, zero_add]
          intro x hx
          obtain ⟨e', he', rfl⟩ := List.mem_map.1 hx
          have := h4 e' he'
          unfold contrib
          rw [if_neg (by omega)])
      (fun e' he' => h7 e' (List.mem_cons_of_mem _ he'))
    refine ⟨D, ?_, k2, k3, ?_⟩
    · show (copySignal offset number M lastIndex previous e >>= _) = _
      rw [g1]
      exact k1
    · intro c t hc ht
      rw [k4 c t hc, List.append_assoc]
      · rfl
      · rcases ht with h | ⟨e', he', h⟩
        · left; omega
        · rcases List.mem_cons.1 he' with rfl | h'
          · left; omega
          · right; exact ⟨e', h', h⟩

/-! ### Extremes of the entries -/

theorem minStart_le {A : Type} (h : Entry A) (t : List (Entry A)) :
    ∀ e ∈ h :: t, minStart h t ≤ e.start := by
  have key : ∀ (t : List (Entry A)) (m : Int), t.foldl (fun m e => min m e.start) m ≤ m ∧
      ∀ e ∈ t, t.foldl (fun m e => min m e.start) m ≤ e.start := by
    intro t
    induction t with
    | nil => intro m; exact ⟨le_refl _, by simp⟩
    | cons a t ih =>
      intro m
      obtain ⟨i1, i2⟩ := ih (min m a.start)
      refine ⟨by simp only [List.foldl_cons]; omega, ?_⟩
      intro e he
      rcases List.mem_cons.1 he with rfl | he
      · simp only [List.foldl_cons]; omega
      · exact i2 e he
  intro e he
  rcases List.mem_cons.1 he with rfl | he
  · exact (key t _).1
  · exact (key t _).2 e he

theorem minStart_mem {A : Type} (h : Entry A) (t : List (Entry A)) : ∃ e ∈ h :: t, minStart h t = e.start := by
  have key : ∀ (t : List (Entry A)) (m : Int), t.foldl (fun m e => min m e.start) m = m ∨
      ∃ e ∈ t, t.foldl (fun m e => min m e.start) m = e.start := by
    intro t
    induction t with
    | nil => intro m; exact Or.inl rfl
    | cons a t ih =>
      intro m
      rw [List.foldl_cons]
      rcases ih (min m a.start) with i | ⟨e, he, i⟩
      · rw [i]
        by_cases hm : m ≤ a.start
        · left; omega
        · right; exact ⟨a, by simp, by omega⟩
      · right; exact ⟨e, List.mem_cons_of_mem _ he, i⟩
  rcases key t h.start with i | ⟨e, he, i⟩
  · exact ⟨h, by simp, i⟩
  · exact ⟨e, List.mem_cons_of_mem _ he, i⟩

theorem le_maxStop {A : Type} (h : Entry A) (t : List (Entry A)) :
    ∀ e ∈ h :: t, e.stop ≤ maxStop h t := by
  have key : ∀ (t : List (Entry A)) (m : Int), m ≤ t.foldl (fun m e => max m e.stop) m ∧
      ∀ e ∈ t, e.stop ≤ t.foldl (fun m e => max m e.stop) m := by
    intro t
    induction t with
    | nil => intro m; exact ⟨le_refl _, by simp⟩
    | cons a t ih =>
      intro m
      obtain ⟨i1, i2⟩ := ih (max m a.stop)
      refine ⟨by simp only [List.foldl_cons]; omega, ?_⟩
      intro e he
      rcases List.mem_cons.1 he with rfl | he
      · simp only [List.foldl_cons]; omega
      · exact i2 e he
  intro e he
  rcases List.mem_cons.1 he with rfl | he
  · exact (key t _).1
  · exact (key t _).2 e he

theorem maxStop_mem {A : Type} (h : Entry A) (t : List (Entry A)) : ∃ e ∈ h :: t, maxStop h t = e.stop := by
  have key : ∀ (t : List (Entry A)) (m : Int), t.foldl (fun m e => max m e.stop) m = m ∨
      ∃ e ∈ t, t.foldl (fun m e => max m e.stop) m = e.stop := by
    intro t
    induction t with
    | nil => intro m; exact Or.inl rfl
    | cons a t ih =>
      intro m
      rw [List.foldl_cons]
      rcases ih (max m a.stop) with i | ⟨e, he, i⟩
      · rw [i]
        by_cases hm : a.stop ≤ m
        · left; omega
        · right; exact ⟨a, by simp, by omega⟩
      · right; exact ⟨e, List.mem_cons_of_mem _ he, i⟩
  rcases key t h.stop with i | ⟨e, he, i⟩
  · exact ⟨h, by simp, i⟩
  · exact ⟨e, List.mem_cons_of_mem _ he, i⟩

theorem sorted_head {A : Type} {l t : List (Entry A)} {h : Entry A} (hl : sortEntries l = h :: t) :
    minStart h t = h.start := by
  have htot : Std.Total (Entry.le (A := A)) := ⟨fun a b => by unfold Entry.le; omega⟩
  have htr : IsTrans (Entry A) Entry.le := ⟨fun a b c h1 h2 => by unfold Entry.le at *; omega⟩
  have hs : (h :: t).Pairwise Entry.le := by
    rw [← hl]
    exact List.pairwise_insertionSort Entry.le l
  obtain ⟨e, he, hm⟩ := minStart_mem h t
  have h1 := minStart_le h t h (by simp)
  rcases List.mem_cons.1 he with rfl | he
  · exact hm
  · have h2 := List.rel_of_pairwise_cons hs he
    unfold Entry.le at h2
    omega

theorem foldl_max_le {β : Type} (f : β → Nat) : ∀ (l : List β) (m : Nat),
    m ≤ l.foldl (fun m s => max m (f s)) m ∧ ∀ s ∈ l, f s ≤ l.foldl (fun m s => max m (f s)) m := by
  intro l
  induction l with
  | nil => intro m; exact ⟨le_refl _, by simp⟩
  | cons a t ih =>
    intro m
    obtain ⟨i1, i2⟩ := ih (max m (f a))
    refine ⟨by simp only [List.foldl_cons]; omega, ?_⟩
    intro e he
    rcases List.mem_cons.1 he with rfl | he
    · simp only [List.foldl_cons]; omega
    · exact i2 e he

theorem foldl_max_mem {β : Type} (f : β → Nat) : ∀ (l : List β) (m : Nat),
    l.foldl (fun m s => max m (f s)) m = m ∨ ∃ s ∈ l, l.foldl (fun m s => max m (f s)) m = f s := by
  intro l
  induction l with
  | nil => intro m; exact Or.inl rfl
  | cons a t ih =>
    intro m
    rw [List.foldl_cons]
    rcases ih (max m (f a)) with i | ⟨e, he, i⟩
    · rw [i]
      by_cases hm : f a ≤ m
      · left; omega
      · right; exact ⟨a, by simp, by omega⟩
    · right; exact ⟨e, List.mem_cons_of_mem _ he, i⟩

/-! ### The result -/

/-- The entries are the delayed signals. -/
theorem signalEntries_eq (n : Int) (l : List (Signal α R)) :
    signalEntries n l = (delayed n l).map fun x =>
      ⟨x.1 + x.2.offset, x.1 + x.2.offset + x.2.length, x.2.channels⟩ := by
  induction l generalizing n with
  | nil => rfl
  | cons s l ih =>
    simp only [signalEntries, delayed, List.map_cons]
    rw [ih]

theorem contrib_delayed [Zero α] (n : Int) (s : Signal α R) (c : Nat) (t : Int) :
    contrib ⟨n + s.offset, n + s.offset + s.length, s.channels⟩ c t = s.value c (t - n) := by
  unfold contrib Signal.value
  cases hx : s.at_ c (t - n) with
  | none =>
    rw [if_neg, Option.getD_none]
    rintro ⟨h1, h2, h3⟩
    dsimp only at h1 h2 h3
    have := (Signal.at_eq_some (s := s) (c := c) (t := t - n)).2 ⟨h1, by omega, by omega, rfl⟩
    rw [hx] at this
    cases this
  | some x =>
    obtain ⟨h1, h2, h3, h4⟩ := Signal.at_eq_some.1 hx
    rw [if_pos ⟨h1, by simp only; omega, by simp only; omega⟩, Option.getD_some, ← h4]
    congr 2
    simp only
    omega

theorem mem_delayed {n : Int} {l : List (Signal α R)} {x : Int × Signal α R} (h : x ∈ delayed n l) : x.2 ∈ l := by
  induction l generalizing n with
  | nil => cases h
  | cons s l ih =>
    rcases List.mem_cons.1 h with rfl | h
    · simp
    · exact List.mem_cons_of_mem _ (ih h)

theorem labels_get {number i : Nat} (hi : i < number) :
    (sanitizeLabels (some (labels number)) number)[i]? = some ("Concatenation " ++ toString (i + 1)) := by
  rw [Signal.sanitize_self (by simp [labels])]
  simp [labels, hi]
  rfl

theorem labels_new {D : Mat α} {rate : R} {offset : Int} {number i : Nat}
    (hi : i < (Signal.new D rate offset (some (labels number))).count) (hD : D.rows = number) :
    (Signal.new D rate offset (some (labels number))).labels[i]? =
      some ("Concatenation " ++ toString (i + 1)) := by
  rw [Signal.new_count, hD] at hi
  show (sanitizeLabels (some (labels number)) D.rows)[i]? = _
  rw [hD]
  exact labels_get hi

/-- What C22 demands of the result `r` of a concatenation of the signals `l`. -/
structure SumSpec [AddCommMonoid α] (l : List (Signal α R)) (r : Signal α R) : Prop where
  /-- the result contains the sum of the delayed signals -/
  value : ∀ c t, r.value c t = total l c t
  /-- no delayed signal reaches out of the result, not even by zeros -/
  covers : ∀ x ∈ delayed 0 l, r.offset ≤ x.1 + x.2.offset ∧ x.1 + x.2.offset + x.2.length ≤ r.offset + r.length
  /-- the result is not longer than necessary -/
  start : ∃ x ∈ delayed 0 l, r.offset = x.1 + x.2.offset
  stop : ∃ x ∈ delayed 0 l, r.offset + r.length = x.1 + x.2.offset + x.2.length
  /-- the number of channels is the maximum -/
  count_ge : ∀ s ∈ l, s.count ≤ r.count
  count : ∃ s ∈ l, r.count = s.count
  /-- the sampling rate is that of the first signal -/
  rate : ∃ s, l.head? = some s ∧ r.rate = s.rate
  /-- the labels are numbered, unless there is only one signal -/
  labels : 2 ≤ l.length → ∀ i, i < r.count → r.labels[i]? = some ("Concatenation " ++ toString (i + 1))

/-- C22: the concatenation of signals is the sum of the delayed signals; the samples do not depend on the
contents of the allocated memory. -/
theorem C22_signals [AddCommMonoid α] (mem : Nat → Nat → α) (l : List (Signal α R)) (hl : l ≠ []) :
    ∃ r, signals mem l = .ok r ∧ SumSpec l r := by
  match l, hl with
  | [s], _ =>
    refine ⟨s, rfl, ?_, ?_, ?_, ?_, ?_, ?_, ?_, ?_⟩
    · intro c t
      simp [total, delayed]
    · intro x hx
      rw [delayed, delayed, List.mem_singleton] at hx
      subst hx
      simp
    · exact ⟨(0, s), by simp [delayed], by simp⟩
    · exact ⟨(0, s), by simp [delayed], by simp⟩
    · simp
    · exact ⟨s, by simp, rfl⟩
    · exact ⟨s, rfl, rfl⟩
    · intro h; simp at h
  | first :: second :: rest, _ =>
    generalize hdata : first :: second :: rest = data
    have hfirst : data.head? = some first := by rw [← hdata]; rfl
    obtain ⟨hn1, hn2⟩ := foldl_max_le (fun s : Signal α R => s.count) data 0
    have hn3 := foldl_max_mem (fun s : Signal α R => s.count) data 0
    rw [show signals mem data = signalsMany mem first data by rw [← hdata]; rfl]
    unfold signalsMany
    dsimp only
    generalize hnum : data.foldl (fun m s => max m s.count) 0 = number at *
    have hperm : (sortEntries (signalEntries 0 data)).Perm (signalEntries 0 data) := List.perm_insertionSort _ _
    cases hsort : sortEntries (signalEntries 0 data) with
    | nil =>
      rw [hsort] at hperm
      have := hperm.length_eq
      rw [signalEntries_eq, ← hdata] at this
      simp [delayed] at this
    | cons h t =>
      rw [hsort] at hperm
      dsimp only
      have hmem : ∀ e ∈ h :: t, ∃ x ∈ delayed 0 data,
          e = ⟨x.1 + x.2.offset, x.1 + x.2.offset + x.2.length, x.2.channels⟩ := by
        intro e he
        have := hperm.mem_iff.1 he
        rw [signalEntries_eq, List.mem_map] at this
        obtain ⟨x, hx, rfl⟩ := this
        exact ⟨x, hx, rfl⟩
      have hmem' : ∀ x ∈ delayed 0 data,
          (⟨x.1 + x.2.offset, x.1 + x.2.offset + x.2.length, x.2.channels⟩ : Entry (Mat α)) ∈ h :: t := by
        intro x hx
        apply hperm.mem_iff.2
        rw [signalEntries_eq, List.mem_map]
        exact ⟨x, hx, rfl⟩
      have hfacts : ∀ e ∈ h :: t, e.stop = e.start + e.data.cols ∧ e.data.rows ≤ number := by
        intro e he
        obtain ⟨x, hx, rfl⟩ := hmem e he
        exact ⟨rfl, hn2 _ (mem_delayed hx)⟩
      have hmin := minStart_le h t
      have hmax := le_maxStop h t
      have hhead := sorted_head hsort
      have hminmem := minStart_mem h t
      have hmaxmem := maxStop_mem h t
      generalize minStart h t = offset at *
      generalize hstop : maxStop h t = stop at *
      obtain ⟨f1, f2⟩ := hfacts h (by simp)
      have m1 := hmax h (by simp)
      obtain ⟨C, c1, c2, c3, c4, c5⟩ := writeSignal_ok (M := alloc mem number (stop - offset).toNat)
        (data := h.data) (number := number) 0 (h.stop - offset).toNat (h.start - offset) (h.stop - offset)
        (by omega) (by omega) (by omega) rfl (by simp only [alloc]; omega) f2 (by omega)
      obtain ⟨D, d1, d2, d3, d4⟩ := copySignals_ok (number := number) (offset := offset) (stop - offset).toNat
        t [h] h C 0 (h.stop - offset).toNat (by omega) c2 c3
        (by intro e he; rw [List.mem_singleton.1 he]; omega) (by omega)
        (by
          intro c t hc ht
          rw [c4 c t hc (by omega) ht]
          simp only [List.map_cons, List.map_nil, List.sum_cons, List.sum_nil, add_zero, contrib]
          by_cases hr : c < h.data.rows
          · rw [if_pos hr, if_pos ⟨hr, by omega, by omega⟩]
            congr 1; omega
          · rw [if_neg hr, if_neg (fun h => hr h.1)])
        (by
          intro e he
          obtain ⟨g1, g2⟩ := hfacts e (List.mem_cons_of_mem _ he)
          have g3 := hmin e (List.mem_cons_of_mem _ he)
          have g4 := hmax e (List.mem_cons_of_mem _ he)
          exact ⟨g1, g3, g2, by omega⟩)
      rw [c1]
      show ∃ r, (copySignals offset number C 0 h t >>= _) = _ ∧ _
      rw [d1]
      refine ⟨_, rfl, ?_, ?_, ?_, ?_, ?_, ?_, ?_, ?_⟩
      · intro c τ
        have htotal : total data c τ = ((h :: t).map fun e => contrib e c τ).sum := by
          rw [(hperm.map _).sum_eq, signalEntries_eq, List.map_map]
          unfold total
          congr 2
          funext x
          exact (contrib_delayed x.1 x.2 c τ).symm
        rw [htotal]
        unfold Signal.value
        cases hx : (Signal.new D first.rate offset (some (labels number))).at_ c τ with
        | some x =>
          obtain ⟨h1, h2, h3, h4⟩ := Signal.at_eq_some.1 hx
          rw [Signal.new_count] at h1
          rw [Signal.new_offset] at h2 h3 h4
          rw [Signal.new_length] at h3
          rw [Option.getD_some, ← h4]
          obtain ⟨e, he, hee⟩ := hmaxmem
          rw [Signal.new_channels, d4 c _ (by omega)]
          · rw [show offset + ((τ - offset).toNat : Int) = τ by omega]
            rfl
          · rcases List.mem_cons.1 he with rfl | he
            · left; omega
            · right; exact ⟨e, he, by omega⟩
        | none =>
          rw [Option.getD_none, List.sum_eq_zero]
          intro x hx'
          obtain ⟨e, he, rfl⟩ := List.mem_map.1 hx'
          unfold contrib
          rw [if_neg]
          rintro ⟨k1, k2, k3⟩
          obtain ⟨g1, g2⟩ := hfacts e he
          have g3 := hmin e he
          have g4 := hmax e he
          have := (Signal.at_eq_some (s := Signal.new D first.rate offset (some (labels number)))
            (c := c) (t := τ)).2 ⟨by rw [Signal.new_count]; omega, by rw [Signal.new_offset]; omega,
              by rw [Signal.new_offset, Signal.new_length]; omega, rfl⟩
          rw [hx] at this
          cases this
      · intro x hx
        have h1 := hmin _ (hmem' x hx)
        have h2 := hmax _ (hmem' x hx)
        simp only [Signal.new_offset, Signal.new_length] at *
        omega
      · obtain ⟨e, he, hee⟩ := hminmem
        obtain ⟨x, hx, rfl⟩ := hmem e he
        exact ⟨x, hx, hee⟩
      · obtain ⟨e, he, hee⟩ := hmaxmem
        obtain ⟨x, hx, rfl⟩ := hmem e he
        refine ⟨x, hx, ?_⟩
        simp only [Signal.new_offset, Signal.new_length] at *
        omega
      · intro s hs
        rw [Signal.new_count, d2]
        exact hn2 s hs
      · rw [Signal.new_count, d2]
        rcases hn3 with hz | hz
        · exact ⟨first, by rw [← hdata]; simp, by
            have := hn2 first (by rw [← hdata]; simp)
            omega⟩
        · exact hz
      · exact ⟨first, hfirst, rfl⟩
      · intro _ i hi
        exact labels_new hi d2

/-- the hypothesis of `C22_signals` and an application: an overlap, a gap, and a signal that is moved before the
first one -/
example :
    (signals (fun _ _ => (99 : Int))
      [(⟨Mat.ofRows 3 [[1, 2, 3]], (44100 : Nat), 0, ["a"]⟩ : Signal Int Nat),
       ⟨Mat.ofRows 2 [[10, 20], [30, 40]], 48000, -1, ["b", "c"]⟩,
       ⟨Mat.ofRows 1 [[100]], 48000, 2, ["d"]⟩,
       ⟨Mat.ofRows 2 [[1000, 2000]], 48000, -9, ["e"]⟩]).map
      (fun r => (r.channels.flat, r.offset, r.rate, r.labels)) =
    .ok ([1000, 2000, 1, 2, 13, 20, 0, 0, 100, 0, 0, 0, 0, 30, 40, 0, 0, 0], -2, 44100,
      ["Concatenation 1", "Concatenation 2"]) := by
  decide +kernel

/-- C22: without data sets, there is nothing to concatenate. -/
theorem C22_empty [AddCommMonoid α] (mem : Nat → Nat → α) :
    signals mem ([] : List (Signal α R)) = .error .runtimeError := rfl

end Concatenate
end Verif
