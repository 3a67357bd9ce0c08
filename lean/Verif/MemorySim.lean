import Mathlib.Tactic.Ring
import Mathlib.Tactic.Linarith
import Verif.Memory
import Verif.NumpyLemmas

/-
Lemmas about arrays in memory: reading and writing views, and a relation between computations with arrays in memory and
computations with values.
-/

namespace Verif

namespace Mat

variable {α β γ : Type}

theorem Eqv.slice {A B : Mat α} (h : A.Eqv B) (r c : PySlice) : (A.slice r c).Eqv (B.slice r c) := by
  obtain ⟨h1, h2, h3⟩ := h
  refine ⟨by simp [Mat.slice, h1], by simp [Mat.slice, h2], fun i j hi hj => ?_⟩
  simp only [Mat.slice, PySlice.count] at hi hj ⊢
  rw [← h1, ← h2]
  have := r.hi_le A.rows
  have := c.hi_le A.cols
  exact h3 _ _ (by omega) (by omega)

theorem Eqv.row {A B : Mat α} (h : A.Eqv B) {k : Nat} (hk : k < A.rows) : (A.row k).Eqv (B.row k) :=
  ⟨rfl, h.2.1, fun _ j _ hj => h.2.2 k j hk hj⟩

theorem Eqv.map {A B : Mat α} (h : A.Eqv B) (f : α → β) : (A.map f).Eqv (B.map f) :=
  ⟨h.1, h.2.1, fun i j hi hj => congrArg f (h.2.2 i j hi hj)⟩

/-- two results are the same exception or indistinguishable arrays -/
def PyEqv : Py (Mat α) → Py (Mat α) → Prop
  | .ok A, .ok B => A.Eqv B
  | .error e, .error e' => e = e'
  | _, _ => False

theorem Eqv.broadcastTo {A B : Mat α} (h : A.Eqv B) (r c : Nat) : PyEqv (A.broadcastTo r c) (B.broadcastTo r c) := by
  obtain ⟨h1, h2, h3⟩ := h
  unfold Mat.broadcastTo
  rw [← h1, ← h2]
  split
  · rename_i hc
    refine ⟨rfl, rfl, fun i j hi hj => ?_⟩
    refine h3 _ _ ?_ ?_
    · dsimp only at hi ⊢; split
      · omega
      · rcases hc.1 with h | h <;> omega
    · dsimp only at hj ⊢; split
      · omega
      · rcases hc.2 with h | h <;> omega
  · rfl

theorem Eqv.assign {A B S T : Mat α} (h : A.Eqv B) (hS : S.Eqv T) (r c : PySlice) :
    PyEqv (A.assign r c S) (B.assign r c T) := by
  obtain ⟨h1, h2, h3⟩ := h
  have hb := hS.broadcastTo (r.count A.rows) (c.count A.cols)
  unfold Mat.assign
  rw [← h1, ← h2]
  revert hb
  rcases e1 : S.broadcastTo (r.count A.rows) (c.count A.cols) with e | S' <;>
  rcases e2 : T.broadcastTo (r.count A.rows) (c.count A.cols) with e' | T' <;> intro hb
  · exact hb
  · exact hb
  · exact hb
  · obtain ⟨g1, g2, g3⟩ := hb
    have k1 : S'.rows = r.count A.rows ∧ S'.cols = c.count A.cols := by
      unfold Mat.broadcastTo at e1
      split at e1
      · simp only [Except.ok.injEq] at e1; subst e1; exact ⟨rfl, rfl⟩
      · simp at e1
    refine ⟨rfl, rfl, fun i j hi hj => ?_⟩
    dsimp only at hi hj ⊢
    split
    · rename_i hc
      refine g3 _ _ ?_ ?_
      · rw [k1.1]; unfold PySlice.count; omega
      · rw [k1.2]; unfold PySlice.count; omega
    · exact h3 _ _ hi hj

end Mat

namespace Memory

variable {α β γ R : Type}

/-- different indices belong to different elements of the buffer -/
def View.Inj (v : View) : Prop := ∀ i j i' j', i < v.rows → j < v.cols → i' < v.rows → j' < v.cols →
  v.pos i j = v.pos i' j' → i = i' ∧ j = j'

/-- a view of existing elements, that are selected by the slices -/
theorem View.pos_slice (v : View) (r c : PySlice) (i j : Nat) :
    (v.slice r c).pos i j = v.pos (r.lo v.rows + i) (c.lo v.cols + j) := by
  simp only [View.pos, View.slice]; push_cast; ring

theorem View.pos_row (v : View) (k i j : Nat) : (v.row k).pos i j = v.pos k j := by
  simp [View.pos, View.row]

theorem View.pos_flip (v : View) (i j : Nat) (hj : j < v.cols) : v.flip.pos i j = v.pos i (v.cols - 1 - j) := by
  simp only [View.pos, View.flip]
  have : ((v.cols - 1 - j : Nat) : Int) = (v.cols : Int) - 1 - j := by omega
  rw [this]; ring

theorem View.Inj.slice {v : View} (h : v.Inj) (r c : PySlice) : (v.slice r c).Inj := by
  intro i j i' j' hi hj hi' hj' e
  rw [v.pos_slice, v.pos_slice] at e
  simp only [View.slice, PySlice.count] at hi hj hi' hj'
  have := r.hi_le v.rows
  have := c.hi_le v.cols
  obtain ⟨h1, h2⟩ := h _ _ _ _ (by omega) (by omega) (by omega) (by omega) e
  omega

theorem View.Inj.flip {v : View} (h : v.Inj) : v.flip.Inj := by
  intro i j i' j' hi hj hi' hj' e
  change i < v.rows at hi
  change i' < v.rows at hi'
  change j < v.cols at hj
  change j' < v.cols at hj'
  rw [v.pos_flip _ _ hj, v.pos_flip _ _ hj'] at e
  obtain ⟨h1, h2⟩ := h _ _ _ _ hi (by omega) hi' (by omega) e
  omega

/-- an array in a new buffer -/
theorem inj_new (b rows cols : Nat) : (View.mk b 0 rows cols cols 1).Inj := by
  intro i j i' j' _ hj _ hj' e
  simp only [View.pos, zero_add, mul_one] at e
  dsimp only at hj hj'
  have e' : i * cols + j = i' * cols + j' := by exact_mod_cast e
  have hc : 0 < cols := by omega
  have h1 : (i * cols + j) / cols = i := by
    rw [mul_comm, Nat.mul_add_div hc, Nat.div_eq_of_lt hj, add_zero]
  have h2 : (i' * cols + j') / cols = i' := by
    rw [mul_comm, Nat.mul_add_div hc, Nat.div_eq_of_lt hj', add_zero]
  have h3 : i = i' := by rw [← h1, ← h2, e']
  subst h3
  exact ⟨rfl, by omega⟩

theorem read_slice (σ : Heap α) (v : View) (r c : PySlice) : σ.read (v.slice r c) = (σ.read v).slice r c := by
  have h := v.pos_slice r c
  simp only [Heap.read, Mat.slice]
  congr 1
  funext i j
  rw [h]; rfl

theorem read_row (σ : Heap α) (v : View) (k : Nat) : σ.read (v.row k) = (σ.read v).row k := by
  have h := v.pos_row k
  simp only [Heap.read, Mat.row]
  congr 1
  funext i j
  rw [h]; rfl

/-- the memory still contains all buffers of `σ₀` with the same elements -/
def Frame (σ₀ σ : Heap α) : Prop := σ₀.next ≤ σ.next ∧ ∀ b < σ₀.next, σ.cells b = σ₀.cells b

theorem Frame.refl (σ : Heap α) : Frame σ σ := ⟨le_rfl, fun _ _ => rfl⟩

theorem Frame.trans {σ₀ σ₁ σ₂ : Heap α} (h : Frame σ₀ σ₁) (h' : Frame σ₁ σ₂) : Frame σ₀ σ₂ :=
  ⟨h.1.trans h'.1, fun b hb => (h'.2 b (lt_of_lt_of_le hb h.1)).trans (h.2 b hb)⟩

theorem Frame.read {σ₀ σ : Heap α} (h : Frame σ₀ σ) {v : View} (hv : v.buf < σ₀.next) : σ.read v = σ₀.read v := by
  unfold Heap.read
  rw [h.2 _ hv]

/-! ### Writing -/

theorem fold_next {ι : Type} (b : Nat) (p : ι → Int) (g : Heap α → ι → α) (l : List ι) (σ : Heap α) :
    (l.foldl (fun σ x => σ.set b (p x) (g σ x)) σ).next = σ.next := by
  induction l generalizing σ with
  | nil => rfl
  | cons a t ih => rw [List.foldl_cons, ih]; rfl

theorem fold_other {ι : Type} (b : Nat) (p : ι → Int) (g : Heap α → ι → α) (l : List ι) (σ : Heap α) (b' : Nat)
    (q : Int) (h : b' = b → ∀ x ∈ l, p x ≠ q) :
    (l.foldl (fun σ x => σ.set b (p x) (g σ x)) σ).cells b' q = σ.cells b' q := by
  induction l generalizing σ with
  | nil => rfl
  | cons a t ih =>
    rw [List.foldl_cons, ih _ fun e x hx => h e x (List.mem_cons_of_mem _ hx)]
    simp only [Heap.set]
    rw [if_neg]
    rintro ⟨e, e'⟩
    exact h e a List.mem_cons_self e'.symm

theorem fold_mem {ι : Type} (b : Nat) (p : ι → Int) (g : ι → α) (l : List ι) (σ : Heap α)
    (inj : ∀ x ∈ l, ∀ y ∈ l, p x = p y → x = y) (x : ι) (hx : x ∈ l) :
    (l.foldl (fun σ x => σ.set b (p x) (g x)) σ).cells b (p x) = g x := by
  classical
  induction l generalizing σ with
  | nil => simp at hx
  | cons a t ih =>
    rw [List.foldl_cons]
    have inj' : ∀ x ∈ t, ∀ y ∈ t, p x = p y → x = y := fun x hx y hy =>
      inj x (List.mem_cons_of_mem _ hx) y (List.mem_cons_of_mem _ hy)
    by_cases h : x ∈ t
    · exact ih _ inj' h
    · have e : x = a := by
        rcases List.mem_cons.1 hx with e | e
        · exact e
        · exact absurd e h
      subst e
      rw [fold_other b p (fun _ x => g x)]
      · simp [Heap.set]
      · intro _ y hy e
        have := inj y (List.mem_cons_of_mem _ hy) x hx e
        subst this
        exact h hy

theorem mem_indices {rows cols : Nat} {q : Nat × Nat} : q ∈ indices rows cols ↔ q.1 < rows ∧ q.2 < cols := by
  obtain ⟨i, j⟩ := q
  simp only [indices, List.mem_flatMap, List.mem_range, List.mem_map, Prod.mk.injEq]
  constructor
  · rintro ⟨a, ha, c, hc, rfl, rfl⟩; exact ⟨ha, hc⟩
  · rintro ⟨ha, hc⟩; exact ⟨i, ha, j, hc, rfl, rfl⟩

theorem writeAll_next (v : View) (f : Nat → Nat → α) (σ : Heap α) : (writeAll v f σ).next = σ.next :=
  fold_next v.buf (fun p : Nat × Nat => v.pos p.1 p.2) (fun _ p => f p.1 p.2) _ σ

theorem writeAll_buf (v : View) (f : Nat → Nat → α) (σ : Heap α) (b : Nat) (h : b ≠ v.buf) :
    (writeAll v f σ).cells b = σ.cells b := by
  funext q
  exact fold_other v.buf (fun p : Nat × Nat => v.pos p.1 p.2) (fun _ p => f p.1 p.2) _ σ b q fun e => absurd e h

theorem writeAll_mem {v : View} (hv : v.Inj) (f : Nat → Nat → α) (σ : Heap α) (i j : Nat) (hi : i < v.rows)
    (hj : j < v.cols) : (writeAll v f σ).cells v.buf (v.pos i j) = f i j := by
  refine fold_mem v.buf (fun p : Nat × Nat => v.pos p.1 p.2) (fun p => f p.1 p.2) _ σ ?_ (i, j)
    (mem_indices.2 ⟨hi, hj⟩)
  rintro ⟨a, c⟩ ha ⟨a', c'⟩ ha' e
  rw [mem_indices] at ha ha'
  obtain ⟨rfl, rfl⟩ := hv a c a' c' ha.1 ha.2 ha'.1 ha'.2 e
  rfl

theorem writeAll_other (v : View) (f : Nat → Nat → α) (σ : Heap α) (b : Nat) (q : Int)
    (h : ∀ i j, i < v.rows → j < v.cols → v.pos i j ≠ q) : (writeAll v f σ).cells b q = σ.cells b q := by
  refine fold_other v.buf (fun p : Nat × Nat => v.pos p.1 p.2) (fun _ p => f p.1 p.2) _ σ b q fun _ x hx => ?_
  rw [mem_indices] at hx
  exact h _ _ hx.1 hx.2

/-- writing to a part of an array -/
theorem read_writeAll {w : View} (hw : w.Inj) (r c : PySlice) (B : Mat α) (σ : Heap α) :
    (σ.read w).rows = w.rows ∧ ((writeAll (w.slice r c) B.get σ).read w).Eqv
      { rows := w.rows
        cols := w.cols
        get := fun i j =>
          if (r.lo w.rows ≤ i ∧ i < r.hi w.rows) ∧ (c.lo w.cols ≤ j ∧ j < c.hi w.cols)
          then B.get (i - r.lo w.rows) (j - c.lo w.cols) else (σ.read w).get i j } := by
  refine ⟨rfl, rfl, rfl, fun i j hi hj => ?_⟩
  change i < w.rows at hi
  change j < w.cols at hj
  have hr := r.hi_le w.rows
  have hc := c.hi_le w.cols
  simp only [Heap.read]
  split
  · rename_i h
    have e : w.pos i j = (w.slice r c).pos (i - r.lo w.rows) (j - c.lo w.cols) := by
      rw [w.pos_slice]
      congr 1 <;> omega
    rw [e]
    exact writeAll_mem (hw.slice r c) _ _ _ _
      (by simp only [View.slice, PySlice.count]; omega) (by simp only [View.slice, PySlice.count]; omega)
  · rename_i h
    refine writeAll_other _ _ _ _ _ fun i' j' hi' hj' e => h ?_
    rw [w.pos_slice] at e
    simp only [View.slice, PySlice.count] at hi' hj'
    obtain ⟨rfl, rfl⟩ := hw _ _ _ _ (by omega) (by omega) hi hj e
    omega

/-! ### Simulation -/

/-- The computation with arrays in memory raises the same exception as the computation with values, or both return
results, for which `P` holds. No buffer of `σ₀` has been changed. -/
def Sim (σ₀ : Heap α) (P : Heap α → β → γ → Prop) (r : Py β × Heap α) (p : Py γ) : Prop :=
  Frame σ₀ r.2 ∧ match r.1, p with
    | .ok x, .ok y => P r.2 x y
    | .error e, .error e' => e = e'
    | _, _ => False

theorem Sim.mono {σ₀ : Heap α} {P Q : Heap α → β → γ → Prop} {r : Py β × Heap α} {p : Py γ} (h : Sim σ₀ P r p)
    (hPQ : ∀ σ x y, Frame σ₀ σ → P σ x y → Q σ x y) : Sim σ₀ Q r p := by
  obtain ⟨h1, h2⟩ := h
  refine ⟨h1, ?_⟩
  rcases r with ⟨_ | x, σ⟩ <;> rcases p with _ | y
  · exact h2
  · exact h2
  · exact h2
  · exact hPQ _ _ _ h1 h2

theorem Sim.bind {β' γ' : Type} {σ₀ : Heap α} {P : Heap α → β → γ → Prop} {Q : Heap α → β' → γ' → Prop}
    {m : Mem α β} {k : β → Mem α β'} {p : Py γ} {q : γ → Py γ'} {σ : Heap α} (h : Sim σ₀ P (m σ) p)
    (hk : ∀ σ' x y, Frame σ₀ σ' → P σ' x y → Sim σ₀ Q (k x σ') (q y)) : Sim σ₀ Q ((m >>= k) σ) (p >>= q) := by
  change Sim σ₀ Q (match m σ with | (.ok x, σ') => k x σ' | (.error e, σ') => (.error e, σ')) _
  rcases e : m σ with ⟨_ | x, σ'⟩ <;> rw [e] at h <;> rcases p with _ | y
  · exact h
  · exact h.2.elim
  · exact h.2.elim
  · exact hk _ _ _ h.1 h.2

theorem Sim.pure {σ₀ σ : Heap α} {P : Heap α → β → γ → Prop} {x : β} {y : γ} (hf : Frame σ₀ σ) (h : P σ x y) :
    Sim σ₀ P ((Pure.pure x : Mem α β) σ) (.ok y) := ⟨hf, h⟩

theorem Sim.raise {σ₀ σ : Heap α} {P : Heap α → β → γ → Prop} {e : PyExc} (hf : Frame σ₀ σ) :
    Sim σ₀ P ((Memory.raise e : Mem α β) σ) (.error e) := ⟨hf, rfl⟩

/-- `w` is an array in a buffer, that is newer than `σ₀`, and it contains the elements of `A` -/
structure Holds (σ₀ : Heap α) (w : View) (σ : Heap α) (A : Mat α) : Prop where
  new : σ₀.next ≤ w.buf
  valid : w.buf < σ.next
  inj : w.Inj
  eqv : (σ.read w).Eqv A

theorem Holds.rows {σ₀ σ : Heap α} {w : View} {A : Mat α} (h : Holds σ₀ w σ A) : w.rows = A.rows := h.eqv.1

theorem Holds.cols {σ₀ σ : Heap α} {w : View} {A : Mat α} (h : Holds σ₀ w σ A) : w.cols = A.cols := h.eqv.2.1

theorem sim_setItem {σ₀ σ : Heap α} {w : View} {A S T : Mat α} (hf : Frame σ₀ σ) (h : Holds σ₀ w σ A)
    (hS : S.Eqv T) (r c : PySlice) :
    Sim σ₀ (fun σ (_ : Unit) A => Holds σ₀ w σ A) (setItem w r c S σ) (A.assign r c T) := by
  have ha := h.eqv.assign hS r c
  unfold setItem
  unfold Mat.assign at ha ⊢
  change Mat.PyEqv (match S.broadcastTo (r.count w.rows) (c.count w.cols) with
    | .error e => .error e | .ok B => _) _ at ha
  revert ha
  rcases e1 : S.broadcastTo (r.count w.rows) (c.count w.cols) with e | S' <;>
  rcases e2 : T.broadcastTo (r.count A.rows) (c.count A.cols) with e' | T' <;> intro ha
  · exact ⟨hf, ha⟩
  · exact ha.elim
  · exact ha.elim
  · have hw : (writeAll (w.slice r c) S'.get σ).next = σ.next := writeAll_next _ _ _
    refine ⟨⟨by rw [hw]; exact hf.1, fun b hb => ?_⟩, ⟨h.new, by rw [hw]; exact h.valid, h.inj, ?_⟩⟩
    · rw [writeAll_buf _ _ _ _ (by have := h.new; simp only [View.slice]; omega)]
      exact hf.2 b hb
    · exact (read_writeAll h.inj r c S' σ).2.trans ha

theorem PyEqv_of_broadcast {A B : Mat α} {r c : Nat} (h : A.Eqv B) :
    (∃ e, A.broadcastTo r c = .error e ∧ B.broadcastTo r c = .error e) ∨
    (∃ A' B', A.broadcastTo r c = .ok A' ∧ B.broadcastTo r c = .ok B' ∧ A'.Eqv B' ∧ A'.rows = r ∧ A'.cols = c) := by
  have hb := h.broadcastTo r c
  revert hb
  rcases e1 : A.broadcastTo r c with e | A' <;> rcases e2 : B.broadcastTo r c with e' | B' <;> intro hb
  · exact .inl ⟨e, rfl, by rw [show e = e' from hb]⟩
  · exact hb.elim
  · exact hb.elim
  · refine .inr ⟨A', B', rfl, rfl, hb, ?_⟩
    unfold Mat.broadcastTo at e1
    split at e1
    · simp only [Except.ok.injEq] at e1; subst e1; exact ⟨rfl, rfl⟩
    · simp at e1

theorem sim_ufunc2 {σ₀ σ : Heap α} {w : View} {A S T S' T' : Mat α} (f : α → α → α) (hf : Frame σ₀ σ)
    (h : Holds σ₀ w σ A) (hS : S.Eqv S') (hT : T.Eqv T') (r c : PySlice) :
    Sim σ₀ (fun σ (_ : Unit) A => Holds σ₀ w σ A) (ufunc2 f S T w r c σ) (Mat.ufunc2 f S' T' A r c) := by
  unfold ufunc2 Mat.ufunc2
  rw [h.rows, h.cols]
  rcases PyEqv_of_broadcast (r := r.count A.rows) (c := c.count A.cols) hS with ⟨e, h1, h2⟩ | ⟨A', B', h1, h2, h3, h4⟩ <;>
  rcases PyEqv_of_broadcast (r := r.count A.rows) (c := c.count A.cols) hT with ⟨e', g1, g2⟩ | ⟨C', D', g1, g2, g3, g4⟩ <;>
  rw [h1, h2, g1, g2]
  · exact ⟨hf, rfl⟩
  · exact ⟨hf, rfl⟩
  · exact ⟨hf, rfl⟩
  · dsimp only
    refine sim_setItem hf h ?_ r c
    refine ⟨rfl, rfl, fun i j hi hj => ?_⟩
    dsimp only at hi hj ⊢
    rw [h3.2.2 i j (by rw [h4.1]; exact hi) (by rw [h4.2]; exact hj),
      g3.2.2 i j (by rw [g4.1]; exact hi) (by rw [g4.2]; exact hj)]

/-- an existing array, that contains the elements of `S` -/
def Has (σ₀ : Heap α) (v : View) (S : Mat α) : Prop := v.buf < σ₀.next ∧ (σ₀.read v).Eqv S

theorem Has.slice {σ₀ : Heap α} {v : View} {S : Mat α} (h : Has σ₀ v S) (r c : PySlice) :
    Has σ₀ (v.slice r c) (S.slice r c) := ⟨h.1, by rw [read_slice]; exact h.2.slice r c⟩

theorem Has.row {σ₀ : Heap α} {v : View} {S : Mat α} (h : Has σ₀ v S) {k : Nat} (hk : k < S.rows) :
    Has σ₀ (v.row k) (S.row k) := ⟨h.1, by rw [read_row]; exact h.2.row (by rw [h.2.1]; exact hk)⟩

theorem Has.frame {σ₀ σ : Heap α} {v : View} {S : Mat α} (h : Has σ₀ v S) (hf : Frame σ₀ σ) : Has σ v S :=
  ⟨lt_of_lt_of_le h.1 hf.1, by rw [hf.read h.1]; exact h.2⟩

theorem sim_copy {σ₀ σ : Heap α} {w v : View} {A T : Mat α} (hf : Frame σ₀ σ) (h : Holds σ₀ w σ A)
    (hv : Has σ₀ v T) (r c : PySlice) :
    Sim σ₀ (fun σ (_ : Unit) A => Holds σ₀ w σ A) (copy w r c v σ) (A.assign r c T) :=
  sim_setItem hf h (hv.frame hf).2 r c

theorem sim_scalar {σ₀ σ : Heap α} {w : View} {A : Mat α} (hf : Frame σ₀ σ) (h : Holds σ₀ w σ A) (x : α)
    (r c : PySlice) :
    Sim σ₀ (fun σ (_ : Unit) A => Holds σ₀ w σ A) (setItem w r c (.scalar x) σ) (A.assign r c (.scalar x)) :=
  sim_setItem hf h (.refl _) r c

theorem sim_ufuncViews {σ₀ σ : Heap α} {w v v' : View} {A T T' : Mat α} (f : α → α → α) (hf : Frame σ₀ σ)
    (h : Holds σ₀ w σ A) (hv : Has σ₀ v T) (hv' : Has σ₀ v' T') (r c : PySlice) :
    Sim σ₀ (fun σ (_ : Unit) A => Holds σ₀ w σ A) (ufuncViews f v v' w r c σ) (Mat.ufunc2 f T T' A r c) :=
  sim_ufunc2 f hf h (hv.frame hf).2 (hv'.frame hf).2 r c

theorem sim_addTo [Add α] {σ₀ σ : Heap α} {w v : View} {A T : Mat α} (hf : Frame σ₀ σ) (h : Holds σ₀ w σ A)
    (hv : Has σ₀ v T) (r c : PySlice) :
    Sim σ₀ (fun σ (_ : Unit) A => Holds σ₀ w σ A) (MSignal.addTo w r c v σ) (A.addTo r c T) :=
  sim_ufunc2 _ hf h (by rw [read_slice]; exact h.eqv.slice r c) (hv.frame hf).2 r c

theorem sim_setRow {σ₀ σ : Heap α} {w : View} {A S T : Mat α} (hf : Frame σ₀ σ) (h : Holds σ₀ w σ A)
    (hS : S.Eqv T) (k : Nat) (c : PySlice) :
    Sim σ₀ (fun σ (_ : Unit) A => Holds σ₀ w σ A) (setRow w k c S σ) (A.assignRow k c T) := by
  unfold setRow Mat.assignRow
  rw [h.rows]
  split
  · exact sim_setItem hf h hS _ _
  · exact ⟨hf, rfl⟩

theorem sim_copyRow {σ₀ σ : Heap α} {w v : View} {A T : Mat α} (hf : Frame σ₀ σ) (h : Holds σ₀ w σ A)
    (hv : Has σ₀ v T) (k : Nat) (c : PySlice) :
    Sim σ₀ (fun σ (_ : Unit) A => Holds σ₀ w σ A) (copyRow w k c v σ) (A.assignRow k c T) :=
  sim_setRow hf h (hv.frame hf).2 k c

/-- the contents of the next buffer as an array with consecutive rows -/
def fresh (σ : Heap α) (cols : Nat) (i j : Nat) : α := σ.cells σ.next (i * cols + j)

/-- the memory after an allocation -/
theorem sim_allocate {σ₀ σ : Heap α} (hf : Frame σ₀ σ) (rows cols : Nat) {P : Heap α → β → γ → Prop}
    {k : View → Mem α β} {p : Py γ}
    (h : ∀ σ' w, Frame σ₀ σ' → w.rows = rows → w.cols = cols →
      Holds σ₀ w σ' (alloc (fresh σ cols) rows cols) → Sim σ₀ P (k w σ') p) :
    Sim σ₀ P ((allocate rows cols >>= k) σ) p := by
  refine h _ _ ?_ rfl rfl ⟨hf.1, Nat.lt_succ_self _, inj_new _ _ _, rfl, rfl, fun i j _ _ => ?_⟩
  · exact ⟨hf.1.trans (Nat.le_succ _), hf.2⟩
  · simp [Heap.read, View.pos, alloc, fresh]

theorem sim_fold {ι κ : Type} {σ₀ : Heap α} {P : Heap α → β → γ → Prop} {Q : ι → κ → Prop} {m : β → ι → Mem α β}
    {p : γ → κ → Py γ} (h : ∀ σ x y a b, Frame σ₀ σ → P σ x y → Q a b → Sim σ₀ P (m x a σ) (p y b))
    {l : List ι} {l' : List κ} (hl : List.Forall₂ Q l l') (σ : Heap α) (x : β) (y : γ) (hf : Frame σ₀ σ)
    (hP : P σ x y) : Sim σ₀ P (l.foldlM m x σ) (l'.foldlM p y) := by
  induction hl generalizing σ x y with
  | nil => exact ⟨hf, hP⟩
  | cons hab _ ih =>
    rw [List.foldlM_cons, List.foldlM_cons]
    exact (h σ x y _ _ hf hP hab).bind fun σ' x' y' hf' hP' => ih σ' x' y' hf' hP'

/-! ### Adding in place -/

theorem cumsum_next [Add α] (v : View) (σ : Heap α) : (cumsum v σ).next = σ.next := by
  unfold cumsum
  generalize indices v.rows v.cols = l
  induction l generalizing σ with
  | nil => rfl
  | cons a t ih =>
    rw [List.foldl_cons, ih]
    rcases a with ⟨i, _ | j⟩ <;> rfl

theorem cumsum_buf [Add α] (v : View) (σ : Heap α) (b : Nat) (h : b ≠ v.buf) : (cumsum v σ).cells b = σ.cells b := by
  unfold cumsum
  generalize indices v.rows v.cols = l
  induction l generalizing σ with
  | nil => rfl
  | cons a t ih =>
    rw [List.foldl_cons, ih]
    rcases a with ⟨i, _ | j⟩
    · rfl
    · funext q
      simp only [Heap.set]
      rw [if_neg]
      exact fun e => h e.1

/-- the state of the loop, when the rows before `i` and the first `j` elements of the row `i` have been replaced -/
def Partial [Add α] (v : View) (f : Nat → Nat → α) (i j : Nat) (σ : Heap α) : Prop :=
  ∀ a b, a < v.rows → b < v.cols → σ.cells v.buf (v.pos a b) =
    if a < i ∨ a = i ∧ b < j then Mat.cumsumRow (f a) b else f a b

theorem partial_row [Add α] {v : View} (hv : v.Inj) (f : Nat → Nat → α) (i : Nat) (hi : i < v.rows) (n : Nat)
    (hn : n ≤ v.cols) (σ : Heap α) (h : Partial v f i 0 σ) :
    Partial v f i n (((List.range n).map fun j => (i, j)).foldl (fun σ p =>
      match p with
      | (_, 0) => σ
      | (i, j + 1) => σ.set v.buf (v.pos i (j + 1)) (σ.cells v.buf (v.pos i j) + σ.cells v.buf (v.pos i (j + 1)))) σ) := by
  induction n with
  | zero => simpa using h
  | succ n ih =>
    rw [List.range_succ, List.map_append, List.foldl_append]
    have ih := ih (by omega)
    revert ih
    generalize ((List.range n).map fun j => (i, j)).foldl _ σ = τ
    intro ih
    simp only [List.map_cons, List.map_nil, List.foldl_cons, List.foldl_nil]
    intro a b ha hb
    rcases n with _ | n
    · dsimp only
      rw [ih a b ha hb]
      by_cases e : a = i ∧ b = 0
      · obtain ⟨rfl, rfl⟩ := e
        simp [Mat.cumsumRow]
      · have e1 : (a < i ∨ a = i ∧ b < 0) ↔ (a < i ∨ a = i ∧ b < 0 + 1) := by omega
        rw [if_congr e1 rfl rfl]
    · dsimp only
      simp only [Heap.set]
      by_cases e : a = i ∧ b = n + 1
      · obtain ⟨rfl, rfl⟩ := e
        rw [if_pos (by simp), if_pos (by omega), ih a n ha (by omega), ih a (n + 1) ha hb, if_pos (by omega),
          if_neg (by omega)]
        rfl
      · rw [if_neg, ih a b ha hb]
        · have e1 : (a < i ∨ a = i ∧ b < n + 1) ↔ (a < i ∨ a = i ∧ b < n + 1 + 1) := by omega
          rw [if_congr e1 rfl rfl]
        · rintro ⟨_, e'⟩
          exact e (hv _ _ _ _ ha hb hi (by omega) e')

theorem cumsum_read [Add α] {v : View} (hv : v.Inj) (σ : Heap α) :
    ((cumsum v σ).read v).Eqv (σ.read v).cumsum := by
  have key : ∀ n ≤ v.rows, Partial v (σ.read v).get n 0 ((indices n v.cols).foldl (fun σ p =>
      match p with
      | (_, 0) => σ
      | (i, j + 1) => σ.set v.buf (v.pos i (j + 1)) (σ.cells v.buf (v.pos i j) + σ.cells v.buf (v.pos i (j + 1)))) σ) := by
    intro n
    induction n with
    | zero =>
      intro _ a b _ _
      rw [if_neg (by omega)]
      rfl
    | succ n ih =>
      intro hn
      have e : indices (n + 1) v.cols = indices n v.cols ++ (List.range v.cols).map fun j => (n, j) := by
        simp [indices, List.range_succ]
      rw [e, List.foldl_append]
      have := partial_row hv _ n (by omega) v.cols le_rfl _ (ih (by omega))
      intro a b ha hb
      rw [this a b ha hb]
      have e1 : (a < n ∨ a = n ∧ b < v.cols) ↔ (a < n + 1 ∨ a = n + 1 ∧ b < 0) := by omega
      rw [if_congr e1 rfl rfl]
  refine ⟨rfl, rfl, fun a b ha hb => ?_⟩
  have := key v.rows le_rfl a b ha hb
  rw [if_pos (.inl ha)] at this
  exact this

end Memory
end Verif
