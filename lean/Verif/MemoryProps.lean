import Verif.MemorySim

/-
C146: Signals behave like immutable values, although they share memory.
-/

namespace Verif
namespace Memory

variable {α R : Type}

/-- The signal `m` in the memory is the signal `s`: its array is in an existing buffer and has the same shape and the
same elements. -/
structure Represents (σ : Heap α) (m : MSignal R) (s : Signal α R) : Prop where
  valid : m.channels.buf < σ.next
  eqv : (σ.read m.channels).Eqv s.channels
  rate : m.rate = s.rate
  offset : m.offset = s.offset
  labels : m.labels = s.labels

theorem Represents.frame {σ₀ σ : Heap α} {m : MSignal R} {s : Signal α R} (h : Represents σ₀ m s)
    (hf : Frame σ₀ σ) : Represents σ m s :=
  ⟨lt_of_lt_of_le h.valid hf.1, by rw [hf.read h.valid]; exact h.eqv, h.rate, h.offset, h.labels⟩

theorem Represents.has {σ : Heap α} {m : MSignal R} {s : Signal α R} (h : Represents σ m s) :
    Has σ m.channels s.channels := ⟨h.valid, h.eqv⟩

theorem Represents.count {σ : Heap α} {m : MSignal R} {s : Signal α R} (h : Represents σ m s) :
    m.count = s.count := h.eqv.1

theorem Represents.length {σ : Heap α} {m : MSignal R} {s : Signal α R} (h : Represents σ m s) :
    m.length = s.length := h.eqv.2.1

/-- The result of a computation, that creates a new signal: the signal `m` is the signal `s`, and its array is in a
buffer, that has not been used before. -/
def New (σ₀ : Heap α) (σ : Heap α) (m : MSignal R) (s : Signal α R) : Prop :=
  Represents σ m s ∧ σ₀.next ≤ m.channels.buf

theorem sim_new {σ₀ σ : Heap α} {w : View} {A : Mat α} (hf : Frame σ₀ σ) (h : Holds σ₀ w σ A) (rate : R)
    (offset : Int) (labels : Option (List String)) :
    Sim σ₀ (New σ₀) ((pure (MSignal.new w rate offset labels) : Mem α (MSignal R)) σ)
      (.ok (Signal.new A rate offset labels)) := by
  refine ⟨hf, ⟨h.valid, h.eqv, rfl, rfl, ?_⟩, h.new⟩
  simp [MSignal.new, Signal.new, h.rows]

theorem sim_old {σ₀ : Heap α} {v : View} {A : Mat α} (h : Has σ₀ v A) (rate : R)
    (offset : Int) (labels : Option (List String)) :
    Represents σ₀ (MSignal.new v rate offset labels) (Signal.new A rate offset labels) := by
  refine ⟨h.1, h.2, rfl, rfl, ?_⟩
  have : v.rows = A.rows := h.2.1
  simp [MSignal.new, Signal.new, this]

theorem Represents.getChannels {σ : Heap α} {m : MSignal R} {s : Signal α R} (h : Represents σ m s) (k : Indexing.Key) :
    (m.getChannels k = none ∧ s.getChannels k = none) ∨
    ∃ m' s', m.getChannels k = some m' ∧ s.getChannels k = some s' ∧ Represents σ m' s' ∧
      m'.channels.buf = m.channels.buf := by
  unfold MSignal.getChannels Signal.getChannels
  rw [h.count, h.rate, h.offset, h.labels]
  rcases Indexing.keyToSlice s.count k with _ | c
  · exact .inl ⟨rfl, rfl⟩
  · exact .inr ⟨_, _, rfl, rfl, sim_old (h.has.slice c .all) _ _ _, rfl⟩

theorem Represents.getItem {σ : Heap α} {m : MSignal R} {s : Signal α R} (h : Represents σ m s) (k0 k1 : Indexing.Key) :
    (m.getItem k0 k1 = none ∧ s.getItem k0 k1 = none) ∨
    ∃ m' s', m.getItem k0 k1 = some m' ∧ s.getItem k0 k1 = some s' ∧ Represents σ m' s' ∧
      m'.channels.buf = m.channels.buf := by
  unfold MSignal.getItem Signal.getItem MSignal.sliceOffset Signal.sliceOffset
  rw [h.count, h.length, h.rate, h.offset, h.labels]
  rcases Indexing.keyToSlice s.count k0 with _ | c <;> rcases Indexing.keyToSlice s.length k1 with _ | t
  · exact .inl ⟨rfl, rfl⟩
  · exact .inl ⟨rfl, rfl⟩
  · exact .inl ⟨rfl, rfl⟩
  · exact .inr ⟨_, _, rfl, rfl, sim_old (h.has.slice c t) _ _ _, rfl⟩

theorem Represents.reversed {σ : Heap α} {m : MSignal R} {s : Signal α R} (h : Represents σ m s) :
    Represents σ m.reversed s.reversed ∧ m.reversed.channels.buf = m.channels.buf := by
  refine ⟨?_, rfl⟩
  unfold MSignal.reversed Signal.reversed
  rw [h.length, h.rate, h.offset, h.labels]
  refine sim_old (v := m.channels.flip) (A := ⟨s.count, s.length, fun c t => s.channels.get c (s.length - 1 - t)⟩)
    ⟨h.valid, h.eqv.1, h.eqv.2.1, fun i j hi hj => ?_⟩ _ _ _
  change i < m.channels.rows at hi
  change j < m.channels.cols at hj
  have hl : m.channels.cols = s.length := h.length
  have := h.eqv.2.2 i (m.channels.cols - 1 - j) hi (by change _ < m.channels.cols; omega)
  simp only [Heap.read] at this ⊢
  rw [m.channels.pos_flip i j hj]
  rw [← hl]
  exact this

theorem sim_setAll {σ₀ σ : Heap α} {w : View} {A S T : Mat α} (hf : Frame σ₀ σ) (h : Holds σ₀ w σ A) (hS : S.Eqv T)
    (hr : w.rows = T.rows) (hc : w.cols = T.cols) :
    Sim σ₀ (fun σ (_ : Unit) A => Holds σ₀ w σ A) (setItem w .all .all S σ) (.ok T) := by
  have hs := sim_setItem hf h hS .all .all
  have hA : A.rows = T.rows ∧ A.cols = T.cols := ⟨h.rows ▸ hr, h.cols ▸ hc⟩
  have e : A.assign .all .all T = .ok ⟨A.rows, A.cols, fun i j => if (0 ≤ i ∧ i < A.rows) ∧ 0 ≤ j ∧ j < A.cols then
      T.get (if T.rows = 1 then 0 else i) (if T.cols = 1 then 0 else j) else A.get i j⟩ := by
    unfold Mat.assign Mat.broadcastTo
    rw [if_pos ⟨.inl hA.1.symm, .inl hA.2.symm⟩]
    rfl
  rw [e] at hs
  have hs' := hs
  unfold Sim at hs ⊢
  refine ⟨hs.1, ?_⟩
  rcases hr' : setItem w .all .all S σ with ⟨_ | x, σ'⟩
  · rw [hr'] at hs; exact hs.2.elim
  · rw [hr'] at hs
    refine ⟨hs.2.new, hs.2.valid, hs.2.inj, hs.2.eqv.trans ⟨hA.1, hA.2, fun i j hi hj => ?_⟩⟩
    dsimp only at hi hj ⊢
    rw [if_pos (by omega)]
    congr 1
    · split <;> omega
    · split <;> omega

theorem sim_mapSamples {σ : Heap α} {m : MSignal R} {s : Signal α R} (h : Represents σ m s) (f : α → α) :
    Sim σ (New σ) (m.mapSamples f σ) (.ok (s.mapSamples f)) := by
  unfold MSignal.mapSamples Signal.mapSamples
  simp only [h.count, h.length, h.rate, h.offset, h.labels]
  refine sim_allocate (.refl σ) _ _ fun σ' w hf hr hc hw => ?_
  exact Sim.bind (q := fun A => .ok (Signal.new A s.rate s.offset (some s.labels)))
    (sim_setAll hf hw ((h.has.frame hf).2.map f) hr hc) fun σ'' _ A hf' hA => sim_new hf' hA _ _ _

theorem sim_pad {σ : Heap α} {m : MSignal R} {s : Signal α R} (h : Represents σ m s) (length : Nat) (value : α) :
    Sim σ (Represents (R := R)) (m.pad length value σ) (s.pad (fresh σ length) length value) ∧
    (length ≠ s.length → Sim σ (New σ) (m.pad length value σ) (s.pad (fresh σ length) length value)) := by
  have key : length ≠ s.length → Sim σ (New σ) (m.pad length value σ) (s.pad (fresh σ length) length value) := by
    intro hl
    unfold MSignal.pad Signal.pad
    simp only [h.count, h.length, h.rate, h.offset, h.labels]
    rw [if_neg hl, if_neg hl]
    refine sim_allocate (.refl σ) _ _ fun σ' w hf hr hc hw => ?_
    split
    · exact (sim_copy hf hw (h.has.slice _ _) _ _).bind fun _ _ _ hf' hA => sim_new hf' hA _ _ _
    · simp only [bind_assoc]
      exact (sim_copy hf hw h.has _ _).bind fun _ _ _ hf' hA =>
        (sim_scalar hf' hA _ _ _).bind fun _ _ _ hf' hA => sim_new hf' hA _ _ _
  refine ⟨?_, key⟩
  by_cases hl : length = s.length
  · unfold MSignal.pad Signal.pad
    rw [h.length, if_pos hl, if_pos hl]
    exact ⟨.refl σ, h⟩
  · exact (key hl).mono fun _ _ _ _ h => h.1

/-- the number of samples of the array, that is allocated by `shift` -/
def shiftCols (s : Signal α R) (n : Option Int) (mode : ShiftMode) : Nat :=
  match mode, n with
  | .pad, some n => s.length + n.natAbs
  | _, _ => s.length

theorem sim_shift [Zero α] {σ : Heap α} {m : MSignal R} {s : Signal α R} (h : Represents σ m s) (n : Option Int)
    (mode : ShiftMode) :
    Sim σ (Represents (R := R)) (m.shift n mode σ) (s.shift (fresh σ (shiftCols s n mode)) n mode) ∧
    (n ≠ some 0 → mode ≠ .offset →
      Sim σ (New σ) (m.shift n mode σ) (s.shift (fresh σ (shiftCols s n mode)) n mode)) := by
  by_cases h0 : n = some 0
  · refine ⟨?_, fun h1 => absurd h0 h1⟩
    unfold MSignal.shift Signal.shift
    rw [if_pos h0, if_pos h0]
    exact ⟨.refl σ, h⟩
  · have key : mode ≠ .offset →
        Sim σ (New σ) (m.shift n mode σ) (s.shift (fresh σ (shiftCols s n mode)) n mode) := by
      intro hm
      unfold MSignal.shift Signal.shift
      rw [if_neg h0, if_neg h0]
      simp only [h.count, h.length, h.rate, h.offset, h.labels]
      rcases mode with _ | _ | _ | _ <;> rcases n with _ | n
      · exact absurd rfl hm
      · exact absurd rfl hm
      · exact ⟨.refl σ, rfl⟩
      · dsimp only
        refine sim_allocate (.refl σ) _ _ fun σ' w hf hr hc hw => ?_
        split
        · simp only [bind_assoc]
          exact (sim_copy hf hw (h.has.slice _ _) _ _).bind fun _ _ _ hf' hA =>
            (sim_scalar hf' hA _ _ _).bind fun _ _ _ hf' hA => sim_new hf' hA _ _ _
        · simp only [bind_assoc]
          exact (sim_scalar hf hw _ _ _).bind fun _ _ _ hf' hA =>
            (sim_copy hf' hA (h.has.slice _ _) _ _).bind fun _ _ _ hf' hA => sim_new hf' hA _ _ _
      · exact ⟨.refl σ, rfl⟩
      · dsimp only
        refine sim_allocate (.refl σ) _ _ fun σ' w hf hr hc hw => ?_
        split
        · simp only [bind_assoc]
          exact (sim_copy hf hw h.has _ _).bind fun _ _ _ hf' hA =>
            (sim_scalar hf' hA _ _ _).bind fun _ _ _ hf' hA => sim_new hf' hA _ _ _
        · simp only [bind_assoc]
          exact (sim_scalar hf hw _ _ _).bind fun _ _ _ hf' hA =>
            (sim_copy hf' hA h.has _ _).bind fun _ _ _ hf' hA => sim_new hf' hA _ _ _
      · exact ⟨.refl σ, rfl⟩
      · dsimp only
        refine sim_allocate (.refl σ) _ _ fun σ' w hf hr hc hw => ?_
        simp only [bind_assoc]
        exact (sim_copy hf hw (h.has.slice _ _) _ _).bind fun _ _ _ hf' hA =>
          (sim_copy hf' hA (h.has.slice _ _) _ _).bind fun _ _ _ hf' hA => sim_new hf' hA _ _ _
    refine ⟨?_, fun _ => key⟩
    by_cases hm : mode = .offset
    · subst hm
      unfold MSignal.shift Signal.shift
      rw [if_neg h0, if_neg h0]
      simp only [h.rate, h.offset, h.labels]
      rcases n with _ | n
      · exact ⟨.refl σ, sim_old h.has _ _ _⟩
      · exact ⟨.refl σ, sim_old h.has _ _ _⟩
    · exact (key hm).mono fun _ _ _ _ h => h.1

/-! ### Arithmetic -/

theorem sim_copyRows {σ₀ σ : Heap α} {w v : View} {A T : Mat α} (hf : Frame σ₀ σ) (h : Holds σ₀ w σ A)
    (hv : Has σ₀ v T) (cs : PySlice) :
    Sim σ₀ (fun σ (_ : Unit) A => Holds σ₀ w σ A) (MSignal.copyRows cs v w σ) (Signal.copyRows cs T A) := by
  unfold MSignal.copyRows Signal.copyRows
  rw [h.rows]
  refine sim_fold (Q := Eq) (fun σ _ A a b hf hA hab => ?_) (List.forall₂_same.2 fun _ _ => rfl) σ () A hf h
  subst hab
  exact sim_copy hf hA hv _ _

theorem sim_copyFirstRow {σ₀ σ : Heap α} {w : View} {A : Mat α} (hf : Frame σ₀ σ) (h : Holds σ₀ w σ A)
    (cs : PySlice) :
    Sim σ₀ (fun σ (_ : Unit) A => Holds σ₀ w σ A) (MSignal.copyRows cs (w.slice (.range 0 1) cs) w σ)
      (Signal.copyFirstRow cs A) := by
  unfold MSignal.copyRows Signal.copyFirstRow
  rw [h.rows]
  refine sim_fold (Q := Eq) (fun σ _ A a b hf hA hab => ?_) (List.forall₂_same.2 fun _ _ => rfl) σ () A hf h
  subst hab
  exact sim_setItem hf hA (by rw [read_slice]; exact hA.eqv.slice _ _) _ _

theorem sim_ite {β γ : Type} {σ₀ σ : Heap α} {P : Heap α → β → γ → Prop} {c : Prop} [Decidable c] {m m' : Mem α β}
    {p p' : Py γ} (h : c → Sim σ₀ P (m σ) p) (h' : ¬ c → Sim σ₀ P (m' σ) p') :
    Sim σ₀ P ((if c then m else m') σ) (if c then p else p') := by
  split
  · exact h ‹_›
  · exact h' ‹_›

theorem sim_algebra [Zero α] {σ : Heap α} {m m' : MSignal R} {s o : Signal α R} (hs : Represents σ m s)
    (ho : Represents σ m' o) (f : α → α → α) (pivot : Option α) (label : String) :
    ∃ mem, Sim σ (New σ) (MSignal.algebra f pivot label m m' σ) (Signal.algebra mem f pivot label s o) := by
  unfold MSignal.algebra Signal.algebra
  simp only [hs.count, hs.length, hs.offset, ho.count, ho.length, ho.offset]
  split
  · refine ⟨fresh σ s.length, ?_⟩
    unfold MSignal.algebraOverlap Signal.algebraOverlap
    simp only [hs.count, hs.length, hs.rate, hs.offset]
    refine sim_allocate (.refl σ) _ _ fun σ' w hf hr hc hw => ?_
    exact (sim_ufuncViews f hf hw hs.has ho.has _ _).bind fun _ _ _ hf' hA => sim_new hf' hA _ _ _
  split
  · rename_i hc1
    refine ⟨fresh σ o.length, ?_⟩
    unfold MSignal.algebraSelfOne Signal.algebraSelfOne
    simp only [ho.count, ho.length, hs.rate, hs.offset]
    refine sim_allocate (.refl σ) _ _ fun σ' w hf hr hc hw => ?_
    exact (sim_ufuncViews f hf hw (hs.has.row (by have := hc1.1; unfold Signal.count at this; omega)) ho.has _ _).bind
      fun _ _ _ hf' hA => sim_new hf' hA _ _ _
  split
  · rename_i hc1
    refine ⟨fresh σ s.length, ?_⟩
    unfold MSignal.algebraOtherOne Signal.algebraOtherOne
    simp only [hs.count, hs.length, hs.rate, hs.offset]
    refine sim_allocate (.refl σ) _ _ fun σ' w hf hr hc hw => ?_
    exact (sim_ufuncViews f hf hw hs.has (ho.has.row (by have := hc1.1; unfold Signal.count at this; omega)) _ _).bind
      fun _ _ _ hf' hA => sim_new hf' hA _ _ _
  · refine ⟨fresh σ (max (s.offset + s.length) (o.offset + o.length) - min s.offset o.offset).toNat, ?_⟩
    unfold MSignal.algebraDifferentShapes Signal.algebraDifferentShapes
    simp only [hs.count, hs.length, hs.rate, hs.offset, ho.count, ho.length, ho.offset]
    refine sim_allocate (.refl σ) _ _ fun σ' w hf hr hc hw => ?_
    have h1 : Sim σ (fun σ' (_ : Unit) A => Holds σ w σ' A) (MSignal.copySelf m m' w σ')
        (Signal.copySelf (fresh σ (max (s.offset + s.length) (o.offset + o.length) - min s.offset o.offset).toNat) s o) := by
      unfold MSignal.copySelf Signal.copySelf
      simp only [hs.count, hs.length, hs.offset, ho.offset]
      refine (sim_scalar hf hw _ _ _).bind fun _ _ _ hf' hA => ?_
      refine (sim_copy hf' hA hs.has _ _).bind fun _ _ _ hf' hA => ?_
      refine sim_ite (fun h1 => ?_) fun _ => ⟨hf', hA⟩
      exact sim_copyRows hf' hA (hs.has.row (by unfold Signal.count at h1; omega)) _
    refine h1.bind fun _ _ _ hf' hA => ?_
    refine Sim.bind (P := fun σ' (_ : Unit) A => Holds σ w σ' A) ?_ fun _ _ _ hf' hA =>
      Sim.bind (P := fun σ' (_ : Unit) A => Holds σ w σ' A) ?_ fun _ _ _ hf' hA => sim_new hf' hA _ _ _
    · unfold MSignal.copyOther Signal.copyOther
      simp only [hs.offset, ho.count, ho.length, ho.offset]
      rcases pivot with _ | p
      · refine (sim_copy hf' hA ho.has _ _).bind fun _ _ _ hf' hA => ?_
        refine sim_ite (fun h1 => ?_) fun _ => ⟨hf', hA⟩
        exact sim_copyRows hf' hA (ho.has.row (by unfold Signal.count at h1; omega)) _
      · refine Sim.bind (P := fun σ' (_ : Unit) A => Holds σ w σ' A) (sim_ufunc2 f hf' hA (.refl _) (ho.has.frame hf').2 _ _) fun _ _ _ hf' hA => ?_
        refine sim_ite (fun h1 => ?_) fun _ => ⟨hf', hA⟩
        exact sim_copyFirstRow hf' hA _
    · unfold MSignal.computeOverlap Signal.computeOverlap
      simp only [hs.count, hs.length, hs.offset, ho.count, ho.length, ho.offset]
      refine sim_ite (fun _ => ?_) fun _ => ⟨hf', hA⟩
      refine sim_ite (fun h1 => ?_) fun _ => sim_ite (fun h1 => ?_) fun _ => ?_
      · exact sim_ufuncViews f hf' hA ((hs.has.row (by unfold Signal.count at h1; omega)).slice _ _)
          (ho.has.slice _ _) _ _
      · exact sim_ufuncViews f hf' hA (hs.has.slice _ _)
          ((ho.has.row (by unfold Signal.count at h1; omega)).slice _ _) _ _
      · exact sim_ufuncViews f hf' hA (hs.has.slice _ _) (ho.has.slice _ _) _ _

theorem sim_algebraArray {σ : Heap α} {m : MSignal R} {s : Signal α R} {v : View} {O : Mat α} (hs : Represents σ m s)
    (hv : Has σ v O) (f : α → α → α) :
    Sim σ (New σ) (MSignal.algebraArray f m v σ) (Signal.algebraArray (fresh σ s.length) f s O) := by
  unfold MSignal.algebraArray Signal.algebraArray
  simp only [hs.count, hs.length, hs.rate, hs.offset, hs.labels]
  refine sim_allocate (.refl σ) _ _ fun σ' w hf hr hc hw => ?_
  exact (sim_ufuncViews f hf hw hs.has hv _ _).bind fun _ _ _ hf' hA => sim_new hf' hA _ _ _

theorem sim_algebraArrayRight {σ : Heap α} {m : MSignal R} {s : Signal α R} {v : View} {O : Mat α}
    (hs : Represents σ m s) (hv : Has σ v O) (f : α → α → α) :
    Sim σ (New σ) (MSignal.algebraArrayRight f m v σ) (Signal.algebraArrayRight (fresh σ s.length) f s O) := by
  unfold MSignal.algebraArrayRight Signal.algebraArrayRight
  simp only [hs.count, hs.length, hs.rate, hs.offset, hs.labels]
  refine sim_allocate (.refl σ) _ _ fun σ' w hf hr hc hw => ?_
  exact (sim_ufuncViews f hf hw hv hs.has _ _).bind fun _ _ _ hf' hA => sim_new hf' hA _ _ _

/-! ### Other classes -/

theorem read_flip (σ : Heap α) (v : View) : (σ.read v.flip).Eqv (σ.read v).flipCols := by
  refine ⟨rfl, rfl, fun i j _ hj => ?_⟩
  change j < v.cols at hj
  simp only [Heap.read, Mat.flipCols]
  rw [v.pos_flip i j hj]
  rfl

theorem flipCols_eqv {A B : Mat α} (h : A.Eqv B) : A.flipCols.Eqv B.flipCols := by
  refine ⟨h.1, h.2.1, fun i j hi hj => ?_⟩
  change j < A.cols at hj
  simp only [Mat.flipCols]
  rw [← h.2.1]
  exact h.2.2 _ _ hi (by omega)

theorem flipCols_flipCols (A : Mat α) : A.flipCols.flipCols.Eqv A := by
  refine ⟨rfl, rfl, fun i j hi hj => ?_⟩
  change j < A.cols at hj
  simp only [Mat.flipCols]
  congr 1
  omega

theorem cumsum_eqv [Add α] {A B : Mat α} (h : A.Eqv B) : A.cumsum.Eqv B.cumsum := by
  refine ⟨h.1, h.2.1, fun i j hi hj => ?_⟩
  simp only [Mat.cumsum]
  change j < A.cols at hj
  induction j with
  | zero => exact h.2.2 _ _ hi hj
  | succ j ih =>
    simp only [Mat.cumsumRow]
    rw [ih (by omega), h.2.2 _ _ hi hj]

theorem assign_all {A T : Mat α} (hr : A.rows = T.rows) (hc : A.cols = T.cols) :
    ∃ B, A.assign .all .all T = .ok B ∧ B.Eqv T := by
  unfold Mat.assign Mat.broadcastTo
  rw [if_pos ⟨.inl hr.symm, .inl hc.symm⟩]
  refine ⟨_, rfl, hr, hc, fun i j hi hj => ?_⟩
  dsimp only at hi hj ⊢
  simp only [PySlice.lo_all, PySlice.hi_all]
  refine (if_pos (by omega)).trans ?_
  congr 1
  · split <;> omega
  · split <;> omega

theorem sim_energyDecay [Add α] [Mul α] {σ : Heap α} {m : MSignal R} {s : Signal α R} (h : Represents σ m s) :
    Sim σ (New σ) (m.energyDecay σ) (EnergyDecay.new (fresh σ s.length) s) := by
  unfold MSignal.energyDecay EnergyDecay.new
  simp only [h.count, h.length, h.rate, h.offset, h.labels]
  refine sim_allocate (.refl σ) _ _ fun σ' w hf hr hc hw => ?_
  refine Sim.bind (sim_setItem hf hw ((h.has.frame hf).2.map _) .all .all) fun σ₁ _ A hf hA => ?_
  obtain ⟨B, hB, hB'⟩ := assign_all (A := A.flipCols) (T := A.flipCols.cumsum) rfl rfl
  rw [hB]
  refine Sim.bind (P := fun σ' (_ : Unit) B => Holds σ w σ' (Mat.flipCols B)) ⟨?_, ?_⟩ fun _ _ _ hf hA =>
    sim_new hf hA _ _ _
  · refine ⟨by dsimp only; rw [cumsum_next]; exact hf.1, fun b hb => ?_⟩
    dsimp only
    rw [cumsum_buf]
    · exact hf.2 b hb
    · have := hA.new; simp only [View.flip]; omega
  · refine ⟨hA.new, by rw [cumsum_next]; exact hA.valid, hA.inj, ?_⟩
    have h1 := cumsum_read hA.inj.flip σ₁
    have h2 := ((read_flip (cumsum w.flip σ₁) w).symm.trans h1).trans
      (cumsum_eqv ((read_flip σ₁ w).trans (flipCols_eqv hA.eqv)))
    exact (flipCols_flipCols _).symm.trans (flipCols_eqv (h2.trans hB'.symm))

theorem forall₂_zip {A B C D : Type} {P : A → B → Prop} {Q : C → D → Prop} {l : List A} {l' : List B} {k : List C}
    {k' : List D} (h : List.Forall₂ P l l') (h' : List.Forall₂ Q k k') :
    List.Forall₂ (fun a b => P a.1 b.1 ∧ Q a.2 b.2) (l.zip k) (l'.zip k') := by
  induction h generalizing k k' with
  | nil => simp
  | cons hab _ ih =>
    cases h' with
    | nil => simp
    | cons hcd h' => exact .cons ⟨hab, hcd⟩ (ih h')

theorem forall₂_append {A B : Type} {P : A → B → Prop} {l k : List A} {l' k' : List B} (h : List.Forall₂ P l l')
    (h' : List.Forall₂ P k k') : List.Forall₂ P (l ++ k) (l' ++ k') := by
  induction h with
  | nil => exact h'
  | cons hab _ ih => exact .cons hab ih

theorem forall₂_flatMap {A B C D : Type} {P : A → B → Prop} {Q : C → D → Prop} {l : List A} {l' : List B}
    {f : A → List C} {g : B → List D} (h : List.Forall₂ P l l') (hfg : ∀ a b, P a b → List.Forall₂ Q (f a) (g b)) :
    List.Forall₂ Q (l.flatMap f) (l'.flatMap g) := by
  induction h with
  | nil => simp
  | cons hab _ ih =>
    rw [List.flatMap_cons, List.flatMap_cons]
    exact forall₂_append (hfg _ _ hab) ih

theorem forall₂_map_range {C D : Type} {Q : C → D → Prop} {f : Nat → C} {g : Nat → D} (n : Nat)
    (h : ∀ i < n, Q (f i) (g i)) : List.Forall₂ Q ((List.range n).map f) ((List.range n).map g) := by
  rw [List.forall₂_map_left_iff, List.forall₂_map_right_iff, List.forall₂_same]
  exact fun i hi => h i (List.mem_range.1 hi)

/-- data sets in the memory -/
def RepresentsAll (σ : Heap α) (ms : List (MSignal R)) (ss : List (Signal α R)) : Prop :=
  List.Forall₂ (Represents σ) ms ss

theorem RepresentsAll.frame {σ₀ σ : Heap α} {ms : List (MSignal R)} {ss : List (Signal α R)}
    (h : RepresentsAll σ₀ ms ss) (hf : Frame σ₀ σ) : RepresentsAll σ ms ss :=
  List.Forall₂.imp (fun _ _ h => h.frame hf) h

theorem map_congr₂ {A B C : Type} {P : A → B → Prop} {f : A → C} {g : B → C} {l : List A} {l' : List B}
    (h : List.Forall₂ P l l') (hfg : ∀ a b, P a b → f a = g b) : l.map f = l'.map g := by
  induction h with
  | nil => rfl
  | cons hab _ ih => rw [List.map_cons, List.map_cons, hfg _ _ hab, ih]

theorem foldl_congr₂ {A B C : Type} {P : A → B → Prop} {f : C → A → C} {g : C → B → C} {l : List A} {l' : List B}
    (h : List.Forall₂ P l l') (hfg : ∀ c a b, P a b → f c a = g c b) (c : C) : l.foldl f c = l'.foldl g c := by
  induction h generalizing c with
  | nil => rfl
  | cons hab _ ih => rw [List.foldl_cons, List.foldl_cons, hfg _ _ _ hab, ih]

/-- the items of the loop of `Merge.output` -/
theorem items_rel {σ : Heap α} {ms : List (MSignal R)} {ss : List (Signal α R)} (h : RepresentsAll σ ms ss)
    (idx : List Nat) :
    List.Forall₂ (fun (a : Nat × View × Int × String) (b : Nat × Mat α × Int × String) =>
      a.1 = b.1 ∧ Has σ a.2.1 b.2.1 ∧ a.2.2.1 = b.2.2.1 ∧ a.2.2.2 = b.2.2.2)
      (MSignal.signalItems idx ms) (Merge.signalItems idx ss) := by
  unfold MSignal.signalItems Merge.signalItems
  refine forall₂_zip (List.forall₂_same.2 fun _ _ => rfl) (forall₂_zip ?_ (forall₂_zip ?_ ?_))
  · refine forall₂_flatMap h fun a b hab => ?_
    rw [hab.count]
    exact forall₂_map_range _ fun i hi => hab.has.row hi
  · refine forall₂_flatMap h fun a b hab => ?_
    rw [hab.count]
    exact forall₂_map_range _ fun _ _ => hab.offset
  · refine forall₂_flatMap h fun a b hab => ?_
    rw [hab.labels]
    exact List.forall₂_same.2 fun _ _ => rfl

theorem sim_placeSignal [Zero α] {σ₀ σ : Heap α} {w : View} (mergedOffset : Int) (labels : List String)
    (state : Mat α × List String) (a : Nat × View × Int × String) (b : Nat × Mat α × Int × String) (hf : Frame σ₀ σ)
    (h : Holds σ₀ w σ state.1) (hl : labels = state.2)
    (hab : a.1 = b.1 ∧ Has σ₀ a.2.1 b.2.1 ∧ a.2.2.1 = b.2.2.1 ∧ a.2.2.2 = b.2.2.2) :
    Sim σ₀ (fun σ (l : List String) (st : Mat α × List String) => Holds σ₀ w σ st.1 ∧ l = st.2)
      (MSignal.placeSignal w mergedOffset labels a σ) (Merge.placeSignal mergedOffset state b) := by
  obtain ⟨i, v, off, label⟩ := a
  obtain ⟨i', S, off', label'⟩ := b
  obtain ⟨A, l⟩ := state
  obtain ⟨h1, h2, h3, h4⟩ := hab
  dsimp only at h1 h2 h3 h4 h hl
  subst h1 h3 h4 hl
  have hc : v.cols = S.cols := h2.2.2.1
  unfold MSignal.placeSignal Merge.placeSignal
  dsimp only
  rw [hc]
  refine (sim_setRow hf h (.refl _) _ _).bind fun _ _ _ hf' hA => ?_
  refine (sim_copyRow hf' hA h2 _ _).bind fun _ _ _ hf' hA => ?_
  refine (sim_setRow hf' hA (.refl _) _ _).bind fun _ _ _ hf' hA => ?_
  rcases Verif.setItem labels i label with e | l'
  · exact ⟨hf', rfl⟩
  · exact ⟨hf', hA, rfl⟩

theorem sim_merge [Zero α] {σ : Heap α} {ms : List (MSignal R)} {ss : List (Signal α R)} (h : RepresentsAll σ ms ss)
    (mode : MergeMode) :
    ∃ mem, Sim σ (Represents (R := R)) (MSignal.merge mode ms σ) (Merge.signals mem mode ss) ∧
      (2 ≤ ss.length → Sim σ (New σ) (MSignal.merge mode ms σ) (Merge.signals mem mode ss)) := by
  rcases h with _ | @⟨m, s, ms, ss, hm, h⟩
  · exact ⟨fun _ _ => 0, ⟨.refl σ, rfl⟩, fun h => by simp at h⟩
  rcases h with _ | @⟨m', s', ms, ss, hm', h⟩
  · obtain ⟨x⟩ : Nonempty α := ⟨0⟩
    exact ⟨fun _ _ => x, ⟨.refl σ, hm⟩, fun h => by simp at h⟩
  have hall : RepresentsAll σ (m :: m' :: ms) (s :: s' :: ss) := .cons hm (.cons hm' h)
  refine ⟨fresh σ ((s :: s' :: ss).foldl (fun m s => max m (s.offset + (s.length : Int))) (s.offset + s.length) -
    (s :: s' :: ss).foldl (fun m s => min m s.offset) s.offset).toNat, ?_⟩
  rw [and_iff_right_of_imp fun h => (h (by simp)).mono fun _ _ _ _ h => h.1]
  intro _
  unfold MSignal.merge Merge.signals Merge.signalsMany
  dsimp only
  rw [map_congr₂ (f := fun s : MSignal R => s.count) (g := fun s : Signal α R => s.count) hall fun a b h => h.count]
  rw [foldl_congr₂ (f := fun (c : Int) (s : MSignal R) => min c s.offset)
    (g := fun (c : Int) (s : Signal α R) => min c s.offset) hall fun c a b h => by rw [h.offset]]
  rw [foldl_congr₂ (f := fun (c : Int) (s : MSignal R) => max c (s.offset + (s.length : Int)))
    (g := fun (c : Int) (s : Signal α R) => max c (s.offset + (s.length : Int))) hall
    fun c a b h => by rw [h.offset, h.length]]
  rw [hm.offset, hm.length, hm.rate]
  refine sim_allocate (.refl σ) _ _ fun σ' w hf hr hc hw => ?_
  generalize Merge.indices mode ((s :: s' :: ss).map fun s => s.count) = idxs
  rcases idxs with e | idx
  · exact ⟨hf, rfl⟩
  · dsimp only
    refine Sim.bind (P := fun σ' (l : List String) (st : Mat α × List String) => Holds σ w σ' st.1 ∧ l = st.2) ?_
      fun σ'' l st hf hP => ?_
    · exact sim_fold (fun σ x y a b hf hP hQ => sim_placeSignal _ x y a b hf hP.1 hP.2 hQ) (items_rel hall idx) σ' _ _ hf
        ⟨hw, rfl⟩
    · obtain ⟨A, l'⟩ := st
      obtain ⟨h1, rfl⟩ := hP
      exact sim_new hf h1 _ _ _

/-- entries of `Concatenate.output` -/
def EntryRel (σ : Heap α) (a : Concatenate.Entry View) (b : Concatenate.Entry (Mat α)) : Prop :=
  a.start = b.start ∧ a.stop = b.stop ∧ Has σ a.data b.data

theorem entries_rel {σ : Heap α} {ms : List (MSignal R)} {ss : List (Signal α R)} (h : RepresentsAll σ ms ss)
    (i : Int) : List.Forall₂ (EntryRel σ) (MSignal.signalEntries i ms) (Concatenate.signalEntries i ss) := by
  induction h generalizing i with
  | nil => exact .nil
  | cons hab _ ih =>
    unfold MSignal.signalEntries Concatenate.signalEntries
    dsimp only
    rw [hab.offset, hab.length]
    exact .cons ⟨rfl, rfl, hab.has⟩ (ih _)

theorem orderedInsert_rel {σ : Heap α} {a : Concatenate.Entry View} {b : Concatenate.Entry (Mat α)}
    {l : List (Concatenate.Entry View)} {l' : List (Concatenate.Entry (Mat α))} (hab : EntryRel σ a b)
    (h : List.Forall₂ (EntryRel σ) l l') :
    List.Forall₂ (EntryRel σ) (l.orderedInsert Concatenate.Entry.le a) (l'.orderedInsert Concatenate.Entry.le b) := by
  induction h with
  | nil => exact .cons hab .nil
  | @cons c d l l' hcd hl ih =>
    rw [List.orderedInsert_cons, List.orderedInsert_cons]
    have e : Concatenate.Entry.le a c ↔ Concatenate.Entry.le b d := by
      unfold Concatenate.Entry.le
      rw [hab.1, hab.2.1, hcd.1, hcd.2.1]
    by_cases hle : Concatenate.Entry.le a c
    · rw [if_pos hle, if_pos (e.1 hle)]
      exact .cons hab (.cons hcd hl)
    · rw [if_neg hle, if_neg fun h => hle (e.2 h)]
      exact .cons hcd ih

theorem sort_rel {σ : Heap α} {l : List (Concatenate.Entry View)} {l' : List (Concatenate.Entry (Mat α))}
    (h : List.Forall₂ (EntryRel σ) l l') :
    List.Forall₂ (EntryRel σ) (Concatenate.sortEntries l) (Concatenate.sortEntries l') := by
  unfold Concatenate.sortEntries
  induction h with
  | nil => exact .nil
  | cons hab _ ih =>
    rw [List.insertionSort_cons, List.insertionSort_cons]
    exact orderedInsert_rel hab ih

theorem sim_writeSignal [Zero α] {σ₀ σ : Heap α} {w v : View} {A S : Mat α} (number : Nat) (start stop : Int)
    (hf : Frame σ₀ σ) (h : Holds σ₀ w σ A) (hv : Has σ₀ v S) :
    Sim σ₀ (fun σ (_ : Unit) A => Holds σ₀ w σ A) (MSignal.writeSignal number w start stop v σ)
      (Concatenate.writeSignal number A start stop S) := by
  have hr : v.rows = S.rows := hv.2.1
  unfold MSignal.writeSignal Concatenate.writeSignal
  rw [hr]
  refine (sim_copy hf h hv _ _).bind fun _ _ _ hf' hA => ?_
  exact sim_ite (fun _ => sim_scalar hf' hA _ _ _) fun _ => ⟨hf', hA⟩

theorem sim_copySignal [Zero α] [Add α] {σ₀ σ : Heap α} {w : View} {A : Mat α} (offset : Int) (number : Nat)
    (lastIndex : Int) {previous a : Concatenate.Entry View} {previous' b : Concatenate.Entry (Mat α)}
    (hf : Frame σ₀ σ) (h : Holds σ₀ w σ A) (hp : EntryRel σ₀ previous previous') (hab : EntryRel σ₀ a b) :
    Sim σ₀ (fun σ (i : Int) (st : Mat α × Int) => Holds σ₀ w σ st.1 ∧ i = st.2)
      (MSignal.copySignal offset number w lastIndex previous a σ)
      (Concatenate.copySignal offset number A lastIndex previous' b) := by
  have hr : a.data.rows = b.data.rows := hab.2.2.2.1
  have hc : a.data.cols = b.data.cols := hab.2.2.2.2.1
  unfold MSignal.copySignal Concatenate.copySignal
  simp only [hp.2.1, hab.1, hab.2.1, hr, hc]
  refine sim_ite (fun _ => sim_ite (fun _ => ?_) fun _ => ?_) fun _ => sim_ite (fun _ => ?_) fun _ => ?_
  · exact (sim_addTo hf h hab.2.2 _ _).bind fun _ _ _ hf' hA => ⟨hf', hA, rfl⟩
  · exact (sim_addTo hf h (hab.2.2.slice _ _) _ _).bind fun _ _ _ hf' hA =>
      (sim_writeSignal _ _ _ hf' hA (hab.2.2.slice _ _)).bind fun _ _ _ hf' hA => ⟨hf', hA, rfl⟩
  · exact (sim_scalar hf h _ _ _).bind fun _ _ _ hf' hA =>
      (sim_writeSignal _ _ _ hf' hA hab.2.2).bind fun _ _ _ hf' hA => ⟨hf', hA, rfl⟩
  · exact (sim_writeSignal _ _ _ hf h hab.2.2).bind fun _ _ _ hf' hA => ⟨hf', hA, rfl⟩

theorem sim_copySignals [Zero α] [Add α] {σ₀ : Heap α} {w : View} (offset : Int) (number : Nat)
    {l : List (Concatenate.Entry View)} {l' : List (Concatenate.Entry (Mat α))}
    (hl : List.Forall₂ (EntryRel σ₀) l l') (σ : Heap α) (A : Mat α)
    (lastIndex : Int) (previous : Concatenate.Entry View) (previous' : Concatenate.Entry (Mat α))
    (hf : Frame σ₀ σ) (h : Holds σ₀ w σ A) (hp : EntryRel σ₀ previous previous') :
    Sim σ₀ (fun σ (_ : Unit) A => Holds σ₀ w σ A) (MSignal.copySignals offset number w lastIndex previous l σ)
      (Concatenate.copySignals offset number A lastIndex previous' l') := by
  induction hl generalizing σ A lastIndex previous previous' with
  | nil => exact ⟨hf, h⟩
  | cons hab _ ih =>
    unfold MSignal.copySignals Concatenate.copySignals
    refine (sim_copySignal offset number lastIndex hf h hp hab).bind fun σ' i st hf' hA => ?_
    obtain ⟨A', i'⟩ := st
    obtain ⟨h1, rfl⟩ := hA
    exact ih σ' A' i _ _ hf' h1 hab

theorem sim_concatenate [Zero α] [Add α] {σ : Heap α} {ms : List (MSignal R)} {ss : List (Signal α R)}
    (h : RepresentsAll σ ms ss) :
    ∃ mem, Sim σ (Represents (R := R)) (MSignal.concatenate ms σ) (Concatenate.signals mem ss) ∧
      (2 ≤ ss.length → Sim σ (New σ) (MSignal.concatenate ms σ) (Concatenate.signals mem ss)) := by
  rcases h with _ | @⟨m, s, ms, ss, hm, h⟩
  · exact ⟨fun _ _ => 0, ⟨.refl σ, rfl⟩, fun h => by simp at h⟩
  rcases h with _ | @⟨m', s', ms, ss, hm', h⟩
  · exact ⟨fun _ _ => 0, ⟨.refl σ, hm⟩, fun h => by simp at h⟩
  have hall : RepresentsAll σ (m :: m' :: ms) (s :: s' :: ss) := .cons hm (.cons hm' h)
  have hs := sort_rel (entries_rel hall 0)
  unfold MSignal.concatenate Concatenate.signals Concatenate.signalsMany
  dsimp only
  rw [foldl_congr₂ (f := fun (c : Nat) (s : MSignal R) => max c s.count)
    (g := fun (c : Nat) (s : Signal α R) => max c s.count) hall fun c a b h => by rw [h.count]]
  revert hs
  generalize Concatenate.sortEntries (MSignal.signalEntries 0 (m :: m' :: ms)) = l
  generalize Concatenate.sortEntries (Concatenate.signalEntries 0 (s :: s' :: ss)) = l'
  intro hs
  rcases hs with _ | @⟨a, b, l, l', hab, hl⟩
  · exact ⟨fun _ _ => 0, ⟨.refl σ, rfl⟩, fun _ => ⟨.refl σ, rfl⟩⟩
  refine ⟨fresh σ (Concatenate.maxStop b l' - Concatenate.minStart b l').toNat, ?_⟩
  rw [and_iff_right_of_imp fun h => (h (by simp)).mono fun _ _ _ _ h => h.1]
  intro _
  have e1 : Concatenate.minStart a l = Concatenate.minStart b l' := by
    unfold Concatenate.minStart
    rw [hab.1]
    exact foldl_congr₂ hl (fun c a b h => by rw [h.1]) _
  have e2 : Concatenate.maxStop a l = Concatenate.maxStop b l' := by
    unfold Concatenate.maxStop
    rw [hab.2.1]
    exact foldl_congr₂ hl (fun c a b h => by rw [h.2.1]) _
  dsimp only
  rw [e1, e2, hab.1, hab.2.1, hm.rate]
  refine sim_allocate (.refl σ) _ _ fun σ' w hf hr hc hw => ?_
  exact (sim_writeSignal _ _ _ hf hw hab.2.2).bind fun σ₁ _ A₁ hf' hA =>
    (sim_copySignals _ _ hl σ₁ A₁ 0 a b hf' hA hab).bind fun _ _ _ hf' hA => sim_new hf' hA _ _ _

/-! ### Programs -/

/-- a statement of a program, that is executed with values; `mem` is the contents of the memory, that the statement
allocates -/
def Stmt.value [Zero α] [Add α] [Mul α] (mem : Nat → Nat → α) (env : List (Signal α R)) :
    Stmt α → Option (Py (Signal α R))
  | .getChannels i k => env[i]? >>= fun s => (s.getChannels k).map .ok
  | .getItem i k0 k1 => env[i]? >>= fun s => (s.getItem k0 k1).map .ok
  | .reversed i => env[i]?.map fun s => .ok s.reversed
  | .mapSamples f i => env[i]?.map fun s => .ok (s.mapSamples f)
  | .pad i length value => env[i]?.map fun s => s.pad mem length value
  | .shift i n mode => env[i]?.map fun s => s.shift mem n mode
  | .algebra f pivot label i j => env[i]? >>= fun s => env[j]?.map fun o => Signal.algebra mem f pivot label s o
  | .algebraArray f i j => env[i]? >>= fun s => env[j]?.map fun o => Signal.algebraArray mem f s o.channels
  | .algebraArrayRight f i j => env[i]? >>= fun s => env[j]?.map fun o => Signal.algebraArrayRight mem f s o.channels
  | .energyDecay i => env[i]?.map fun s => EnergyDecay.new mem s
  | .merge mode l => (lookup env l).map fun data => Merge.signals mem mode data
  | .concatenate l => (lookup env l).map fun data => Concatenate.signals mem data

/-- a program, that is executed with values: the variables or the exception, that ends the program -/
def values [Zero α] [Add α] [Mul α] (mem : Nat → Nat → Nat → α) :
    List (Stmt α) → List (Signal α R) → Option (Py (List (Signal α R)))
  | [], env => some (.ok env)
  | st :: rest, env => do
    match ← st.value (mem 0) env with
    | .ok s => values (fun n => mem (n + 1)) rest (env ++ [s])
    | .error e => some (.error e)

theorem get_rel {σ : Heap α} {ms : List (MSignal R)} {ss : List (Signal α R)} (h : RepresentsAll σ ms ss) (i : Nat) :
    (ms[i]? = none ∧ ss[i]? = none) ∨ ∃ m s, ms[i]? = some m ∧ ss[i]? = some s ∧ Represents σ m s := by
  induction h generalizing i with
  | nil => exact .inl ⟨rfl, rfl⟩
  | cons hab _ ih =>
    rcases i with _ | i
    · exact .inr ⟨_, _, rfl, rfl, hab⟩
    · simpa using ih i

theorem lookup_rel {σ : Heap α} {ms : List (MSignal R)} {ss : List (Signal α R)} (h : RepresentsAll σ ms ss)
    (l : List Nat) :
    (lookup ms l = none ∧ lookup ss l = none) ∨
      ∃ m s, lookup ms l = some m ∧ lookup ss l = some s ∧ RepresentsAll σ m s := by
  induction l with
  | nil => exact .inr ⟨[], [], rfl, rfl, .nil⟩
  | cons i l ih =>
    unfold lookup at ih ⊢
    rw [List.mapM_cons, List.mapM_cons]
    rcases get_rel h i with ⟨h1, h2⟩ | ⟨m, s, h1, h2, h3⟩
    · rw [h1, h2]; exact .inl ⟨rfl, rfl⟩
    · rw [h1, h2]
      rcases ih with ⟨g1, g2⟩ | ⟨m', s', g1, g2, g3⟩
      · rw [g1, g2]; exact .inl ⟨rfl, rfl⟩
      · rw [g1, g2]; exact .inr ⟨_, _, rfl, rfl, .cons h3 g3⟩

/-- Both computations of a statement are undefined, or that with arrays in memory behaves like that with values. -/
def StmtSim (σ : Heap α) (r : Option (Mem α (MSignal R))) (p : Option (Py (Signal α R))) : Prop :=
  match r, p with
  | none, none => True
  | some m, some p => Sim σ (Represents (R := R)) (m σ) p
  | _, _ => False

theorem stmt_sim [Zero α] [Add α] [Mul α] {σ : Heap α} {ms : List (MSignal R)} {ss : List (Signal α R)}
    (h : RepresentsAll σ ms ss) (st : Stmt α) : ∃ mem, StmtSim σ (st.run ms) (st.value mem ss) := by
  have one : ∀ (i : Nat) (f : MSignal R → Mem α (MSignal R)) (g : (Nat → Nat → α) → Signal α R → Py (Signal α R)),
      (∀ m s, Represents σ m s → ∃ mem, Sim σ (Represents (R := R)) (f m σ) (g mem s)) →
      ∃ mem, StmtSim σ (ms[i]?.map f) (ss[i]?.map (g mem)) := by
    intro i f g hfg
    rcases get_rel h i with ⟨h1, h2⟩ | ⟨m, s, h1, h2, h3⟩
    · rw [h1, h2]; exact ⟨fun _ _ => 0, trivial⟩
    · rw [h1, h2]; exact hfg m s h3
  have two : ∀ (i j : Nat) (f : MSignal R → MSignal R → Mem α (MSignal R))
      (g : (Nat → Nat → α) → Signal α R → Signal α R → Py (Signal α R)),
      (∀ m s m' s', Represents σ m s → Represents σ m' s' →
        ∃ mem, Sim σ (Represents (R := R)) (f m m' σ) (g mem s s')) →
      ∃ mem, StmtSim σ (ms[i]? >>= fun s => ms[j]?.map fun o => f s o)
        (ss[i]? >>= fun s => ss[j]?.map fun o => g mem s o) := by
    intro i j f g hfg
    rcases get_rel h i with ⟨h1, h2⟩ | ⟨m, s, h1, h2, h3⟩
    · rw [h1, h2]; exact ⟨fun _ _ => 0, trivial⟩
    · rcases get_rel h j with ⟨g1, g2⟩ | ⟨m', s', g1, g2, g3⟩
      · rw [h1, h2, g1, g2]; exact ⟨fun _ _ => 0, trivial⟩
      · rw [h1, h2, g1, g2]; exact hfg m s m' s' h3 g3
  cases st with
  | getChannels i k =>
    refine ⟨fun _ _ => 0, ?_⟩
    simp only [Stmt.run, Stmt.value]
    rcases get_rel h i with ⟨h1, h2⟩ | ⟨m, s, h1, h2, h3⟩
    · rw [h1, h2]; trivial
    · rw [h1, h2]
      rcases h3.getChannels k with ⟨g1, g2⟩ | ⟨m', s', g1, g2, g3, _⟩
      · simp only [Option.bind_eq_bind, Option.bind_some, g1, g2]; trivial
      · simp only [Option.bind_eq_bind, Option.bind_some, g1, g2]; exact ⟨.refl σ, g3⟩
  | getItem i k0 k1 =>
    refine ⟨fun _ _ => 0, ?_⟩
    simp only [Stmt.run, Stmt.value]
    rcases get_rel h i with ⟨h1, h2⟩ | ⟨m, s, h1, h2, h3⟩
    · rw [h1, h2]; trivial
    · rw [h1, h2]
      rcases h3.getItem k0 k1 with ⟨g1, g2⟩ | ⟨m', s', g1, g2, g3, _⟩
      · simp only [Option.bind_eq_bind, Option.bind_some, g1, g2]; trivial
      · simp only [Option.bind_eq_bind, Option.bind_some, g1, g2]; exact ⟨.refl σ, g3⟩
  | reversed i => exact one i _ (fun _ s => .ok s.reversed) fun m s hm => ⟨fun _ _ => 0, .refl σ, hm.reversed.1⟩
  | mapSamples f i =>
    exact one i _ (fun _ s => .ok (s.mapSamples f)) fun m s hm =>
      ⟨fun _ _ => 0, (sim_mapSamples hm f).mono fun _ _ _ _ h => h.1⟩
  | pad i length value => exact one i _ (fun mem s => s.pad mem length value) fun m s hm => ⟨_, (sim_pad hm _ _).1⟩
  | shift i n mode => exact one i _ (fun mem s => s.shift mem n mode) fun m s hm => ⟨_, (sim_shift hm _ _).1⟩
  | algebra f pivot label i j =>
    refine two i j _ (fun mem s o => Signal.algebra mem f pivot label s o) fun m s m' s' hm hm' => ?_
    obtain ⟨mem, h⟩ := sim_algebra hm hm' f pivot label
    exact ⟨mem, h.mono fun _ _ _ _ h => h.1⟩
  | algebraArray f i j =>
    exact two i j (fun s o => MSignal.algebraArray f s o.channels) (fun mem s o => Signal.algebraArray mem f s o.channels)
      fun m s m' s' hm hm' => ⟨_, (sim_algebraArray hm hm'.has f).mono fun _ _ _ _ h => h.1⟩
  | algebraArrayRight f i j =>
    exact two i j (fun s o => MSignal.algebraArrayRight f s o.channels)
      (fun mem s o => Signal.algebraArrayRight mem f s o.channels)
      fun m s m' s' hm hm' => ⟨_, (sim_algebraArrayRight hm hm'.has f).mono fun _ _ _ _ h => h.1⟩
  | energyDecay i =>
    exact one i _ (fun mem s => EnergyDecay.new mem s) fun m s hm =>
      ⟨_, (sim_energyDecay hm).mono fun _ _ _ _ h => h.1⟩
  | merge mode l =>
    simp only [Stmt.run, Stmt.value]
    rcases lookup_rel h l with ⟨h1, h2⟩ | ⟨m, s, h1, h2, h3⟩
    · rw [h1, h2]; exact ⟨fun _ _ => 0, trivial⟩
    · rw [h1, h2]
      obtain ⟨mem, h4⟩ := sim_merge h3 mode
      exact ⟨mem, h4.1⟩
  | concatenate l =>
    simp only [Stmt.run, Stmt.value]
    rcases lookup_rel h l with ⟨h1, h2⟩ | ⟨m, s, h1, h2, h3⟩
    · rw [h1, h2]; exact ⟨fun _ _ => 0, trivial⟩
    · rw [h1, h2]
      obtain ⟨mem, h4⟩ := sim_concatenate h3
      exact ⟨mem, h4.1⟩

/-! ### The properties -/

/-- **C146**: A program, that computes signals from signals by slicing, reversing, padding, shifting, by arithmetic, by
merging and concatenating them and by computing energy decay curves, has the same results with arrays in memory, which
are partly shared by the signals, as with signals, that are immutable values: it is undefined in the same cases, it
raises the same exceptions, and at its end, every variable is the signal, that has been computed for it, even if other
signals have been computed from it afterwards. Nothing, that has been in the memory before, has been changed. (The
contents of the memory, that is allocated by the program, are those from before the allocation.) -/
theorem C146_program [Zero α] [Add α] [Mul α] (program : List (Stmt α)) (σ : Heap α) (ms : List (MSignal R))
    (ss : List (Signal α R)) (h : RepresentsAll σ ms ss) :
    ∃ mem, match run program ms σ, values mem program ss with
      | none, none => True
      | some r, some p => Sim σ (fun σ' ms' ss' => RepresentsAll (R := R) σ' ms' ss') r p
      | _, _ => False := by
  induction program generalizing σ ms ss with
  | nil => exact ⟨fun _ _ _ => 0, .refl σ, h⟩
  | cons st rest ih =>
    obtain ⟨mem0, h0⟩ := stmt_sim h st
    unfold run
    rcases e1 : st.run ms with _ | m <;> rcases e2 : st.value mem0 ss with _ | p <;> rw [e1, e2] at h0
    · exact ⟨fun _ => mem0, by unfold values; rw [e2]; trivial⟩
    · exact h0.elim
    · exact h0.elim
    · simp only [Option.bind_eq_bind, Option.bind_some]
      rcases e3 : m σ with ⟨_ | s, σ'⟩ <;> rcases p with _ | s' <;> (unfold StmtSim at h0; dsimp only at h0; rw [e3] at h0)
      · exact ⟨fun _ => mem0, by unfold values; rw [e2]; exact h0⟩
      · exact h0.2.elim
      · exact h0.2.elim
      · obtain ⟨mem, h1⟩ := ih σ' (ms ++ [s]) (ss ++ [s'])
          (forall₂_append (h.frame h0.1) (.cons h0.2 .nil))
        refine ⟨fun n => match n with | 0 => mem0 | n + 1 => mem n, ?_⟩
        unfold values
        simp only [e2, Option.bind_eq_bind, Option.bind_some]
        revert h1
        rcases run rest (ms ++ [s]) σ' with _ | r <;> rcases values mem rest (ss ++ [s']) with _ | p <;> intro h1
        · trivial
        · exact h1
        · exact h1
        · refine ⟨h0.1.trans h1.1, h1.2⟩

/-- **C146**: Slicing a signal, reversing it and shifting it with its offset do not copy its samples and do not use
memory: the results are the right signals, and their arrays are in the same buffer. -/
theorem C146_views [Zero α] (σ : Heap α) (m : MSignal R) (s : Signal α R) (h : Represents σ m s) :
    (∀ k m', m.getChannels k = some m' → m'.channels.buf = m.channels.buf ∧
      ∃ s', s.getChannels k = some s' ∧ Represents σ m' s') ∧
    (∀ k0 k1 m', m.getItem k0 k1 = some m' → m'.channels.buf = m.channels.buf ∧
      ∃ s', s.getItem k0 k1 = some s' ∧ Represents σ m' s') ∧
    (m.reversed.channels.buf = m.channels.buf ∧ Represents σ m.reversed s.reversed) ∧
    (∀ n : Option Int, ∃ m', m.shift n .offset σ = (.ok m', σ) ∧ m'.channels = m.channels) ∧
    (∀ value, m.pad s.length value σ = (.ok m, σ)) := by
  refine ⟨fun k m' hm => ?_, fun k0 k1 m' hm => ?_, h.reversed.symm, fun n => ?_, fun value => ?_⟩
  · rcases h.getChannels k with ⟨g1, _⟩ | ⟨m'', s', g1, g2, g3, g4⟩
    · rw [g1] at hm; simp at hm
    · rw [g1, Option.some.injEq] at hm
      subst hm
      exact ⟨g4, s', g2, g3⟩
  · rcases h.getItem k0 k1 with ⟨g1, _⟩ | ⟨m'', s', g1, g2, g3, g4⟩
    · rw [g1] at hm; simp at hm
    · rw [g1, Option.some.injEq] at hm
      subst hm
      exact ⟨g4, s', g2, g3⟩
  · unfold MSignal.shift
    split
    · exact ⟨m, rfl, rfl⟩
    · rcases n with _ | n
      · exact ⟨_, rfl, rfl⟩
      · exact ⟨_, rfl, rfl⟩
  · unfold MSignal.pad
    rw [if_pos h.length.symm]
    rfl

/-- **C146**: The other operations store their results in a new buffer: the absolute values and the negative signal,
padding to a different length, shifting in the modes `CROP`, `PAD` and `CYCLE`, arithmetic with signals and arrays, the
energy decay curve, and merging and concatenating at least two signals. -/
theorem C146_new [Zero α] [Add α] [Mul α] (σ : Heap α) (m m' : MSignal R) (s o : Signal α R) (h : Represents σ m s)
    (h' : Represents σ m' o) :
    (∀ f, Sim σ (New σ) (m.mapSamples f σ) (.ok (s.mapSamples f))) ∧
    (∀ length value, length ≠ s.length → ∃ mem, Sim σ (New σ) (m.pad length value σ) (s.pad mem length value)) ∧
    (∀ n mode, n ≠ some 0 → mode ≠ .offset → ∃ mem, Sim σ (New σ) (m.shift n mode σ) (s.shift mem n mode)) ∧
    (∀ f pivot label, ∃ mem,
      Sim σ (New σ) (MSignal.algebra f pivot label m m' σ) (Signal.algebra mem f pivot label s o)) ∧
    (∀ f, ∃ mem, Sim σ (New σ) (MSignal.algebraArray f m m'.channels σ) (Signal.algebraArray mem f s o.channels)) ∧
    (∀ f, ∃ mem,
      Sim σ (New σ) (MSignal.algebraArrayRight f m m'.channels σ) (Signal.algebraArrayRight mem f s o.channels)) ∧
    (∃ mem, Sim σ (New σ) (m.energyDecay σ) (EnergyDecay.new mem s)) ∧
    (∀ mode ms ss, RepresentsAll σ ms ss →
      ∃ mem, Sim σ (New σ) (MSignal.merge mode (m :: m' :: ms) σ) (Merge.signals mem mode (s :: o :: ss))) ∧
    (∀ ms ss, RepresentsAll σ ms ss →
      ∃ mem, Sim σ (New σ) (MSignal.concatenate (m :: m' :: ms) σ) (Concatenate.signals mem (s :: o :: ss))) := by
  refine ⟨sim_mapSamples h, fun l v hl => ⟨_, (sim_pad h l v).2 hl⟩, fun n mode hn hm => ⟨_, (sim_shift h n mode).2 hn hm⟩,
    sim_algebra h h', fun f => ⟨_, sim_algebraArray h h'.has f⟩, fun f => ⟨_, sim_algebraArrayRight h h'.has f⟩,
    ⟨_, sim_energyDecay h⟩, fun mode ms ss hs => ?_, fun ms ss hs => ?_⟩
  · obtain ⟨mem, g⟩ := sim_merge (.cons h (.cons h' hs)) mode
    exact ⟨mem, g.2 (by simp)⟩
  · obtain ⟨mem, g⟩ := sim_concatenate (.cons h (.cons h' hs))
    exact ⟨mem, g.2 (by simp)⟩

/-- **C146**: If the caller overwrites samples in the array of a signal, that has been stored in a new buffer, the
signals, that have existed before, are not changed. -/
theorem C146_write_new (σ₀ σ : Heap α) (m m' : MSignal R) (s s' : Signal α R) (h : Represents σ₀ m s)
    (hf : Frame σ₀ σ) (h' : New σ₀ σ m' s') (r c : PySlice) (S : Mat α) :
    Represents (setItem m'.channels r c S σ).2 m s := by
  refine h.frame ?_
  unfold setItem
  rcases S.broadcastTo (r.count m'.channels.rows) (c.count m'.channels.cols) with _ | B
  · exact hf
  · refine ⟨by dsimp only; rw [writeAll_next]; exact hf.1, fun b hb => ?_⟩
    dsimp only
    rw [writeAll_buf]
    · exact hf.2 b hb
    · have := h'.2; simp only [View.slice]; omega

theorem writeAll_const (v : View) (x : α) (σ : Heap α) (i j : Nat) (hi : i < v.rows) (hj : j < v.cols) :
    (writeAll v (fun _ _ => x) σ).cells v.buf (v.pos i j) = x := by
  unfold writeAll
  have hm := mem_indices (q := (i, j)).2 ⟨hi, hj⟩
  revert hm
  generalize indices v.rows v.cols = l
  have key : ∀ (l : List (Nat × Nat)) (σ : Heap α), σ.cells v.buf (v.pos i j) = x →
      (l.foldl (fun σ p => σ.set v.buf (v.pos p.1 p.2) x) σ).cells v.buf (v.pos i j) = x := by
    intro l
    induction l with
    | nil => exact fun _ h => h
    | cons a t ih =>
      intro σ h
      rw [List.foldl_cons]
      refine ih _ ?_
      simp only [Heap.set]
      split
      · rfl
      · exact h
  induction l generalizing σ with
  | nil => intro h; simp at h
  | cons a t ih =>
    intro hm
    rw [List.foldl_cons]
    by_cases e : (i, j) = a
    · subst e
      refine key t _ ?_
      simp [Heap.set]
    · exact ih _ ((List.mem_cons.1 hm).resolve_left e)

theorem setItem_scalar (w : View) (r c : PySlice) (x : α) (σ : Heap α) :
    (setItem w r c (.scalar x) σ).2 = writeAll (w.slice r c) (fun _ _ => x) σ := by
  obtain ⟨B, hB, _, _, hx⟩ := Mat.broadcastTo_scalar x (r.count w.rows) (c.count w.cols)
  unfold setItem
  rw [hB]
  dsimp only
  rw [show B.get = fun _ _ => x from funext fun i => funext fun j => hx i j]

/-- **C146**: If the caller overwrites a sample in the array of a slice of a signal or of the reversed signal, this is
also the sample of the original signal. So signals, whose arrays are modified by the caller, are not immutable: the
constructor does not copy the array, and `channels()` returns the array itself. -/
theorem C146_write_view (σ : Heap α) (m : MSignal R) (x : α) :
    (∀ i j, i < m.count → j < m.length →
      ((setItem m.reversed.channels (.range i (i + 1)) (.range j (j + 1)) (.scalar x) σ).2.read m.channels).get
        i (m.length - 1 - j) = x) ∧
    (∀ k0 k1 c t m', m.getItem k0 k1 = some m' → Indexing.keyToSlice m.count k0 = some c →
      Indexing.keyToSlice m.length k1 = some t → ∀ i j, i < m'.count → j < m'.length →
      ((setItem m'.channels (.range i (i + 1)) (.range j (j + 1)) (.scalar x) σ).2.read m.channels).get
        (c.lo m.count + i) (t.lo m.length + j) = x) := by
  have key : ∀ (v : View) (i j : Nat), i < v.rows → j < v.cols →
      (setItem v (.range i (i + 1)) (.range j (j + 1)) (.scalar x) σ).2.cells v.buf (v.pos i j) = x := by
    intro v i j hi hj
    rw [setItem_scalar]
    have l1 : (PySlice.range i (i + 1)).lo v.rows = i := by
      rw [PySlice.lo_range, clampBound_nat]; omega
    have l2 : (PySlice.range j (j + 1)).lo v.cols = j := by
      rw [PySlice.lo_range, clampBound_nat]; omega
    have c1 : 0 < (PySlice.range i (i + 1)).count v.rows := by
      rw [PySlice.count_range, ← Nat.cast_add_one, clampBound_nat, clampBound_nat]; omega
    have c2 : 0 < (PySlice.range j (j + 1)).count v.cols := by
      rw [PySlice.count_range, ← Nat.cast_add_one, clampBound_nat, clampBound_nat]; omega
    have := writeAll_const (v.slice (.range i (i + 1)) (.range j (j + 1))) x σ 0 0 c1 c2
    rw [v.pos_slice, l1, l2] at this
    exact this
  refine ⟨fun i j hi hj => ?_, fun k0 k1 c t m' hm hc ht i j hi hj => ?_⟩
  · have := key m.reversed.channels i j hi hj
    change _ = x at this
    rw [show m.reversed.channels = m.channels.flip from rfl, m.channels.pos_flip i j hj] at this
    exact this
  · unfold MSignal.getItem at hm
    rw [hc, ht] at hm
    simp only [Option.some.injEq] at hm
    subst hm
    have := key (m.channels.slice c t) i j hi hj
    rw [m.channels.pos_slice] at this
    exact this

/-! ### Examples -/

/-- a memory with one buffer -/
def exHeap : Heap Int := ⟨1, fun _ p => p⟩

/-- a signal with two channels with three samples -/
def exSignal : MSignal Nat := ⟨⟨0, 0, 2, 3, 3, 1⟩, 48000, 0, ["a", "b"]⟩

/-- the hypotheses of the theorems are satisfiable -/
example : Represents exHeap exSignal ⟨⟨2, 3, fun i j => 3 * i + j⟩, 48000, 0, ["a", "b"]⟩ :=
  ⟨by decide, ⟨rfl, rfl, fun i j _ _ => by simp [Heap.read, exHeap, exSignal, View.pos]; ring⟩, rfl, rfl, rfl⟩

/-- the samples of the variables of a program -/
def samples (σ : Heap Int) (m : MSignal Nat) : List (List Int) :=
  (List.range m.count).map fun i => (List.range m.length).map fun j => (σ.read m.channels).get i j

/-- a program, whose variables share memory -/
def exProgram : List (Stmt Int) :=
  [.reversed 0, .getItem 1 (.slice none none) (.slice (some (.int 1)) none), .algebra (· + ·) none "Sum" 0 1,
    .shift 2 (some 1) .cycle]

example : (run exProgram [exSignal] exHeap).map (fun r => r.1.toOption.map fun env => env.map (samples r.2)) =
    some (some [[[0, 1, 2], [3, 4, 5]], [[2, 1, 0], [5, 4, 3]], [[1, 0], [4, 3]],
      [[0, 1, 4, 1, 0], [3, 4, 10, 4, 3]], [[0, 1], [3, 4]]]) := by decide +kernel

end Memory
end Verif
