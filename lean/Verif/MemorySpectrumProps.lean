import Verif.MemorySpectrum
import Verif.MemoryProps

/-
C156: Spectrums behave like immutable values, although they share memory.
-/

namespace Verif
namespace Memory

variable {α R : Type}

namespace MSpectrum

/-- The spectrum `m` in the memory is the spectrum `s`: its array is in an existing buffer and has the same shape and the
same elements. -/
structure Represents (σ : Heap α) (m : MSpectrum R) (s : Spectrum α R) : Prop where
  valid : m.channels.buf < σ.next
  eqv : (σ.read m.channels).Eqv s.channels
  resolution : m.resolution = s.resolution
  labels : m.labels = s.labels

theorem Represents.frame {σ₀ σ : Heap α} {m : MSpectrum R} {s : Spectrum α R} (h : Represents σ₀ m s)
    (hf : Frame σ₀ σ) : Represents σ m s :=
  ⟨lt_of_lt_of_le h.valid hf.1, by rw [hf.read h.valid]; exact h.eqv, h.resolution, h.labels⟩

theorem Represents.has {σ : Heap α} {m : MSpectrum R} {s : Spectrum α R} (h : Represents σ m s) :
    Has σ m.channels s.channels := ⟨h.valid, h.eqv⟩

theorem Represents.count {σ : Heap α} {m : MSpectrum R} {s : Spectrum α R} (h : Represents σ m s) :
    m.count = s.count := h.eqv.1

theorem Represents.length {σ : Heap α} {m : MSpectrum R} {s : Spectrum α R} (h : Represents σ m s) :
    m.length = s.length := h.eqv.2.1

/-- The result of a computation, that creates a new spectrum: the spectrum `m` is the spectrum `s`, and its array is in a
buffer, that has not been used before. -/
def New (σ₀ : Heap α) (σ : Heap α) (m : MSpectrum R) (s : Spectrum α R) : Prop :=
  Represents σ m s ∧ σ₀.next ≤ m.channels.buf

theorem sim_new {σ₀ σ : Heap α} {w : View} {A : Mat α} (hf : Frame σ₀ σ) (h : Holds σ₀ w σ A) (resolution : R)
    (labels : Option (List String)) :
    Sim σ₀ (New σ₀) ((pure (MSpectrum.new w resolution labels) : Mem α (MSpectrum R)) σ)
      (.ok (Spectrum.new A resolution labels)) := by
  refine ⟨hf, ⟨h.valid, h.eqv, rfl, ?_⟩, h.new⟩
  simp [MSpectrum.new, Spectrum.new, h.rows]

theorem sim_old {σ₀ : Heap α} {v : View} {A : Mat α} (h : Has σ₀ v A) (resolution : R)
    (labels : Option (List String)) :
    Represents σ₀ (MSpectrum.new v resolution labels) (Spectrum.new A resolution labels) := by
  refine ⟨h.1, h.2, rfl, ?_⟩
  have : v.rows = A.rows := h.2.1
  simp [MSpectrum.new, Spectrum.new, this]

theorem Represents.getChannels {σ : Heap α} {m : MSpectrum R} {s : Spectrum α R} (h : Represents σ m s) (k : Indexing.Key) :
    (m.getChannels k = none ∧ s.getChannels k = none) ∨
    ∃ m' s', m.getChannels k = some m' ∧ s.getChannels k = some s' ∧ Represents σ m' s' ∧
      m'.channels.buf = m.channels.buf := by
  unfold MSpectrum.getChannels Spectrum.getChannels
  rw [h.count, h.resolution, h.labels]
  rcases Indexing.keyToSlice s.count k with _ | c
  · exact .inl ⟨rfl, rfl⟩
  · exact .inr ⟨_, _, rfl, rfl, sim_old (h.has.slice c .all) _ _, rfl⟩

theorem Represents.getItem {σ : Heap α} {m : MSpectrum R} {s : Spectrum α R} (h : Represents σ m s) (k0 k1 : Indexing.Key) :
    (m.getItem k0 k1 = none ∧ s.getItem k0 k1 = none) ∨
    ∃ m' s', m.getItem k0 k1 = some m' ∧ s.getItem k0 k1 = some s' ∧ Represents σ m' s' ∧
      m'.channels.buf = m.channels.buf := by
  unfold MSpectrum.getItem Spectrum.getItem
  rw [h.count, h.length, h.resolution, h.labels]
  rcases Indexing.keyToSlice s.count k0 with _ | c <;> rcases Indexing.keyToSlice s.length k1 with _ | t
  · exact .inl ⟨rfl, rfl⟩
  · exact .inl ⟨rfl, rfl⟩
  · exact .inl ⟨rfl, rfl⟩
  · exact .inr ⟨_, _, rfl, rfl, sim_old (h.has.slice c t) _ _, rfl⟩

theorem sim_mapSamples {σ : Heap α} {m : MSpectrum R} {s : Spectrum α R} (h : Represents σ m s) (f : α → α) :
    Sim σ (New σ) (m.mapSamples f σ) (.ok (s.mapSamples f)) := by
  unfold MSpectrum.mapSamples Spectrum.mapSamples
  simp only [h.count, h.length, h.resolution, h.labels]
  refine sim_allocate (.refl σ) _ _ fun σ' w hf hr hc hw => ?_
  exact Sim.bind (q := fun A => .ok (Spectrum.new A s.resolution (some s.labels)))
    (sim_setAll hf hw ((h.has.frame hf).2.map f) hr hc) fun σ'' _ A hf' hA => sim_new hf' hA _ _

theorem sim_pad {σ : Heap α} {m : MSpectrum R} {s : Spectrum α R} (h : Represents σ m s) (length : Nat) (value : α) :
    Sim σ (Represents (R := R)) (m.pad length value σ) (s.pad (fresh σ length) length value) ∧
    (length ≠ s.length → Sim σ (New σ) (m.pad length value σ) (s.pad (fresh σ length) length value)) := by
  have key : length ≠ s.length → Sim σ (New σ) (m.pad length value σ) (s.pad (fresh σ length) length value) := by
    intro hl
    unfold MSpectrum.pad Spectrum.pad
    simp only [h.count, h.length, h.resolution, h.labels]
    rw [if_neg hl, if_neg hl]
    refine sim_allocate (.refl σ) _ _ fun σ' w hf hr hc hw => ?_
    split
    · exact (sim_copy hf hw (h.has.slice _ _) _ _).bind fun _ _ _ hf' hA => sim_new hf' hA _ _
    · simp only [bind_assoc]
      exact (sim_copy hf hw h.has _ _).bind fun _ _ _ hf' hA =>
        (sim_scalar hf' hA _ _ _).bind fun _ _ _ hf' hA => sim_new hf' hA _ _
  refine ⟨?_, key⟩
  by_cases hl : length = s.length
  · unfold MSpectrum.pad Spectrum.pad
    rw [h.length, if_pos hl, if_pos hl]
    exact ⟨.refl σ, h⟩
  · exact (key hl).mono fun _ _ _ _ h => h.1

/-! ### Arithmetic -/

theorem sim_result {σ₀ σ : Heap α} {w : View} {A : Mat α} (hf : Frame σ₀ σ) (h : Holds σ₀ w σ A) (resolution : R)
    (label : String) :
    Sim σ₀ (New σ₀) ((pure (MSpectrum.new w resolution (some (List.replicate w.rows label))) : Mem α (MSpectrum R)) σ)
      (.ok (Spectrum.new A resolution (some (List.replicate A.rows label)))) := by
  rw [h.rows]
  exact sim_new hf h _ _

theorem sim_assoc {A B C D : Type} {σ₀ σ : Heap α} {P : Heap α → C → D → Prop} {x : Mem α A} {y : A → Mem α B}
    {z : B → Mem α C} {p : Py D} (h : Sim σ₀ P ((x >>= fun a => y a >>= z) σ) p) :
    Sim σ₀ P (((x >>= y) >>= z) σ) p := by
  have e : ((x >>= y) >>= z) σ = (x >>= fun a => y a >>= z) σ := by
    simp only [bind]
    rcases x σ with ⟨_ | a, σ'⟩ <;> rfl
  rw [e]
  exact h

theorem sim_algebra {σ : Heap α} {m m' : MSpectrum R} {s o : Spectrum α R} (hs : Represents σ m s)
    (ho : Represents σ m' o) (f : α → α → α) (pivot : Option α) (label : String) :
    Sim σ (New σ) (MSpectrum.algebra f pivot label m m' σ)
      (Spectrum.algebra (fresh σ s.length) f pivot label s o) := by
  unfold MSpectrum.algebra Spectrum.algebra MSpectrum.compute computedRows
  simp only [hs.count, hs.length, hs.resolution, ho.count]
  by_cases h1 : s.count = 1
  · simp only [if_pos h1]
    refine sim_allocate (.refl σ) _ _ fun σ' w hf hr hc hw => ?_
    exact (sim_ufuncViews f hf hw (hs.has.row (by unfold Spectrum.count at h1; omega)) ho.has _ _).bind
      fun _ _ _ hf' hA => sim_result hf' hA _ _
  simp only [if_neg h1]
  by_cases h2 : o.count = 1
  · simp only [if_pos h2]
    refine sim_allocate (.refl σ) _ _ fun σ' w hf hr hc hw => ?_
    exact (sim_ufuncViews f hf hw hs.has (ho.has.row (by unfold Spectrum.count at h2; omega)) _ _).bind
      fun _ _ _ hf' hA => sim_result hf' hA _ _
  simp only [if_neg h2]
  by_cases h3 : s.count < o.count
  · simp only [if_pos h3]
    refine sim_allocate (.refl σ) _ _ fun σ' w hf hr hc hw => ?_
    refine sim_assoc ?_
    refine (sim_ufuncViews f hf hw hs.has (ho.has.slice _ _) _ _).bind fun _ _ _ hf' hA => ?_
    rcases pivot with _ | p
    · exact (sim_copy hf' hA (ho.has.slice _ _) _ _).bind fun _ _ _ hf' hA => sim_result hf' hA _ _
    · exact Sim.bind (P := fun σ' (_ : Unit) A => Holds σ w σ' A)
        (sim_ufunc2 f hf' hA (.refl _) ((ho.has.slice _ _).frame hf').2 _ _) fun _ _ _ hf' hA => sim_result hf' hA _ _
  · simp only [if_neg h3]
    refine sim_allocate (.refl σ) _ _ fun σ' w hf hr hc hw => ?_
    refine sim_assoc ?_
    exact (sim_ufuncViews f hf hw (hs.has.slice _ _) ho.has _ _).bind fun _ _ _ hf' hA =>
      (sim_copy hf' hA (hs.has.slice _ _) _ _).bind fun _ _ _ hf' hA => sim_result hf' hA _ _

theorem sim_algebraArray {σ : Heap α} {m : MSpectrum R} {s : Spectrum α R} {v : View} {O : Mat α} (hs : Represents σ m s)
    (hv : Has σ v O) (f : α → α → α) :
    Sim σ (New σ) (MSpectrum.algebraArray f m v σ) (Spectrum.algebraArray (fresh σ s.length) f s O) := by
  unfold MSpectrum.algebraArray Spectrum.algebraArray
  simp only [hs.count, hs.length, hs.resolution, hs.labels]
  refine sim_allocate (.refl σ) _ _ fun σ' w hf hr hc hw => ?_
  exact (sim_ufuncViews f hf hw hs.has hv _ _).bind fun _ _ _ hf' hA => sim_new hf' hA _ _

theorem sim_algebraArrayRight {σ : Heap α} {m : MSpectrum R} {s : Spectrum α R} {v : View} {O : Mat α}
    (hs : Represents σ m s) (hv : Has σ v O) (f : α → α → α) :
    Sim σ (New σ) (MSpectrum.algebraArrayRight f m v σ) (Spectrum.algebraArrayRight (fresh σ s.length) f s O) := by
  unfold MSpectrum.algebraArrayRight Spectrum.algebraArrayRight
  simp only [hs.count, hs.length, hs.resolution, hs.labels]
  refine sim_allocate (.refl σ) _ _ fun σ' w hf hr hc hw => ?_
  exact (sim_ufuncViews f hf hw hv hs.has _ _).bind fun _ _ _ hf' hA => sim_new hf' hA _ _

/-! ### Merging -/

/-- spectrums in the memory -/
def RepresentsAll (σ : Heap α) (ms : List (MSpectrum R)) (ss : List (Spectrum α R)) : Prop :=
  List.Forall₂ (Represents σ) ms ss

theorem RepresentsAll.frame {σ₀ σ : Heap α} {ms : List (MSpectrum R)} {ss : List (Spectrum α R)}
    (h : RepresentsAll σ₀ ms ss) (hf : Frame σ₀ σ) : RepresentsAll σ ms ss :=
  List.Forall₂.imp (fun _ _ h => h.frame hf) h

/-- the items of the loop of `Merge.output` -/
theorem items_rel {σ : Heap α} {ms : List (MSpectrum R)} {ss : List (Spectrum α R)} (h : RepresentsAll σ ms ss)
    (idx : List Nat) :
    List.Forall₂ (fun (a : Nat × View × String) (b : Nat × Mat α × String) =>
      a.1 = b.1 ∧ Has σ a.2.1 b.2.1 ∧ a.2.2 = b.2.2)
      (MSpectrum.spectrumItems idx ms) (Merge.spectrumItems idx ss) := by
  unfold MSpectrum.spectrumItems Merge.spectrumItems
  refine forall₂_zip (List.forall₂_same.2 fun _ _ => rfl) (forall₂_zip ?_ ?_)
  · refine forall₂_flatMap h fun a b hab => ?_
    rw [hab.count]
    exact forall₂_map_range _ fun i hi => hab.has.row hi
  · refine forall₂_flatMap h fun a b hab => ?_
    rw [hab.labels]
    exact List.forall₂_same.2 fun _ _ => rfl

theorem sim_placeSpectrum [Zero α] {σ₀ σ : Heap α} {w : View} (labels : List String)
    (state : Mat α × List String) (a : Nat × View × String) (b : Nat × Mat α × String) (hf : Frame σ₀ σ)
    (h : Holds σ₀ w σ state.1) (hl : labels = state.2)
    (hab : a.1 = b.1 ∧ Has σ₀ a.2.1 b.2.1 ∧ a.2.2 = b.2.2) :
    Sim σ₀ (fun σ (l : List String) (st : Mat α × List String) => Holds σ₀ w σ st.1 ∧ l = st.2)
      (MSpectrum.placeSpectrum w labels a σ) (Merge.placeSpectrum state b) := by
  obtain ⟨i, v, label⟩ := a
  obtain ⟨i', S, label'⟩ := b
  obtain ⟨A, l⟩ := state
  obtain ⟨h1, h2, h3⟩ := hab
  dsimp only at h1 h2 h3 h hl
  subst h1 h3 hl
  have hc : v.cols = S.cols := h2.2.2.1
  unfold MSpectrum.placeSpectrum Merge.placeSpectrum
  dsimp only
  rw [hc]
  refine (sim_copyRow hf h h2 _ _).bind fun _ _ _ hf' hA => ?_
  refine (sim_setRow hf' hA (.refl _) _ _).bind fun _ _ _ hf' hA => ?_
  rcases Verif.setItem labels i label with e | l'
  · exact ⟨hf', rfl⟩
  · exact ⟨hf', hA, rfl⟩

theorem sim_merge [Zero α] {σ : Heap α} {ms : List (MSpectrum R)} {ss : List (Spectrum α R)} (h : RepresentsAll σ ms ss)
    (mode : MergeMode) :
    ∃ mem, Sim σ (Represents (R := R)) (MSpectrum.merge mode ms σ) (Merge.spectrums mem mode ss) ∧
      (2 ≤ ss.length → Sim σ (New σ) (MSpectrum.merge mode ms σ) (Merge.spectrums mem mode ss)) := by
  rcases h with _ | @⟨m, s, ms, ss, hm, h⟩
  · exact ⟨fun _ _ => 0, ⟨.refl σ, rfl⟩, fun h => by simp at h⟩
  rcases h with _ | @⟨m', s', ms, ss, hm', h⟩
  · exact ⟨fun _ _ => 0, ⟨.refl σ, hm⟩, fun h => by simp at h⟩
  have hall : RepresentsAll σ (m :: m' :: ms) (s :: s' :: ss) := .cons hm (.cons hm' h)
  refine ⟨fresh σ ((s :: s' :: ss).foldl (fun m s => max m s.length) s.length), ?_⟩
  rw [and_iff_right_of_imp fun h => (h (by simp)).mono fun _ _ _ _ h => h.1]
  intro _
  unfold MSpectrum.merge Merge.spectrums Merge.spectrumsMany
  dsimp only
  rw [map_congr₂ (f := fun s : MSpectrum R => s.count) (g := fun s : Spectrum α R => s.count) hall fun a b h => h.count]
  rw [foldl_congr₂ (f := fun (c : Nat) (s : MSpectrum R) => max c s.length)
    (g := fun (c : Nat) (s : Spectrum α R) => max c s.length) hall fun c a b h => by rw [h.length]]
  rw [hm.length, hm.resolution]
  refine sim_allocate (.refl σ) _ _ fun σ' w hf hr hc hw => ?_
  generalize Merge.indices mode ((s :: s' :: ss).map fun s => s.count) = idxs
  rcases idxs with e | idx
  · exact ⟨hf, rfl⟩
  · dsimp only
    refine Sim.bind (P := fun σ' (l : List String) (st : Mat α × List String) => Holds σ w σ' st.1 ∧ l = st.2) ?_
      fun σ'' l st hf hP => ?_
    · exact sim_fold (fun σ x y a b hf hP hQ => sim_placeSpectrum x y a b hf hP.1 hP.2 hQ) (items_rel hall idx) σ' _ _ hf
        ⟨hw, rfl⟩
    · obtain ⟨A, l'⟩ := st
      obtain ⟨h1, rfl⟩ := hP
      exact sim_new hf h1 _ _

end MSpectrum

/-! ### Programs with values -/

/-- a statement of a program, that is executed with values; `mem` is the contents of the memory, that the statement
allocates -/
def SpectrumStmt.value [Zero α] (mem : Nat → Nat → α) (env : List (Spectrum α R)) :
    SpectrumStmt α → Option (Py (Spectrum α R))
  | .getChannels i k => env[i]? >>= fun s => (s.getChannels k).map .ok
  | .getItem i k0 k1 => env[i]? >>= fun s => (s.getItem k0 k1).map .ok
  | .mapSamples f i => env[i]?.map fun s => .ok (s.mapSamples f)
  | .pad i length value => env[i]?.map fun s => s.pad mem length value
  | .algebra f pivot label i j => env[i]? >>= fun s => env[j]?.map fun o => Spectrum.algebra mem f pivot label s o
  | .algebraArray f i j => env[i]? >>= fun s => env[j]?.map fun o => Spectrum.algebraArray mem f s o.channels
  | .algebraArrayRight f i j => env[i]? >>= fun s => env[j]?.map fun o => Spectrum.algebraArrayRight mem f s o.channels
  | .merge mode l => (lookup env l).map fun data => Merge.spectrums mem mode data

/-- a program, that is executed with values: the variables or the exception, that ends the program -/
def spectrumValues [Zero α] (mem : Nat → Nat → Nat → α) :
    List (SpectrumStmt α) → List (Spectrum α R) → Option (Py (List (Spectrum α R)))
  | [], env => some (.ok env)
  | st :: rest, env => do
    match ← st.value (mem 0) env with
    | .ok s => spectrumValues (fun n => mem (n + 1)) rest (env ++ [s])
    | .error e => some (.error e)

namespace MSpectrum

theorem get_rel {σ : Heap α} {ms : List (MSpectrum R)} {ss : List (Spectrum α R)} (h : RepresentsAll σ ms ss) (i : Nat) :
    (ms[i]? = none ∧ ss[i]? = none) ∨ ∃ m s, ms[i]? = some m ∧ ss[i]? = some s ∧ Represents σ m s := by
  induction h generalizing i with
  | nil => exact .inl ⟨rfl, rfl⟩
  | cons hab _ ih =>
    rcases i with _ | i
    · exact .inr ⟨_, _, rfl, rfl, hab⟩
    · simpa using ih i

theorem lookup_rel {σ : Heap α} {ms : List (MSpectrum R)} {ss : List (Spectrum α R)} (h : RepresentsAll σ ms ss)
    (l : List Nat) :
    (lookup ms l = none ∧ lookup ss l = none) ∨
      ∃ m s, lookup ms l = some m ∧ lookup ss l = some s ∧ RepresentsAll σ m s := by
  induction l with
  | nil => exact .inr ⟨[], [], rfl, rfl, .nil⟩
  | cons i l ih =>
    unfold lookup at ih ⊢
    rw [List.mapM_cons, List.mapM_cons]
    rcases get_rel h i with ⟨h1, h2⟩ | ⟨m, s, h1, h2, h3⟩
    · rw [h1, h2]; exact .inl ⟨rfl, rfl⟩
    · rw [h1, h2]
      rcases ih with ⟨g1, g2⟩ | ⟨m', s', g1, g2, g3⟩
      · rw [g1, g2]; exact .inl ⟨rfl, rfl⟩
      · rw [g1, g2]; exact .inr ⟨_, _, rfl, rfl, .cons h3 g3⟩

/-- Both computations of a statement are undefined, or that with arrays in memory behaves like that with values. -/
def StmtSim (σ : Heap α) (r : Option (Mem α (MSpectrum R))) (p : Option (Py (Spectrum α R))) : Prop :=
  match r, p with
  | none, none => True
  | some m, some p => Sim σ (Represents (R := R)) (m σ) p
  | _, _ => False

theorem stmt_sim [Zero α] {σ : Heap α} {ms : List (MSpectrum R)} {ss : List (Spectrum α R)}
    (h : RepresentsAll σ ms ss) (st : SpectrumStmt α) : ∃ mem, StmtSim σ (st.run ms) (st.value mem ss) := by
  have one : ∀ (i : Nat) (f : MSpectrum R → Mem α (MSpectrum R))
      (g : (Nat → Nat → α) → Spectrum α R → Py (Spectrum α R)),
      (∀ m s, Represents σ m s → ∃ mem, Sim σ (Represents (R := R)) (f m σ) (g mem s)) →
      ∃ mem, StmtSim σ (ms[i]?.map f) (ss[i]?.map (g mem)) := by
    intro i f g hfg
    rcases get_rel h i with ⟨h1, h2⟩ | ⟨m, s, h1, h2, h3⟩
    · rw [h1, h2]; exact ⟨fun _ _ => 0, trivial⟩
    · rw [h1, h2]; exact hfg m s h3
  have two : ∀ (i j : Nat) (f : MSpectrum R → MSpectrum R → Mem α (MSpectrum R))
      (g : (Nat → Nat → α) → Spectrum α R → Spectrum α R → Py (Spectrum α R)),
      (∀ m s m' s', Represents σ m s → Represents σ m' s' →
        ∃ mem, Sim σ (Represents (R := R)) (f m m' σ) (g mem s s')) →
      ∃ mem, StmtSim σ (ms[i]? >>= fun s => ms[j]?.map fun o => f s o)
        (ss[i]? >>= fun s => ss[j]?.map fun o => g mem s o) := by
    intro i j f g hfg
    rcases get_rel h i with ⟨h1, h2⟩ | ⟨m, s, h1, h2, h3⟩
    · rw [h1, h2]; exact ⟨fun _ _ => 0, trivial⟩
    · rcases get_rel h j with ⟨g1, g2⟩ | ⟨m', s', g1, g2, g3⟩
      · rw [h1, h2, g1, g2]; exact ⟨fun _ _ => 0, trivial⟩
      · rw [h1, h2, g1, g2]; exact hfg m s m' s' h3 g3
  cases st with
  | getChannels i k =>
    refine ⟨fun _ _ => 0, ?_⟩
    simp only [SpectrumStmt.run, SpectrumStmt.value]
    rcases get_rel h i with ⟨h1, h2⟩ | ⟨m, s, h1, h2, h3⟩
    · rw [h1, h2]; trivial
    · rw [h1, h2]
      rcases h3.getChannels k with ⟨g1, g2⟩ | ⟨m', s', g1, g2, g3, _⟩
      · simp only [Option.bind_eq_bind, Option.bind_some, g1, g2]; trivial
      · simp only [Option.bind_eq_bind, Option.bind_some, g1, g2]; exact ⟨.refl σ, g3⟩
  | getItem i k0 k1 =>
    refine ⟨fun _ _ => 0, ?_⟩
    simp only [SpectrumStmt.run, SpectrumStmt.value]
    rcases get_rel h i with ⟨h1, h2⟩ | ⟨m, s, h1, h2, h3⟩
    · rw [h1, h2]; trivial
    · rw [h1, h2]
      rcases h3.getItem k0 k1 with ⟨g1, g2⟩ | ⟨m', s', g1, g2, g3, _⟩
      · simp only [Option.bind_eq_bind, Option.bind_some, g1, g2]; trivial
      · simp only [Option.bind_eq_bind, Option.bind_some, g1, g2]; exact ⟨.refl σ, g3⟩
  | mapSamples f i =>
    exact one i _ (fun _ s => .ok (s.mapSamples f)) fun m s hm =>
      ⟨fun _ _ => 0, (sim_mapSamples hm f).mono fun _ _ _ _ h => h.1⟩
  | pad i length value => exact one i _ (fun mem s => s.pad mem length value) fun m s hm => ⟨_, (sim_pad hm _ _).1⟩
  | algebra f pivot label i j =>
    exact two i j _ (fun mem s o => Spectrum.algebra mem f pivot label s o) fun m s m' s' hm hm' =>
      ⟨_, (sim_algebra hm hm' f pivot label).mono fun _ _ _ _ h => h.1⟩
  | algebraArray f i j =>
    exact two i j (fun s o => MSpectrum.algebraArray f s o.channels)
      (fun mem s o => Spectrum.algebraArray mem f s o.channels)
      fun m s m' s' hm hm' => ⟨_, (sim_algebraArray hm hm'.has f).mono fun _ _ _ _ h => h.1⟩
  | algebraArrayRight f i j =>
    exact two i j (fun s o => MSpectrum.algebraArrayRight f s o.channels)
      (fun mem s o => Spectrum.algebraArrayRight mem f s o.channels)
      fun m s m' s' hm hm' => ⟨_, (sim_algebraArrayRight hm hm'.has f).mono fun _ _ _ _ h => h.1⟩
  | merge mode l =>
    simp only [SpectrumStmt.run, SpectrumStmt.value]
    rcases lookup_rel h l with ⟨h1, h2⟩ | ⟨m, s, h1, h2, h3⟩
    · rw [h1, h2]; exact ⟨fun _ _ => 0, trivial⟩
    · rw [h1, h2]
      obtain ⟨mem, h4⟩ := sim_merge h3 mode
      exact ⟨mem, h4.1⟩

end MSpectrum

/-! ### The properties -/

/-- **C156**: A program, that computes spectrums from spectrums by slicing and padding, by element-wise functions, by
arithmetic with spectrums and arrays and by merging them, has the same results with arrays in memory, which are partly
shared by the spectrums, as with spectrums, that are immutable values: it is undefined in the same cases, it raises the
same exceptions, and at its end, every variable is the spectrum, that has been computed for it, even if other spectrums
have been computed from it afterwards. Nothing, that has been in the memory before, has been changed. (The contents of the
memory, that is allocated by the program, are those from before the allocation.) -/
theorem C156_program [Zero α] (program : List (SpectrumStmt α)) (σ : Heap α) (ms : List (MSpectrum R))
    (ss : List (Spectrum α R)) (h : MSpectrum.RepresentsAll σ ms ss) :
    ∃ mem, match runSpectrums program ms σ, spectrumValues mem program ss with
      | none, none => True
      | some r, some p => Sim σ (fun σ' ms' ss' => MSpectrum.RepresentsAll (R := R) σ' ms' ss') r p
      | _, _ => False := by
  induction program generalizing σ ms ss with
  | nil => exact ⟨fun _ _ _ => 0, .refl σ, h⟩
  | cons st rest ih =>
    obtain ⟨mem0, h0⟩ := MSpectrum.stmt_sim h st
    unfold runSpectrums
    rcases e1 : st.run ms with _ | m <;> rcases e2 : st.value mem0 ss with _ | p <;> rw [e1, e2] at h0
    · exact ⟨fun _ => mem0, by unfold spectrumValues; rw [e2]; trivial⟩
    · exact h0.elim
    · exact h0.elim
    · simp only [Option.bind_eq_bind, Option.bind_some]
      rcases e3 : m σ with ⟨_ | s, σ'⟩ <;> rcases p with _ | s' <;>
        (unfold MSpectrum.StmtSim at h0; dsimp only at h0; rw [e3] at h0)
      · exact ⟨fun _ => mem0, by unfold spectrumValues; rw [e2]; exact h0⟩
      · exact h0.2.elim
      · exact h0.2.elim
      · obtain ⟨mem, h1⟩ := ih σ' (ms ++ [s]) (ss ++ [s'])
          (forall₂_append (h.frame h0.1) (.cons h0.2 .nil))
        refine ⟨fun n => match n with | 0 => mem0 | n + 1 => mem n, ?_⟩
        unfold spectrumValues
        simp only [e2, Option.bind_eq_bind, Option.bind_some]
        revert h1
        rcases runSpectrums rest (ms ++ [s]) σ' with _ | r <;>
          rcases spectrumValues mem rest (ss ++ [s']) with _ | p <;> intro h1
        · trivial
        · exact h1
        · exact h1
        · refine ⟨h0.1.trans h1.1, h1.2⟩

/-- **C156**: Slicing a spectrum does not copy its samples and does not use memory: the results are the right spectrums, and
their arrays are in the same buffer. Padding a spectrum to its own length and merging a single spectrum returns the same
spectrum. -/
theorem C156_views [Zero α] (σ : Heap α) (m : MSpectrum R) (s : Spectrum α R) (h : MSpectrum.Represents σ m s) :
    (∀ k m', m.getChannels k = some m' → m'.channels.buf = m.channels.buf ∧
      ∃ s', s.getChannels k = some s' ∧ MSpectrum.Represents σ m' s') ∧
    (∀ k0 k1 m', m.getItem k0 k1 = some m' → m'.channels.buf = m.channels.buf ∧
      ∃ s', s.getItem k0 k1 = some s' ∧ MSpectrum.Represents σ m' s') ∧
    (∀ value, m.pad s.length value σ = (.ok m, σ)) ∧
    ∀ mode, MSpectrum.merge mode [m] σ = (.ok m, σ) := by
  refine ⟨fun k m' hm => ?_, fun k0 k1 m' hm => ?_, fun value => ?_, fun _ => rfl⟩
  · rcases h.getChannels k with ⟨g1, _⟩ | ⟨m'', s', g1, g2, g3, g4⟩
    · rw [g1] at hm; simp at hm
    · rw [g1, Option.some.injEq] at hm
      subst hm
      exact ⟨g4, s', g2, g3⟩
  · rcases h.getItem k0 k1 with ⟨g1, _⟩ | ⟨m'', s', g1, g2, g3, g4⟩
    · rw [g1] at hm; simp at hm
    · rw [g1, Option.some.injEq] at hm
      subst hm
      exact ⟨g4, s', g2, g3⟩
  · unfold MSpectrum.pad
    rw [if_pos h.length.symm]
    rfl

/-- **C156**: The other operations store their results in a new buffer: element-wise functions, padding to a different
length, arithmetic with spectrums and arrays, and merging at least two spectrums. -/
theorem C156_new [Zero α] (σ : Heap α) (m m' : MSpectrum R) (s o : Spectrum α R) (h : MSpectrum.Represents σ m s)
    (h' : MSpectrum.Represents σ m' o) :
    (∀ f, Sim σ (MSpectrum.New σ) (m.mapSamples f σ) (.ok (s.mapSamples f))) ∧
    (∀ length value, length ≠ s.length →
      ∃ mem, Sim σ (MSpectrum.New σ) (m.pad length value σ) (s.pad mem length value)) ∧
    (∀ f pivot label, ∃ mem,
      Sim σ (MSpectrum.New σ) (MSpectrum.algebra f pivot label m m' σ) (Spectrum.algebra mem f pivot label s o)) ∧
    (∀ f, ∃ mem,
      Sim σ (MSpectrum.New σ) (MSpectrum.algebraArray f m m'.channels σ) (Spectrum.algebraArray mem f s o.channels)) ∧
    (∀ f, ∃ mem, Sim σ (MSpectrum.New σ) (MSpectrum.algebraArrayRight f m m'.channels σ)
      (Spectrum.algebraArrayRight mem f s o.channels)) ∧
    (∀ mode ms ss, MSpectrum.RepresentsAll σ ms ss →
      ∃ mem, Sim σ (MSpectrum.New σ) (MSpectrum.merge mode (m :: m' :: ms) σ)
        (Merge.spectrums mem mode (s :: o :: ss))) := by
  refine ⟨MSpectrum.sim_mapSamples h, fun l v hl => ⟨_, (MSpectrum.sim_pad h l v).2 hl⟩,
    fun f pivot label => ⟨_, MSpectrum.sim_algebra h h' f pivot label⟩,
    fun f => ⟨_, MSpectrum.sim_algebraArray h h'.has f⟩,
    fun f => ⟨_, MSpectrum.sim_algebraArrayRight h h'.has f⟩, fun mode ms ss hs => ?_⟩
  obtain ⟨mem, g⟩ := MSpectrum.sim_merge (.cons h (.cons h' hs)) mode
  exact ⟨mem, g.2 (by simp)⟩

/-- **C156**: If the caller overwrites samples in the array of a spectrum, that has been stored in a new buffer, the
spectrums, that have existed before, are not changed. -/
theorem C156_write_new (σ₀ σ : Heap α) (m m' : MSpectrum R) (s s' : Spectrum α R) (h : MSpectrum.Represents σ₀ m s)
    (hf : Frame σ₀ σ) (h' : MSpectrum.New σ₀ σ m' s') (r c : PySlice) (S : Mat α) :
    MSpectrum.Represents (setItem m'.channels r c S σ).2 m s := by
  refine h.frame ?_
  unfold setItem
  rcases S.broadcastTo (r.count m'.channels.rows) (c.count m'.channels.cols) with _ | B
  · exact hf
  · refine ⟨by dsimp only; rw [writeAll_next]; exact hf.1, fun b hb => ?_⟩
    dsimp only
    rw [writeAll_buf]
    · exact hf.2 b hb
    · have := h'.2; simp only [View.slice]; omega

/-- **C156**: If the caller overwrites all elements of the array of a slice of a spectrum, these are also the elements of
the original spectrum. So spectrums, whose arrays are modified by the caller, are not immutable: the constructor does not
copy the array, and `channels()` returns the array itself. -/
theorem C156_write_view (σ : Heap α) (m m' : MSpectrum R) (x : α) (k0 k1 : Indexing.Key) (c f : PySlice)
    (hm : m.getItem k0 k1 = some m') (hc : Indexing.keyToSlice m.count k0 = some c)
    (hf : Indexing.keyToSlice m.length k1 = some f) (i j : Nat) (hi : i < m'.count) (hj : j < m'.length) :
    ((setItem m'.channels .all .all (.scalar x) σ).2.read m.channels).get (c.lo m.count + i) (f.lo m.length + j) = x := by
  unfold MSpectrum.getItem at hm
  rw [hc, hf] at hm
  simp only [Option.some.injEq] at hm
  subst hm
  rw [setItem_scalar]
  have l1 : ∀ n, PySlice.all.lo n = 0 := fun n => rfl
  have c1 : ∀ n, PySlice.all.count n = n := fun n => rfl
  have := writeAll_const ((m.channels.slice c f).slice .all .all) x σ i j
    (by simp only [View.slice, c1]; exact hi) (by simp only [View.slice, c1]; exact hj)
  rw [View.pos_slice, l1, l1, Nat.zero_add, Nat.zero_add, View.pos_slice] at this
  exact this

/-! ### Examples -/

/-- a spectrum with two channels with three bins in a memory with one buffer -/
def exSpectrum : MSpectrum Nat := ⟨⟨0, 0, 2, 3, 3, 1⟩, 10, ["a", "b"]⟩

/-- the hypotheses of the theorems are satisfiable -/
example : MSpectrum.Represents exHeap exSpectrum ⟨⟨2, 3, fun i j => 3 * i + j⟩, 10, ["a", "b"]⟩ :=
  ⟨by decide, ⟨rfl, rfl, fun i j _ _ => by simp [Heap.read, exHeap, exSpectrum, View.pos]; ring⟩, rfl, rfl⟩

/-- the samples of the variables of a program -/
def spectrumSamples (σ : Heap Int) (m : MSpectrum Nat) : List (List Int) :=
  (List.range m.count).map fun i => (List.range m.length).map fun j => (σ.read m.channels).get i j

/-- a program, whose variables share memory: the second channel is sliced, added to both channels, merged with the original
spectrum, and padded -/
def exSpectrumProgram : List (SpectrumStmt Int) :=
  [.getChannels 0 (.idx (.int 1)), .algebra (· + ·) none "Sum" 0 1, .merge .firstDatasetFirst [1, 0], .pad 3 4 7]

example : (runSpectrums exSpectrumProgram [exSpectrum] exHeap).map
      (fun r => r.1.toOption.map fun env => env.map (spectrumSamples r.2)) =
    some (some [[[0, 1, 2], [3, 4, 5]], [[3, 4, 5]], [[3, 5, 7], [6, 8, 10]], [[3, 4, 5], [0, 1, 2], [3, 4, 5]],
      [[3, 4, 5, 7], [0, 1, 2, 7], [3, 4, 5, 7]]]) := by decide +kernel

end Memory
end Verif
