import Verif.Table
import Verif.IndexingProps
import Verif.SignalProps
import Verif.NumpyLemmas
import Mathlib.Data.List.Perm.Basic
import Mathlib.Data.List.GetD
import Mathlib.Tactic.Ring
import Mathlib.Tactic.Linarith
import Mathlib.Tactic.FieldSimp
import Mathlib.Tactic.NormNum
import Mathlib.Tactic.Positivity

/-
C50: Signals and spectrums, that are saved as tables
C65: The axis of loaded tables
-/

namespace Verif
namespace Table

variable {α : Type}

/-! ### sorting equally spaced tables -/

theorem getD_map {β γ : Type} (f : β → γ) (l : List β) (d : γ) (e : β) {i : Nat} (h : i < l.length) :
    (l.map f).getD i d = f (l.getD i e) := by
  simp [List.getD, h]

theorem getD_range {n : Nat} (e : Nat) {i : Nat} (h : i < n) : (List.range n).getD i e = i := by
  simp [List.getD, h]

/-- equally spaced values -/
def grid (t d : ℚ) (n : Nat) : List ℚ := (List.range n).map fun (i : Nat) => t + i * d

theorem pairwise_range {r : Nat → Nat → Prop} (n : Nat) (h : ∀ i j, i < j → j < n → r i j) :
    (List.range n).Pairwise r := by
  rw [List.pairwise_iff_getElem]
  intro i j hi hj hij
  simp only [List.length_range] at hi hj
  rw [List.getElem_range, List.getElem_range]
  exact h i j hij hj

theorem sort_eq {β : Type} [LinearOrder β] {l l' : List β} (hp : l.Perm l') (hs : l'.Pairwise (· ≤ ·)) :
    l.insertionSort (· ≤ ·) = l' :=
  ((List.perm_insertionSort _ _).trans hp).eq_of_pairwise' (List.pairwise_insertionSort _ _) hs

theorem sort_grid {t d : ℚ} (hd : 0 ≤ d) {n : Nat} {time : List ℚ} (h : time.Perm (grid t d n)) :
    time.insertionSort (· ≤ ·) = grid t d n := by
  apply sort_eq h
  unfold grid
  rw [List.pairwise_map]
  apply pairwise_range
  intro i j hij _
  have : (i : ℚ) ≤ j := by exact_mod_cast hij.le
  nlinarith

theorem grid_head {t d : ℚ} {n : Nat} (hn : 0 < n) : (grid t d n).head? = some t := by
  unfold grid
  rw [List.head?_map, List.head?_range, if_neg (by omega)]
  simp

theorem grid_last {t d : ℚ} {n : Nat} (hn : 0 < n) : (grid t d n).getLast? = some (t + (n - 1) * d) := by
  obtain ⟨k, rfl⟩ : ∃ k, n = k + 1 := ⟨n - 1, by omega⟩
  unfold grid
  rw [List.getLast?_map, List.range_succ, List.getLast?_concat]
  simp

/-- The row `j` of the table belongs to the point `idx[j]` of the axis. -/
structure IsTable (idx : List Nat) (t d : ℚ) (x : Nat → Nat → α) (m n : Nat) (axis : List ℚ) (data : Mat α) : Prop where
  perm : idx.Perm (List.range n)
  axis_eq : axis = idx.map fun (i : Nat) => t + i * d
  rows : data.rows = m
  cols : data.cols = n
  get : ∀ c j, c < m → j < n → data.get c j = x c (idx.getD j 0)

variable [LinearOrder α] [Inhabited α]

omit [LinearOrder α] [Inhabited α] in
theorem IsTable.axis_perm {idx : List Nat} {t d : ℚ} {x : Nat → Nat → α} {m n : Nat} {axis : List ℚ} {data : Mat α}
    (h : IsTable idx t d x m n axis data) : axis.Perm (grid t d n) := by
  rw [h.axis_eq]
  exact h.perm.map _

omit [LinearOrder α] [Inhabited α] in
theorem IsTable.length {idx : List Nat} {t d : ℚ} {x : Nat → Nat → α} {m n : Nat} {axis : List ℚ} {data : Mat α}
    (h : IsTable idx t d x m n axis data) : idx.length = n := by
  rw [h.perm.length_eq, List.length_range]

omit [Inhabited α] in
theorem IsTable.sortRow_eq {idx : List Nat} {t d : ℚ} {x : Nat → Nat → α} {m n : Nat} {axis : List ℚ} {data : Mat α}
    (h : IsTable idx t d x m n axis data) (hd : 0 < d) {c : Nat} (hc : c < m) :
    sortRow axis (rowList data c) = (List.range n).map (x c) := by
  have hz : axis.zip (rowList data c) = idx.map fun (i : Nat) => (t + (i : ℚ) * d, x c i) := by
    apply List.ext_getElem
    · simp [h.axis_eq, rowList, h.cols, h.length]
    · intro j hj hj'
      simp only [List.length_map] at hj'
      have hjn : j < n := h.length ▸ hj'
      simp only [List.getElem_zip, List.getElem_map, rowList, List.getElem_range, h.axis_eq]
      rw [h.get c j hc hjn, List.getD_eq_getElem _ _ hj']
  unfold sortRow
  rw [hz, List.map_map]
  have hs : ((idx.map (toLex ∘ fun (i : Nat) => (t + (i : ℚ) * d, x c i))).insertionSort (· ≤ ·)) =
      (List.range n).map (toLex ∘ fun (i : Nat) => (t + (i : ℚ) * d, x c i)) := by
    apply sort_eq (h.perm.map _)
    rw [List.pairwise_map]
    apply pairwise_range
    intro i j hij _
    apply le_of_lt
    rw [Function.comp, Function.comp, Prod.Lex.toLex_lt_toLex]
    left
    have : (i : ℚ) < j := by exact_mod_cast hij
    show t + (i : ℚ) * d < t + (j : ℚ) * d
    nlinarith
  rw [hs, List.map_map]
  rfl

theorem IsTable.sortRows_eqv {idx : List Nat} {t d : ℚ} {x : Nat → Nat → α} {m n : Nat} {axis : List ℚ} {data : Mat α}
    (h : IsTable idx t d x m n axis data) (hd : 0 < d) :
    (sortRows axis (grid t d n) data).Eqv ⟨m, n, x⟩ := by
  have hl : axis.length = n := by rw [h.axis_eq, List.length_map, h.length]
  unfold sortRows
  split
  next he =>
    refine ⟨h.rows, h.cols, ?_⟩
    intro c j hc hj
    rw [h.rows] at hc
    rw [h.cols] at hj
    rw [h.get c j hc hj]
    have : idx = List.range n := by
      rw [h.axis_eq] at he
      unfold grid at he
      refine List.map_injective_iff.mpr ?_ he
      intro a b hab
      have : (a : ℚ) * d = b * d := by simpa using hab
      have := mul_right_cancel₀ hd.ne' this
      exact_mod_cast this
    rw [this, List.getD_eq_getElem _ _ (by simpa using hj), List.getElem_range]
  · refine ⟨by simp [Mat.ofRows, h.rows], by simp [Mat.ofRows, hl, h.cols], ?_⟩
    intro c j hc hj
    simp only [Mat.ofRows, List.length_map, List.length_range] at hc
    simp only [Mat.ofRows, hl, h.cols, min_self] at hj
    show (List.getD _ c []).getD j default = x c j
    rw [getD_map _ _ _ 0 (by simpa using hc), getD_range 0 hc, h.sortRow_eq hd (h.rows ▸ hc),
      getD_map _ _ _ 0 (by simpa using hj), getD_range 0 hj]

theorem fitLabels_self {labels : List String} {n : Nat} (h : labels.length = n) : fitLabels labels n = labels := by
  unfold fitLabels
  rw [if_neg (by omega), if_neg (by omega)]

theorem fitLabels_length (labels : List String) (n : Nat) : (fitLabels labels n).length = n := by
  unfold fitLabels
  split
  · rw [List.length_append, List.length_replicate]
    omega
  · split
    · rw [List.length_take]
      omega
    · omega

omit [LinearOrder α] [Inhabited α] in
theorem assign_all_eqv {A B C : Mat α} (hr : B.rows = A.rows) (hc : B.cols = A.cols) (h : B.Eqv C) :
    ∃ D, A.assign .all .all B = .ok D ∧ D.Eqv C ∧ D.rows = A.rows := by
  obtain ⟨D, h1, h2, h3, h4, _⟩ := Mat.assign_cols (A := A) (S := B) (c := .all) 0 A.cols rfl rfl hr (by omega)
  refine ⟨D, h1, ⟨by rw [h2, ← hr, h.1], by rw [h3, ← hc, h.2.1], ?_⟩, h2⟩
  intro c j gc gj
  rw [h2] at gc
  rw [h3] at gj
  rw [h4 c j gc (by omega) gj]
  exact h.2.2 c j (by omega) (by omega)

theorem tableRate_grid {t d : ℚ} (hd : 0 < d) {n : Nat} (hn : 2 ≤ n) : tableRate n t (t + (n - 1) * d) = .ok (1 / d) := by
  have h : (2 : ℚ) ≤ n := by exact_mod_cast hn
  have h1 : (n : ℚ) - 1 ≠ 0 := by linarith
  unfold tableRate
  rw [if_neg (by omega), if_neg]
  · congr 1
    field_simp
    ring
  · intro h0
    have h2 : ((n : ℚ) - 1) * d = 0 := by linarith
    rcases mul_eq_zero.mp h2 with h3 | h3
    · exact h1 h3
    · exact hd.ne' h3

/-- Loading an equally spaced table of signals -/
theorem signalFromRows_ok (mem : Nat → Nat → α) {idx : List Nat} {t d : ℚ} {x : Nat → Nat → α} {m n : Nat}
    {time : List ℚ} {data : Mat α} (h : IsTable idx t d x m n time data) (hd : 0 < d) (hm : 1 ≤ m) (hn : 2 ≤ n)
    (labels : List String) :
    ∃ s, signalFromRows mem time data labels = .ok s ∧ s.channels.Eqv ⟨m, n, x⟩ ∧ s.rate = 1 / d ∧
      s.offset = pyRound (t / d) ∧ s.labels = fitLabels labels m := by
  have hr := h.rows
  have hc := h.cols
  unfold signalFromRows
  rw [if_pos (by omega)]
  dsimp only
  rw [sort_grid hd.le h.axis_perm, grid_head (by omega), grid_last (by omega)]
  dsimp only
  rw [show (grid t d n).length = n by simp [grid], tableRate_grid hd hn]
  obtain ⟨D, h1, h2, h3⟩ := assign_all_eqv
    (A := alloc mem (sortRows time (grid t d n) data).rows (sortRows time (grid t d n) data).cols)
    (B := sortRows time (grid t d n) data) rfl rfl
    (h.sortRows_eqv hd)
  have hDm : D.rows = m := h2.1
  refine ⟨Signal.new D (1 / d) (pyRound (t * (1 / d))) (some (fitLabels labels D.rows)), ?_, h2, rfl, ?_, ?_⟩
  · show (Mat.assign _ _ _ _ >>= _) = _
    rw [h1]
    rfl
  · show pyRound (t * (1 / d)) = _
    congr 1
    ring
  · show sanitizeLabels (some (fitLabels labels D.rows)) D.rows = _
    rw [Signal.sanitize_self (fitLabels_length _ _), hDm]

/-! ### the axes of signals and spectrums -/

omit [LinearOrder α] [Inhabited α] in
theorem timeSamples_eq (a : Signal α ℚ) (hr : a.rate ≠ 0) (hn : 2 ≤ a.channels.cols) :
    timeSamples a = .ok (grid (a.offset / a.rate) (1 / a.rate) a.channels.cols) := by
  have h : (2 : ℚ) ≤ a.channels.cols := by exact_mod_cast hn
  have h1 : (a.channels.cols : ℚ) - 1 ≠ 0 := by linarith
  unfold timeSamples
  rw [if_neg hr]
  unfold linspace grid Signal.length
  congr 2
  funext i
  rw [if_neg (by omega)]
  field_simp
  ring

omit [LinearOrder α] [Inhabited α] in
theorem frequencySamples_eq (a : Spectrum α ℚ) (hn : 2 ≤ a.channels.cols) :
    frequencySamples a = grid 0 a.resolution a.channels.cols := by
  have h : (2 : ℚ) ≤ a.channels.cols := by exact_mod_cast hn
  have h1 : (a.channels.cols : ℚ) - 1 ≠ 0 := by linarith
  unfold frequencySamples linspace grid Spectrum.length
  congr 1
  funext i
  rw [if_neg (by omega)]
  field_simp
  ring

/-! ### the rows of CSV files -/

/-- the line of a CSV file for the sample `i` -/
def line (t d : ℚ) (m : Nat) (x : Nat → Nat → α) (i : Nat) : List (Cell α) :=
  .axis (t + i * d) :: (List.range m).map fun c => .sample (x c i)

omit [LinearOrder α] [Inhabited α] in
theorem csvRows_grid (t d : ℚ) (a : Mat α) :
    csvRows (grid t d a.cols) a = (List.range a.cols).map (line t d a.rows a.get) := by
  unfold csvRows grid
  apply List.ext_getElem
  · simp
  · intro i h1 h2
    simp [line]

omit [LinearOrder α] [Inhabited α] in
theorem csvRow_line (t d : ℚ) (m : Nat) (x : Nat → Nat → α) (i : Nat) :
    csvRow (line t d m x i) = .ok (t + i * d, (List.range m).map fun c => x c i) := by
  have h : ∀ l : List Nat, (l.map fun c => Cell.sample (x c i)).mapM Cell.toSample =
      (.ok (l.map fun c => x c i) : Py (List α)) := by
    intro l
    induction l with
    | nil => rfl
    | cons c l ih =>
      rw [List.map_cons, List.mapM_cons, ih]
      rfl
  show ((List.map _ _).mapM Cell.toSample >>= _) = _
  rw [h]
  rfl

omit [LinearOrder α] [Inhabited α] in
theorem mapM_lines (t d : ℚ) (m : Nat) (x : Nat → Nat → α) (idx : List Nat) :
    (idx.map (line t d m x)).mapM csvRow = .ok (idx.map fun (i : Nat) => (t + i * d, (List.range m).map fun c => x c i)) := by
  induction idx with
  | nil => rfl
  | cons i l ih =>
    rw [List.map_cons, List.mapM_cons, ih, csvRow_line]
    rfl

omit [LinearOrder α] in
theorem transpose_lines (m : Nat) (x : Nat → Nat → α) (idx : List Nat) (hi : idx ≠ []) :
    ∃ data, transpose (idx.map fun i => (List.range m).map fun c => x c i) = .ok data ∧ data.rows = m ∧
      data.cols = idx.length ∧ ∀ c j, c < m → j < idx.length → data.get c j = x c (idx.getD j 0) := by
  cases idx with
  | nil => exact absurd rfl hi
  | cons i l =>
    rw [List.map_cons, transpose, if_pos]
    · refine ⟨_, rfl, by simp, by simp, ?_⟩
      intro c j hc hj
      show (List.getD (_ :: List.map _ l) j []).getD c default = _
      rw [← List.map_cons (f := fun i => (List.range m).map fun c => x c i), getD_map _ _ _ 0 hj,
        getD_map _ _ _ 0 (by simpa using hc), getD_range 0 hc]
    · simp

/-- Permutations of mapped lists are mapped permutations. -/
theorem perm_map {β γ : Type} {f : β → γ} {l : List γ} {l' : List β} (h : l.Perm (l'.map f)) :
    ∃ w : List β, w.Perm l' ∧ l = w.map f := by
  obtain ⟨w, h1, h2⟩ := List.perm_comp_forall₂ (r := fun a b => a = f b) h (by
    rw [List.forall₂_map_left_iff]
    exact List.forall₂_same.mpr fun _ _ => rfl)
  refine ⟨w, h2, ?_⟩
  have : List.Forall₂ Eq l (w.map f) := by
    rw [List.forall₂_map_right_iff]
    exact h1
  exact List.forall₂_eq_eq_eq ▸ this

omit [LinearOrder α] in
/-- reading a CSV file with a header and lines in an arbitrary order -/
theorem csvTable_ok (head : String) (labels : List String) {t d : ℚ} {m n : Nat} (hn : 0 < n) (x : Nat → Nat → α)
    {lines : List (List (Cell α))} (hp : lines.Perm ((List.range n).map (line t d m x))) :
    ∃ idx axis data, IsTable idx t d x m n axis data ∧
      csvTable ((.text head :: labels.map .text) :: lines) = .ok (axis, data, some labels) := by
  obtain ⟨idx, hi, rfl⟩ := perm_map hp
  have hl : idx.length = n := by rw [hi.length_eq, List.length_range]
  obtain ⟨data, h1, h2, h3, h4⟩ := transpose_lines m x idx (by
    intro h
    rw [h] at hl
    simp at hl
    omega)
  refine ⟨idx, idx.map fun (i : Nat) => t + i * d, data, ⟨hi, rfl, h2, by omega, ?_⟩, ?_⟩
  · intro c j hc hj
    exact h4 c j hc (by omega)
  · rw [csvTable]
    have hf : csvFirst (.text head :: labels.map .text : List (Cell α)) = .ok ([], [], some labels) := by
      unfold csvFirst
      simp only [Cell.toAxis]
      rw [List.map_map]
      congr 3
      rw [show (Cell.toText ∘ (Cell.text : String → Cell α)) = id from rfl, List.map_id]
    rw [hf]
    show (List.mapM csvRow (idx.map _) >>= _) = _
    rw [mapM_lines]
    show (transpose ([] ++ List.map Prod.snd (idx.map _)) >>= _) = _
    rw [List.nil_append, List.map_map]
    have : (Prod.snd ∘ fun (i : Nat) => ((t + i * d : ℚ), (List.range m).map fun c => x c i)) =
        fun i => (List.range m).map fun c => x c i := rfl
    rw [this, h1]
    show Except.ok ([] ++ List.map Prod.fst (idx.map _), data, some labels) = _
    rw [List.nil_append, List.map_map]
    rfl

/-! ### signals -/

/-- C50: A signal with at least two samples is restored from a CSV file. This holds for any order of the lines in the
file. -/
theorem C50_signal_csv (mem : Nat → Nat → α) (a : Signal α ℚ) (hl : a.labels.length = a.channels.rows)
    (hm : 1 ≤ a.channels.rows) (hn : 2 ≤ a.channels.cols) (hr : 0 < a.rate) :
    ∃ header lines, signalCsvWrite a = .ok (header :: lines) ∧ ∀ lines', lines'.Perm lines →
      ∃ b, signalCsvRead mem (header :: lines') = .ok b ∧ b.channels.Eqv a.channels ∧ b.rate = a.rate ∧
        b.offset = a.offset ∧ b.labels = a.labels := by
  refine ⟨.text "time" :: a.labels.map .text, csvRows (grid (a.offset / a.rate) (1 / a.rate) a.channels.cols) a.channels,
    ?_, ?_⟩
  · unfold signalCsvWrite
    rw [timeSamples_eq a hr.ne' hn]
    rfl
  · intro lines' hp
    rw [csvRows_grid] at hp
    obtain ⟨idx, axis, data, h1, h2⟩ := csvTable_ok "time" a.labels (by omega) a.channels.get hp
    obtain ⟨b, g1, g2, g3, g4, g5⟩ := signalFromRows_ok mem h1 (one_div_pos.mpr hr) hm hn a.labels
    refine ⟨b, ?_, g2, by rw [g3, one_div_one_div], ?_, by rw [g5, fitLabels_self hl]⟩
    · unfold signalCsvRead
      rw [h2]
      exact g1
    · rw [g4, div_div_eq_mul_div, div_one, div_mul_cancel₀ _ hr.ne', pyRound_int]

omit [LinearOrder α] [Inhabited α] in
theorem npy_isTable (t d : ℚ) (a : Mat α) : IsTable (List.range a.cols) t d a.get a.rows a.cols (grid t d a.cols) a where
  perm := .refl _
  axis_eq := rfl
  rows := rfl
  cols := rfl
  get := by
    intro c j _ hj
    rw [List.getD_eq_getElem _ _ (by simpa using hj), List.getElem_range]

/-- C50: A signal with at least two samples is restored from an NPY file, except for its labels, which are replaced by
the name of the file and the number of the channel. -/
theorem C50_signal_npy (mem : Nat → Nat → α) (a : Signal α ℚ) (filename : String) (hm : 1 ≤ a.channels.rows)
    (hn : 2 ≤ a.channels.cols) (hr : 0 < a.rate) :
    ∃ file b, signalNpyWrite a = .ok file ∧ signalNpyRead mem filename file = .ok b ∧ b.channels.Eqv a.channels ∧
      b.rate = a.rate ∧ b.offset = a.offset ∧
      b.labels = (List.range a.channels.rows).map fun (i : Nat) => filename ++ " " ++ toString (i + 1) := by
  obtain ⟨b, g1, g2, g3, g4, g5⟩ := signalFromRows_ok mem (npy_isTable (a.offset / a.rate) (1 / a.rate) a.channels)
    (one_div_pos.mpr hr) hm hn (fileLabels filename a.channels.rows)
  refine ⟨⟨grid (a.offset / a.rate) (1 / a.rate) a.channels.cols, a.channels⟩, b, ?_, g1, g2,
    by rw [g3, one_div_one_div], ?_, ?_⟩
  · unfold signalNpyWrite
    rw [timeSamples_eq a hr.ne' hn]
    rfl
  · rw [g4, div_div_eq_mul_div, div_one, div_mul_cancel₀ _ hr.ne', pyRound_int]
  · rw [g5, fitLabels_self (by simp [fileLabels])]
    rfl

/-- a signal with two channels and a negative offset -/
example : ∃ a : Signal ℚ ℚ, a.labels.length = a.channels.rows ∧ 1 ≤ a.channels.rows ∧ 2 ≤ a.channels.cols ∧ 0 < a.rate ∧
    a.offset < 0 :=
  ⟨⟨⟨2, 3, fun c i => c + 2 * i⟩, 44100, -7, ["a", "b"]⟩, rfl, by decide, by decide, by norm_num, by decide⟩

/-- Loading a table with one row -/
theorem signalFromRows_one (mem : Nat → Nat → α) {idx : List Nat} {t : ℚ} {x : Nat → Nat → α} {m : Nat}
    {time : List ℚ} {data : Mat α} (h : IsTable idx t 1 x m 1 time data) (hm : 1 ≤ m) (labels : List String) :
    ∃ s, signalFromRows mem time data labels = .ok s ∧ s.channels.Eqv ⟨m, 1, x⟩ ∧
      s.rate = (if t = 0 then 48000 else 1 / |t|) ∧ s.offset = pyRound (t * if t = 0 then 48000 else 1 / |t|) ∧
      s.labels = fitLabels labels m := by
  have hr := h.rows
  have hc := h.cols
  have hrate : tableRate 1 t (t + ((1 : Nat) - 1) * 1) = .ok (if t = 0 then 48000 else 1 / |t|) := by
    unfold tableRate
    rw [if_pos (by omega)]
    split <;> rfl
  unfold signalFromRows
  rw [if_pos (by omega)]
  dsimp only
  rw [sort_grid one_pos.le h.axis_perm, grid_head (by omega), grid_last (by omega)]
  dsimp only
  rw [show (grid t 1 1).length = 1 by simp [grid], hrate]
  obtain ⟨D, h1, h2, h3⟩ := assign_all_eqv
    (A := alloc mem (sortRows time (grid t 1 1) data).rows (sortRows time (grid t 1 1) data).cols)
    (B := sortRows time (grid t 1 1) data) rfl rfl (h.sortRows_eqv one_pos)
  have hDm : D.rows = m := h2.1
  refine ⟨Signal.new D (if t = 0 then 48000 else 1 / |t|) (pyRound (t * if t = 0 then 48000 else 1 / |t|))
    (some (fitLabels labels D.rows)), ?_, h2, rfl, rfl, ?_⟩
  · show (Mat.assign _ _ _ _ >>= _) = _
    rw [h1]
    rfl
  · show sanitizeLabels (some (fitLabels labels D.rows)) D.rows = _
    rw [Signal.sanitize_self (fitLabels_length _ _), hDm]

/-- C50: The samples and labels of a signal with one sample are restored from a CSV file, but the time of the sample is
interpreted as the sampling period. (What is missing: the sampling rate and the offset.) -/
theorem C50_one_sample_partial (mem : Nat → Nat → α) (a : Signal α ℚ) (hl : a.labels.length = a.channels.rows)
    (hm : 1 ≤ a.channels.rows) (hn : a.channels.cols = 1) (hr : 0 < a.rate) :
    ∃ file b, signalCsvWrite a = .ok file ∧ signalCsvRead mem file = .ok b ∧ b.channels.Eqv a.channels ∧
      b.labels = a.labels ∧ b.rate = (if a.offset = 0 then 48000 else a.rate / |(a.offset : ℚ)|) ∧
      b.offset = a.offset.sign := by
  have ht : timeSamples a = .ok (grid (a.offset / a.rate) 1 a.channels.cols) := by
    unfold timeSamples linspace grid Signal.length
    rw [if_neg hr.ne', hn]
    simp
  have hp : (csvRows (grid (a.offset / a.rate) 1 a.channels.cols) a.channels).Perm
      ((List.range 1).map (line (a.offset / a.rate) 1 a.channels.rows a.channels.get)) := by
    rw [csvRows_grid, hn]
  obtain ⟨idx, axis, data, h1, h2⟩ := csvTable_ok "time" a.labels (by omega) a.channels.get hp
  obtain ⟨b, g1, g2, g3, g4, g5⟩ := signalFromRows_one mem h1 hm a.labels
  have h0 : (a.offset : ℚ) / a.rate = 0 ↔ a.offset = 0 := by
    rw [div_eq_zero_iff]
    constructor
    · rintro (h | h)
      · exact_mod_cast h
      · exact absurd h hr.ne'
    · intro h
      left
      exact_mod_cast h
  refine ⟨_, b, by unfold signalCsvWrite; rw [ht]; rfl, by unfold signalCsvRead; rw [h2]; exact g1, ?_,
    by rw [g5, fitLabels_self hl], ?_, ?_⟩
  · obtain ⟨e1, e2, e3⟩ := g2
    exact ⟨e1, by rw [hn, e2], fun c i hc hi => e3 c i hc hi⟩
  · rw [g3]
    by_cases h : a.offset = 0
    · rw [if_pos (h0.mpr h), if_pos h]
    · rw [if_neg (mt h0.mp h), if_neg h, abs_div, abs_of_pos hr, one_div_div]
  · rw [g4]
    rcases lt_trichotomy a.offset 0 with h | h | h
    · have hq : (a.offset : ℚ) < 0 := by exact_mod_cast h
      rw [if_neg (mt h0.mp h.ne), Int.sign_eq_neg_one_of_neg h, abs_div, abs_of_pos hr, abs_of_neg hq]
      have : (a.offset : ℚ) / a.rate * (1 / (-a.offset / a.rate)) = ((-1 : Int) : ℚ) := by
        have := hq.ne
        have := hr.ne'
        push_cast
        field_simp
      rw [this, pyRound_int]
    · rw [if_pos (h0.mpr h), h0.mpr h, zero_mul, h]
      exact pyRound_int 0
    · have hq : (0 : ℚ) < a.offset := by exact_mod_cast h
      rw [if_neg (mt h0.mp h.ne'), Int.sign_eq_one_of_pos h, abs_div, abs_of_pos hr, abs_of_pos hq]
      have : (a.offset : ℚ) / a.rate * (1 / (a.offset / a.rate)) = ((1 : Int) : ℚ) := by
        have := hq.ne'
        have := hr.ne'
        push_cast
        field_simp
      rw [this, pyRound_int]

/-- C50 is violated: The sampling rate of a signal with one sample is lost. -/
theorem C50_one_sample_violated : ∃ (a : Signal ℚ ℚ) (file : List (List (Cell ℚ))) (b : Signal ℚ ℚ),
    a.labels.length = a.channels.rows ∧ a.channels.rows = 1 ∧ a.channels.cols = 1 ∧ a.rate = 44100 ∧
    signalCsvWrite a = .ok file ∧ signalCsvRead (fun _ _ => 0) file = .ok b ∧ b.rate = 48000 := by
  obtain ⟨file, b, h1, h2, _, _, h3, _⟩ := C50_one_sample_partial (fun _ _ => (0 : ℚ))
    ⟨⟨1, 1, fun _ _ => 1⟩, 44100, 0, ["a"]⟩ rfl (by decide) rfl (by norm_num)
  exact ⟨_, file, b, rfl, rfl, rfl, rfl, h1, h2, h3⟩

/-- C50 is violated: Every signal without samples is loaded as an empty signal with one channel, the default sampling
rate and no offset. -/
theorem C50_empty_violated (mem : Nat → Nat → α) (a : Signal α ℚ) (hn : a.channels.cols = 0) (hr : a.rate ≠ 0) :
    ∃ file b, signalCsvWrite a = .ok file ∧ signalCsvRead mem file = .ok b ∧ b.channels.rows = 1 ∧
      b.channels.cols = 0 ∧ b.rate = 48000 ∧ b.offset = 0 ∧ b.labels = [""] := by
  have ht : timeSamples a = .ok [] := by
    unfold timeSamples linspace Signal.length
    rw [if_neg hr, hn]
    rfl
  refine ⟨[.text "time" :: a.labels.map .text], Signal.new ⟨1, 0, mem⟩ 48000 0 none, ?_, ?_, rfl, rfl, rfl, rfl, rfl⟩
  · unfold signalCsvWrite
    rw [ht]
    rfl
  · rfl

/-! ### spectrums -/

omit [LinearOrder α] [Inhabited α] in
theorem spectrumChannels_ok [Zero α] (mem : Nat → Nat → α) (isList : Bool) {rows : Mat α} {m n : Nat} {x : Nat → Nat → α}
    (h : rows.Eqv ⟨m, n, x⟩) (o : Nat) :
    ∃ D, spectrumChannels mem isList rows o = .ok D ∧
      D.Eqv ⟨m, n + o, fun c i => if i < o then 0 else x c (i - o)⟩ := by
  obtain ⟨hr, hc, hg⟩ := h
  unfold spectrumChannels
  by_cases h0 : o = 0
  · subst h0
    rw [if_pos (show ((0 : Nat) : Int) = 0 from rfl)]
    obtain ⟨D, h1, h2, _⟩ := assign_all_eqv (A := alloc mem rows.rows rows.cols) (B := rows) rfl rfl ⟨hr, hc, hg⟩
    refine ⟨D, h1, h2.1, h2.2.1, ?_⟩
    intro c i hc hi
    exact h2.2.2 c i hc hi
  · rw [if_neg (by omega), if_neg (by omega), show ((rows.cols : Int) + (o : Int)).toNat = n + o by
      rw [hc]
      show ((n : Int) + o).toNat = _
      omega]
    obtain ⟨B, h1, h2, h3, h4, h5⟩ := Mat.assign_cols_scalar (A := alloc mem rows.rows (n + o)) (c := .range 0 o) (0 : α)
      0 o (by simp [PySlice.range, PySlice.lo, clampBound, alloc]) (by
        show clampBound (n + o) (o : Int) = o
        rw [clampBound_nonneg (by omega)]
        omega)
    rw [h1]
    have hlo : (PySlice.drop (o : Int)).lo B.cols = o := by
      show clampBound B.cols (o : Int) = o
      rw [clampBound_nonneg (by omega), h3]
      show min _ (n + o) = o
      omega
    have hcols : B.cols = n + o := h3
    have hrn : rows.cols = n := hc
    obtain ⟨D, g1, g2, g3, g4, g5⟩ := Mat.assign_cols (A := B) (S := rows) (c := .drop o) o (n + o) hlo hcols
      (by rw [h2]; rfl) (by omega)
    refine ⟨D, g1, by rw [g2, h2]; exact hr, by rw [g3, h3]; rfl, ?_⟩
    intro c i hc' hi
    rw [g2, h2] at hc'
    rw [g3, hcols] at hi
    show D.get c i = if i < o then 0 else x c (i - o)
    split
    next hio =>
      rw [g5 c i (by omega)]
      exact h4 c i hc' (by omega) hio
    next hio =>
      rw [g4 c i (by rw [h2]; exact hc') (by omega) hi]
      exact hg c (i - o) hc' (by omega)

/-- Loading an equally spaced table of spectrums -/
theorem spectrumFromRows_ok [Zero α] (mem : Nat → Nat → α) {idx : List Nat} {t d : ℚ} {x : Nat → Nat → α} {m n o : Nat}
    {axis : List ℚ} {data : Mat α} (h : IsTable idx t d x m n axis data) (hd : 0 < d) (hm : 1 ≤ m) (hn : 2 ≤ n)
    (ho : pyRound (t / d) = o) (labels : List String) :
    ∃ s, spectrumFromRows mem axis data labels = .ok s ∧
      s.channels.Eqv ⟨m, n + o, fun c i => if i < o then 0 else x c (i - o)⟩ ∧ s.resolution = d ∧
      s.labels = fitLabels labels m := by
  have hr := h.rows
  have hc := h.cols
  have hq : (2 : ℚ) ≤ n := by exact_mod_cast hn
  have hq1 : (n : ℚ) - 1 ≠ 0 := by linarith
  have hres : (t + (n - 1) * d - t) / (n - 1) = d := by
    field_simp
    ring
  unfold spectrumFromRows
  rw [if_pos (by omega)]
  dsimp only
  rw [sort_grid hd.le h.axis_perm, grid_head (by omega), grid_last (by omega)]
  dsimp only
  rw [show (grid t d n).length = n by simp [grid], if_neg (show ¬n ≤ 1 by omega), hres, if_neg hd.ne', ho]
  obtain ⟨D, h1, h2⟩ := spectrumChannels_ok mem (decide (axis ≠ grid t d n)) (h.sortRows_eqv hd) o
  have hDm : D.rows = m := h2.1
  refine ⟨Spectrum.new D d (some (fitLabels labels D.rows)), ?_, h2, rfl, ?_⟩
  · rw [h1]
    rfl
  · show sanitizeLabels (some (fitLabels labels D.rows)) D.rows = _
    rw [Signal.sanitize_self (fitLabels_length _ _), hDm]

/-- C50: A spectrum with at least two bins is restored from a CSV file. This holds for any order of the lines in the
file. -/
theorem C50_spectrum_csv [Zero α] (mem : Nat → Nat → α) (filename : String) (a : Spectrum α ℚ)
    (hl : a.labels.length = a.channels.rows) (hm : 1 ≤ a.channels.rows) (hn : 2 ≤ a.channels.cols)
    (hr : 0 < a.resolution) :
    ∃ header lines, spectrumCsvWrite a = header :: lines ∧ ∀ lines', lines'.Perm lines →
      ∃ b, spectrumCsvRead mem filename (header :: lines') = .ok b ∧ b.channels.Eqv a.channels ∧
        b.resolution = a.resolution ∧ b.labels = a.labels := by
  refine ⟨.text "frequency" :: a.labels.map .text, csvRows (grid 0 a.resolution a.channels.cols) a.channels, ?_, ?_⟩
  · unfold spectrumCsvWrite
    rw [frequencySamples_eq a hn]
  · intro lines' hp
    rw [csvRows_grid] at hp
    obtain ⟨idx, axis, data, h1, h2⟩ := csvTable_ok "frequency" a.labels (by omega) a.channels.get hp
    obtain ⟨b, g1, g2, g3, g5⟩ := spectrumFromRows_ok (o := 0) mem h1 hr hm hn
      (by rw [zero_div]; exact pyRound_int 0) a.labels
    refine ⟨b, ?_, g2, g3, by rw [g5, fitLabels_self hl]⟩
    unfold spectrumCsvRead
    rw [h2]
    exact g1

/-- C50: A spectrum with at least two bins is restored from an NPY file, except for its labels. -/
theorem C50_spectrum_npy [Zero α] (mem : Nat → Nat → α) (filename : String) (a : Spectrum α ℚ)
    (hm : 1 ≤ a.channels.rows) (hn : 2 ≤ a.channels.cols) (hr : 0 < a.resolution) :
    ∃ b, spectrumNpyRead mem filename (spectrumNpyWrite a) = .ok b ∧ b.channels.Eqv a.channels ∧
      b.resolution = a.resolution ∧
      b.labels = (List.range a.channels.rows).map fun (i : Nat) => filename ++ " " ++ toString (i + 1) := by
  obtain ⟨b, g1, g2, g3, g5⟩ := spectrumFromRows_ok (o := 0) mem (npy_isTable 0 a.resolution a.channels) hr hm hn
    (by rw [zero_div]; exact pyRound_int 0) (fileLabels filename a.channels.rows)
  refine ⟨b, ?_, g2, g3, ?_⟩
  · unfold spectrumNpyRead spectrumNpyWrite
    rw [frequencySamples_eq a hn]
    exact g1
  · rw [g5, fitLabels_self (by simp [fileLabels])]
    rfl

/-- a spectrum with two channels -/
example : ∃ a : Spectrum ℚ ℚ, a.labels.length = a.channels.rows ∧ 1 ≤ a.channels.rows ∧ 2 ≤ a.channels.cols ∧
    0 < a.resolution :=
  ⟨⟨⟨2, 3, fun c i => c + 2 * i⟩, 1 / 3, ["a", "b"]⟩, rfl, by decide, by decide, by norm_num⟩

/-- C50 is violated: The resolution of every spectrum with one bin is replaced by zero. -/
theorem C50_one_bin_violated [Zero α] (mem : Nat → Nat → α) (filename : String) (a : Spectrum α ℚ)
    (hm : 1 ≤ a.channels.rows) (hn : a.channels.cols = 1) :
    ∃ b, spectrumNpyRead mem filename (spectrumNpyWrite a) = .ok b ∧ b.channels.Eqv a.channels ∧ b.resolution = 0 := by
  have hf : frequencySamples a = [0] := by
    unfold frequencySamples linspace Spectrum.length
    rw [hn]
    rfl
  obtain ⟨D, h1, h2, _⟩ := assign_all_eqv (A := alloc mem a.channels.rows a.channels.cols) (B := a.channels) rfl rfl
    (.refl _)
  refine ⟨Spectrum.new D 0 (some (fitLabels (fileLabels filename a.channels.rows) D.rows)), ?_, h2, rfl⟩
  unfold spectrumNpyRead spectrumNpyWrite spectrumFromRows
  rw [hf, if_pos (by show a.channels.rows ≠ 0 ∧ a.channels.cols ≠ 0; omega)]
  dsimp only
  show (spectrumChannels mem (decide (([0] : List ℚ) ≠ [0])) (sortRows [0] [0] a.channels) _ >>= _) = _
  unfold sortRows spectrumChannels
  rw [if_pos rfl]
  show ((Mat.assign _ _ _ _) >>= _) = _
  rw [h1]
  rfl

/-! ### C65: the axis of tables, that do not start at zero -/

/-- C65: The samples of a table with a constant distance between the times are found at their times. The times have to
be multiples of the distance. -/
theorem C65_signal (mem : Nat → Nat → α) (labels : List String) (t d : ℚ) (k : Int) (x : Nat → Nat → α) (m n : Nat)
    (hm : 1 ≤ m) (hn : 2 ≤ n) (hd : 0 < d) (hl : labels.length = m) (lines : List (List (Cell α))) (ht : t = k * d)
    (hp : lines.Perm ((List.range n).map fun (i : Nat) =>
      .axis (t + i * d) :: (List.range m).map fun c => .sample (x c i))) :
    ∃ s, signalCsvRead mem ((.text "time" :: labels.map .text) :: lines) = .ok s ∧ s.channels.rows = m ∧
      s.channels.cols = n ∧ s.labels = labels ∧
      ∀ c i, c < m → i < n → s.channels.get c i = x c i ∧ ((s.offset : ℚ) + i) / s.rate = t + i * d := by
  obtain ⟨idx, axis, data, h1, h2⟩ := csvTable_ok "time" labels (by omega) x hp
  obtain ⟨b, g1, g2, g3, g4, g5⟩ := signalFromRows_ok mem h1 hd hm hn labels
  refine ⟨b, ?_, g2.1, g2.2.1, by rw [g5, fitLabels_self hl], ?_⟩
  · unfold signalCsvRead
    rw [h2]
    exact g1
  · intro c i hc hi
    refine ⟨g2.2.2 c i (g2.1 ▸ hc) (g2.2.1 ▸ hi), ?_⟩
    rw [g4, g3, ht, mul_div_cancel_right₀ _ hd.ne', pyRound_int]
    field_simp

/-- C65: The samples of a table with a constant distance between the frequencies, the first one of which is a
non-negative multiple of the distance, are found at their frequencies and the bins below the first frequency are zero. -/
theorem C65_spectrum_partial [Zero α] (mem : Nat → Nat → α) (filename : String) (labels : List String) (d : ℚ) (k : Nat)
    (x : Nat → Nat → α) (m n : Nat) (hm : 1 ≤ m) (hn : 2 ≤ n) (hd : 0 < d) (hl : labels.length = m)
    (lines : List (List (Cell α)))
    (hp : lines.Perm ((List.range n).map fun (i : Nat) =>
      .axis (k * d + i * d) :: (List.range m).map fun c => .sample (x c i))) :
    ∃ s, spectrumCsvRead mem filename ((.text "frequency" :: labels.map .text) :: lines) = .ok s ∧
      s.channels.rows = m ∧ s.channels.cols = k + n ∧ s.labels = labels ∧ s.resolution = d ∧
      (∀ c i, c < m → i < k → s.channels.get c i = 0) ∧
      ∀ c i, c < m → i < n → s.channels.get c (k + i) = x c i := by
  obtain ⟨idx, axis, data, h1, h2⟩ := csvTable_ok "frequency" labels (by omega) x hp
  have ho : pyRound ((k : ℚ) * d / d) = (k : Int) := by
    rw [mul_div_cancel_right₀ _ hd.ne']
    exact pyRound_int k
  obtain ⟨b, g1, g2, g3, g5⟩ := spectrumFromRows_ok mem h1 hd hm hn ho labels
  obtain ⟨e1, e2, e3⟩ := g2
  refine ⟨b, ?_, e1, by rw [e2]; show n + k = _; omega, by rw [g5, fitLabels_self hl], g3, ?_, ?_⟩
  · unfold spectrumCsvRead
    rw [h2]
    exact g1
  · intro c i hc hi
    rw [e3 c i (e1 ▸ hc) (by rw [e2]; show i < n + k; omega)]
    exact if_pos hi
  · intro c i hc hi
    rw [e3 c (k + i) (e1 ▸ hc) (by rw [e2]; show k + i < n + k; omega)]
    show (if k + i < k then 0 else x c (k + i - k)) = _
    rw [if_neg (by omega), show k + i - k = i by omega]

omit [LinearOrder α] in
/-- reading a CSV file without a header -/
theorem csvTable_unlabeled {t d : ℚ} {m n : Nat} (hn : 0 < n) (x : Nat → Nat → α)
    {lines : List (List (Cell α))} (hp : lines.Perm ((List.range n).map (line t d m x))) :
    ∃ idx axis data, IsTable idx t d x m n axis data ∧ csvTable lines = .ok (axis, data, none) := by
  obtain ⟨idx, hi, rfl⟩ := perm_map hp
  have hl : idx.length = n := by rw [hi.length_eq, List.length_range]
  obtain ⟨data, h1, h2, h3, h4⟩ := transpose_lines m x idx (by
    intro h
    rw [h] at hl
    simp at hl
    omega)
  refine ⟨idx, idx.map fun (i : Nat) => t + i * d, data, ⟨hi, rfl, h2, by omega, ?_⟩, ?_⟩
  · intro c j hc hj
    exact h4 c j hc (by omega)
  · cases idx with
    | nil =>
      simp at hl
      omega
    | cons i idx =>
      have h : ∀ l : List Nat, (l.map fun c => Cell.sample (x c i)).mapM Cell.toSample =
          (.ok (l.map fun c => x c i) : Py (List α)) := by
        intro l
        induction l with
        | nil => rfl
        | cons c l ih =>
          rw [List.map_cons, List.mapM_cons, ih]
          rfl
      have hf : csvFirst (line t d m x i) = .ok ([t + i * d], [(List.range m).map fun c => x c i], none) := by
        unfold csvFirst line
        simp only [Cell.toAxis]
        rw [h]
      rw [List.map_cons, csvTable, hf]
      show (List.mapM csvRow (idx.map _) >>= _) = _
      rw [mapM_lines]
      show (transpose ([_] ++ List.map Prod.snd (idx.map _)) >>= _) = _
      rw [List.map_map]
      have : (Prod.snd ∘ fun (i : Nat) => ((t + i * d : ℚ), (List.range m).map fun c => x c i)) =
          fun i => (List.range m).map fun c => x c i := rfl
      rw [this, List.singleton_append]
      rw [List.map_cons] at h1
      rw [h1]
      show Except.ok ([t + i * d] ++ List.map Prod.fst (idx.map _), data, none) = _
      rw [List.map_map]
      rfl

/-- C65: The samples of a table without labels, that contains no row other than those with the samples, are found at their
times, too. The labels of the signal are empty. -/
theorem C65_signal_unlabeled (mem : Nat → Nat → α) (t d : ℚ) (k : Int) (x : Nat → Nat → α) (m n : Nat)
    (hm : 1 ≤ m) (hn : 2 ≤ n) (hd : 0 < d) (lines : List (List (Cell α))) (ht : t = k * d)
    (hp : lines.Perm ((List.range n).map fun (i : Nat) =>
      .axis (t + i * d) :: (List.range m).map fun c => .sample (x c i))) :
    ∃ s, signalCsvRead mem lines = .ok s ∧ s.channels.rows = m ∧ s.channels.cols = n ∧
      s.labels = List.replicate m "" ∧
      ∀ c i, c < m → i < n → s.channels.get c i = x c i ∧ ((s.offset : ℚ) + i) / s.rate = t + i * d := by
  obtain ⟨idx, axis, data, h1, h2⟩ := csvTable_unlabeled (by omega) x hp
  obtain ⟨b, g1, g2, g3, g4, g5⟩ := signalFromRows_ok mem h1 hd hm hn []
  refine ⟨b, ?_, g2.1, g2.2.1, ?_, ?_⟩
  · unfold signalCsvRead
    rw [h2]
    exact g1
  · rw [g5]
    unfold fitLabels
    simp
  · intro c i hc hi
    refine ⟨g2.2.2 c i (g2.1 ▸ hc) (g2.2.1 ▸ hi), ?_⟩
    rw [g4, g3, ht, mul_div_cancel_right₀ _ hd.ne', pyRound_int]
    field_simp

/-- C65: The samples of a table of frequencies without labels. The labels of the spectrum contain the name of the file and
the number of the column. -/
theorem C65_spectrum_unlabeled [Zero α] (mem : Nat → Nat → α) (filename : String) (d : ℚ) (k : Nat)
    (x : Nat → Nat → α) (m n : Nat) (hm : 1 ≤ m) (hn : 2 ≤ n) (hd : 0 < d) (lines : List (List (Cell α)))
    (hp : lines.Perm ((List.range n).map fun (i : Nat) =>
      .axis (k * d + i * d) :: (List.range m).map fun c => .sample (x c i))) :
    ∃ s, spectrumCsvRead mem filename lines = .ok s ∧
      s.channels.rows = m ∧ s.channels.cols = k + n ∧ s.resolution = d ∧
      s.labels = (List.range m).map (fun (c : Nat) => filename ++ " " ++ toString (c + 1)) ∧
      (∀ c i, c < m → i < k → s.channels.get c i = 0) ∧
      ∀ c i, c < m → i < n → s.channels.get c (k + i) = x c i := by
  obtain ⟨idx, axis, data, h1, h2⟩ := csvTable_unlabeled (by omega) x hp
  have ho : pyRound ((k : ℚ) * d / d) = (k : Int) := by
    rw [mul_div_cancel_right₀ _ hd.ne']
    exact pyRound_int k
  have hw : (lines.headD []).length - 1 = m := by
    cases lines with
    | nil =>
      have := hp.length_eq
      simp at this
      omega
    | cons a l =>
      have : a ∈ (List.range n).map fun (i : Nat) =>
          (.axis (k * d + i * d) :: (List.range m).map fun c => .sample (x c i) : List (Cell α)) :=
        hp.subset (List.mem_cons_self ..)
      obtain ⟨i, _, rfl⟩ := List.mem_map.1 this
      simp
  obtain ⟨b, g1, g2, g3, g5⟩ := spectrumFromRows_ok mem h1 hd hm hn ho (fileLabels filename m)
  obtain ⟨e1, e2, e3⟩ := g2
  refine ⟨b, ?_, e1, by rw [e2]; show n + k = _; omega, g3, by rw [g5, fitLabels_self (by simp [fileLabels])]; rfl, ?_, ?_⟩
  · unfold spectrumCsvRead
    rw [h2, hw]
    exact g1
  · intro c i hc hi
    rw [e3 c i (e1 ▸ hc) (by rw [e2]; show i < n + k; omega)]
    exact if_pos hi
  · intro c i hc hi
    rw [e3 c (k + i) (e1 ▸ hc) (by rw [e2]; show k + i < n + k; omega)]
    show (if k + i < k then 0 else x c (k + i - k)) = _
    rw [if_neg (by omega), show k + i - k = i by omega]

-- the hypotheses of the theorems are satisfiable
example : ([[.axis 3, .sample 7], [.axis 1, .sample 5], [.axis 2, .sample 6]] : List (List (Cell ℚ))).Perm
    ((List.range 3).map fun (i : Nat) => .axis (((1 : Nat) : ℚ) * 1 + i * 1) :: (List.range 1).map fun _ =>
      .sample ((i : ℚ) + 5)) := by
  have : ((List.range 3).map fun (i : Nat) => (.axis (((1 : Nat) : ℚ) * 1 + i * 1) :: (List.range 1).map fun _ =>
      .sample ((i : ℚ) + 5) : List (Cell ℚ))) =
      [[.axis 1, .sample 5], [.axis 2, .sample 6], [.axis 3, .sample 7]] := by
    simp [List.range_succ]
    norm_num
  rw [this]
  exact (List.perm_append_comm (l₁ := [[Cell.axis (3 : ℚ), .sample (7 : ℚ)]])
    (l₂ := [[.axis 1, .sample 5], [.axis 2, .sample 6]]))

/-- C65 is violated: If the table starts one bin below 0 Hz, all bins are filled with the last sample. -/
theorem C65_negative_violated :
    ∃ s, spectrumCsvRead (fun _ _ => (0 : ℚ)) "x.csv" [[.text "frequency", .text "a"], [.axis (-1), .sample 5],
        [.axis 0, .sample 6], [.axis 1, .sample 7]] = .ok s ∧ s.channels.cols = 4 ∧
      ∀ i, i < 4 → s.channels.get 0 i = 7 := by
  have key : ((spectrumCsvRead (fun _ _ => (0 : ℚ)) "x.csv" [[.text "frequency", .text "a"], [.axis (-1), .sample 5],
        [.axis 0, .sample 6], [.axis 1, .sample 7]]).toOption.map fun s =>
      (s.channels.cols, (List.range 4).map (s.channels.get 0))) = some (4, [7, 7, 7, 7]) := by
    decide +kernel
  cases h : spectrumCsvRead (fun _ _ => (0 : ℚ)) "x.csv" [[.text "frequency", .text "a"], [.axis (-1), .sample 5],
      [.axis 0, .sample 6], [.axis 1, .sample 7]] with
  | error e =>
    rw [h] at key
    cases key
  | ok s =>
    rw [h] at key
    simp only [Except.toOption, Option.map_some, Option.some.injEq, Prod.mk.injEq] at key
    refine ⟨s, rfl, key.1, ?_⟩
    intro i hi
    have h1 : ((List.range 4).map (s.channels.get 0)).getD i 0 = ([7, 7, 7, 7] : List ℚ).getD i 0 := by rw [key.2]
    rw [getD_map _ _ _ 0 (by simpa using hi), getD_range 0 hi] at h1
    rw [h1]
    match i, hi with
    | 0, _ => rfl
    | 1, _ => rfl
    | 2, _ => rfl
    | 3, _ => rfl

/-- C65 is violated: If the table starts more than one bin below 0 Hz, a `ValueError` is raised. -/
theorem C65_negative_error_violated [Zero α] (mem : Nat → Nat → α) (filename : String) (data : Mat α) (d : ℚ) (k : Nat)
    (hm : 1 ≤ data.rows) (hn : 2 ≤ data.cols) (hd : 0 < d) (hk : 2 ≤ k) :
    spectrumNpyRead mem filename ⟨(List.range data.cols).map fun (i : Nat) => ((i : ℚ) - k) * d, data⟩ =
      .error .valueError := by
  have hax : ((List.range data.cols).map fun (i : Nat) => ((i : ℚ) - k) * d) = grid (-(k * d)) d data.cols := by
    unfold grid
    congr 1
    funext i
    ring
  have hq : (2 : ℚ) ≤ data.cols := by exact_mod_cast hn
  have hq1 : (data.cols : ℚ) - 1 ≠ 0 := by linarith
  have hres : (-(k * d) + (data.cols - 1) * d - -(k * d)) / (data.cols - 1) = d := by
    field_simp
    ring
  have ho : pyRound (-((k : ℚ) * d) / d) = -(k : Int) := by
    have : -((k : ℚ) * d) / d = ((-(k : Int) : Int) : ℚ) := by
      push_cast
      field_simp
    rw [this, pyRound_int]
  unfold spectrumNpyRead spectrumFromRows
  rw [hax, if_pos (by show data.rows ≠ 0 ∧ data.cols ≠ 0; omega)]
  dsimp only
  rw [sort_grid hd.le (.refl _), grid_head (by omega), grid_last (by omega)]
  dsimp only
  rw [show (grid (-(k * d)) d data.cols).length = data.cols by simp [grid], if_neg (show ¬data.cols ≤ 1 by omega), hres,
    if_neg hd.ne', ho]
  unfold sortRows spectrumChannels
  rw [if_pos rfl, if_neg (show ¬-(k : Int) = 0 by omega), if_pos (show -(k : Int) < 0 by omega)]
  have h1 : ((data.slice .all (.drop (-(k : Int)))).broadcastTo (PySlice.all.count data.rows)
      (PySlice.all.count ((data.cols : Int) - -(k : Int)).toNat)) = .error .valueError := by
    unfold Mat.broadcastTo
    rw [if_neg]
    rintro ⟨_, h⟩
    have hc : (data.slice .all (.drop (-(k : Int)))).cols = data.cols - (-(k : Int) + data.cols).toNat := by
      show data.cols - clampBound data.cols (-(k : Int)) = _
      rw [clampBound_neg (by omega)]
    have hc' : PySlice.all.count ((data.cols : Int) - -(k : Int)).toNat = data.cols + k := by
      show ((data.cols : Int) - -(k : Int)).toNat - 0 = _
      omega
    rw [hc, hc'] at h
    omega
  have h2 : (alloc mem data.rows ((data.cols : Int) - -(k : Int)).toNat).assign .all .all
      (data.slice .all (.drop (-(k : Int)))) = .error .valueError := by
    unfold Mat.assign
    have : ((data.slice .all (.drop (-(k : Int)))).broadcastTo
        (PySlice.all.count (alloc mem data.rows ((data.cols : Int) - -(k : Int)).toNat).rows)
        (PySlice.all.count (alloc mem data.rows ((data.cols : Int) - -(k : Int)).toNat).cols)) = .error .valueError := h1
    rw [this]
  simp only [ne_eq, not_true_eq_false, decide_false, Bool.false_eq_true, if_false]
  rw [h2]
  rfl

example : ∃ (data : Mat ℚ) (d : ℚ) (k : Nat), 1 ≤ data.rows ∧ 2 ≤ data.cols ∧ 0 < d ∧ 2 ≤ k :=
  ⟨⟨1, 3, fun _ i => i⟩, 1, 2, by decide, by decide, by norm_num, by decide⟩

/-! ### C65: invalid rows -/

/-- the cells of a row with numbers -/
def numbers (r : ℚ × List α) : List (Cell α) := .axis r.1 :: r.2.map .sample

omit [LinearOrder α] [Inhabited α] in
theorem csvRow_numbers (r : ℚ × List α) : csvRow (numbers r) = .ok r := by
  have h : (r.2.map (Cell.sample : α → Cell α)).mapM Cell.toSample = .ok r.2 := by
    induction r.2 with
    | nil => rfl
    | cons y ys ih =>
      rw [List.map_cons, List.mapM_cons, ih]
      rfl
  unfold numbers csvRow
  show (((r.2.map (Cell.sample : α → Cell α)).mapM Cell.toSample >>= fun xs => .ok (r.1, xs)) : Py _) = _
  rw [h]
  rfl

omit [LinearOrder α] [Inhabited α] in
theorem mapM_csvRow_error (before : List (ℚ × List α)) (bad : List (Cell α)) (after : List (List (Cell α))) (e : PyExc)
    (h : csvRow bad = .error e) : (before.map numbers ++ bad :: after).mapM csvRow = .error e := by
  induction before with
  | nil =>
    rw [List.map_nil, List.nil_append, List.mapM_cons, h]
    rfl
  | cons r before ih =>
    rw [List.map_cons, List.cons_append, List.mapM_cons, csvRow_numbers, ih]
    rfl

omit [LinearOrder α] in
theorem csvTable_error (head : String) (labels : List String) (before : List (ℚ × List α)) (bad : List (Cell α))
    (after : List (List (Cell α))) (e : PyExc) (h : csvRow bad = .error e) :
    csvTable ((.text head :: labels.map .text) :: (before.map numbers ++ bad :: after)) = .error e := by
  unfold csvTable
  show ((before.map numbers ++ bad :: after).mapM csvRow >>= _) = _
  rw [mapM_csvRow_error before bad after e h]
  rfl

/-- C65: A row, that contains a text instead of a number, raises a `ValueError`, wherever it is in the file. -/
theorem C65_invalid_number [Zero α] (mem : Nat → Nat → α) (filename head : String) (labels : List String)
    (before : List (ℚ × List α)) (x : ℚ) (cells : List (Cell α)) (text : String) (h : .text text ∈ cells)
    (after : List (List (Cell α))) :
    signalCsvRead mem ((.text head :: labels.map .text) :: (before.map numbers ++ (.axis x :: cells) :: after)) =
        .error .valueError ∧
      spectrumCsvRead mem filename
        ((.text head :: labels.map .text) :: (before.map numbers ++ (.axis x :: cells) :: after)) = .error .valueError := by
  have hm : cells.mapM Cell.toSample = .error .valueError := by
    induction cells with
    | nil => cases h
    | cons c cells ih =>
      rw [List.mapM_cons]
      rcases List.mem_cons.mp h with rfl | h
      · rfl
      · rw [ih h]
        cases c <;> rfl
  have hr : csvRow (.axis x :: cells) = .error .valueError := by
    unfold csvRow
    show (cells.mapM Cell.toSample >>= _) = _
    rw [hm]
    rfl
  unfold signalCsvRead spectrumCsvRead
  rw [csvTable_error head labels before _ after _ hr]
  exact ⟨rfl, rfl⟩

/-- C65: A row without a number on the axis raises a `ValueError`. -/
theorem C65_invalid_axis [Zero α] (mem : Nat → Nat → α) (filename head : String) (labels : List String)
    (before : List (ℚ × List α)) (text : String) (cells : List (Cell α)) (after : List (List (Cell α))) :
    signalCsvRead mem ((.text head :: labels.map .text) :: (before.map numbers ++ (.text text :: cells) :: after)) =
        .error .valueError ∧
      spectrumCsvRead mem filename
        ((.text head :: labels.map .text) :: (before.map numbers ++ (.text text :: cells) :: after)) = .error .valueError := by
  unfold signalCsvRead spectrumCsvRead
  rw [csvTable_error head labels before _ after .valueError rfl]
  exact ⟨rfl, rfl⟩

/-- C65: An empty row raises an `IndexError`. -/
theorem C65_empty_row [Zero α] (mem : Nat → Nat → α) (filename head : String) (labels : List String)
    (before : List (ℚ × List α)) (after : List (List (Cell α))) :
    signalCsvRead mem ((.text head :: labels.map .text) :: (before.map numbers ++ [] :: after)) = .error .indexError ∧
      spectrumCsvRead mem filename ((.text head :: labels.map .text) :: (before.map numbers ++ [] :: after)) =
        .error .indexError := by
  unfold signalCsvRead spectrumCsvRead
  rw [csvTable_error head labels before _ after .indexError rfl]
  exact ⟨rfl, rfl⟩

/-- C65: Rows with different numbers of cells raise a `ValueError`. -/
theorem C65_ragged_rows [Zero α] (mem : Nat → Nat → α) (filename head : String) (labels : List String)
    (rows : List (ℚ × List α)) (h : ∃ a ∈ rows, ∃ b ∈ rows, a.2.length ≠ b.2.length) :
    signalCsvRead mem ((.text head :: labels.map .text) :: rows.map numbers) = .error .valueError ∧
      spectrumCsvRead mem filename ((.text head :: labels.map .text) :: rows.map numbers) = .error .valueError := by
  have hm : (rows.map numbers).mapM csvRow = .ok rows := by
    clear h
    induction rows with
    | nil => rfl
    | cons r rows ih =>
      rw [List.map_cons, List.mapM_cons, csvRow_numbers, ih]
      rfl
  have ht : transpose (rows.map Prod.snd) = .error .valueError := by
    rcases rows with _ | ⟨r, rows⟩
    · obtain ⟨a, ha, _⟩ := h
      cases ha
    unfold transpose
    rw [List.map_cons]
    dsimp only
    rw [if_neg]
    intro hall
    have heq : ∀ a ∈ r :: rows, a.2.length = r.2.length := by
      intro a ha
      rcases List.mem_cons.mp ha with rfl | ha
      · rfl
      · simpa using List.all_eq_true.mp hall a.2 (List.mem_map_of_mem ha)
    obtain ⟨a, ha, b, hb, hab⟩ := h
    exact hab ((heq a ha).trans (heq b hb).symm)
  have hc : csvTable ((.text head :: labels.map .text) :: rows.map numbers) = .error .valueError := by
    unfold csvTable
    show ((rows.map numbers).mapM csvRow >>= _) = _
    rw [hm]
    show (transpose ([] ++ rows.map Prod.snd) >>= _) = _
    rw [List.nil_append, ht]
    rfl
  unfold signalCsvRead spectrumCsvRead
  rw [hc]
  exact ⟨rfl, rfl⟩

example (mem : Nat → Nat → ℚ) : signalCsvRead mem [[.text "time", .text "a"], [.axis 0, .sample 1], [.axis 1, .text "b"]] =
    .error .valueError :=
  (C65_invalid_number mem "" "time" ["a"] [(0, [1])] 1 [.text "b"] "b" (by simp) []).1

end Table
end Verif
