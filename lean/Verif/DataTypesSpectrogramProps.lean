import Verif.DataTypesProps
import Verif.ConcatenateSpectrogramProps

/-
Property C149 for spectrograms: the concatenation does not depend on the data types.
-/

namespace Verif
namespace DataTypes

variable {R : Type}

open Concatenate (Entry sortEntries minStart maxStop labels SgSumSpec sgDelayed sgTotal sgValue)

/-! ### Replacing the samples of the spectrograms -/

theorem sgDelayed_map (F : Spectrogram (ℚ × ℚ) R → Spectrogram (ℚ × ℚ) R)
    (ho : ∀ s, (F s).offset = s.offset) (hl : ∀ s, (F s).length = s.length) (l : List (Spectrogram (ℚ × ℚ) R)) (n : Int) :
    sgDelayed n (l.map F) = (sgDelayed n l).map fun x => (x.1, F x.2) := by
  induction l generalizing n with
  | nil => rfl
  | cons s l ih => simp only [List.map_cons, sgDelayed, ih, ho, hl]

/-- A specification for spectrograms with the same shapes and samples -/
theorem sumSpec_map (F : Spectrogram (ℚ × ℚ) R → Spectrogram (ℚ × ℚ) R)
    (ho : ∀ s, (F s).offset = s.offset) (hl : ∀ s, (F s).length = s.length) (hc : ∀ s, (F s).count = s.count)
    (hf : ∀ s, (F s).freqs = s.freqs) (hr : ∀ s, (F s).rate = s.rate ∧ (F s).resolution = s.resolution)
    (l : List (Spectrogram (ℚ × ℚ) R)) (hv : ∀ s ∈ l, ∀ c k t, sgValue (F s) c k t = sgValue s c k t)
    (r : Spectrogram (ℚ × ℚ) R) (h : SgSumSpec (l.map F) r) : SgSumSpec l r := by
  have hd := sgDelayed_map F ho hl l 0
  obtain ⟨h1, h2, h3, h4, h5, h6, h7, h8, h9, h10⟩ := h
  rw [hd] at h2 h3 h4
  refine ⟨?_, ?_, ?_, ?_, ?_, ?_, ?_, ?_, ?_, ?_⟩
  · intro c k t
    rw [h1]
    unfold sgTotal
    rw [hd, List.map_map]
    congr 1
    apply List.map_congr_left
    intro x hx
    exact hv x.2 (Concatenate.mem_sgDelayed hx) c k _
  · intro x hx
    have := h2 _ (List.mem_map.2 ⟨x, hx, rfl⟩)
    dsimp only at this
    rwa [ho, hl] at this
  · obtain ⟨x, hx, e⟩ := h3
    obtain ⟨y, hy, rfl⟩ := List.mem_map.1 hx
    dsimp only at e
    rw [ho] at e
    exact ⟨y, hy, e⟩
  · obtain ⟨x, hx, e⟩ := h4
    obtain ⟨y, hy, rfl⟩ := List.mem_map.1 hx
    dsimp only at e
    rw [ho, hl] at e
    exact ⟨y, hy, e⟩
  · intro s hs
    rw [← hc]
    exact h5 _ (List.mem_map.2 ⟨s, hs, rfl⟩)
  · obtain ⟨x, hx, e⟩ := h6
    obtain ⟨y, hy, rfl⟩ := List.mem_map.1 hx
    exact ⟨y, hy, e.trans (hc y)⟩
  · intro s hs
    rw [← hf]
    exact h7 _ (List.mem_map.2 ⟨s, hs, rfl⟩)
  · obtain ⟨x, hx, e⟩ := h8
    obtain ⟨y, hy, rfl⟩ := List.mem_map.1 hx
    exact ⟨y, hy, e.trans (hf y)⟩
  · obtain ⟨x, hx, e1, e2⟩ := h9
    cases l with
    | nil => cases hx
    | cons y l =>
      cases hx
      exact ⟨y, rfl, e1.trans (hr y).1, e2.trans (hr y).2⟩
  · intro h i hi
    exact h10 (by rw [List.length_map]; exact h) i hi

/-! ### Arrays with numbers of one type -/

/-- All numbers in the array are of the type `d`. -/
def Closed (d : DType) (A : Cube (ℚ × ℚ)) : Prop := ∀ i j k, storeComplex d (A.get i j k) = A.get i j k

/-- a type, in which sums can be stored exactly -/
def Inexact (d : DType) : Prop := d.kind = .float ∨ d.kind = .complex

theorem storeComplex_float {d : DType} (h : d.kind = .float) (x : ℚ × ℚ) : storeComplex d x = (x.1, 0) := by
  unfold storeComplex store; rw [h]

theorem storeComplex_complex {d : DType} (h : d.kind = .complex) (x : ℚ × ℚ) : storeComplex d x = x := by
  unfold storeComplex; rw [h]

theorem storeComplex_idem {d : DType} (h : Inexact d) (x : ℚ × ℚ) :
    storeComplex d (storeComplex d x) = storeComplex d x := by
  rcases h with h | h
  · rw [storeComplex_float h, storeComplex_float h]
  · rw [storeComplex_complex h]

theorem storeComplex_zero {d : DType} (h : Inexact d) : storeComplex d 0 = 0 := by
  rcases h with h | h
  · rw [storeComplex_float h]; rfl
  · rw [storeComplex_complex h]

theorem storeComplex_add {d : DType} (h : Inexact d) (x y : ℚ × ℚ) :
    storeComplex d (x + y) = storeComplex d x + storeComplex d y := by
  rcases h with h | h
  · rw [storeComplex_float h, storeComplex_float h, storeComplex_float h]
    ext <;> simp
  · rw [storeComplex_complex h, storeComplex_complex h, storeComplex_complex h]

theorem promote_complex_left {a b : DType} (ha : a.kind = .complex) : (promote a b).kind = .complex := by
  obtain ⟨ka, na⟩ := a
  obtain ⟨kb, nb⟩ := b
  cases ha
  cases kb <;> rfl

/-- The types of the data sets can be stored in the array without loss. -/
def Suits (d e : DType) : Prop := d.kind = .complex ∨ (d.kind = .float ∧ e.kind ≠ .complex)

theorem Suits.inexact {d e : DType} (h : Suits d e) : Inexact d := h.elim Or.inr fun h => Or.inl h.1

theorem Suits.same {d e : DType} (h : Suits d e) : sameKind (promote d e) d = true := by
  unfold sameKind
  rcases h with h | ⟨h, h'⟩
  · rw [promote_complex_left h, h]; rfl
  · rw [promote_float_left h h', h]; rfl

theorem Suits.store {d e : DType} (h : Suits d e) (x : ℚ × ℚ) :
    storeComplex d (storeComplex (promote d e) x) = storeComplex d x := by
  rcases h with h | ⟨h, h'⟩
  · rw [storeComplex_complex (promote_complex_left h)]
  · rw [storeComplex_float (promote_float_left h h'), storeComplex_float h, storeComplex_float h]

theorem closed_map {d : DType} (hd : Inexact d) (A : Cube (ℚ × ℚ)) : Closed d (mapCube (storeComplex d) A) :=
  fun _ _ _ => storeComplex_idem hd _

theorem closed_scalar {d : DType} (hd : Inexact d) : Closed d (Cube.scalar 0) := fun _ _ _ => storeComplex_zero hd

theorem closed_slice {d : DType} {A : Cube (ℚ × ℚ)} (hA : Closed d A) (r s t : PySlice) : Closed d (A.slice r s t) :=
  fun _ _ _ => hA _ _ _

theorem closed_broadcast {d : DType} {A B : Cube (ℚ × ℚ)} {a b c : Nat} (hA : Closed d A)
    (h : A.broadcastTo a b c = .ok B) : Closed d B := by
  unfold Cube.broadcastTo at h
  split at h
  · cases h
    exact fun i j k => hA _ _ _
  · cases h

theorem closed_assign {d : DType} {A B C : Cube (ℚ × ℚ)} {r s t : PySlice} (hA : Closed d A) (hB : Closed d B)
    (h : A.assign r s t B = .ok C) : Closed d C := by
  unfold Cube.assign at h
  split at h
  · cases h
  · rename_i B' hB'
    cases h
    intro i j k
    dsimp only
    split
    · exact closed_broadcast hB hB' _ _ _
    · exact hA _ _ _

theorem closed_ufunc2 {d : DType} {A B out C : Cube (ℚ × ℚ)} {r s t : PySlice} (hd : Inexact d) (hout : Closed d out)
    (hA : Closed d A) (hB : Closed d B)
    (h : Cube.ufunc2 (· + ·) A B out r s t = .ok C) : Closed d C := by
  unfold Cube.ufunc2 at h
  split at h
  · cases h
  · cases h
  · rename_i A' B' hA' hB'
    refine closed_assign hout ?_ h
    intro i j k
    show storeComplex d (A'.get i j k + B'.get i j k) = _
    rw [storeComplex_add hd, closed_broadcast hA hA', closed_broadcast hB hB']

theorem ufunc2_map {d : DType} (f : ℚ × ℚ → ℚ × ℚ → ℚ × ℚ) (A B out : Cube (ℚ × ℚ)) (r s t : PySlice)
    (h : ∀ i j k y, f (A.get i j k) y = A.get i j k + storeComplex d y) :
    Cube.ufunc2 f A B out r s t = Cube.ufunc2 (· + ·) A (mapCube (storeComplex d) B) out r s t := by
  have hb : ∀ a b c, (mapCube (storeComplex d) B).broadcastTo a b c =
      (B.broadcastTo a b c >>= fun B' => pure (mapCube (storeComplex d) B')) := by
    intro a b c
    unfold Cube.broadcastTo
    by_cases h : (B.d0 = a ∨ B.d0 = 1) ∧ (B.d1 = b ∨ B.d1 = 1) ∧ (B.d2 = c ∨ B.d2 = 1)
    · rw [if_pos h]; exact if_pos h
    · rw [if_neg h]; exact if_neg h
  unfold Cube.ufunc2
  rw [hb]
  cases hA : A.broadcastTo (r.count out.d0) (s.count out.d1) (t.count out.d2) with
  | error e => rfl
  | ok A' =>
    cases hB : B.broadcastTo (r.count out.d0) (s.count out.d1) (t.count out.d2) with
    | error e => rfl
    | ok B' =>
      unfold Cube.broadcastTo at hA
      split at hA
      · cases hA
        simp only [h]
        rfl
      · cases hA

theorem addToCube_eq {d e : DType} (hde : Suits d e) (A : Cube (ℚ × ℚ)) (hA : Closed d A) (r s t : PySlice)
    (S : Cube (ℚ × ℚ)) : addToCube d e A r s t S = A.addTo r s t (mapCube (storeComplex d) S) := by
  unfold addToCube
  rw [if_pos hde.same]
  apply ufunc2_map
  intro i j k y
  show storeComplex d (storeComplex (promote d e) (A.get _ _ _ + y)) = A.get _ _ _ + _
  rw [hde.store, storeComplex_add hde.inexact, hA]

theorem closed_addTo {d : DType} (hd : Inexact d) {A C S : Cube (ℚ × ℚ)} {r s t : PySlice} (hA : Closed d A)
    (hS : Closed d S) (h : A.addTo r s t S = .ok C) : Closed d C :=
  closed_ufunc2 hd hA (closed_slice hA r s t) hS h

theorem bind_ok {A B : Type} {x : Py A} {f : A → Py B} {b : B} (h : x >>= f = .ok b) : ∃ a, x = .ok a ∧ f a = .ok b := by
  cases x with
  | error e => cases h
  | ok a => exact ⟨a, rfl, h⟩

theorem closed_write {d : DType} (hd : Inexact d) {A C S : Cube (ℚ × ℚ)} {number freqs : Nat} {start stop : Int}
    (hA : Closed d A) (hS : Closed d S)
    (h : Concatenate.writeSpectrogram number freqs A start stop S = .ok C) : Closed d C := by
  unfold Concatenate.writeSpectrogram at h
  obtain ⟨B, h1, h⟩ := bind_ok h
  obtain ⟨D, h2, h⟩ := bind_ok h
  have hB := closed_assign hA hS h1
  have hD : Closed d D := by
    unfold Concatenate.zeroFreqs at h2
    split at h2
    · exact closed_assign hB (closed_scalar hd) h2
    · cases h2; exact hB
  split at h
  · exact closed_assign hD (closed_scalar hd) h
  · cases h; exact hD

/-- an entry, whose samples have been converted to the type `d` -/
def convert (d : DType) (e : Entry (Typed (Cube (ℚ × ℚ)))) : Entry (Cube (ℚ × ℚ)) :=
  ⟨e.start, e.stop, mapCube (storeComplex d) e.data.value⟩

theorem copySpectrogram_eq {d : DType} (offset : Int) (number freqs : Nat) (A : Cube (ℚ × ℚ)) (last : Int)
    (p e : Entry (Typed (Cube (ℚ × ℚ)))) (he : Suits d e.data.type) (hA : Closed d A) :
    copySpectrogram d offset number freqs A last p e =
      Concatenate.copySpectrogram offset number freqs A last (convert d p) (convert d e) := by
  unfold copySpectrogram Concatenate.copySpectrogram writeSpectrogram
  simp only [addToCube_eq he A hA]
  rfl

theorem closed_copy {d : DType} (hd : Inexact d) {offset : Int} {number freqs : Nat} {A : Cube (ℚ × ℚ)} {last : Int}
    {p e : Entry (Typed (Cube (ℚ × ℚ)))} (hA : Closed d A) {x : Cube (ℚ × ℚ) × Int}
    (h : Concatenate.copySpectrogram offset number freqs A last (convert d p) (convert d e) = .ok x) :
    Closed d x.1 := by
  have hS : Closed d (convert d e).data := closed_map hd _
  unfold Concatenate.copySpectrogram at h
  dsimp only at h
  split at h
  · split at h
    · obtain ⟨C, h1, h⟩ := bind_ok h
      cases h
      exact closed_addTo hd hA hS h1
    · obtain ⟨C, h1, h⟩ := bind_ok h
      obtain ⟨D, h2, h⟩ := bind_ok h
      cases h
      exact closed_write hd (closed_addTo hd hA (closed_slice hS _ _ _) h1) (closed_slice hS _ _ _) h2
  · split at h
    · obtain ⟨C, h1, h⟩ := bind_ok h
      obtain ⟨D, h2, h⟩ := bind_ok h
      cases h
      exact closed_write hd (closed_assign hA (closed_scalar hd) h1) hS h2
    · obtain ⟨C, h1, h⟩ := bind_ok h
      cases h
      exact closed_write hd hA hS h1

theorem copySpectrograms_eq {d : DType} (hd : Inexact d) (offset : Int) (number freqs : Nat)
    (t : List (Entry (Typed (Cube (ℚ × ℚ))))) (ht : ∀ e ∈ t, Suits d e.data.type) :
    ∀ (A : Cube (ℚ × ℚ)) (last : Int) (p : Entry (Typed (Cube (ℚ × ℚ)))), Closed d A →
    copySpectrograms d offset number freqs A last p t =
      Concatenate.copySpectrograms offset number freqs A last (convert d p) (t.map (convert d)) := by
  induction t with
  | nil => intro A last p _; rfl
  | cons e t ih =>
    intro A last p hA
    simp only [copySpectrograms, Concatenate.copySpectrograms, List.map_cons]
    rw [copySpectrogram_eq _ _ _ _ _ _ _ (ht e (by simp)) hA]
    cases hx : Concatenate.copySpectrogram offset number freqs A last (convert d p) (convert d e) with
    | error e => rfl
    | ok x => exact ih (fun e' h => ht e' (List.mem_cons_of_mem _ h)) _ _ _ (closed_copy hd hA hx)

/-! ### The lists of the entries -/

/-- a spectrogram, whose samples have been converted to the type `d` -/
def convertSpectrogram (d : DType) (s : Spectrogram (ℚ × ℚ) R) : Spectrogram (ℚ × ℚ) R :=
  { s with channels := mapCube (storeComplex d) s.channels }

theorem convert_entries (d : DType) (l : List (Typed (Spectrogram (ℚ × ℚ) R))) (n : Int) :
    (spectrogramEntries n l).map (convert d) =
      Concatenate.spectrogramEntries n ((l.map Typed.value).map (convertSpectrogram d)) := by
  induction l generalizing n with
  | nil => rfl
  | cons s l ih => simp only [spectrogramEntries, Concatenate.spectrogramEntries, List.map_cons, ih]; rfl

theorem convert_sort (d : DType) (l : List (Entry (Typed (Cube (ℚ × ℚ))))) :
    (sortEntries l).map (convert d) = sortEntries (l.map (convert d)) :=
  List.map_insertionSort _ _ _ _ (fun _ _ _ _ => Iff.rfl)

theorem convert_minStart (d : DType) (h : Entry (Typed (Cube (ℚ × ℚ)))) (t : List (Entry (Typed (Cube (ℚ × ℚ))))) :
    minStart (convert d h) (t.map (convert d)) = minStart h t := by
  unfold minStart
  rw [List.foldl_map]; rfl

theorem convert_maxStop (d : DType) (h : Entry (Typed (Cube (ℚ × ℚ)))) (t : List (Entry (Typed (Cube (ℚ × ℚ))))) :
    maxStop (convert d h) (t.map (convert d)) = maxStop h t := by
  unfold maxStop
  rw [List.foldl_map]; rfl

theorem spectrogramEntries_starts (l : List (Typed (Spectrogram (ℚ × ℚ) R))) (n : Int) :
    (spectrogramEntries n l).map (fun e => (e.start, e.data.type)) =
      starts Spectrogram.offset Spectrogram.length n l := by
  induction l generalizing n with
  | nil => rfl
  | cons s l ih => simp only [spectrogramEntries, starts, List.map_cons, ih]

/-! ### The concatenation of spectrograms -/

/-- The samples of a spectrogram with a real data type do not have imaginary parts. -/
def RealIfReal (s : Typed (Spectrogram (ℚ × ℚ) R)) : Prop :=
  s.type.kind ≠ .complex → ∀ c k i, c < s.value.count → k < s.value.freqs → i < s.value.length →
    (s.value.channels.get c k i).2 = 0

/-- C149: spectrograms are concatenated exactly, if the data type of those which start first has a multiple of 8 bytes and
is complex, or if it is a floating point type and none of the other spectrograms is complex.
`_partial`: see `C149_imaginary_violated` and `C149_real_overlap_violated` for the other cases. -/
theorem C149_spectrograms_partial (mem : Nat → Nat → Nat → ℚ × ℚ) (l : List (Typed (Spectrogram (ℚ × ℚ) R)))
    (hl : l ≠ []) (hreal : ∀ s ∈ l, RealIfReal s)
    (hfirst : ∀ x ∈ starts Spectrogram.offset Spectrogram.length 0 l,
      (∀ y ∈ starts Spectrogram.offset Spectrogram.length 0 l, x.1 ≤ y.1) →
      (0 < x.2.size ∧ 8 ∣ x.2.size) ∧
        (x.2.kind = .complex ∨ (x.2.kind = .float ∧ ∀ s ∈ l, s.type.kind ≠ .complex))) :
    ∃ r, spectrograms mem l = .ok r ∧ (∃ s ∈ l, r.type = s.type) ∧ SgSumSpec (l.map Typed.value) r.value := by
  match l, hl with
  | [s], _ =>
    obtain ⟨r, hr, hspec⟩ := Concatenate.C22_spectrograms mem [s.value] (by simp)
    obtain rfl : s.value = r := by simpa [Concatenate.spectrograms] using hr
    exact ⟨s, rfl, ⟨s, by simp, rfl⟩, hspec⟩
  | first :: second :: rest, _ =>
    generalize hdata : first :: second :: rest = data at *
    have e1 : spectrograms mem data = spectrogramsMany mem first data := by rw [← hdata]; rfl
    rw [e1]
    unfold spectrogramsMany
    dsimp only
    have hperm : (sortEntries (spectrogramEntries 0 data)).Perm (spectrogramEntries 0 data) :=
      List.perm_insertionSort _ _
    cases hsort : sortEntries (spectrogramEntries 0 data) with
    | nil =>
      rw [hsort] at hperm
      have := hperm.length_eq
      rw [← hdata] at this
      simp [spectrogramEntries] at this
    | cons h t =>
      rw [hsort] at hperm
      have hhead := Concatenate.sorted_head hsort
      have hmin := Concatenate.minStart_le h t
      rw [hhead] at hmin
      have hmem : ∀ e ∈ h :: t, (e.start, e.data.type) ∈ starts Spectrogram.offset Spectrogram.length 0 data := by
        intro e he
        rw [← spectrogramEntries_starts]
        exact List.mem_map.2 ⟨e, hperm.mem_iff.1 he, rfl⟩
      obtain ⟨⟨hpos, hsize⟩, hd⟩ := hfirst _ (hmem h (by simp)) (by
        intro y hy
        rw [← spectrogramEntries_starts] at hy
        obtain ⟨e, he, rfl⟩ := List.mem_map.1 hy
        exact hmin e (hperm.mem_iff.2 he))
      dsimp only at hpos hsize hd
      dsimp only
      generalize hdt : h.data.type = d at hpos hsize hd ⊢
      have hsuit : ∀ s ∈ data, Suits d s.type := by
        intro s hs
        rcases hd with hd | ⟨hd, hd'⟩
        · exact Or.inl hd
        · exact Or.inr ⟨hd, hd' s hs⟩
      have hin : Inexact d := (hsuit first (by rw [← hdata]; simp)).inexact
      have ht : ∀ e ∈ t, Suits d e.data.type := by
        intro e he
        obtain ⟨s, hs, hs'⟩ := starts_types (hmem e (List.mem_cons_of_mem _ he))
        change s.type = e.data.type at hs'
        rw [← hs']
        exact hsuit s hs
      obtain ⟨r, hr, hspec⟩ := Concatenate.C22_spectrograms (fun i j k => storeComplex d (mem i j k))
        ((data.map Typed.value).map (convertSpectrogram d)) (by rw [← hdata]; simp)
      have hspec' : SgSumSpec (data.map Typed.value) r := by
        refine sumSpec_map (convertSpectrogram d) (fun _ => rfl) (fun _ => rfl) (fun _ => rfl) (fun _ => rfl)
          (fun _ => ⟨rfl, rfl⟩) _ ?_ r hspec
        intro v hv c k i
        obtain ⟨s, hs, rfl⟩ := List.mem_map.1 hv
        unfold sgValue
        by_cases hc : c < s.value.count ∧ k < s.value.freqs ∧ s.value.offset ≤ i ∧ i < s.value.offset + s.value.length
        · refine (if_pos hc).trans (Eq.trans ?_ (if_pos hc).symm)
          show storeComplex d (s.value.channels.get c k (i - s.value.offset).toNat) = _
          rcases hd with hd | ⟨hd, hd'⟩
          · exact storeComplex_complex hd _
          · rw [storeComplex_float hd]
            have := hreal s hs (hd' s hs) c k (i - s.value.offset).toNat hc.1 hc.2.1 (by omega)
            exact Prod.ext rfl this.symm
        · exact (if_neg hc).trans (if_neg hc).symm
      have e2 : Concatenate.spectrograms (fun i j k => storeComplex d (mem i j k))
          ((data.map Typed.value).map (convertSpectrogram d)) =
          Concatenate.spectrogramsMany (fun i j k => storeComplex d (mem i j k)) (convertSpectrogram d first.value)
            ((data.map Typed.value).map (convertSpectrogram d)) := by rw [← hdata]; rfl
      rw [e2] at hr
      unfold Concatenate.spectrogramsMany at hr
      dsimp only at hr
      rw [← convert_entries, ← convert_sort, hsort, List.foldl_map, List.foldl_map] at hr
      simp only [List.map_cons, convert_minStart, convert_maxStop] at hr
      rw [← List.map_cons, List.foldl_map] at hr
      rw [C149_allocate_partial _ _ hpos hsize]
      obtain ⟨C, h1, hr⟩ := bind_ok hr
      obtain ⟨D, h2, hr⟩ := bind_ok hr
      cases hr
      have hC : Closed d C := closed_write hin (fun i j k => storeComplex_idem hin _) (closed_map hin _) h1
      have h1' : writeSpectrogram d (data.foldl (fun m s => max m s.value.count) 0)
          ((h :: t).foldl (fun m e => max m e.data.value.d1) 0)
          (allocCube (fun i j k => storeComplex d (mem i j k)) (data.foldl (fun m s => max m s.value.count) 0)
            ((h :: t).foldl (fun m e => max m e.data.value.d1) 0) (maxStop h t - minStart h t).toNat)
          (h.start - minStart h t) (h.stop - minStart h t) h.data.value = .ok C := h1
      have h2' := (copySpectrograms_eq hin (minStart h t) (data.foldl (fun m s => max m s.value.count) 0)
        ((h :: t).foldl (fun m e => max m e.data.value.d1) 0) t ht C 0 h hC).trans h2
      obtain ⟨s, hs, hs'⟩ := starts_types (hmem h (by simp))
      change s.type = h.data.type at hs'
      refine ⟨⟨d, _⟩, ?_, ⟨s, hs, ?_⟩, hspec'⟩
      · show (writeSpectrogram d _ _ _ _ _ _ >>= _) = _
        rw [h1']
        show (copySpectrograms d _ _ _ _ _ _ _ >>= _) = _
        rw [h2']
        rfl
      · rw [hs', hdt]

/-- a spectrogram for the examples -/
def exSpectrogram (d : DType) (offset : Int) (l : List (ℚ × ℚ)) : Typed (Spectrogram (ℚ × ℚ) Nat) :=
  ⟨d, Spectrogram.new (Cube.ofLists 1 l.length [[l]]) 1 48000 offset (some ["x"])⟩

/-- the type of the samples and the samples of a result -/
def sgSummary (r : Py (Typed (Spectrogram (ℚ × ℚ) Nat))) : Py (DType × List (ℚ × ℚ)) :=
  match r with
  | .error e => .error e
  | .ok x => .ok (x.type, x.value.channels.flat)

/-- `numpy.complex128` -/
def complex128 : DType := ⟨.complex, 16⟩

/-- a concatenation, for which the hypotheses of `C149_spectrograms_partial` hold: a complex spectrogram and a real one,
which overlap -/
example : sgSummary (spectrograms (fun _ _ _ => (7, 7))
    [exSpectrogram complex128 0 [(1, 2), (3, 4)], exSpectrogram float64 (-1) [(5, 0), (6, 0)]]) =
    .ok (complex128, [(1, 2), (8, 4), (6, 0)]) := by decide +kernel

example : RealIfReal (exSpectrogram float64 (-1) [(5, 0), (6, 0)]) := by
  intro _ c k i hc hk hi
  change c < 1 at hc; change k < 1 at hk; change i < 2 at hi
  obtain rfl : c = 0 := by omega
  obtain rfl : k = 0 := by omega
  obtain rfl | rfl : i = 0 ∨ i = 1 := by omega
  · rfl
  · rfl

/-- C149 is violated: if the first spectrogram is real, e.g. the result of `abs(spectrogram)`, the imaginary parts of the
others are lost. -/
theorem C149_imaginary_violated :
    sgSummary (spectrograms (fun _ _ _ => (7, 7))
      [exSpectrogram float64 0 [(1, 0)], exSpectrogram complex128 0 [(3, 4)]]) =
      .ok (float64, [(1, 0), (3, 0)]) := by decide +kernel

/-- C149 is violated: if the first spectrogram is real, it cannot overlap with complex ones. -/
theorem C149_real_overlap_violated :
    sgSummary (spectrograms (fun _ _ _ => (7, 7))
      [exSpectrogram float64 0 [(1, 0), (2, 0)], exSpectrogram complex128 (-1) [(3, 4)]]) =
      .error .typeError := by decide +kernel

end DataTypes
end Verif
