import Verif.JoinProps
import Verif.PowModProps
import Verif.FourierLawsProps
import Verif.ComplexPartsProps

/-
Property C122: joining data sets commutes with processing them.  Merging (`sumpf/_blocks/_merge.py`) commutes with
each operation, that is applied to the samples separately and keeps zeros, and with the Fourier transform; concatenating
(`sumpf/_blocks/_concatenate.py`) commutes with each operation, that is additive.
-/

namespace Verif

variable {α β R : Type}

namespace Signal

/-- The signal `r` has the channels, the labels and the time range of `s`; its values are computed from those of `s` with
the function `f`, also outside of the time range, where they are zero. -/
structure Like [Zero α] (f : α → α) (s r : Signal α R) : Prop where
  rate : r.rate = s.rate
  offset : r.offset = s.offset
  count : r.count = s.count
  length : r.length = s.length
  labels : r.labels = s.labels
  value : ∀ c t, r.value c t = f (s.value c t)

theorem Pointwise.like [Zero α] {f : α → α} (hf : f 0 = 0) {s r : Signal α R} (h : Pointwise f s r)
    (hl : r.labels = s.labels) : Like f s r := by
  refine ⟨h.rate, h.offset, h.count, h.length, hl, fun c t => ?_⟩
  have h1 := h.offset
  have h2 := h.count
  have h3 := h.length
  by_cases k : c < s.count ∧ s.offset ≤ t ∧ t < s.offset + s.length
  · rw [value_of_covered s k.1 k.2.1 k.2.2, value_of_covered r (by omega) (by omega) (by omega), h1, h.get k.1 (by omega)]
  · rw [value_of_not s k, value_of_not r (by omega), hf]

theorem like_map [Zero α] {f : α → α} (hf : f 0 = 0) (s : Signal α R) (hs : s.WF) : Like f s (s.mapSamples f) :=
  (Pointwise.of_get (g := f) (s := s) (r := s.mapSamples f) rfl rfl rfl rfl fun _ _ _ _ => rfl).like hf
    (sanitize_self hs)

theorem Like.same [Zero α] {f : α → α} {s r r' : Signal α R} (h : Like f s r) (h' : Like f s r') : Same r r' :=
  same_of_samples (sameSamples_of_value (h.rate.trans h'.rate.symm) (h.offset.trans h'.offset.symm)
    (h.count.trans h'.count.symm) (h.length.trans h'.length.symm) fun c t _ _ _ => by rw [h.value, h'.value])
    (h.labels.trans h'.labels.symm)

end Signal

namespace Merge

open Signal

theorem forall_get {A B : Type} {P : A → B → Prop} {l : List A} {l' : List B} (h : List.Forall₂ P l l') :
    l.length = l'.length ∧ ∀ (o : Nat) a b, l[o]? = some a → l'[o]? = some b → P a b := by
  induction h with
  | nil => exact ⟨rfl, by simp⟩
  | cons hp _ ih =>
    refine ⟨by simp [ih.1], ?_⟩
    intro o a b ha hb
    cases o with
    | zero =>
      simp only [List.getElem?_cons_zero, Option.some.injEq] at ha hb
      subst ha hb
      exact hp
    | succ o => exact ih.2 o a b (by simpa using ha) (by simpa using hb)

theorem forall_map {A B C : Type} {P : A → B → Prop} {u : A → C} {v : B → C} (huv : ∀ a b, P a b → v b = u a)
    {l : List A} {l' : List B} (h : List.Forall₂ P l l') : l'.map v = l.map u := by
  induction h with
  | nil => rfl
  | cons hp _ ih => rw [List.map_cons, List.map_cons, ih, huv _ _ hp]

theorem forall_mem {A B : Type} {P : A → B → Prop} {l : List A} {l' : List B} (h : List.Forall₂ P l l') :
    (∀ a ∈ l, ∃ b ∈ l', P a b) ∧ (∀ b ∈ l', ∃ a ∈ l, P a b) ∧
    ∀ a b, l.head? = some a → l'.head? = some b → P a b := by
  induction h with
  | nil => simp
  | cons hp _ ih =>
    refine ⟨?_, ?_, by simpa using hp⟩
    · intro a ha
      rcases List.mem_cons.1 ha with rfl | ha
      · exact ⟨_, by simp, hp⟩
      · obtain ⟨b, hb, h⟩ := ih.1 a ha
        exact ⟨b, by simp [hb], h⟩
    · intro b hb
      rcases List.mem_cons.1 hb with rfl | hb
      · exact ⟨_, by simp, hp⟩
      · obtain ⟨a, ha, h⟩ := ih.2.1 b hb
        exact ⟨a, by simp [ha], h⟩

theorem forall_of_map {A B : Type} {P : A → B → Prop} {g : A → B} {l : List A} (h : ∀ a ∈ l, P a (g a)) :
    List.Forall₂ P l (l.map g) := by
  induction l with
  | nil => exact .nil
  | cons a l ih => exact .cons (h a (by simp)) (ih fun b hb => h b (by simp [hb]))

/-- The data set and the channel in it, from which the channel `k` of merged data comes. -/
theorem origin {D : Type} (mode : MergeMode) (data : List D) (count : D → Nat) {k : Nat} (hk : k < (data.map count).sum) :
    ∃ o i d, (order mode (data.map count))[k]? = some (o, i) ∧ data[o]? = some d ∧ i < count d := by
  rw [← order_length mode] at hk
  obtain ⟨⟨o, i⟩, h⟩ : ∃ x, (order mode (data.map count))[k]? = some x := ⟨_, List.getElem?_eq_getElem hk⟩
  obtain ⟨h1, h2, _⟩ := rank_of_get h
  rw [List.length_map] at h1
  refine ⟨o, i, data[o], h, List.getElem?_eq_getElem h1, ?_⟩
  rw [List.getD_eq_getElem?_getD, List.getElem?_map, List.getElem?_eq_getElem h1] at h2
  exact h2

theorem labels_ext {a b : List String} {n : Nat} (ha : a.length = n) (hb : b.length = n)
    (h : ∀ k, k < n → a[k]? = b[k]?) : a = b := by
  apply List.ext_getElem?
  intro k
  by_cases hk : k < n
  · exact h k hk
  · rw [List.getElem?_eq_none (by omega), List.getElem?_eq_none (by omega)]

theorem merge_like [Zero α] {mode : MergeMode} {f : α → α} (hf : f 0 = 0) {data data' : List (Signal α R)}
    (h : List.Forall₂ (Like f) data data') {r r' : Signal α R} (hr : r.WF) (hr' : r'.WF)
    (sp : SignalSpec mode data r) (sp' : SignalSpec mode data' r') : Like f r r' := by
  have hcounts : data'.map (fun d => d.count) = data.map (fun d => d.count) := forall_map (fun _ _ k => k.count) h
  have hcount : r'.count = r.count := by rw [sp'.count, sp.count, hcounts]
  obtain ⟨m1, m2, m3⟩ := forall_mem h
  have hoff : r'.offset = r.offset ∧ r'.length = r.length := by
    obtain ⟨a, ha, e1⟩ := sp.start
    obtain ⟨b, hb, e2⟩ := sp.stop
    obtain ⟨a', ha', e3⟩ := sp'.start
    obtain ⟨b', hb', e4⟩ := sp'.stop
    obtain ⟨x1, n1, p1⟩ := m1 a ha
    obtain ⟨x2, n2, p2⟩ := m1 b hb
    obtain ⟨x3, n3, p3⟩ := m2 a' ha'
    obtain ⟨x4, n4, p4⟩ := m2 b' hb'
    have := sp'.covers x1 n1
    have := sp'.covers x2 n2
    have := sp.covers x3 n3
    have := sp.covers x4 n4
    have := p1.offset
    have := p1.length
    have := p2.offset
    have := p2.length
    have := p3.offset
    have := p3.length
    have := p4.offset
    have := p4.length
    omega
  have hchan : ∀ k, k < r.count → (∀ t, r'.value k t = f (r.value k t)) ∧ r'.labels[k]? = r.labels[k]? := by
    intro k hk
    rw [sp.count] at hk
    obtain ⟨o, i, d, h1, h2, _⟩ := origin mode data (fun d => d.count) hk
    obtain ⟨ho, hd⟩ := forall_get h
    have h3 : data'[o]? = some (data'[o]'(by have := (List.getElem?_eq_some_iff.1 h2).1; omega)) :=
      List.getElem?_eq_getElem _
    have p := hd o _ _ h2 h3
    obtain ⟨v, l⟩ := sp.channel k o i d h1 h2
    obtain ⟨v', l'⟩ := sp'.channel k o i _ (by rw [hcounts]; exact h1) h3
    exact ⟨fun t => by rw [v', p.value, v], by rw [l', l, p.labels]⟩
  refine ⟨?_, hoff.1, hcount, hoff.2, ?_, ?_⟩
  · obtain ⟨d, hd, e⟩ := sp.rate
    obtain ⟨d', hd', e'⟩ := sp'.rate
    rw [e, e', (m3 d d' hd hd').rate]
  · exact labels_ext (hr'.trans hcount) hr fun k hk => (hchan k hk).2
  · intro k t
    by_cases hk : k < r.count
    · exact (hchan k hk).1 t
    · rw [value_of_not r (by omega), value_of_not r' (by omega), hf]

/-- C122: merging signals, to whose samples a function, that keeps zeros, has been applied, is the same as applying the
function to the merged signal, regardless of the order of the channels, the offsets and the lengths of the signals.
This is the case for the absolute values and the negated signals. -/
theorem C122_merge_signals [Zero α] (mem mem' : Nat → Nat → α) (mode : MergeMode) (f : α → α) (hf : f 0 = 0)
    (data : List (Signal α R)) (hd : data ≠ []) (hw : ∀ d ∈ data, d.WF)
    (hv : Valid mode (data.map fun d => d.count)) :
    ∃ r r', signals mem mode data = .ok r ∧ signals mem' mode (data.map (mapSamples f)) = .ok r' ∧
      Same r' (r.mapSamples f) := by
  obtain ⟨r, h, sp⟩ := C23_signals_partial mem mode data hd hw hv
  have hl : List.Forall₂ (Like f) data (data.map (mapSamples f)) := forall_of_map fun d k => like_map hf d (hw d k)
  have hw' : ∀ d ∈ data.map (mapSamples f), d.WF := by
    intro d k
    obtain ⟨e, _, rfl⟩ := List.mem_map.1 k
    exact new_wf _ _ _ _
  obtain ⟨r', h', sp'⟩ := C23_signals_partial mem' mode (data.map (mapSamples f)) (by simpa using hd) hw'
    (by rw [forall_map (u := fun d : Signal α R => d.count) (fun _ _ k => k.count) hl]; exact hv)
  exact ⟨r, r', h, h', (merge_like hf hl (signals_wf h hw) (signals_wf h' hw') sp sp').same
    (like_map hf r (signals_wf h hw))⟩

/-- The signals of the examples: they have different offsets and lengths. -/
def demo : List (Signal Int Nat) := [Concatenate.mono [1, -2] 3, Concatenate.mono [-5] (-1)]

theorem demo_wf : ∀ d ∈ demo, d.WF := by
  intro d hd
  simp only [demo, List.mem_cons, List.not_mem_nil, or_false] at hd
  rcases hd with rfl | rfl <;> rfl

theorem demo_valid : Valid .firstChannelsFirst (demo.map fun d => d.count) := Or.inr ⟨rfl, by decide⟩

example : ∃ r r', signals (fun _ _ => 9) .firstChannelsFirst demo = .ok r ∧
    signals (fun _ _ => 8) .firstChannelsFirst (demo.map (mapSamples fun x => |x|)) = .ok r' ∧
    Same r' (r.mapSamples fun x => |x|) :=
  C122_merge_signals _ _ _ _ (by simp) _ (by simp [demo]) demo_wf demo_valid

/-- A function, that succeeds for each element of a list. -/
theorem mapM_ok {A B : Type} {P : A → B → Prop} {g : A → Py B} {l : List A}
    (h : ∀ a ∈ l, ∃ b, g a = .ok b ∧ P a b) : ∃ l', l.mapM g = .ok l' ∧ List.Forall₂ P l l' := by
  induction l with
  | nil => exact ⟨[], rfl, .nil⟩
  | cons a l ih =>
    obtain ⟨b, h1, h2⟩ := h a (by simp)
    obtain ⟨l', h3, h4⟩ := ih fun c hc => h c (by simp [hc])
    exact ⟨b :: l', by rw [List.mapM_cons, h1, h3]; rfl, .cons h2 h4⟩

/-- C122: merging signals, that have been combined with a number on the right of an operator, that keeps zeros (e.g. that
have been multiplied with or divided by a number), is the same as combining the merged signal with the number. -/
theorem C122_merge_gain [Zero α] (mem mem' m m' : Nat → Nat → α) (mode : MergeMode) (f : α → α → α) (y : α)
    (hf : f 0 y = 0) (data : List (Signal α R)) (hd : data ≠ []) (hw : ∀ d ∈ data, d.WF)
    (hv : Valid mode (data.map fun d => d.count)) :
    ∃ data' r r' q, data.mapM (fun d => algebraArray m f d (.scalar y)) = .ok data' ∧
      signals mem mode data = .ok r ∧ signals mem' mode data' = .ok r' ∧
      algebraArray m' f r (.scalar y) = .ok q ∧ Same r' q := by
  obtain ⟨data', h1, h2⟩ := mapM_ok (P := fun d d' => Like (fun x => f x y) d d' ∧ d'.WF)
    (g := fun d => algebraArray m f d (.scalar y)) (l := data) (by
      intro d hd
      obtain ⟨d', e1, e2, e3, e4⟩ := array_number m f d (hw d hd) y
      exact ⟨d', e1, e2.like hf e3, e4⟩)
  have hl : List.Forall₂ (Like fun x => f x y) data data' := h2.imp fun _ _ k => k.1
  have hw' : ∀ d ∈ data', d.WF := fun d k => by
    obtain ⟨_, _, e⟩ := (forall_mem h2).2.1 d k
    exact e.2
  have hd' : data' ≠ [] := by
    rintro rfl
    cases h2
    exact hd rfl
  obtain ⟨r, h, sp⟩ := C23_signals_partial mem mode data hd hw hv
  obtain ⟨r', h', sp'⟩ := C23_signals_partial mem' mode data' hd' hw'
    (by rw [forall_map (u := fun d : Signal α R => d.count) (fun _ _ k => k.count) hl]; exact hv)
  obtain ⟨q, e1, e2, e3, e4⟩ := array_number m' f r (signals_wf h hw) y
  exact ⟨data', r, r', q, h1, h, h', e1,
    (merge_like hf hl (signals_wf h hw) (signals_wf h' hw') sp sp').same (e2.like hf e3)⟩

example : ∃ data' r r' q, demo.mapM (fun d => algebraArray (fun _ _ => 7) (· * ·) d (.scalar 3)) = .ok data' ∧
    signals (fun _ _ => 9) .firstChannelsFirst demo = .ok r ∧
    signals (fun _ _ => 8) .firstChannelsFirst data' = .ok r' ∧
    algebraArray (fun _ _ => 6) (· * ·) r (.scalar 3) = .ok q ∧ Same r' q :=
  C122_merge_gain _ _ _ _ _ _ _ rfl _ (by simp [demo]) demo_wf demo_valid

/-- C122 does not hold for operators, that do not keep zeros: when the signals have different time ranges, the gaps
between them are filled with zeros after the operation in the one case and before it in the other. -/
theorem C122_merge_offset_violated : ∃ (a b : Signal Int Nat) (data' : List (Signal Int Nat)) (r r' q : Signal Int Nat),
    [a, b].mapM (fun d => algebraArray (fun _ _ => 7) (· + ·) d (.scalar 3)) = .ok data' ∧
    signals (fun _ _ => 9) .firstChannelsFirst [a, b] = .ok r ∧
    signals (fun _ _ => 8) .firstChannelsFirst data' = .ok r' ∧
    algebraArray (fun _ _ => 6) (· + ·) r (.scalar 3) = .ok q ∧ r'.value 0 (-1) = 0 ∧ q.value 0 (-1) = 3 :=
  ⟨Concatenate.mono [1, -2] 3, Concatenate.mono [-5] (-1), _, _, _, _, rfl, rfl, rfl, rfl, by decide +kernel,
    by decide +kernel⟩

/-! ### Spectrums -/

theorem spectrum_new_wf (m : Mat α) (r : R) (l : Option (List String)) : (Spectrum.new m r l).WF := by
  simp [Spectrum.WF, Spectrum.new, Spectrum.count, C01_labels_length]

theorem spectrums_wf [Zero α] {mem : Nat → Nat → α} {mode : MergeMode} {data : List (Spectrum α R)} {r : Spectrum α R}
    (h : spectrums mem mode data = .ok r) (hw : ∀ d ∈ data, d.WF) : r.WF := by
  match data, h with
  | [s], h =>
    obtain rfl := Except.ok.inj h
    exact hw s (by simp)
  | a :: b :: l, h =>
    unfold spectrums spectrumsMany at h
    simp only [bind, Except.bind] at h
    split at h
    · cases h
    · split at h
      · cases h
      · obtain rfl := Except.ok.inj h
        exact spectrum_new_wf _ _ _

/-- The spectrum `r` has the channels, the labels and the frequencies of `s`; its samples are computed from those of `s`
with the function `f`. -/
structure SpectrumLike (f : α → β) (s : Spectrum α R) (r : Spectrum β R) : Prop where
  resolution : r.resolution = s.resolution
  count : r.count = s.count
  length : r.length = s.length
  labels : r.labels = s.labels
  value : ∀ c k, c < s.count → k < s.length → r.channels.get c k = f (s.channels.get c k)

theorem spectrumLike_map (f : α → β) (s : Spectrum α R) (hs : s.WF) : SpectrumLike f s (s.mapSamples f) :=
  ⟨rfl, rfl, rfl, sanitize_self hs, fun _ _ _ _ => rfl⟩

theorem merge_spectrumLike [Zero α] [Zero β] {mode : MergeMode} {f : α → β} (hf : f 0 = 0) {data : List (Spectrum α R)}
    {data' : List (Spectrum β R)} (h : List.Forall₂ (SpectrumLike f) data data') {r : Spectrum α R} {r' : Spectrum β R}
    (hr : r.WF) (hr' : r'.WF) (sp : SpectrumSpec mode data r) (sp' : SpectrumSpec mode data' r') :
    SpectrumLike f r r' := by
  have hcounts : data'.map (fun d => d.count) = data.map (fun d => d.count) := forall_map (fun _ _ k => k.count) h
  have hcount : r'.count = r.count := by rw [sp'.count, sp.count, hcounts]
  obtain ⟨m1, m2, m3⟩ := forall_mem h
  have hlen : r'.length = r.length := by
    obtain ⟨a, ha, e1⟩ := sp.length
    obtain ⟨b, hb, e2⟩ := sp'.length
    obtain ⟨x1, n1, p1⟩ := m1 a ha
    obtain ⟨x2, n2, p2⟩ := m2 b hb
    have := sp'.covers x1 n1
    have := sp.covers x2 n2
    have := p1.length
    have := p2.length
    omega
  have hchan : ∀ k, k < r.count → (∀ j, j < r.length → r'.channels.get k j = f (r.channels.get k j)) ∧
      r'.labels[k]? = r.labels[k]? := by
    intro k hk
    rw [sp.count] at hk
    obtain ⟨o, i, d, h1, h2, hi⟩ := origin mode data (fun d => d.count) hk
    obtain ⟨ho, hd⟩ := forall_get h
    have h3 : data'[o]? = some (data'[o]'(by have := (List.getElem?_eq_some_iff.1 h2).1; omega)) :=
      List.getElem?_eq_getElem _
    have p := hd o _ _ h2 h3
    obtain ⟨v, l⟩ := sp.channel k o i d h1 h2
    obtain ⟨v', l'⟩ := sp'.channel k o i _ (by rw [hcounts]; exact h1) h3
    refine ⟨fun j hj => ?_, by rw [l', l, p.labels]⟩
    rw [v j hj, v' j (hlen ▸ hj), p.length]
    split
    · next hj' => exact p.value i j hi hj'
    · exact hf.symm
  refine ⟨?_, hcount, hlen, ?_, fun k j hk hj => (hchan k hk).1 j hj⟩
  · obtain ⟨d, hd, e⟩ := sp.resolution
    obtain ⟨d', hd', e'⟩ := sp'.resolution
    rw [e, e', (m3 d d' hd hd').resolution]
  · exact labels_ext (hr'.trans hcount) hr fun k hk => (hchan k hk).2

/-- C122: merging spectrums, to whose samples a function, that keeps zeros, has been applied, is the same as applying the
function to the merged spectrum.  This is the case for the magnitudes, the negated and the conjugated spectrums. -/
theorem C122_merge_spectrums [Zero α] [Zero β] (mem : Nat → Nat → α) (mem' : Nat → Nat → β) (mode : MergeMode)
    (f : α → β) (hf : f 0 = 0) (data : List (Spectrum α R)) (hd : data ≠ []) (hw : ∀ d ∈ data, d.WF)
    (hv : Valid mode (data.map fun d => d.count)) :
    ∃ r r', spectrums mem mode data = .ok r ∧ spectrums mem' mode (data.map (Spectrum.mapSamples f)) = .ok r' ∧
      SpectrumLike id (r.mapSamples f) r' := by
  obtain ⟨r, h, sp⟩ := C23_spectrums_partial mem mode data hd hw hv
  have hl : List.Forall₂ (SpectrumLike f) data (data.map (Spectrum.mapSamples f)) :=
    forall_of_map fun d k => spectrumLike_map f d (hw d k)
  have hw' : ∀ d ∈ data.map (Spectrum.mapSamples f), d.WF := by
    intro d k
    obtain ⟨e, _, rfl⟩ := List.mem_map.1 k
    exact spectrum_new_wf _ _ _
  obtain ⟨r', h', sp'⟩ := C23_spectrums_partial mem' mode (data.map (Spectrum.mapSamples f)) (by simpa using hd) hw'
    (by rw [forall_map (u := fun d : Spectrum α R => d.count) (fun _ _ k => k.count) hl]; exact hv)
  have a := merge_spectrumLike hf hl (spectrums_wf h hw) (spectrums_wf h' hw') sp sp'
  have b := spectrumLike_map f r (spectrums_wf h hw)
  exact ⟨r, r', h, h', a.resolution, a.count, a.length, a.labels.trans b.labels.symm, a.value⟩

/-- The spectrums of the examples: they have different lengths. -/
def spectrumDemo : List (Spectrum Int Nat) :=
  [Spectrum.new { rows := 1, cols := 2, get := fun _ k => 3 - k } 5 none,
    Spectrum.new { rows := 2, cols := 1, get := fun c _ => -7 * (c : Int) } 5 none]

example : ∃ r r', spectrums (fun _ _ => 9) .firstDatasetFirst spectrumDemo = .ok r ∧
    spectrums (fun _ _ => 8) .firstDatasetFirst (spectrumDemo.map (Spectrum.mapSamples fun x => -x)) = .ok r' ∧
    SpectrumLike id (r.mapSamples fun x => -x) r' :=
  C122_merge_spectrums _ _ _ _ (by simp) _ (by simp [spectrumDemo]) (by
    intro d hd
    simp only [spectrumDemo, List.mem_cons, List.not_mem_nil, or_false] at hd
    rcases hd with rfl | rfl <;> rfl) (Or.inl rfl)

/-! ### Spectrograms -/

theorem spectrogram_new_wf (m : Cube α) (p q : R) (o : Int) (l : Option (List String)) :
    (Spectrogram.new m p q o l).WF := by
  simp [Spectrogram.WF, Spectrogram.new, Spectrogram.count, C01_labels_length]

theorem spectrograms_wf [Zero α] {mem : Nat → Nat → Nat → α} {mode : MergeMode} {data : List (Spectrogram α R)}
    {r : Spectrogram α R} (h : spectrograms mem mode data = .ok r) (hw : ∀ d ∈ data, d.WF) : r.WF := by
  match data, h with
  | [s], h =>
    obtain rfl := Except.ok.inj h
    exact hw s (by simp)
  | a :: b :: l, h =>
    unfold spectrograms spectrogramsMany at h
    simp only [bind, Except.bind] at h
    split at h
    · cases h
    · split at h
      · cases h
      · split at h
        · cases h
        · obtain rfl := Except.ok.inj h
          exact spectrogram_new_wf _ _ _ _ _

/-- The spectrogram `r` has the channels, the labels, the frequencies and the time range of `s`; its values are computed
from those of `s` with the function `f`, also outside of the time range, where they are zero. -/
structure SpectrogramLike [Zero α] [Zero β] (f : α → β) (s : Spectrogram α R) (r : Spectrogram β R) : Prop where
  resolution : r.resolution = s.resolution
  rate : r.rate = s.rate
  offset : r.offset = s.offset
  count : r.count = s.count
  freqs : r.freqs = s.freqs
  length : r.length = s.length
  labels : r.labels = s.labels
  value : ∀ c k t, Concatenate.sgValue r c k t = f (Concatenate.sgValue s c k t)

theorem spectrogramLike_map [Zero α] [Zero β] {f : α → β} (hf : f 0 = 0) (s : Spectrogram α R) (hs : s.WF) :
    SpectrogramLike f s (s.mapSamples f) := by
  refine ⟨rfl, rfl, rfl, rfl, rfl, rfl, sanitize_self hs, fun c k t => ?_⟩
  unfold Concatenate.sgValue
  by_cases h : c < s.count ∧ k < s.freqs ∧ s.offset ≤ t ∧ t < s.offset + s.length
  · rw [if_pos h]
    exact if_pos h
  · rw [if_neg h, hf]
    exact if_neg h

theorem merge_spectrogramLike [Zero α] [Zero β] {mode : MergeMode} {f : α → β} (hf : f 0 = 0)
    {data : List (Spectrogram α R)} {data' : List (Spectrogram β R)} (h : List.Forall₂ (SpectrogramLike f) data data')
    {r : Spectrogram α R} {r' : Spectrogram β R} (hr : r.WF) (hr' : r'.WF) (sp : SpectrogramSpec mode data r)
    (sp' : SpectrogramSpec mode data' r') : SpectrogramLike f r r' := by
  have hcounts : data'.map (fun d => d.count) = data.map (fun d => d.count) := forall_map (fun _ _ k => k.count) h
  have hcount : r'.count = r.count := by rw [sp'.count, sp.count, hcounts]
  obtain ⟨m1, m2, m3⟩ := forall_mem h
  have hoff : r'.offset = r.offset ∧ r'.length = r.length := by
    obtain ⟨a, ha, e1⟩ := sp.start
    obtain ⟨b, hb, e2⟩ := sp.stop
    obtain ⟨a', ha', e3⟩ := sp'.start
    obtain ⟨b', hb', e4⟩ := sp'.stop
    obtain ⟨x1, n1, p1⟩ := m1 a ha
    obtain ⟨x2, n2, p2⟩ := m1 b hb
    obtain ⟨x3, n3, p3⟩ := m2 a' ha'
    obtain ⟨x4, n4, p4⟩ := m2 b' hb'
    have := sp'.covers x1 n1
    have := sp'.covers x2 n2
    have := sp.covers x3 n3
    have := sp.covers x4 n4
    have := p1.offset
    have := p1.length
    have := p2.offset
    have := p2.length
    have := p3.offset
    have := p3.length
    have := p4.offset
    have := p4.length
    omega
  have hfreqs : r'.freqs = r.freqs := by
    obtain ⟨a, ha, e1⟩ := sp.freqs
    obtain ⟨b, hb, e2⟩ := sp'.freqs
    obtain ⟨x1, n1, p1⟩ := m1 a ha
    obtain ⟨x2, n2, p2⟩ := m2 b hb
    have := sp'.covers x1 n1
    have := sp.covers x2 n2
    have := p1.freqs
    have := p2.freqs
    omega
  have hchan : ∀ k, k < r.count → (∀ j t, Concatenate.sgValue r' k j t = f (Concatenate.sgValue r k j t)) ∧
      r'.labels[k]? = r.labels[k]? := by
    intro k hk
    rw [sp.count] at hk
    obtain ⟨o, i, d, h1, h2, _⟩ := origin mode data (fun d => d.count) hk
    obtain ⟨ho, hd⟩ := forall_get h
    have h3 : data'[o]? = some (data'[o]'(by have := (List.getElem?_eq_some_iff.1 h2).1; omega)) :=
      List.getElem?_eq_getElem _
    have p := hd o _ _ h2 h3
    obtain ⟨v, l⟩ := sp.channel k o i d h1 h2
    obtain ⟨v', l'⟩ := sp'.channel k o i _ (by rw [hcounts]; exact h1) h3
    exact ⟨fun j t => by rw [v', p.value, v], by rw [l', l, p.labels]⟩
  obtain ⟨d, hd, e1, e2⟩ := sp.rates
  obtain ⟨d', hd', e3, e4⟩ := sp'.rates
  have hp := m3 d d' hd hd'
  refine ⟨by rw [e2, e4, hp.resolution], by rw [e1, e3, hp.rate], hoff.1, hcount, hfreqs, hoff.2,
    labels_ext (hr'.trans hcount) hr fun k hk => (hchan k hk).2, ?_⟩
  intro k j t
  by_cases hk : k < r.count
  · exact (hchan k hk).1 j t
  · unfold Concatenate.sgValue
    rw [if_neg (by omega), if_neg (by omega), hf]

/-- C122: merging spectrograms, to whose samples a function, that keeps zeros, has been applied, is the same as applying
the function to the merged spectrogram.  This is the case for the magnitudes, the negated and the conjugated
spectrograms. -/
theorem C122_merge_spectrograms [Zero α] [Zero β] (mem : Nat → Nat → Nat → α) (mem' : Nat → Nat → Nat → β)
    (mode : MergeMode) (f : α → β) (hf : f 0 = 0) (data : List (Spectrogram α R)) (hd : data ≠ [])
    (hw : ∀ d ∈ data, d.WF) (hv : Valid mode (data.map fun d => d.count)) :
    ∃ r r', spectrograms mem mode data = .ok r ∧
      spectrograms mem' mode (data.map (Spectrogram.mapSamples f)) = .ok r' ∧
      SpectrogramLike id (r.mapSamples f) r' := by
  obtain ⟨r, h, sp⟩ := C23_spectrograms_partial mem mode data hd hw hv
  have hl : List.Forall₂ (SpectrogramLike f) data (data.map (Spectrogram.mapSamples f)) :=
    forall_of_map fun d k => spectrogramLike_map hf d (hw d k)
  have hw' : ∀ d ∈ data.map (Spectrogram.mapSamples f), d.WF := by
    intro d k
    obtain ⟨e, _, rfl⟩ := List.mem_map.1 k
    exact spectrogram_new_wf _ _ _ _ _
  obtain ⟨r', h', sp'⟩ := C23_spectrograms_partial mem' mode (data.map (Spectrogram.mapSamples f)) (by simpa using hd) hw'
    (by rw [forall_map (u := fun d : Spectrogram α R => d.count) (fun _ _ k => k.count) hl]; exact hv)
  have a := merge_spectrogramLike hf hl (spectrograms_wf h hw) (spectrograms_wf h' hw') sp sp'
  have b := spectrogramLike_map hf r (spectrograms_wf h hw)
  exact ⟨r, r', h, h', a.resolution, a.rate, a.offset, a.count, a.freqs, a.length, a.labels.trans b.labels.symm,
    fun c k t => (a.value c k t).trans (b.value c k t).symm⟩

example : ∃ r r', spectrograms (fun _ _ _ => 9) .firstDatasetFirst
      [Spectrogram.new { d0 := 1, d1 := 2, d2 := 2, get := fun _ k t => (3 - k + t : Int) } 5 6 (-1) none,
        Spectrogram.new { d0 := 2, d1 := 1, d2 := 3, get := fun c _ _ => -7 * (c : Int) } 5 6 4 none] = .ok r ∧
    spectrograms (fun _ _ _ => 8) .firstDatasetFirst
      ([Spectrogram.new { d0 := 1, d1 := 2, d2 := 2, get := fun _ k t => (3 - k + t : Int) } 5 6 (-1) none,
        Spectrogram.new { d0 := 2, d1 := 1, d2 := 3, get := fun c _ _ => -7 * (c : Int) } 5 6 4 none].map
        (Spectrogram.mapSamples fun x => -x)) = .ok r' ∧
    SpectrogramLike id (r.mapSamples fun x => -x) r' :=
  C122_merge_spectrograms _ _ _ _ (by simp) _ (by simp) (by
    intro d hd
    simp only [List.mem_cons, List.not_mem_nil, or_false] at hd
    rcases hd with rfl | rfl <;> exact spectrogram_new_wf _ _ _ _ _) (Or.inl rfl)

/-! ### The Fourier transform -/

/-- C122: the Fourier transform of the merged signals is the merged spectrum of the Fourier transforms of the signals, if
the signals have the same time range. -/
theorem C122_merge_fourier (mem : Nat → Nat → ℝ) (mem' m m' : Nat → Nat → ℂ) (mode : MergeMode)
    (data : List (Signal ℝ ℝ)) (hd : data ≠ []) (hw : ∀ d ∈ data, d.WF) (L : Nat) (hL : 1 ≤ L) (o : Int) (rate : ℝ)
    (hr : rate ≠ 0) (hs : ∀ d ∈ data, d.length = L ∧ d.offset = o ∧ d.rate = rate ∧ 1 ≤ d.count)
    (hv : Valid mode (data.map fun d => d.count)) :
    ∃ r S l S', signals mem mode data = .ok r ∧ Fourier.fourierTransform m r = .ok S ∧
      data.mapM (Fourier.fourierTransform m') = .ok l ∧ spectrums mem' mode l = .ok S' ∧ SpectrumLike id S S' := by
  obtain ⟨r, h, sp⟩ := C23_signals_partial mem mode data hd hw hv
  obtain ⟨l, h1, h2⟩ := mapM_ok (P := fun d b => Fourier.IsTransform b d) (g := Fourier.fourierTransform m')
    (l := data) (by
      intro d k
      obtain ⟨k1, k2, k3, k4⟩ := hs d k
      exact Fourier.isTransform m' d (hw d k) k4 (by omega) (by rw [k3]; exact hr))
  have hcounts : l.map (fun d => d.count) = data.map (fun d => d.count) := forall_map (fun _ _ k => k.count) h2
  obtain ⟨m1, m2, m3⟩ := forall_mem h2
  have hl : l ≠ [] := by
    rintro rfl
    cases h2
    exact hd rfl
  have hlw : ∀ b ∈ l, b.WF := by
    intro b hb
    obtain ⟨d, k, t⟩ := m2 b hb
    show b.labels.length = b.count
    rw [t.labels, t.count]
    exact hw d k
  obtain ⟨S', h3, sp'⟩ := C23_spectrums_partial mem' mode l hl hlw (by rw [hcounts]; exact hv)
  have hlen : r.length = L := by
    obtain ⟨a, ha, e1⟩ := sp.start
    obtain ⟨b, hb, e2⟩ := sp.stop
    have := hs a ha
    have := hs b hb
    omega
  have hrate : r.rate = rate := by
    obtain ⟨d, k, e⟩ := sp.rate
    rw [e, (hs d (List.mem_of_mem_head? k)).2.2.1]
  have hcount : 1 ≤ r.count := by
    obtain ⟨d, k⟩ := List.exists_mem_of_ne_nil data hd
    have := (hs d k).2.2.2
    have : d.count ≤ (data.map fun d => d.count).sum := List.single_le_sum (by simp) _ (List.mem_map_of_mem k)
    rw [sp.count]
    omega
  obtain ⟨S, h4, tr⟩ := Fourier.isTransform m r (signals_wf h hw) hcount (by omega) (by rw [hrate]; exact hr)
  refine ⟨r, S, l, S', h, h4, h1, h3, ?_⟩
  have hS : S'.length = S.length := by
    obtain ⟨b, hb, e⟩ := sp'.length
    obtain ⟨d, k, t⟩ := m2 b hb
    rw [e, t.length, tr.length, hlen, (hs d k).1]
  have hc : S'.count = S.count := by rw [sp'.count, tr.count, sp.count, hcounts]
  have hchan : ∀ k, k < S.count → (∀ j, j < S.length → S'.channels.get k j = S.channels.get k j) ∧
      S'.labels[k]? = S.labels[k]? := by
    intro k hk
    have hk' := hk
    rw [tr.count, sp.count] at hk
    obtain ⟨o, i, d, e1, e2, hi⟩ := origin mode data (fun d => d.count) hk
    obtain ⟨ho, hp⟩ := forall_get h2
    have e3 : l[o]? = some (l[o]'(by have := (List.getElem?_eq_some_iff.1 e2).1; omega)) :=
      List.getElem?_eq_getElem _
    have t := hp o _ _ e2 e3
    obtain ⟨v, lab⟩ := sp.channel k o i d e1 e2
    obtain ⟨v', lab'⟩ := sp'.channel k o i _ (by rw [hcounts]; exact e1) e3
    have hdL := (hs d (List.mem_of_getElem? e2)).1
    refine ⟨fun j hj => ?_, by rw [lab', tr.labels, lab, t.labels]⟩
    have hj' : j < (l[o]'(List.getElem?_eq_some_iff.1 e3).1).length := by rw [t.length, hdL, ← hlen, ← tr.length]; exact hj
    rw [v' j (hS ▸ hj), if_pos hj', t.value i j hi hj', tr.value k j (by rw [← tr.count]; exact hk') hj, hdL, hlen]
    congr 1
    funext t
    exact (v t).symm
  refine ⟨?_, hc, hS, ?_, fun k j hk hj => (hchan k hk).1 j hj⟩
  · obtain ⟨b, k, e⟩ := sp'.resolution
    obtain ⟨d, k', t⟩ := m2 b (List.mem_of_mem_head? k)
    obtain ⟨q1, _, q3, _⟩ := hs d k'
    rw [e, t.resolution, tr.resolution, hlen, hrate, q1, q3]
  · refine labels_ext (n := S.count) ?_ ?_ fun k hk => (hchan k hk).2
    · exact (spectrums_wf h3 hlw).trans hc
    · rw [tr.labels, tr.count]
      exact signals_wf h hw

example : ∃ r S l S', signals (fun _ _ => 9) .firstDatasetFirst
      [Signal.new { rows := 1, cols := 2, get := fun _ t => (t : ℝ) } (5 : ℝ) 3 none,
        Signal.new { rows := 2, cols := 2, get := fun c _ => (c : ℝ) } (5 : ℝ) 3 none] = .ok r ∧
    Fourier.fourierTransform (fun _ _ => 1) r = .ok S ∧
    [Signal.new { rows := 1, cols := 2, get := fun _ t => (t : ℝ) } (5 : ℝ) 3 none,
      Signal.new { rows := 2, cols := 2, get := fun c _ => (c : ℝ) } (5 : ℝ) 3 none].mapM
        (Fourier.fourierTransform fun _ _ => 2) = .ok l ∧
    spectrums (fun _ _ => 8) .firstDatasetFirst l = .ok S' ∧ SpectrumLike id S S' := by
  refine C122_merge_fourier _ _ _ _ _ _ (by simp) ?_ 2 (by norm_num) 3 5 (by norm_num) ?_ (Or.inl rfl)
  · intro d hd
    simp only [List.mem_cons, List.not_mem_nil, or_false] at hd
    rcases hd with rfl | rfl <;> exact new_wf _ _ _ _
  · intro d hd
    simp only [List.mem_cons, List.not_mem_nil, or_false] at hd
    rcases hd with rfl | rfl
    · exact ⟨rfl, rfl, rfl, by decide⟩
    · exact ⟨rfl, rfl, rfl, by decide⟩

end Merge

namespace Concatenate

open Signal Merge

theorem totalFrom_like [AddCommMonoid α] (f : α →+ α) {l l' : List (Signal α R)}
    (h : List.Forall₂ (Like f) l l') : ∀ (n : Int) c t, totalFrom n l' c t = f (totalFrom n l c t) := by
  induction h with
  | nil => intro n c t; simp [totalFrom, delayed]
  | cons hp _ ih =>
    intro n c t
    rw [totalFrom_cons, totalFrom_cons, map_add, ih, hp.value, hp.offset, hp.length]

theorem delayed_like [Zero α] {f : α → α} {l l' : List (Signal α R)} (h : List.Forall₂ (Like f) l l') :
    ∀ n : Int, List.Forall₂ (fun x x' => x'.1 = x.1 ∧ Like f x.2 x'.2) (delayed n l) (delayed n l') := by
  induction h with
  | nil => intro n; exact .nil
  | cons hp _ ih =>
    intro n
    rw [delayed, delayed, hp.offset, hp.length]
    exact .cons ⟨rfl, hp⟩ (ih _)

theorem signals_wf [AddCommMonoid α] {mem : Nat → Nat → α} {l : List (Signal α R)} {r : Signal α R}
    (h : signals mem l = .ok r) (hw : ∀ d ∈ l, d.WF) : r.WF := by
  match l, h with
  | [s], h =>
    obtain rfl := Except.ok.inj h
    exact hw s (by simp)
  | a :: b :: l, h =>
    unfold signals signalsMany at h
    simp only [bind, Except.bind] at h
    split at h
    · cases h
    · split at h
      · cases h
      · split at h
        · cases h
        · obtain rfl := Except.ok.inj h
          exact new_wf _ _ _ _

theorem concatenate_like [AddCommMonoid α] (f : α →+ α) (mem mem' : Nat → Nat → α) {l l' : List (Signal α R)}
    (hl : l ≠ []) (h : List.Forall₂ (Like f) l l') (hw : ∀ d ∈ l, d.WF) (hw' : ∀ d ∈ l', d.WF) :
    ∃ r r', signals mem l = .ok r ∧ signals mem' l' = .ok r' ∧ Like f r r' ∧ r.WF := by
  have hl' : l' ≠ [] := by
    rintro rfl
    cases h
    exact hl rfl
  obtain ⟨r, h1, sp⟩ := C22_signals mem l hl
  obtain ⟨r', h2, sp'⟩ := C22_signals mem' l' hl'
  obtain ⟨m1, m2, m3⟩ := forall_mem h
  obtain ⟨d1, d2, _⟩ := forall_mem (delayed_like h 0)
  have hoff : r'.offset = r.offset ∧ r'.length = r.length := by
    obtain ⟨a, ha, e1⟩ := sp.start
    obtain ⟨b, hb, e2⟩ := sp.stop
    obtain ⟨a', ha', e3⟩ := sp'.start
    obtain ⟨b', hb', e4⟩ := sp'.stop
    obtain ⟨x1, n1, p1⟩ := d1 a ha
    obtain ⟨x2, n2, p2⟩ := d1 b hb
    obtain ⟨x3, n3, p3⟩ := d2 a' ha'
    obtain ⟨x4, n4, p4⟩ := d2 b' hb'
    have := sp'.covers x1 n1
    have := sp'.covers x2 n2
    have := sp.covers x3 n3
    have := sp.covers x4 n4
    have := p1.2.offset
    have := p1.2.length
    have := p2.2.offset
    have := p2.2.length
    have := p3.2.offset
    have := p3.2.length
    have := p4.2.offset
    have := p4.2.length
    omega
  have hcount : r'.count = r.count := by
    obtain ⟨a, ha, e1⟩ := sp.count
    obtain ⟨b, hb, e2⟩ := sp'.count
    obtain ⟨x1, n1, p1⟩ := m1 a ha
    obtain ⟨x2, n2, p2⟩ := m2 b hb
    have := sp'.count_ge x1 n1
    have := sp.count_ge x2 n2
    have := p1.count
    have := p2.count
    omega
  have single : ¬ 2 ≤ l.length → r'.labels = r.labels := by
    intro two
    cases h with
    | nil => exact absurd rfl hl
    | @cons s s' t t' hp ht =>
      cases ht with
      | nil =>
        have e1 : s = r := Except.ok.inj h1
        have e2 : s' = r' := Except.ok.inj h2
        rw [← e1, ← e2]
        exact hp.labels
      | cons _ _ => exact absurd (by simp) two
  refine ⟨r, r', h1, h2, ⟨?_, hoff.1, hcount, hoff.2, ?_, ?_⟩, signals_wf h1 hw⟩
  · obtain ⟨d, k, e⟩ := sp.rate
    obtain ⟨d', k', e'⟩ := sp'.rate
    rw [e, e', (m3 d d' k k').rate]
  · by_cases two : 2 ≤ l.length
    · refine labels_ext ((signals_wf h2 hw').trans hcount) (signals_wf h1 hw) fun k hk => ?_
      rw [sp.labels two k hk, sp'.labels (by rw [← (forall_get h).1]; exact two) k (by omega)]
    · exact single two
  · intro c t
    rw [sp'.value, sp.value, total_eq, total_eq, totalFrom_like f h]

/-- C122: concatenating signals, to whose samples an additive function has been applied, is the same as applying the
function to the concatenation, even if the signals overlap.  This is the case for the negated signals. -/
theorem C122_concatenate [AddCommMonoid α] (mem mem' : Nat → Nat → α) (f : α →+ α) (l : List (Signal α R))
    (hl : l ≠ []) (hw : ∀ d ∈ l, d.WF) :
    ∃ r r', signals mem l = .ok r ∧ signals mem' (l.map (mapSamples f)) = .ok r' ∧ Same r' (r.mapSamples f) := by
  obtain ⟨r, r', h1, h2, h3, h4⟩ := concatenate_like f mem mem' hl
    (forall_of_map (g := mapSamples f) fun d k => like_map (map_zero f) d (hw d k)) hw (by
      intro d k
      obtain ⟨e, _, rfl⟩ := List.mem_map.1 k
      exact new_wf _ _ _ _)
  exact ⟨r, r', h1, h2, h3.same (like_map (map_zero f) r h4)⟩

example : ∃ r r', signals (fun _ _ => 9) Merge.demo = .ok r ∧
    signals (fun _ _ => 8) (Merge.demo.map (mapSamples (AddMonoidHom.mulLeft 3))) = .ok r' ∧
    Same r' (r.mapSamples (AddMonoidHom.mulLeft 3)) :=
  C122_concatenate _ _ _ _ (by simp [Merge.demo]) Merge.demo_wf

/-- C122: concatenating signals, that have been multiplied with a number, is the same as multiplying the concatenation
with the number. -/
theorem C122_concatenate_gain [NonUnitalNonAssocSemiring α] (mem mem' m m' : Nat → Nat → α) (y : α)
    (l : List (Signal α R)) (hl : l ≠ []) (hw : ∀ d ∈ l, d.WF) :
    ∃ l' r r' q, l.mapM (fun d => algebraArray m (· * ·) d (.scalar y)) = .ok l' ∧ signals mem l = .ok r ∧
      signals mem' l' = .ok r' ∧ algebraArray m' (· * ·) r (.scalar y) = .ok q ∧ Same r' q := by
  obtain ⟨l', h1, h2⟩ := mapM_ok (P := fun d d' => Like (AddMonoidHom.mulRight y) d d' ∧ d'.WF)
    (g := fun d => algebraArray m (· * ·) d (.scalar y)) (l := l) (by
      intro d hd
      obtain ⟨d', e1, e2, e3, e4⟩ := array_number m (· * ·) d (hw d hd) y
      exact ⟨d', e1, e2.like (zero_mul y) e3, e4⟩)
  obtain ⟨r, r', h3, h4, h5, h6⟩ := concatenate_like (AddMonoidHom.mulRight y) mem mem' hl (h2.imp fun _ _ k => k.1) hw
    (fun d k => by
      obtain ⟨_, _, e⟩ := (forall_mem h2).2.1 d k
      exact e.2)
  obtain ⟨q, e1, e2, e3, e4⟩ := array_number m' (· * ·) r h6 y
  exact ⟨l', r, r', q, h1, h3, h4, e1, h5.same (e2.like (zero_mul y) e3)⟩

example : ∃ l' r r' q, Merge.demo.mapM (fun d => algebraArray (fun _ _ => 7) (· * ·) d (.scalar 3)) = .ok l' ∧
    signals (fun _ _ => 9) Merge.demo = .ok r ∧ signals (fun _ _ => 8) l' = .ok r' ∧
    algebraArray (fun _ _ => 6) (· * ·) r (.scalar 3) = .ok q ∧ Same r' q :=
  C122_concatenate_gain _ _ _ _ _ _ (by simp [Merge.demo]) Merge.demo_wf

end Concatenate
end Verif
