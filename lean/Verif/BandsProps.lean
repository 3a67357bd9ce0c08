import Verif.BandsFilter
import Verif.FilterProps
import Verif.SignalProps
import Mathlib.Analysis.SpecialFunctions.Log.Base
import Mathlib.Analysis.SpecialFunctions.Pow.Complex

/-
C41: the conversion of bands filters to and from decibels.
C64: the construction of bands filters.
-/

namespace Verif
namespace Filter

open Interpolation (Mode)

variable {α K : Type} [LinearOrder α]

/-! ### the construction of bands filters -/

theorem bandsTerms_length (bands : List (Dict α K)) (is es : List Mode) (hi : bands.length ≤ is.length)
    (he : bands.length ≤ es.length) : (bandsTerms bands is es).length = bands.length := by
  induction bands generalizing is es with
  | nil => rfl
  | cons b bands ih =>
    match is, es, hi, he with
    | i :: is, e :: es, hi, he => simp [bandsTerms, ih is es (by simpa using hi) (by simpa using he)]

theorem bandsTerms_get (bands : List (Dict α K)) (is es : List Mode) (c : Nat) (b : Dict α K) (i e : Mode)
    (hb : bands[c]? = some b) (hi : is[c]? = some i) (he : es[c]? = some e) :
    (bandsTerms bands is es)[c]? = some (bandsTerm b i e) := by
  induction c generalizing bands is es with
  | zero =>
    match bands, is, es, hb, hi, he with
    | b :: _, i :: _, e :: _, rfl, rfl, rfl => rfl
  | succ c ih =>
    match bands, is, es, hb, hi, he with
    | b :: bands, i :: is, e :: es, hb, hi, he => exact ih bands is es hb hi he

theorem bandsTerms_take (bands : List (Dict α K)) (is es : List Mode) :
    bandsTerms bands (is.take bands.length) (es.take bands.length) = bandsTerms bands is es := by
  induction bands generalizing is es with
  | nil => rfl
  | cons b bands ih =>
    match is, es with
    | i :: is, e :: es => simp [bandsTerms, ih]
    | [], _ => simp [bandsTerms]
    | _ :: _, [] => simp [bandsTerms]

theorem fill_length {β : Type} {n : Nat} {p : BandsParam β} {l : List β} (h : p.fill n = .ok l) : n ≤ l.length := by
  match p with
  | .single x => rw [← ok_inj h]; simp
  | .sequence q =>
    simp only [BandsParam.fill] at h
    split at h
    · next hl =>
      split at h
      · cases h
      · rw [← ok_inj h]
        simp
        omega
    · rw [← ok_inj h]
      omega

/-- a filter, that was created with the constructor -/
def BandsFilter.Built (a : BandsFilter α K) : Prop :=
  ∃ bands is es labels, BandsFilter.new bands is es labels = .ok a

/-- the attributes of a filter, that was created with the constructor -/
theorem built_spec {a : BandsFilter α K} (h : a.Built) :
    a.interpolations.length = a.bands.length ∧ a.extrapolations.length = a.bands.length ∧
      a.filter.labels.length = a.bands.length ∧
      a.filter.transferFunctions = bandsTerms a.bands a.interpolations a.extrapolations := by
  obtain ⟨bands, is, es, labels, h⟩ := h
  obtain ⟨il, h1, h⟩ := bind_ok h
  obtain ⟨el, h2, h⟩ := bind_ok h
  have hi := fill_length h1
  have he := fill_length h2
  rw [← ok_inj h]
  have hl := bandsTerms_length bands il el hi he
  dsimp only
  rw [hl]
  refine ⟨by simp [hi], by simp [he], ?_, ?_⟩
  · unfold Channels.new sanitizeLabels
    dsimp only
    rw [hl]
    split
    · simp; omega
    · split
      · simp; omega
      · omega
  · rw [bandsTerms_take]
    rfl

/-- creating a filter with the attributes of an existing one -/
theorem new_sequences (bands : List (Dict α K)) (is es : List Mode) (labels : List String) (hi : is.length = bands.length)
    (he : es.length = bands.length) (hl : labels.length = bands.length) :
    BandsFilter.new bands (.sequence is) (.sequence es) (.sequence labels) =
      .ok ⟨⟨bandsTerms bands is es, labels⟩, bands, is, es⟩ := by
  have e1 : BandsParam.fill bands.length (.sequence is) = .ok is := by simp [BandsParam.fill, hi]
  have e2 : BandsParam.fill bands.length (.sequence es) = .ok es := by simp [BandsParam.fill, he]
  have e3 : BandsParam.fillLabels bands.length (.sequence labels) = labels := by simp [BandsParam.fillLabels, hl]
  unfold BandsFilter.new
  rw [e1, e2, e3]
  have hlen := bandsTerms_length bands is es hi.ge he.ge
  show Except.ok _ = Except.ok _
  congr 1
  rw [hlen]
  have : Channels.new (bandsTerms bands is es) labels = ⟨bandsTerms bands is es, labels⟩ := by
    unfold Channels.new
    rw [hlen, Signal.sanitize_self hl]
  rw [this, List.take_of_length_le hi.le, List.take_of_length_le he.le]

/-! ### C64 -/

/-- the element of a parameter for a channel: the last element of a sequence is repeated -/
def BandsParam.at {β : Type} (c : Nat) : BandsParam β → Option β
  | .single x => some x
  | .sequence l => if c < l.length then l[c]? else l.getLast?

/-- C64: Each dictionary becomes a channel, that is defined by the sorted keys of the dictionary, their values and the
modes for this channel. A single mode is used for all channels and the last mode of a sequence is repeated. -/
theorem C64_channels (bands : List (Dict α K)) (is es : BandsParam Mode) (labels : BandsParam String) (a : BandsFilter α K)
    (h : BandsFilter.new bands is es labels = .ok a) :
    a.filter.transferFunctions.length = bands.length ∧ a.filter.labels.length = bands.length ∧
    ∀ c b, bands[c]? = some b → ∃ i e, is.at c = some i ∧ es.at c = some e ∧
      a.filter.transferFunctions[c]? = some (mkBands (b.keys.insertionSort (· ≤ ·))
        ((b.keys.insertionSort (· ≤ ·)).filterMap b.get?) i e) := by
  have hs := built_spec ⟨_, _, _, _, h⟩
  obtain ⟨il, h1, h⟩ := bind_ok h
  obtain ⟨el, h2, h⟩ := bind_ok h
  have hi := fill_length h1
  have he := fill_length h2
  have ha := ok_inj h
  have hb : a.bands = bands := by rw [← ha]
  have hl := bandsTerms_length bands il el hi he
  refine ⟨by rw [← ha]; exact hl, by rw [← hb]; exact hs.2.2.1, ?_⟩
  have fillAt : ∀ (p : BandsParam Mode) (l : List Mode), p.fill bands.length = .ok l → ∀ c, c < bands.length →
      ∃ i, p.at c = some i ∧ l[c]? = some i := by
    intro p l hp c hc
    match p with
    | .single x =>
      rw [← ok_inj hp]
      exact ⟨x, rfl, by simp [hc]⟩
    | .sequence q =>
      simp only [BandsParam.fill] at hp
      split at hp
      · split at hp
        · cases hp
        · next x hx =>
          rw [← ok_inj hp]
          simp only [BandsParam.at]
          by_cases hq : c < q.length
          · refine ⟨q[c], by rw [if_pos hq, List.getElem?_eq_getElem hq], ?_⟩
            rw [List.getElem?_append_left hq, List.getElem?_eq_getElem hq]
          · refine ⟨x, by rw [if_neg hq, hx], ?_⟩
            rw [List.getElem?_append_right (by omega), List.getElem?_replicate, if_pos (by omega)]
      · next hq =>
        rw [← ok_inj hp]
        simp only [BandsParam.at]
        have : c < q.length := by omega
        exact ⟨q[c], by rw [if_pos this, List.getElem?_eq_getElem this], List.getElem?_eq_getElem this⟩
  intro c b hc
  have hcl : c < bands.length := (List.getElem?_eq_some_iff.mp hc).1
  obtain ⟨i, i1, i2⟩ := fillAt is il h1 c hcl
  obtain ⟨e, e1, e2⟩ := fillAt es el h2 c hcl
  refine ⟨i, e, i1, e1, ?_⟩
  rw [← ha]
  exact bandsTerms_get bands il el c b i e hc i2 e2

/-- the label of a channel: the first label is repeated -/
def BandsParam.labelAt (c : Nat) : BandsParam String → String
  | .single x => x
  | .sequence l => (l[c]?).getD ((l[0]?).getD "Bands")

/-- C64: A single label is used for all channels. If there are fewer labels than dictionaries, the first label is
repeated and without labels, the channels are called `"Bands"`. -/
theorem C64_labels (bands : List (Dict α K)) (is es : BandsParam Mode) (labels : BandsParam String) (a : BandsFilter α K)
    (h : BandsFilter.new bands is es labels = .ok a) :
    ∀ c, c < bands.length → a.filter.labels[c]? = some (labels.labelAt c) := by
  obtain ⟨il, h1, h⟩ := bind_ok h
  obtain ⟨el, h2, h⟩ := bind_ok h
  have hl := bandsTerms_length bands il el (fill_length h1) (fill_length h2)
  intro c hc
  have key : bands.length ≤ (labels.fillLabels bands.length).length ∧
      (labels.fillLabels bands.length)[c]? = some (labels.labelAt c) := by
    match labels with
    | .single x => simp [BandsParam.fillLabels, BandsParam.labelAt, hc]
    | .sequence l =>
      simp only [BandsParam.fillLabels, BandsParam.labelAt]
      split
      · refine ⟨by simp; omega, ?_⟩
        by_cases hq : c < l.length
        · rw [List.getElem?_append_left hq, List.getElem?_eq_getElem hq]
          rfl
        · rw [List.getElem?_append_right (by omega), List.getElem?_replicate, if_pos (by omega),
            List.getElem?_eq_none (by omega : l.length ≤ c)]
          cases l <;> rfl
      · refine ⟨by omega, ?_⟩
        rw [List.getElem?_eq_getElem (by omega : c < l.length)]
        rfl
  rw [← ok_inj h]
  show (sanitizeLabels (some (labels.fillLabels bands.length)) (bandsTerms bands il el).length)[c]? = _
  rw [hl]
  unfold sanitizeLabels
  dsimp only
  split
  · omega
  · split
    · rw [List.getElem?_take_of_lt hc]
      exact key.2
    · exact key.2

example : ∃ a : BandsFilter ℚ ℚ, BandsFilter.new [[(1, 2)], [(3, 4)], []] (.single .linear) (.single .zero)
    (.sequence ["a", "b"]) = .ok a ∧ a.filter.labels = ["a", "b", "a"] := by
  refine ⟨_, rfl, ?_⟩
  decide +kernel

/-- C64: The construction succeeds, unless there are bands, but no modes. -/
theorem C64_success (bands : List (Dict α K)) (is es : BandsParam Mode) (labels : BandsParam String) :
    (∃ a, BandsFilter.new bands is es labels = .ok a) ↔
      bands = [] ∨ (∃ i, is.at 0 = some i) ∧ ∃ e, es.at 0 = some e := by
  have key : ∀ p : BandsParam Mode, (∃ l, p.fill bands.length = .ok l) ↔ bands = [] ∨ ∃ i, p.at 0 = some i := by
    intro p
    match p with
    | .single x => simp [BandsParam.fill, BandsParam.at]
    | .sequence [] =>
      cases bands with
      | nil => simp [BandsParam.fill]
      | cons b bands => simp [BandsParam.fill, BandsParam.at]
    | .sequence (x :: l) =>
      simp only [BandsParam.fill, BandsParam.at]
      have : ∃ y, (x :: l).getLast? = some y := ⟨_, List.getLast?_eq_some_getLast (by simp)⟩
      obtain ⟨y, hy⟩ := this
      rw [hy]
      constructor
      · intro _
        exact .inr ⟨x, by simp⟩
      · intro _
        split <;> exact ⟨_, rfl⟩
  constructor
  · rintro ⟨a, h⟩
    obtain ⟨il, h1, h⟩ := bind_ok h
    obtain ⟨el, h2, h⟩ := bind_ok h
    rcases (key is).mp ⟨_, h1⟩ with hb | hb
    · exact .inl hb
    · rcases (key es).mp ⟨_, h2⟩ with hc | hc
      · exact .inl hc
      · exact .inr ⟨hb, hc⟩
  · intro h
    obtain ⟨il, h1⟩ := (key is).mpr (h.imp id And.left)
    obtain ⟨el, h2⟩ := (key es).mpr (h.imp id And.right)
    unfold BandsFilter.new
    rw [h1, h2]
    exact ⟨_, rfl⟩

/-- C64: The sorted frequencies are strictly increasing and have one value each. -/
theorem C64_sorted (b : Dict α K) (hb : b.Ok) :
    (b.keys.insertionSort (· ≤ ·)).Pairwise (· < ·) ∧
      List.Forall₂ (fun f y => b.get? f = some y) (b.keys.insertionSort (· ≤ ·))
        ((b.keys.insertionSort (· ≤ ·)).filterMap b.get?) := by
  have hn : (b.keys.insertionSort (· ≤ ·)).Nodup := (List.perm_insertionSort _ _).nodup_iff.mpr hb
  constructor
  · have hs := List.pairwise_insertionSort (· ≤ ·) b.keys
    exact (hs.and hn).imp fun ⟨h1, h2⟩ => lt_of_le_of_ne h1 h2
  · have hm : ∀ f ∈ b.keys.insertionSort (· ≤ ·), f ∈ b.keys := fun f hf => (List.perm_insertionSort _ _).mem_iff.mp hf
    generalize b.keys.insertionSort (· ≤ ·) = l at hm
    induction l with
    | nil => exact .nil
    | cons f l ih =>
      obtain ⟨y, hy⟩ := Option.isSome_iff_exists.mp ((Dict.mem_keys_iff b f).mp (hm f List.mem_cons_self))
      rw [List.filterMap_cons, hy]
      exact .cons hy (ih fun g hg => hm g (List.mem_cons_of_mem _ hg))

example : ∃ a : BandsFilter ℚ ℚ, BandsFilter.new [[(2, 5), (1, 3)], []] (.sequence [.linear]) (.single .zero)
    (.sequence ["a"]) = .ok a ∧ a.filter.labels = ["a", "a"] := ⟨_, rfl, by decide⟩

/-! ### C41 -/

omit [LinearOrder α] in
theorem convert_ok {g : K → Py K} {r : K → K} {d : Dict α K} (h : ∀ p ∈ d, g p.2 = .ok (r p.2)) :
    convert g d = .ok (d.mapValues r) := by
  induction d with
  | nil => rfl
  | cons p d ih =>
    show (g p.2 >>= _) = _
    rw [h p List.mem_cons_self]
    show (convert g d >>= _) = _
    rw [ih fun q hq => h q (List.mem_cons_of_mem _ hq)]
    rfl

omit [LinearOrder α] in
theorem mapM_dicts {g : Dict α K → Py (Dict α K)} {r : Dict α K → Dict α K} {l : List (Dict α K)}
    (H : ∀ a ∈ l, g a = .ok (r a)) : l.mapM g = .ok (l.map r) := by
  induction l with
  | nil => rfl
  | cons a l ih =>
    rw [List.mapM_cons, H a List.mem_cons_self, ih fun b hb => H b (List.mem_cons_of_mem _ hb)]
    rfl

/-- converting the values of a filter -/
theorem converted_ok {a : BandsFilter α K} (ha : a.Built) {g : K → Py K} {r : K → K}
    (h : ∀ d ∈ a.bands, ∀ p ∈ d, g p.2 = .ok (r p.2)) :
    a.converted g = .ok ⟨⟨bandsTerms (a.bands.map (Dict.mapValues r)) a.interpolations a.extrapolations, a.filter.labels⟩,
      a.bands.map (Dict.mapValues r), a.interpolations, a.extrapolations⟩ := by
  obtain ⟨h1, h2, h3, h4⟩ := built_spec ha
  unfold BandsFilter.converted
  rw [mapM_dicts fun d hd => convert_ok (h d hd)]
  show BandsFilter.new _ _ _ _ = _
  rw [new_sequences _ _ _ _ (by simpa using h1) (by simpa using h2) (by simpa using h3)]

omit [LinearOrder α] in
theorem mapValues_id {d : Dict α K} {r : K → K} (h : ∀ p ∈ d, r p.2 = p.2) : d.mapValues r = d := by
  induction d with
  | nil => rfl
  | cons p d ih =>
    show (p.1, r p.2) :: Dict.mapValues r d = _
    rw [h p List.mem_cons_self, ih fun q hq => h q (List.mem_cons_of_mem _ hq)]

theorem converted_back {a : BandsFilter α K} (ha : a.Built) {g g' : K → Py K} {r r' : K → K}
    (h : ∀ d ∈ a.bands, ∀ p ∈ d, g p.2 = .ok (r p.2) ∧ g' (r p.2) = .ok (r' (r p.2)) ∧ r' (r p.2) = p.2) :
    ∃ b, a.converted g = .ok b ∧ b.converted g' = .ok a := by
  refine ⟨_, converted_ok ha fun d hd p hp => (h d hd p hp).1, ?_⟩
  rw [converted_ok (r := r')]
  · obtain ⟨h1, h2, h3, h4⟩ := built_spec ha
    have e : (a.bands.map (Dict.mapValues r)).map (Dict.mapValues r') = a.bands := by
      rw [List.map_map]
      conv_rhs => rw [← List.map_id a.bands]
      apply List.map_congr_left
      intro d hd
      show Dict.mapValues r' (Dict.mapValues r d) = d
      have : Dict.mapValues r' (Dict.mapValues r d) = Dict.mapValues (r' ∘ r) d := by
        simp [Dict.mapValues, Function.comp_def]
      rw [this]
      exact mapValues_id fun p hp => (h d hd p hp).2.2
    dsimp only
    rw [e, ← h4]
  · obtain ⟨h1, h2, h3, h4⟩ := built_spec ha
    exact ⟨_, _, _, _, new_sequences _ _ _ _ (by simpa using h1) (by simpa using h2) (by simpa using h3)⟩
  · intro d hd p hp
    obtain ⟨d', hd', rfl⟩ := List.mem_map.mp hd
    obtain ⟨p', hp', rfl⟩ := List.mem_map.mp hp
    exact (h d' hd' p' hp').2.1

variable [Field K] [DecidableEq K]

/-- C41: `to_db` changes each value to its level in decibels and changes nothing else. -/
theorem C41_values (D : Decibels K) (reference factor : K) (hr : reference ≠ 0) (L : K → K) (a : BandsFilter α K)
    (ha : a.Built) (h : ∀ d ∈ a.bands, ∀ p ∈ d, D.log10 (p.2 / reference) = some (L p.2)) :
    ∃ b, a.toDb D reference factor = .ok b ∧ b.interpolations = a.interpolations ∧
      b.extrapolations = a.extrapolations ∧ b.filter.labels = a.filter.labels ∧ b.bands.length = a.bands.length ∧
      ∀ (c : Nat) (d e : Dict α K), a.bands[c]? = some d → b.bands[c]? = some e →
        ∀ f, e.get? f = (d.get? f).map fun y => factor * L y := by
  refine ⟨_, converted_ok ha (r := fun y => factor * L y) ?_, rfl, rfl, rfl, by simp, ?_⟩
  · intro d hd p hp
    unfold toDecibels
    rw [if_neg hr, h d hd p hp]
  · intro c d e hd he f
    have : e = d.mapValues fun y => factor * L y := by
      rw [List.getElem?_map, hd] at he
      exact (Option.some.inj he).symm
    rw [this, Dict.get?_mapValues]

/-- the functions for real numbers -/
noncomputable def realDecibels : Decibels ℝ where
  log10 x := if 0 < x then some (Real.logb 10 x) else none
  pow10 x := (10 : ℝ) ^ x

/-- the functions for complex numbers -/
noncomputable def complexDecibels : Decibels ℂ where
  log10 x := if x = 0 then none else some (Complex.log x / Real.log 10)
  pow10 x := (10 : ℂ) ^ x

/-- C41: Converting the levels of a filter with real numbers back restores the filter. The reference and the values have
the same sign. -/
theorem C41_to_from_real (reference factor : ℝ) (hf : factor ≠ 0) (a : BandsFilter α ℝ) (ha : a.Built)
    (h : ∀ d ∈ a.bands, ∀ p ∈ d, 0 < p.2 / reference) :
    ∃ b, a.toDb realDecibels reference factor = .ok b ∧ b.fromDb realDecibels reference factor = .ok a := by
  refine converted_back ha (r := fun y => factor * Real.logb 10 (y / reference))
    (r' := fun y => reference * (10 : ℝ) ^ (y / factor)) ?_
  intro d hd p hp
  have hp := h d hd p hp
  have hr : reference ≠ 0 := by
    rintro rfl
    simp at hp
  refine ⟨?_, ?_, ?_⟩
  · unfold toDecibels
    simp [hr, realDecibels, hp]
  · unfold fromDecibels
    simp [hf, realDecibels]
  · rw [mul_div_cancel_left₀ _ hf, Real.rpow_logb (by norm_num) (by norm_num) hp, mul_div_cancel₀ _ hr]

/-- C41: Converting levels to linear values and back restores the filter. -/
theorem C41_from_to_real (reference factor : ℝ) (hr : reference ≠ 0) (hf : factor ≠ 0) (a : BandsFilter α ℝ)
    (ha : a.Built) :
    ∃ b, a.fromDb realDecibels reference factor = .ok b ∧ b.toDb realDecibels reference factor = .ok a := by
  refine converted_back ha (r := fun y => reference * (10 : ℝ) ^ (y / factor))
    (r' := fun y => factor * Real.logb 10 (y / reference)) ?_
  intro d hd p hp
  have e : reference * (10 : ℝ) ^ (p.2 / factor) / reference = (10 : ℝ) ^ (p.2 / factor) := mul_div_cancel_left₀ _ hr
  have hpos : (0 : ℝ) < (10 : ℝ) ^ (p.2 / factor) := Real.rpow_pos_of_pos (by norm_num) _
  refine ⟨?_, ?_, ?_⟩
  · unfold fromDecibels
    simp [hf, realDecibels]
  · unfold toDecibels
    simp only [hr, realDecibels, e, hpos, if_true, if_false]
  · rw [e, Real.logb_rpow (by norm_num) (by norm_num), mul_div_cancel₀ _ hf]

/-- C41: The conversion restores complex values, too, if they are not zero. -/
theorem C41_to_from_complex (reference factor : ℂ) (hr : reference ≠ 0) (hf : factor ≠ 0) (a : BandsFilter α ℂ)
    (ha : a.Built) (h : ∀ d ∈ a.bands, ∀ p ∈ d, p.2 ≠ 0) :
    ∃ b, a.toDb complexDecibels reference factor = .ok b ∧ b.fromDb complexDecibels reference factor = .ok a := by
  refine converted_back ha (r := fun y => factor * (Complex.log (y / reference) / Real.log 10))
    (r' := fun y => reference * (10 : ℂ) ^ (y / factor)) ?_
  intro d hd p hp
  have hp := h d hd p hp
  have hq : p.2 / reference ≠ 0 := div_ne_zero hp hr
  refine ⟨?_, ?_, ?_⟩
  · unfold toDecibels
    simp only [hr, complexDecibels, hq, if_false]
  · unfold fromDecibels
    simp only [hf, complexDecibels, if_false]
  · have hl : ((Real.log 10 : ℝ) : ℂ) ≠ 0 := Complex.ofReal_ne_zero.mpr (Real.log_pos (by norm_num)).ne'
    have hl' : Complex.log 10 = ((Real.log 10 : ℝ) : ℂ) := by
      rw [Complex.ofReal_log (by norm_num)]
      norm_num
    rw [mul_div_cancel_left₀ _ hf, Complex.cpow_def_of_ne_zero (by norm_num), hl', mul_div_cancel₀ _ hl,
      Complex.exp_log hq, mul_div_cancel₀ _ hr]

example : (∃ a : BandsFilter ℝ ℝ, BandsFilter.new [[(1000, 2), (100, 1)], [(50, 3)]] (.single .linear) (.single .zero)
    (.sequence ["a", "b"]) = .ok a) ∧
    ∀ d ∈ ([[(1000, 2), (100, 1)], [(50, 3)]] : List (Dict ℝ ℝ)), ∀ p ∈ d, 0 < p.2 / (20 : ℝ) := by
  refine ⟨⟨_, rfl⟩, ?_⟩
  intro d hd p hp
  simp only [List.mem_cons, List.not_mem_nil, or_false] at hd
  rcases hd with rfl | rfl
  · simp only [List.mem_cons, List.not_mem_nil, or_false] at hp
    rcases hp with rfl | rfl <;> norm_num
  · simp only [List.mem_cons, List.not_mem_nil, or_false] at hp
    subst hp
    norm_num

end Filter
end Verif
