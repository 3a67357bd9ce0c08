import Verif.FilterApplyProps
import Mathlib.Tactic.Linarith
import Mathlib.Tactic.FieldSimp
import Mathlib.Tactic.Ring

/-
Property C107: the laws of applying filters: linearity, cascades, inverse filters, impulse responses and time invariance.
-/

namespace Verif
namespace FilterApply

open Verif.Filter Finset Dft

/-! ### spectrums -/

/-- All samples of the filtered data are finite and form the spectrum `u`. -/
structure Finite (r : Spectrum (Option ℂ) ℝ) (u : Spectrum ℂ ℝ) : Prop where
  count : u.count = r.count
  length : u.length = r.length
  resolution : u.resolution = r.resolution
  value : ∀ c k, c < r.count → k < r.length → r.channels.get c k = some (u.channels.get c k)

/-- C107: Filtering a sum of spectrums yields the sum of the filtered spectrums; it is not finite in the same bins. -/
theorem C107_linear (memS : ℂ) (m0 : Nat → Nat → ℂ) (m1 m2 m3 : Nat → Nat → Option ℂ) (a : Channels ℝ ℂ)
    (s t : Spectrum ℂ ℝ) (h1 : s.count = t.count) (h2 : s.length = t.length) (h3 : s.resolution = t.resolution)
    (h : Fits a.transferFunctions.length s.count) :
    ∃ st rs rt r, Spectrum.algebra m0 (· + ·) none "Sum" s t = .ok st ∧
      applySpectrum complexEnv memS m1 a s = .ok rs ∧ applySpectrum complexEnv memS m2 a t = .ok rt ∧
      applySpectrum complexEnv memS m3 a st = .ok r ∧ r.count = rs.count ∧ r.length = rs.length ∧
      r.resolution = rs.resolution ∧ rt.count = rs.count ∧ rt.length = rs.length ∧
      ∀ c k, c < r.count → k < r.length →
        (∀ x y, rs.channels.get c k = some x → rt.channels.get c k = some y → r.channels.get c k = some (x + y)) ∧
        (rs.channels.get c k = none ↔ r.channels.get c k = none) ∧
        (rt.channels.get c k = none ↔ r.channels.get c k = none) := by
  obtain ⟨st, hst, c1, c2, c3, -, c5⟩ := Spectrum.C15_binwise_partial m0 (· + ·) none "Sum" s t h2.symm
  have hcount : st.count = s.count := by
    rw [c1]
    unfold Spectrum.resultCount
    rw [← h1]
    split <;> simp
  obtain ⟨rs, hrs, a1, a2, a3, -, a5⟩ := C93_spectrum memS m1 a s h
  obtain ⟨rt, hrt, b1, b2, b3, -, b5⟩ := C93_spectrum memS m2 a t (by rw [← h1]; exact h)
  obtain ⟨r, hr, d1, d2, d3, -, d5⟩ := C93_spectrum memS m3 a st (by rw [hcount]; exact h)
  have e1 : r.count = rs.count := by rw [d1, a1, hcount]
  have e2 : rt.count = rs.count := by rw [b1, a1, h1]
  refine ⟨st, rs, rt, r, hst, hrs, hrt, hr, e1, by rw [d2, a2, c2], by rw [d3, a3, c3], e2, by rw [b2, a2, h2], ?_⟩
  intro c k hc hk
  have hk' : k < s.length := by rw [d2, c2] at hk; exact hk
  have hp : pick s.count c < s.count := by
    rw [d1, hcount] at hc
    unfold filteredCount at hc
    unfold Fits at h
    unfold pick
    split_ifs at hc ⊢ <;> omega
  have hbin : ∀ u : Spectrum ℂ ℝ, u.count = s.count → Spectrum.bin u (pick s.count c) k =
      some (u.channels.get (pick s.count c) k) := by
    intro u hu
    unfold Spectrum.bin
    rw [if_pos (Or.inr (by omega))]
    congr 2
    split <;> omega
  have hval : st.channels.get (pick s.count c) k =
      s.channels.get (pick s.count c) k + t.channels.get (pick s.count c) k := by
    rw [c5 _ k (by omega) (by omega), hbin s rfl, hbin t h1.symm]
  rw [d5 c k hc (by omega), a5 c k (by omega) hk', b5 c k (by omega) (by omega), c3, ← h3, hcount, ← h1, hval]
  cases gain memS a (pick a.transferFunctions.length c) (k * s.resolution) with
  | none => exact ⟨fun x y hx => (by cases hx), by simp, by simp⟩
  | some z =>
    refine ⟨?_, by simp, by simp⟩
    intro x y hx hy
    simp only [Option.map_some, Option.some.injEq] at hx hy ⊢
    rw [← hx, ← hy]
    ring

example : ∃ s t : Spectrum ℂ ℝ, s.count = t.count ∧ s.length = t.length ∧ s.resolution = t.resolution ∧
    Fits (delayFilter 1).transferFunctions.length s.count ∧ 2 ≤ s.count ∧ 2 ≤ s.length :=
  ⟨⟨⟨2, 5, fun c k => c + k * Complex.I⟩, 10, ["a", "b"]⟩, ⟨⟨2, 5, fun c k => c * k⟩, 10, ["c", "d"]⟩, rfl, rfl, rfl,
    Or.inl rfl, le_refl _, by decide⟩

/-- The result is finite, if the transfer functions are finite at the frequencies of the bins. -/
theorem finite_of_gains (memS : ℂ) (mem : Nat → Nat → Option ℂ) (a : Channels ℝ ℂ) (s : Spectrum ℂ ℝ)
    (h : Fits a.transferFunctions.length s.count)
    (hg : ∀ c k : Nat, c < a.transferFunctions.length → (gain memS a c (k * s.resolution)).isSome) :
    ∃ r u, applySpectrum complexEnv memS mem a s = .ok r ∧ Finite r u := by
  obtain ⟨r, hr, r1, r2, -, -, r5⟩ := C93_spectrum memS mem a s h
  refine ⟨r, ⟨r.channels.map fun x => x.getD 0, r.resolution, r.labels⟩, hr, rfl, rfl, rfl, ?_⟩
  intro c k hc hk
  show _ = some ((r.channels.get c k).getD 0)
  have hp : pick a.transferFunctions.length c < a.transferFunctions.length := by
    rw [r1] at hc
    unfold pick filteredCount Fits at *
    split_ifs at * <;> omega
  have := hg _ k hp
  rw [r5 c k hc (by omega)]
  cases hz : gain memS a (pick a.transferFunctions.length c) (k * s.resolution) with
  | none => rw [hz] at this; cases this
  | some z => rfl

theorem gain_constants (memS x y : ℂ) (f : ℝ) (c : Nat) (hc : c < 2) :
    (gain memS ⟨[.constant x, .constant y], ["a", "b"]⟩ c f).isSome := by
  obtain h | h : c = 0 ∨ c = 1 := by omega
  · subst h; simp [gain, Channels.call, evalStateList, evalState, touch, fix]
  · subst h; simp [gain, Channels.call, evalStateList, evalState, touch, fix]

/-- C107: Filters commute: the order, in which two filters are applied, does not change the result, as long as the results
are finite. -/
theorem C107_commute (memS : ℂ) (m1 m2 m3 m4 : Nat → Nat → Option ℂ) (a b : Channels ℝ ℂ) (s : Spectrum ℂ ℝ)
    (ha : Fits a.transferFunctions.length s.count) (hb : Fits b.transferFunctions.length s.count)
    (hab : a.transferFunctions.length = b.transferFunctions.length) (ra rb : Spectrum (Option ℂ) ℝ) (u v : Spectrum ℂ ℝ)
    (hra : applySpectrum complexEnv memS m1 a s = .ok ra) (hrb : applySpectrum complexEnv memS m2 b s = .ok rb)
    (hu : Finite ra u) (hv : Finite rb v) :
    ∃ p q, applySpectrum complexEnv memS m3 b u = .ok p ∧ applySpectrum complexEnv memS m4 a v = .ok q ∧
      p.count = q.count ∧ p.length = q.length ∧ p.resolution = q.resolution ∧ p.labels = q.labels ∧
      ∀ c k, c < p.count → k < p.length → p.channels.get c k = q.channels.get c k := by
  obtain ⟨ra', e, a1, a2, a3, -, a5⟩ := C93_spectrum memS m1 a s ha
  rw [hra] at e; cases e
  obtain ⟨rb', e, b1, b2, b3, -, b5⟩ := C93_spectrum memS m2 b s hb
  rw [hrb] at e; cases e
  have hfu : Fits b.transferFunctions.length u.count := by
    rw [hu.count, a1, ← hab]
    unfold Fits filteredCount at *
    split_ifs <;> omega
  have hfv : Fits a.transferFunctions.length v.count := by
    rw [hv.count, b1, hab]
    unfold Fits filteredCount at *
    split_ifs <;> omega
  obtain ⟨p, hp, p1, p2, p3, p4, p5⟩ := C93_spectrum memS m3 b u hfu
  obtain ⟨q, hq, q1, q2, q3, q4, q5⟩ := C93_spectrum memS m4 a v hfv
  have huv : u.count = v.count := by rw [hu.count, hv.count, a1, b1, hab]
  have hpq : p.count = q.count := by rw [p1, q1, huv, hab]
  refine ⟨p, q, hp, hq, hpq, by rw [p2, q2, hu.length, hv.length, a2, b2],
    by rw [p3, q3, hu.resolution, hv.resolution, a3, b3], by rw [p4, q4, hpq], ?_⟩
  intro c k hc hk
  have hk' : k < s.length := by rw [p2, hu.length, a2] at hk; exact hk
  have hcu : pick u.count c < ra.count := by
    rw [p1] at hc
    rw [← hu.count]
    unfold filteredCount Fits at *
    unfold pick
    split_ifs at hc ⊢ <;> omega
  have hcv : pick v.count c < rb.count := by
    have e1 := hv.count
    have e2 := hu.count
    rw [← huv]; omega
  have eu := hu.value _ k hcu (by rw [a2]; exact hk')
  have ev := hv.value _ k hcv (by rw [b2]; exact hk')
  rw [a5 _ k hcu hk'] at eu
  rw [b5 _ k hcv hk'] at ev
  have hlv : v.length = u.length := by rw [hu.length, hv.length, a2, b2]
  rw [p5 c k hc (by omega), q5 c k (by omega) (by omega), hu.resolution, hv.resolution, a3, b3]
  have hpick : pick a.transferFunctions.length (pick u.count c) = pick a.transferFunctions.length c := by
    rw [hu.count, a1]
    rw [p1, hu.count, a1] at hc
    unfold pick filteredCount Fits at *
    split_ifs at * <;> omega
  have hpick' : pick b.transferFunctions.length (pick v.count c) = pick b.transferFunctions.length c := by
    rw [← huv, ← hab]; exact hpick
  rw [hpick] at eu
  rw [hpick'] at ev
  cases hga : gain memS a (pick a.transferFunctions.length c) (k * s.resolution) with
  | none => rw [hga] at eu; cases eu
  | some x =>
    cases hgb : gain memS b (pick b.transferFunctions.length c) (k * s.resolution) with
    | none => rw [hgb] at ev; cases ev
    | some y =>
      rw [hga] at eu
      rw [hgb] at ev
      simp only [Option.map_some, Option.some.injEq] at eu ev ⊢
      rw [← eu, ← ev, huv]
      ring

/-- The hypotheses can be satisfied. -/
example (memS : ℂ) (m1 m2 : Nat → Nat → Option ℂ) : ∃ (a b : Channels ℝ ℂ) (s : Spectrum ℂ ℝ)
    (ra rb : Spectrum (Option ℂ) ℝ) (u v : Spectrum ℂ ℝ), Fits a.transferFunctions.length s.count ∧
    a.transferFunctions.length = b.transferFunctions.length ∧ applySpectrum complexEnv memS m1 a s = .ok ra ∧
    applySpectrum complexEnv memS m2 b s = .ok rb ∧ Finite ra u ∧ Finite rb v ∧ a.transferFunctions.length = 2 := by
  obtain ⟨ra, u, h1, h2⟩ := finite_of_gains memS m1 ⟨[.constant 1, .constant 2], ["a", "b"]⟩
    ⟨⟨2, 5, fun c k => c + k * Complex.I⟩, 10, ["a", "b"]⟩ (Or.inr (Or.inr rfl)) fun c k hc => gain_constants _ _ _ _ c hc
  obtain ⟨rb, v, h3, h4⟩ := finite_of_gains memS m2 ⟨[.constant 3, .constant 4], ["a", "b"]⟩
    ⟨⟨2, 5, fun c k => c + k * Complex.I⟩, 10, ["a", "b"]⟩ (Or.inr (Or.inr rfl)) fun c k hc => gain_constants _ _ _ _ c hc
  exact ⟨⟨[.constant 1, .constant 2], ["a", "b"]⟩, ⟨[.constant 3, .constant 4], ["a", "b"]⟩, _, ra, rb, u, v, Or.inr (Or.inr rfl), rfl, h1, h3, h2, h4, rfl⟩

/-- C107: Applying a product of filters is the same as applying one filter after the other.  What is missing: the bin at 0 Hz,
where the product of filters may have another value than the product of their values (C60), filters with terms,
that are not plain (C36), and channel numbers, that are neither equal nor those of a filter with one channel. -/
theorem C107_cascade_partial (memS : ℂ) (n : Nat) (d : Bool) (m1 m2 m3 : Nat → Nat → Option ℂ) (a b ab : Channels ℝ ℂ)
    (s : Spectrum ℂ ℝ) (hpa : ∀ tf ∈ a.transferFunctions, Plain d tf) (hpb : ∀ tf ∈ b.transferFunctions, Plain d tf)
    (hab : a.transferFunctions.length = b.transferFunctions.length) (hb : Fits b.transferFunctions.length s.count)
    (hmul : a.mul complexEnv n (.filter b) = .ok ab) (rb : Spectrum (Option ℂ) ℝ) (u : Spectrum ℂ ℝ)
    (hrb : applySpectrum complexEnv memS m1 b s = .ok rb) (hu : Finite rb u) (hres : 0 < s.resolution) :
    ∃ p q, applySpectrum complexEnv memS m2 a u = .ok p ∧ applySpectrum complexEnv memS m3 ab s = .ok q ∧
      p.count = q.count ∧ p.length = q.length ∧ p.resolution = q.resolution ∧ p.labels = q.labels ∧
      ∀ c k z, c < p.count → 0 < k → k < p.length → p.channels.get c k = some z → q.channels.get c k = some z := by
  obtain ⟨l1, l2, -⟩ := C36_channels a b.transferFunctions (Filter.mul complexEnv n) "Product" ab hmul
  have hlen : ab.transferFunctions.length = b.transferFunctions.length := by
    rw [l1, hab]; split <;> rfl
  obtain ⟨rb', e, b1, b2, b3, -, b5⟩ := C93_spectrum memS m1 b s hb
  rw [hrb] at e; cases e
  have hfu : Fits a.transferFunctions.length u.count := by
    rw [hu.count, b1, hab]
    unfold Fits filteredCount at *
    split_ifs <;> omega
  obtain ⟨p, hp, p1, p2, p3, p4, p5⟩ := C93_spectrum memS m2 a u hfu
  obtain ⟨q, hq, q1, q2, q3, q4, q5⟩ := C93_spectrum memS m3 ab s (by rw [hlen]; exact hb)
  have hpq : p.count = q.count := by
    rw [p1, q1, hu.count, b1, hab, hlen]
    unfold filteredCount
    split_ifs <;> rfl
  refine ⟨p, q, hp, hq, hpq, by rw [p2, q2, hu.length, b2], by rw [p3, q3, hu.resolution, b3], by rw [p4, q4, hpq], ?_⟩
  intro c k z hc hk0 hk hz
  have hk' : k < s.length := by rw [p2, hu.length, b2] at hk; exact hk
  have hcu : pick u.count c < rb.count := by
    rw [p1] at hc
    rw [← hu.count]
    unfold filteredCount Fits at *
    unfold pick
    split_ifs at hc ⊢ <;> omega
  have eu := hu.value _ k hcu (by omega)
  rw [b5 _ k hcu hk'] at eu
  rw [p5 c k hc (by omega), hu.resolution, b3] at hz
  rw [q5 c k (by omega) hk']
  have hpick : pick b.transferFunctions.length (pick u.count c) = pick b.transferFunctions.length c := by
    rw [hu.count, b1]
    rw [p1, hu.count, b1, hab] at hc
    unfold pick filteredCount Fits at *
    split_ifs at * <;> omega
  have hpick2 : pick s.count (pick u.count c) = pick s.count c := by
    rw [hu.count, b1]
    rw [p1, hu.count, b1, hab] at hc
    unfold pick filteredCount Fits at *
    split_ifs at * <;> omega
  rw [hpick, hpick2] at eu
  have hf : (0 : ℝ) < k * s.resolution := mul_pos (by exact_mod_cast hk0) hres
  have hcq : pick ab.transferFunctions.length c < ab.transferFunctions.length := by
    rw [hpq, q1] at hc
    have := hb
    rw [← hlen] at this
    unfold pick filteredCount Fits at *
    split_ifs at * <;> omega
  cases hga : gain memS a (pick a.transferFunctions.length c) (k * s.resolution) with
  | none => rw [hga] at hz; cases hz
  | some x =>
    cases hgb : gain memS b (pick b.transferFunctions.length c) (k * s.resolution) with
    | none => rw [hgb] at eu; cases eu
    | some y =>
      rw [hga] at hz
      rw [hgb] at eu
      simp only [Option.map_some, Option.some.injEq] at hz eu
      have some_of : ∀ (l : Channels ℝ ℂ) (i : Nat) (w : ℂ), gain memS l i (k * s.resolution) = some w →
          (l.call complexEnv memS (k * s.resolution))[i]? = some (some w) := by
        intro l i w h
        unfold gain at h
        cases h' : (l.call complexEnv memS (k * s.resolution))[i]? with
        | none => rw [h'] at h; cases h
        | some o => rw [h'] at h; exact congrArg some h
      have idx : ∀ m : Nat, m = ab.transferFunctions.length →
          (if m = 1 then 0 else pick ab.transferFunctions.length c) = pick m c := by
        intro m hm
        subst hm
        unfold pick
        split <;> rfl
      have key := (C36_values_partial memS n d a b hpa hpb (k * s.resolution) hf ab
        (pick ab.transferFunctions.length c) hcq x y
        (by rw [idx _ (hab.trans hlen.symm)]; exact some_of a _ x hga)
        (by rw [idx _ hlen.symm]; exact some_of b _ y hgb)).2.2.1 hmul
      have hgain : gain memS ab (pick ab.transferFunctions.length c) (k * s.resolution) = some (x * y) := by
        unfold gain
        rw [key]
        rfl
      rw [hgain, ← hz, ← eu]
      simp only [Option.map_some, Option.some.injEq]
      ring

/-- The hypotheses can be satisfied. -/
example (memS : ℂ) (n : Nat) (m1 : Nat → Nat → Option ℂ) : ∃ (a b ab : Channels ℝ ℂ) (s : Spectrum ℂ ℝ)
    (rb : Spectrum (Option ℂ) ℝ) (u : Spectrum ℂ ℝ), (∀ tf ∈ a.transferFunctions, Plain false tf) ∧
    (∀ tf ∈ b.transferFunctions, Plain false tf) ∧ a.transferFunctions.length = b.transferFunctions.length ∧
    a.mul complexEnv (n + 1) (.filter b) = .ok ab ∧ applySpectrum complexEnv memS m1 b s = .ok rb ∧ Finite rb u ∧
    0 < s.resolution ∧ 2 ≤ s.length := by
  obtain ⟨rb, v, h3, h4⟩ := finite_of_gains memS m1 ⟨[.constant 3, .constant 4], ["a", "b"]⟩
    ⟨⟨2, 5, fun c k => c + k * Complex.I⟩, 10, ["a", "b"]⟩ (Or.inr (Or.inr rfl)) fun c k hc => gain_constants _ _ _ _ c hc
  refine ⟨⟨[.polynomial [1, 2] true, .exp 2 true], ["a", "b"]⟩, ⟨[.constant 3, .constant 4], ["a", "b"]⟩,
    ⟨[.polynomial [1 * 3, 2 * 3] true, .product [.exp 2 true, .constant 4] false], ["Product", "Product"]⟩, _, rb, v,
    ?_, ?_, rfl, ?_, h3, h4, by norm_num, by decide⟩
  · intro tf h
    simp only [List.mem_cons, List.not_mem_nil, or_false] at h
    rcases h with rfl | rfl
    · exact .polynomial _ _ (by simp) (by simp)
    · exact .exp _ _ (by simp)
  · intro tf h
    simp only [List.mem_cons, List.not_mem_nil, or_false] at h
    rcases h with rfl | rfl <;> exact .constant _
  · simp [Channels.mul, Channels.algebraFunction, Filter.mul, Bind.bind, Except.bind, Channels.new, Pure.pure, Except.pure]
    rfl

/-- C107: An inverted filter undoes the filter.  What is missing: the bin at 0 Hz (C60), the bins, where the transfer
function is zero, and filters with terms, that are not plain (C36). -/
theorem C107_inverse_partial (memS : ℂ) (d : Bool) (m1 m2 : Nat → Nat → Option ℂ) (a b : Channels ℝ ℂ) (s : Spectrum ℂ ℝ)
    (hpa : ∀ tf ∈ a.transferFunctions, Plain d tf) (ha : Fits a.transferFunctions.length s.count)
    (hinv : a.invert = .ok b) (ra : Spectrum (Option ℂ) ℝ) (u : Spectrum ℂ ℝ)
    (hra : applySpectrum complexEnv memS m1 a s = .ok ra) (hu : Finite ra u) (hres : 0 < s.resolution) :
    ∃ p, applySpectrum complexEnv memS m2 b u = .ok p ∧ p.count = filteredCount a.transferFunctions.length s.count ∧
      p.length = s.length ∧ p.resolution = s.resolution ∧
      ∀ c k, c < p.count → 0 < k → k < p.length →
        gain memS a (pick a.transferFunctions.length c) (k * s.resolution) ≠ some 0 →
        p.channels.get c k = some (s.channels.get (pick s.count c) k) := by
  obtain ⟨l, hl, e⟩ := bind_ok hinv
  cases e
  obtain ⟨hlen, hget⟩ := mapM_getElem hl
  obtain ⟨ra', e, a1, a2, a3, -, a5⟩ := C93_spectrum memS m1 a s ha
  rw [hra] at e; cases e
  have hlen' : (Channels.new l a.labels).transferFunctions.length = a.transferFunctions.length := hlen
  have hfu : Fits (Channels.new l a.labels).transferFunctions.length u.count := by
    rw [hu.count, a1, hlen']
    unfold Fits filteredCount at *
    split_ifs <;> omega
  obtain ⟨p, hp, p1, p2, p3, -, p5⟩ := C93_spectrum memS m2 _ u hfu
  have hpc : p.count = filteredCount a.transferFunctions.length s.count := by
    rw [p1, hu.count, a1, hlen']
    unfold filteredCount
    split_ifs <;> rfl
  refine ⟨p, hp, hpc, by rw [p2, hu.length, a2], by rw [p3, hu.resolution, a3], ?_⟩
  intro c k hc hk0 hk hne
  have hk' : k < s.length := by rw [p2, hu.length, a2] at hk; exact hk
  have hcu : pick u.count c < ra.count := by
    rw [p1] at hc
    rw [← hu.count]
    unfold filteredCount Fits at *
    unfold pick
    split_ifs at hc ⊢ <;> omega
  have eu := hu.value _ k hcu (by omega)
  rw [a5 _ k hcu hk'] at eu
  rw [p5 c k hc (by omega), hu.resolution, a3, hlen']
  have hpick : pick a.transferFunctions.length (pick u.count c) = pick a.transferFunctions.length c := by
    rw [hu.count, a1]
    rw [hpc] at hc
    unfold pick filteredCount Fits at *
    split_ifs at * <;> omega
  have hpick2 : pick s.count (pick u.count c) = pick s.count c := by
    rw [hu.count, a1]
    rw [hpc] at hc
    unfold pick filteredCount Fits at *
    split_ifs at * <;> omega
  rw [hpick, hpick2] at eu
  have hf : (0 : ℝ) < k * s.resolution := mul_pos (by exact_mod_cast hk0) hres
  have hca : pick a.transferFunctions.length c < a.transferFunctions.length := by
    rw [hpc] at hc
    unfold pick filteredCount Fits at *
    split_ifs at * <;> omega
  obtain ⟨z, hz1, hz2⟩ := hget _ hca
  have hga := C93_gain memS a _ hca _ hf
  have hgb := C93_gain memS (Channels.new l a.labels) (pick a.transferFunctions.length c) (by rw [hlen']; exact hca) _ hf
  cases hg : gain memS a (pick a.transferFunctions.length c) (k * s.resolution) with
  | none => rw [hg] at eu; cases eu
  | some x =>
    rw [hg] at eu hne hga
    have hx0 : x ≠ 0 := fun h => hne (by rw [h])
    simp only [Option.map_some, Option.some.injEq] at eu
    have hzt : (Channels.new l a.labels).transferFunctions[pick a.transferFunctions.length c]'(by rw [hlen']; exact hca) = z := by
      have : l[pick a.transferFunctions.length c]? = some z := hz1
      rw [List.getElem?_eq_some_iff] at this
      exact this.2
    rw [hgb, hzt, (C31_operators_partial 0 d _ _ (hpa _ (List.getElem_mem hca)) (hpa _ (List.getElem_mem hca)) _ false x x
      hga.symm hga.symm).2.2.2.2.2.2 z hz2 hx0]
    simp only [Option.map_some, Option.some.injEq]
    rw [← eu]
    field_simp

/-- The hypotheses can be satisfied. -/
example (memS : ℂ) (m1 : Nat → Nat → Option ℂ) : ∃ (a b : Channels ℝ ℂ) (s : Spectrum ℂ ℝ)
    (ra : Spectrum (Option ℂ) ℝ) (u : Spectrum ℂ ℝ), (∀ tf ∈ a.transferFunctions, Plain false tf) ∧
    a.invert = .ok b ∧ applySpectrum complexEnv memS m1 a s = .ok ra ∧ Finite ra u ∧ 0 < s.resolution ∧ 2 ≤ s.length := by
  obtain ⟨ra, v, h3, h4⟩ := finite_of_gains memS m1 ⟨[.constant 3, .constant 4], ["a", "b"]⟩
    ⟨⟨2, 5, fun c k => c + k * Complex.I⟩, 10, ["a", "b"]⟩ (Or.inr (Or.inr rfl)) fun c k hc => gain_constants _ _ _ _ c hc
  refine ⟨⟨[.constant 3, .constant 4], ["a", "b"]⟩, ⟨[.constant (1 / 3), .constant (1 / 4)], ["a", "b"]⟩, _, ra, v,
    ?_, ?_, h3, h4, by norm_num, by decide⟩
  · intro tf h
    simp only [List.mem_cons, List.not_mem_nil, or_false] at h
    rcases h with rfl | rfl <;> exact .constant _
  · simp [Channels.invert, Term.invert, Bind.bind, Except.bind, Channels.new, Pure.pure, Except.pure]
    rfl

/-- C107 is violated by cascades at 0 Hz: the product of a filter with the transfer functions `0` and `1` and a filter with
the transfer functions `1 / s` and `1` has the value 1 in its second channel, but when the filters are applied one after
the other, then the second filter sets its second channel to zero. -/
theorem C107_cascade_violated (memS : ℂ) (n : Nat) :
    ∃ a b ab : Channels ℝ ℂ, a.mul complexEnv (n + 1) (.filter b) = .ok ab ∧ gain memS a 1 0 = some 1 ∧
      gain memS b 1 0 = some 0 ∧ gain memS ab 1 0 = some 1 := by
  refine ⟨⟨[.constant 0, .constant 1], ["a", "b"]⟩, ⟨[.polynomial [1, 0] true, .constant 1], ["a", "b"]⟩,
    ⟨[.constant 0, .constant 1], ["Product", "Product"]⟩, ?_, ?_, ?_, ?_⟩
  · simp [Channels.mul, Channels.algebraFunction, Filter.mul, Bind.bind, Except.bind, Channels.new, Pure.pure, Except.pure]
    rfl
  · simp [gain, Channels.call, evalStateList, evalState, touch, fix, complexEnv_zero]
  · simp [gain, Channels.call, evalStateList, evalState, touch, fix, complexEnv_zero]
  · simp [gain, Channels.call, evalStateList, evalState, touch, fix, complexEnv_zero]

/-! ### signals -/

/-- the sample `n` of the inverse transform of the bins `X 0, …, X M` -/
noncomputable def inverse (M : Nat) (X : Nat → ℂ) (n : Nat) : ℝ :=
  ((1 / ((2 * M : Nat) : ℂ)) * ∑ k ∈ range (2 * M), hermitian M X k * omega (2 * M) ^ ((k : ℤ) * n)).re

theorem inverse_congr {M : Nat} {X Y : Nat → ℂ} (h : ∀ k, k < 2 * M → hermitian M X k = hermitian M Y k) (n : Nat) :
    inverse M X n = inverse M Y n := by
  unfold inverse
  congr 2
  refine Finset.sum_congr rfl fun k hk => ?_
  rw [h k (mem_range.mp hk)]

/-- The inverse transform of a product with the transform of a real signal is the cyclic convolution with the inverse
transform of the other factor. -/
theorem inverse_mul {M : Nat} (hM : 0 < M) (H : Nat → ℂ) (x : Nat → ℝ) (n : Nat) :
    inverse M (fun k => H k * dft (2 * M) x k) n =
      ∑ j ∈ range (2 * M), inverse M H j * x (((n : ℤ) - j) % (2 * M : Nat)).toNat := by
  obtain ⟨B, hB, -, -, h⟩ := Mat.irfft_product ⟨1, M + 1, fun _ k => dft (2 * M) (inverse M H) k * dft (2 * M) x k⟩ M hM rfl 0
    (inverse M H) x 1 (Or.inl rfl) (fun k _ => by rw [one_mul])
  have e : B.get 0 n = inverse M (fun k => dft (2 * M) (inverse M H) k * dft (2 * M) x k) n := by
    unfold Mat.irfft at hB
    rw [if_neg (show ¬ M + 1 ≤ 1 by omega)] at hB
    cases hB
    rfl
  have := h n
  simp only [one_mul] at this
  rw [← this, e]
  refine inverse_congr ?_ n
  have hd : ∀ k, k ≤ M → dft (2 * M) (inverse M H) k = hermitian M H k := fun k hk => Fourier.dft_inverse hM H hk
  have hreal : ∀ k : Nat, k = 0 ∨ k = M → ((dft (2 * M) x k).im : ℝ) = 0 := by
    intro k hk
    rw [← Complex.conj_eq_iff_im, conj_dft]
    rcases hk with h | h
    · subst h; simp
    · rw [← dft_period (N := 2 * M) (by omega) x (-k)]
      congr 1
      subst h
      push_cast
      ring
  intro k hk
  unfold hermitian
  dsimp only
  split_ifs with h1 h2
  · have := hreal k h1
    rw [hd k (by omega)]
    unfold hermitian
    rw [if_pos h1, Complex.mul_re, Complex.mul_re, this]
    simp
  · rw [hd k (by omega)]
    unfold hermitian
    rw [if_neg h1, if_pos h2]
  · rw [hd (2 * M - k) (by omega)]
    unfold hermitian
    rw [if_neg (by omega), if_pos (by omega)]

/-- The inverse transform of a channel, all bins of which are finite. -/
theorem inverse_value (mem : Nat → Nat → Option ℝ) (b : Spectrum (Option ℂ) ℝ) (M : Nat) (hM : 0 < M)
    (hb : b.length = M + 1) (hl : b.labels.length = b.count) :
    ∃ r, inverseFourierTransform mem b = .ok r ∧ r.count = b.count ∧ r.length = 2 * M ∧
      r.rate = b.resolution * (2 * M : Nat) ∧ r.offset = 0 ∧ r.labels = b.labels ∧
      ∀ c (X : Nat → ℂ), c < b.count → (∀ k, k ≤ M → b.channels.get c k = some (X k)) →
        ∀ n, n < 2 * M → r.channels.get c n = some (inverse M X n) := by
  have hcols : b.channels.cols = M + 1 := hb
  obtain ⟨E, hE, hEr, hEc, hEg⟩ : ∃ E, (b.channels.map fun x => x.getD 0).irfft = .ok E ∧ E.rows = b.channels.rows ∧
      E.cols = 2 * M ∧ ∀ c n, E.get c n = inverse M (fun k => (b.channels.get c k).getD 0) n := by
    unfold Mat.irfft
    have hc' : (b.channels.map fun x => x.getD 0).cols = M + 1 := hcols
    rw [if_neg (by omega)]
    refine ⟨_, rfl, rfl, ?_, ?_⟩
    · show 2 * ((b.channels.map fun x => x.getD 0).cols - 1) = _
      rw [hc']; omega
    · intro c n
      simp only [hc', Nat.add_sub_cancel]
      rfl
  obtain ⟨F, hF⟩ : ∃ F, F = (⟨E.rows, E.cols, fun i n =>
    if (List.range b.channels.cols).all fun k => (b.channels.get i k).isSome then some (E.get i n) else none⟩ : Mat (Option ℝ)) :=
    ⟨_, rfl⟩
  have hirfft : irfftN b.channels = .ok F := by
    unfold irfftN Fourier.irfftN
    rw [if_neg (show ¬ (b.channels.map fun x => x.getD 0).cols = 1 from fun h => by
      have : b.channels.cols = 1 := h
      omega), hE, hF]
    rfl
  have hlen : max 1 ((b.length - 1) * 2) = 2 * M := by omega
  obtain ⟨D, h1, h2, h3, h4⟩ := Fourier.assign_full (A := alloc mem b.count (2 * M)) (B := F) (by rw [hF]; exact hEr)
    (by rw [hF]; exact hEc)
  refine ⟨Signal.new D (b.resolution * (2 * M : Nat)) 0 (some b.labels), ?_, h2, h3, rfl, rfl, ?_, ?_⟩
  · unfold inverseFourierTransform
    rw [if_neg (by omega)]
    dsimp only
    rw [hlen, hirfft]
    show (Mat.assign _ _ _ _ >>= _) = _
    rw [h1]
    rfl
  · show sanitizeLabels (some b.labels) D.rows = _
    rw [Signal.sanitize_self (by rw [h2, hl]; rfl)]
  · intro c X hc hX n hn
    show D.get c n = _
    rw [h4 c n hc hn, hF]
    dsimp only
    rw [if_pos, hEg]
    · congr 1
      refine inverse_congr ?_ n
      have : ∀ k, k ≤ M → (b.channels.get c k).getD 0 = X k := fun k hk => by rw [hX k hk]; rfl
      intro k hk
      unfold hermitian
      dsimp only
      split_ifs with g1 g2
      · rw [this k (by omega)]
      · rw [this k (by omega)]
      · rw [this (2 * M - k) (by omega)]
    · rw [List.all_eq_true]
      intro k hk
      rw [List.mem_range] at hk
      rw [hX k (by omega)]
      rfl

/-- the impulse response of a filter: the inverse transform of its values at the frequencies of the bins -/
noncomputable def response (memS : ℂ) (a : Channels ℝ ℂ) (rate : ℝ) (length : Nat) (c n : Nat) : ℝ :=
  inverse (length / 2) (fun k => (gain memS a c (k * (rate / length))).getD 0) n

theorem filtered_value (mem : Memory) (a : Channels ℝ ℂ) (o : Signal ℝ ℝ) (hl : o.labels.length = o.count)
    (hm : 1 ≤ o.count) (hn : 2 ≤ o.length) (he : o.length % 2 = 0) (hr : o.rate ≠ 0)
    (h : Fits a.transferFunctions.length o.count)
    (hfinite : ∀ c k : Nat, c < a.transferFunctions.length → k ≤ o.length / 2 →
      (gain mem.s a c (k * (o.rate / o.length))).isSome) :
    ∃ r, applySignal complexEnv mem a o = .ok r ∧ r.count = filteredCount a.transferFunctions.length o.count ∧
      r.length = o.length ∧ r.rate = o.rate ∧ r.offset = 0 ∧
      ∀ c n, c < r.count → n < r.length → r.channels.get c n = some (∑ j ∈ range o.length,
        response mem.s a o.rate o.length (pick a.transferFunctions.length c) j *
          o.channels.get (pick o.count c) (((n : ℤ) - j - o.offset) % o.length).toNat) := by
  obtain ⟨M, hM⟩ : ∃ M, o.length = 2 * M := ⟨o.length / 2, by omega⟩
  have hM0 : 0 < M := by omega
  have hM2 : o.length / 2 = M := by omega
  obtain ⟨b, r, h1, h2, b1, b2, b3, b4, b5⟩ := applySignal_ok mem a o hl hm hn hr h
  have hcl : o.channels.cols = 2 * M := hM
  obtain ⟨r', e0, r1, r2, r3, r4, -, r6⟩ := inverse_value mem.signal b M hM0 (by rw [b2]; omega) (by rw [b4]; simp)
  rw [h2] at e0
  cases e0
  refine ⟨r, h1, by rw [r1, b1]; rfl, by rw [r2, hM], ?_, r4, ?_⟩
  · rw [r3, b3, hcl]
    have : ((2 * M : Nat) : ℝ) ≠ 0 := Nat.cast_ne_zero.mpr (by omega)
    field_simp
  intro c n hc hn'
  have hc' : c < b.count := by omega
  have hpa : pick a.transferFunctions.length c < a.transferFunctions.length := by
    rw [b1] at hc'
    change c < filteredCount _ o.count at hc'
    unfold pick filteredCount Fits at *
    split_ifs at * <;> omega
  let x : Nat → ℝ := fun n => o.channels.get (pick o.count c) (((n : ℤ) - o.offset) % (2 * M : Nat)).toNat
  let H : Nat → ℂ := fun k => (gain mem.s a (pick a.transferFunctions.length c) (k * (o.rate / o.length))).getD 0
  rw [r6 c (fun k => H k * dft (2 * M) x k) hc' ?_ n (by omega), inverse_mul hM0]
  · unfold response
    rw [hM2, hM]
    congr 1
    refine Finset.sum_congr rfl fun j _ => ?_
    show inverse M H j * o.channels.get _ ((((((n : ℤ) - j) % (2 * M : Nat)).toNat : ℤ) - o.offset) % (2 * M : Nat)).toNat = _
    rw [Int.toNat_of_nonneg (Int.emod_nonneg _ (by omega)), Int.emod_sub_emod]
    show inverse M (fun k => (gain mem.s a (pick a.transferFunctions.length c) (k * (o.rate / o.length))).getD 0) j * _ = _
    rw [hM]
  · intro k hk
    have hg : gain mem.s a (pick a.transferFunctions.length c) (k * (o.rate / o.length)) = some (H k) := by
      have := hfinite _ k hpa (by omega)
      show _ = some ((gain mem.s a (pick a.transferFunctions.length c) (k * (o.rate / o.length))).getD 0)
      cases hg : gain mem.s a (pick a.transferFunctions.length c) (k * (o.rate / o.length)) with
      | none => rw [hg] at this; cases this
      | some z => rfl
    rw [b5 c k hc' (by omega), show (o.rate / (o.channels.cols : ℝ)) = o.rate / o.length from rfl, hg]
    simp only [Option.map_some, Option.some.injEq]
    congr 1
    rw [hcl, Fourier.transform_eq]
    exact (dft_shift (2 * M) (by omega) (o.channels.get (pick o.count c)) o.offset k).symm

/-- C107: A filtered signal with an even number of samples is the cyclic convolution of the signal with the impulse response
of the filter, which is the inverse Fourier transform of the filter's spectrum.  The offset of the signal becomes a
cyclic shift. -/
theorem C107_impulse_response (mem : Memory) (m1 : Nat → Nat → Option ℝ) (a : Channels ℝ ℂ) (o : Signal ℝ ℝ)
    (hl : o.labels.length = o.count) (hla : a.labels.length = a.transferFunctions.length) (hm : 1 ≤ o.count)
    (hn : 2 ≤ o.length) (he : o.length % 2 = 0) (hr : o.rate ≠ 0) (h : Fits a.transferFunctions.length o.count)
    (hfinite : ∀ c k : Nat, c < a.transferFunctions.length → k ≤ o.length / 2 →
      (gain mem.s a c (k * (o.rate / o.length))).isSome) :
    ∃ i r, inverseFourierTransform m1 (sampled complexEnv mem.s a (o.rate / o.length) (o.length / 2 + 1)) = .ok i ∧
      applySignal complexEnv mem a o = .ok r ∧ i.count = a.transferFunctions.length ∧ i.length = o.length ∧
      i.rate = o.rate ∧ i.offset = 0 ∧ i.labels = a.labels ∧
      r.count = filteredCount a.transferFunctions.length o.count ∧ r.length = o.length ∧ r.rate = o.rate ∧
      r.offset = 0 ∧
      ∃ g : Nat → Nat → ℝ, (∀ c n, c < i.count → n < i.length → i.channels.get c n = some (g c n)) ∧
        ∀ c n, c < r.count → n < r.length → r.channels.get c n = some (∑ j ∈ range o.length,
          g (pick a.transferFunctions.length c) j *
            o.channels.get (pick o.count c) (((n : ℤ) - j - o.offset) % o.length).toNat) := by
  obtain ⟨r, h1, r1, r2, r3, r4, r5⟩ := filtered_value mem a o hl hm hn he hr h hfinite
  have hlab : (sampled complexEnv mem.s a (o.rate / o.length) (o.length / 2 + 1)).labels = a.labels :=
    Signal.sanitize_self hla
  obtain ⟨i, hi, i1, i2, i3, i4, i5, i6⟩ := inverse_value m1
    (sampled complexEnv mem.s a (o.rate / o.length) (o.length / 2 + 1)) (o.length / 2) (by omega) rfl (by rw [hlab, hla]; rfl)
  have hic : i.count = a.transferFunctions.length := i1
  refine ⟨i, r, hi, h1, hic, by rw [i2]; omega, ?_, i4, by rw [i5, hlab], r1, r2, r3, r4, _, ?_, r5⟩
  · rw [i3, show 2 * (o.length / 2) = o.length by omega]
    have : (o.length : ℝ) ≠ 0 := Nat.cast_ne_zero.mpr (by omega)
    exact div_mul_cancel₀ _ this
  · intro c n hc hn'
    refine i6 c (fun k => (gain mem.s a c (k * (o.rate / o.length))).getD 0) (by rw [← i1]; exact hc) ?_ n (by omega)
    intro k hk
    show gain mem.s a c (k * (o.rate / o.length)) = _
    have := hfinite c k (by omega) hk
    cases hg : gain mem.s a c (k * (o.rate / o.length)) with
    | none => rw [hg] at this; cases this
    | some z => rfl

/-- The hypotheses can be satisfied. -/
example (memS : ℂ) : ∃ (a : Channels ℝ ℂ) (o : Signal ℝ ℝ), o.labels.length = o.count ∧
    a.labels.length = a.transferFunctions.length ∧ 2 ≤ o.count ∧ 2 ≤ o.length ∧ o.length % 2 = 0 ∧ o.rate ≠ 0 ∧
    o.offset ≠ 0 ∧ Fits a.transferFunctions.length o.count ∧
    ∀ c k : Nat, c < a.transferFunctions.length → k ≤ o.length / 2 →
      (gain memS a c (k * (o.rate / o.length))).isSome :=
  ⟨⟨[.constant 3, .constant 4], ["a", "b"]⟩, ⟨⟨2, 6, fun c i => c + i⟩, 48000, 3, ["a", "b"]⟩, rfl, rfl, le_refl _, by decide,
    rfl, by norm_num, by decide, Or.inr (Or.inr rfl), fun c _ hc _ => gain_constants _ _ _ _ c hc⟩

/-- C107: Filtering signals is linear. -/
theorem C107_superposition (mem1 mem2 mem3 : Memory) (a : Channels ℝ ℂ) (x y z : Signal ℝ ℝ) (α β : ℝ)
    (hs : mem2.s = mem1.s ∧ mem3.s = mem1.s) (hlx : x.labels.length = x.count) (hly : y.labels.length = y.count)
    (hlz : z.labels.length = z.count) (hy : y.count = x.count ∧ y.length = x.length ∧ y.rate = x.rate ∧ y.offset = x.offset)
    (hz : z.count = x.count ∧ z.length = x.length ∧ z.rate = x.rate ∧ z.offset = x.offset)
    (hxy : ∀ c n, c < x.count → n < x.length → z.channels.get c n = α * x.channels.get c n + β * y.channels.get c n)
    (hm : 1 ≤ x.count) (hn : 2 ≤ x.length) (he : x.length % 2 = 0) (hr : x.rate ≠ 0)
    (h : Fits a.transferFunctions.length x.count)
    (hfinite : ∀ c k : Nat, c < a.transferFunctions.length → k ≤ x.length / 2 →
      (gain mem1.s a c (k * (x.rate / x.length))).isSome) :
    ∃ u v w, applySignal complexEnv mem1 a x = .ok u ∧ applySignal complexEnv mem2 a y = .ok v ∧
      applySignal complexEnv mem3 a z = .ok w ∧ v.count = u.count ∧ w.count = u.count ∧ u.length = x.length ∧
      v.length = x.length ∧ w.length = x.length ∧
      ∀ c n, c < u.count → n < u.length → ∃ p q, u.channels.get c n = some p ∧ v.channels.get c n = some q ∧
        w.channels.get c n = some (α * p + β * q) := by
  obtain ⟨y1, y2, y3, y4⟩ := hy
  obtain ⟨z1, z2, z3, z4⟩ := hz
  obtain ⟨s2, s3⟩ := hs
  obtain ⟨u, hu, u1, u2, -, -, u5⟩ := filtered_value mem1 a x hlx hm hn he hr h hfinite
  obtain ⟨v, hv, v1, v2, -, -, v5⟩ := filtered_value mem2 a y hly (by omega) (by omega) (by omega) (by rw [y3]; exact hr)
    (by rw [y1]; exact h) (by rw [s2, y2, y3]; exact hfinite)
  obtain ⟨w, hw, w1, w2, -, -, w5⟩ := filtered_value mem3 a z hlz (by omega) (by omega) (by omega) (by rw [z3]; exact hr)
    (by rw [z1]; exact h) (by rw [s3, z2, z3]; exact hfinite)
  refine ⟨u, v, w, hu, hv, hw, by rw [v1, u1, y1], by rw [w1, u1, z1], u2, by omega, by omega, ?_⟩
  intro c n hc hk
  refine ⟨_, _, u5 c n hc hk, v5 c n (by rw [v1, y1, ← u1]; exact hc) (by omega), ?_⟩
  rw [w5 c n (by rw [w1, z1, ← u1]; exact hc) (by omega), y1, y2, y3, y4, z1, z2, z3, z4, s2, s3]
  congr 1
  rw [Finset.mul_sum, Finset.mul_sum, ← Finset.sum_add_distrib]
  refine Finset.sum_congr rfl fun j _ => ?_
  have hN : (0 : ℤ) < x.length := by omega
  have l1 := Int.emod_nonneg ((n : ℤ) - j - x.offset) hN.ne'
  have l2 := Int.emod_lt_of_pos ((n : ℤ) - j - x.offset) hN
  have hp : pick x.count c < x.count := by
    rw [u1] at hc
    unfold pick filteredCount Fits at *
    split_ifs at * <;> omega
  rw [hxy _ _ hp (by omega)]
  ring

/-- The hypotheses about the signals can be satisfied. -/
example : ∃ (x y z : Signal ℝ ℝ) (α β : ℝ),
    (y.count = x.count ∧ y.length = x.length ∧ y.rate = x.rate ∧ y.offset = x.offset) ∧
    (z.count = x.count ∧ z.length = x.length ∧ z.rate = x.rate ∧ z.offset = x.offset) ∧
    ∀ c n, c < x.count → n < x.length → z.channels.get c n = α * x.channels.get c n + β * y.channels.get c n :=
  ⟨⟨⟨2, 6, fun c i => c + i⟩, 48000, 3, ["a", "b"]⟩, ⟨⟨2, 6, fun c i => c * i⟩, 48000, 3, ["a", "b"]⟩,
    ⟨⟨2, 6, fun c i => 2 * (c + i) + 3 * (c * i)⟩, 48000, 3, ["a", "b"]⟩, 2, 3, ⟨rfl, rfl, rfl, rfl⟩, ⟨rfl, rfl, rfl, rfl⟩,
    fun _ _ _ _ => rfl⟩

/-- C107: Filters are time invariant: when a signal is shifted cyclically, then the filtered signal is shifted in the same
way; so it is, when the offset of the signal is modified. -/
theorem C107_time_invariant (mem1 mem2 : Memory) (a : Channels ℝ ℂ) (x y : Signal ℝ ℝ) (d e : ℤ)
    (hs : mem2.s = mem1.s) (hlx : x.labels.length = x.count) (hly : y.labels.length = y.count)
    (hy : y.count = x.count ∧ y.length = x.length ∧ y.rate = x.rate ∧ y.offset = x.offset + e)
    (hxy : ∀ c n, c < x.count → n < x.length → y.channels.get c n = x.channels.get c (((n : ℤ) - d) % x.length).toNat)
    (hm : 1 ≤ x.count) (hn : 2 ≤ x.length) (he : x.length % 2 = 0) (hr : x.rate ≠ 0)
    (h : Fits a.transferFunctions.length x.count)
    (hfinite : ∀ c k : Nat, c < a.transferFunctions.length → k ≤ x.length / 2 →
      (gain mem1.s a c (k * (x.rate / x.length))).isSome) :
    ∃ u v, applySignal complexEnv mem1 a x = .ok u ∧ applySignal complexEnv mem2 a y = .ok v ∧ v.count = u.count ∧
      u.length = x.length ∧ v.length = x.length ∧ v.rate = u.rate ∧ v.offset = u.offset ∧
      ∀ c n, c < u.count → n < u.length →
        v.channels.get c n = u.channels.get c (((n : ℤ) - (d + e)) % x.length).toNat := by
  obtain ⟨y1, y2, y3, y4⟩ := hy
  obtain ⟨u, hu, u1, u2, u3, u4, u5⟩ := filtered_value mem1 a x hlx hm hn he hr h hfinite
  obtain ⟨v, hv, v1, v2, v3, v4, v5⟩ := filtered_value mem2 a y hly (by omega) (by omega) (by omega) (by rw [y3]; exact hr)
    (by rw [y1]; exact h) (by rw [hs, y2, y3]; exact hfinite)
  refine ⟨u, v, hu, hv, by rw [v1, u1, y1], u2, by omega, by rw [u3, v3, y3], by rw [u4, v4], ?_⟩
  intro c n hc hk
  have hN : (0 : ℤ) < x.length := by omega
  have pos : ∀ i : ℤ, 0 ≤ i % x.length := fun i => Int.emod_nonneg _ hN.ne'
  have lt : ∀ i : ℤ, i % x.length < x.length := fun i => Int.emod_lt_of_pos _ hN
  have q1 := pos ((n : ℤ) - (d + e))
  have q2 := lt ((n : ℤ) - (d + e))
  rw [v5 c n (by rw [v1, y1, ← u1]; exact hc) (by omega), u5 c _ hc (by omega), y1, y2, y3, y4, hs]
  congr 1
  refine Finset.sum_congr rfl fun j _ => ?_
  have hp : pick x.count c < x.count := by
    rw [u1] at hc
    unfold pick filteredCount Fits at *
    split_ifs at * <;> omega
  have g1 := pos ((n : ℤ) - j - (x.offset + e))
  have g2 := lt ((n : ℤ) - j - (x.offset + e))
  rw [hxy _ _ hp (by omega), Int.toNat_of_nonneg g1, Int.toNat_of_nonneg q1]
  congr 3
  rw [Int.emod_sub_emod, sub_sub ((((n : ℤ) - (d + e)) % x.length)) (j : ℤ), Int.emod_sub_emod]
  congr 1
  ring

/-- The hypotheses about the signals can be satisfied. -/
example : ∃ (x y : Signal ℝ ℝ) (d e : ℤ), d ≠ 0 ∧ e ≠ 0 ∧
    (y.count = x.count ∧ y.length = x.length ∧ y.rate = x.rate ∧ y.offset = x.offset + e) ∧
    ∀ c n, c < x.count → n < x.length → y.channels.get c n = x.channels.get c (((n : ℤ) - d) % x.length).toNat :=
  ⟨⟨⟨2, 6, fun c i => c + i⟩, 48000, 3, ["a", "b"]⟩,
    ⟨⟨2, 6, fun c i => c + (((i : ℤ) - 4) % (6 : Nat)).toNat⟩, 48000, 5, ["a", "b"]⟩, 4, 2, by decide, by decide,
    ⟨rfl, rfl, rfl, rfl⟩, fun _ _ _ _ => rfl⟩

end FilterApply
end Verif
