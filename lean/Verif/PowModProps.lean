import Verif.PowMod
import Verif.Level
import Verif.SignalLawsProps
import Verif.SpectrumSliceProps
import Verif.SpectrumProps
import Mathlib.Tactic.Linarith
import Mathlib.Tactic.FieldSimp
import Mathlib.Tactic.Ring
import Mathlib.Tactic.NormNum

/-
Property C106: the laws of the operators `**` and `%`, and of the operators with a number on one side.
-/

namespace Verif

/-! ### The functions for numbers -/

theorem npPower_natCast (nan inf x : ℝ) (n : Nat) : npPower nan inf x n = x ^ n := by
  unfold npPower
  by_cases hx : 0 < x
  · rw [if_pos hx, Real.rpow_natCast]
  · rw [if_neg hx]
    by_cases h0 : x = 0
    · rw [if_pos h0]
      rcases Nat.eq_zero_or_pos n with h | h
      · subst h; simp
      · rw [if_neg (by exact_mod_cast h.ne'), if_pos (by exact_mod_cast h), h0, zero_pow h.ne']
    · rw [if_neg h0]
      simp

theorem npPower_of_pos (nan inf : ℝ) {x : ℝ} (hx : 0 < x) (y : ℝ) : npPower nan inf x y = x ^ y := by
  unfold npPower
  rw [if_pos hx]

theorem npPower_half (nan inf : ℝ) {x : ℝ} (hx : 0 ≤ x) : npPower nan inf x (1 / 2) = Real.sqrt x := by
  unfold npPower
  rcases hx.lt_or_eq with h | h
  · rw [if_pos h, Real.sqrt_eq_rpow]
  · rw [if_neg (by linarith), if_pos h.symm, if_neg (by norm_num), if_pos (by norm_num), ← h, Real.sqrt_zero]

/-- The remainder differs from the dividend by an integer multiple of the divisor. -/
theorem npMod_congruent (nan x : ℝ) {y : ℝ} (hy : y ≠ 0) : ∃ k : ℤ, x = npMod nan x y + k * y := by
  refine ⟨⌊x / y⌋, ?_⟩
  unfold npMod
  rw [if_neg hy]
  ring

theorem npMod_pos (nan x : ℝ) {y : ℝ} (hy : 0 < y) : 0 ≤ npMod nan x y ∧ npMod nan x y < y := by
  unfold npMod
  rw [if_neg hy.ne']
  have h1 := Int.floor_le (x / y)
  have h2 := Int.lt_floor_add_one (x / y)
  rw [le_div_iff₀ hy] at h1
  rw [div_lt_iff₀ hy] at h2
  constructor <;> nlinarith

theorem npMod_neg (nan x : ℝ) {y : ℝ} (hy : y < 0) : y < npMod nan x y ∧ npMod nan x y ≤ 0 := by
  unfold npMod
  rw [if_neg hy.ne]
  have h1 := Int.floor_le (x / y)
  have h2 := Int.lt_floor_add_one (x / y)
  rw [le_div_iff_of_neg hy] at h1
  rw [div_lt_iff_of_neg hy] at h2
  constructor <;> nlinarith

theorem npMod_add_mul (nan x : ℝ) {y : ℝ} (hy : y ≠ 0) (k : ℤ) : npMod nan (x + k * y) y = npMod nan x y := by
  unfold npMod
  rw [if_neg hy, if_neg hy, show (x + k * y) / y = x / y + k by field_simp, Int.floor_add_intCast]
  push_cast
  ring

theorem npMod_npMod (nan x : ℝ) {y : ℝ} (hy : y ≠ 0) : npMod nan (npMod nan x y) y = npMod nan x y := by
  obtain ⟨k, hk⟩ := npMod_congruent nan x hy
  have := npMod_add_mul nan (npMod nan x y) hy k
  rw [← hk] at this
  exact this.symm

/-- The remainder is the only number which has its sign and size, and differs by a multiple of the divisor. -/
theorem npMod_unique (nan x : ℝ) {y r : ℝ} (hy : 0 < y) (h1 : 0 ≤ r) (h2 : r < y) (k : ℤ) (hk : x = r + k * y) :
    npMod nan x y = r := by
  have : ⌊x / y⌋ = k := by
    rw [Int.floor_eq_iff, le_div_iff₀ hy, div_lt_iff₀ hy]
    constructor <;> nlinarith
  unfold npMod
  rw [if_neg hy.ne', this, hk]
  ring

namespace Signal

variable {α R : Type}

/-- The signal `r` has the same channels and the same time range as `s`; its samples are computed from those
of `s` with the function `g`. -/
structure Pointwise (g : α → α) (s r : Signal α R) : Prop where
  rate : r.rate = s.rate
  offset : r.offset = s.offset
  count : r.count = s.count
  length : r.length = s.length
  value : ∀ c i x, s.sample c i = some x → r.sample c i = some (g x)

theorem Pointwise.get {g : α → α} {s r : Signal α R} (h : Pointwise g s r) {c i : Nat} (hc : c < s.count)
    (hi : i < s.length) : r.channels.get c i = g (s.channels.get c i) :=
  ((sample_eq_some.mp (h.value c i _ (sample_eq_some.mpr ⟨hc, hi, rfl⟩))).2).2

theorem Pointwise.of_get {g : α → α} {s r : Signal α R} (h1 : r.rate = s.rate) (h2 : r.offset = s.offset)
    (h3 : r.count = s.count) (h4 : r.length = s.length)
    (h5 : ∀ c i, c < s.count → i < s.length → r.channels.get c i = g (s.channels.get c i)) : Pointwise g s r := by
  refine ⟨h1, h2, h3, h4, ?_⟩
  intro c i x hx
  rw [sample_eq_some] at hx ⊢
  exact ⟨hx.1.trans_eq h3.symm, hx.2.1.trans_eq h4.symm, by rw [h5 c i hx.1 hx.2.1, hx.2.2]⟩

theorem Pointwise.refl (s : Signal α R) : Pointwise (fun x => x) s s := ⟨rfl, rfl, rfl, rfl, fun _ _ _ h => h⟩

theorem Pointwise.comp {g h : α → α} {s r q : Signal α R} (a : Pointwise g s r) (b : Pointwise h r q) :
    Pointwise (fun x => h (g x)) s q :=
  ⟨b.rate.trans a.rate, b.offset.trans a.offset, b.count.trans a.count, b.length.trans a.length,
    fun c i x hx => b.value c i _ (a.value c i x hx)⟩

/-- Two signals, which are computed from the same signal with functions that agree on its samples, are the same. -/
theorem Pointwise.same {g h : α → α} {s r q : Signal α R} (a : Pointwise g s r) (b : Pointwise h s q)
    (e : ∀ c i x, s.sample c i = some x → g x = h x) : SameSamples r q := by
  refine ⟨a.rate.trans b.rate.symm, a.offset.trans b.offset.symm, a.count.trans b.count.symm,
    a.length.trans b.length.symm, ?_⟩
  intro c i hc hi
  have hc' : c < s.count := Nat.lt_of_lt_of_eq hc a.count
  have hi' : i < s.length := Nat.lt_of_lt_of_eq hi a.length
  rw [a.get hc' hi', b.get hc' hi']
  exact e c i _ (sample_eq_some.mpr ⟨hc', hi', rfl⟩)

theorem same_of_labels {r q : Signal α R} (h : SameSamples r q) (hl : r.labels = q.labels) : Same r q :=
  ⟨h.1, h.2.1, hl, h.2.2⟩

/-- The operators with a number on the right. -/
theorem array_number (mem : Nat → Nat → α) (f : α → α → α) (s : Signal α R) (hs : s.WF) (y : α) :
    ∃ r, algebraArray mem f s (.scalar y) = .ok r ∧ Pointwise (fun x => f x y) s r ∧ r.labels = s.labels ∧ r.WF := by
  obtain ⟨r, h, h1, h2, h3, h4, h5, h6⟩ := C14_array mem f s hs (.scalar y) ⟨Or.inr rfl, Or.inr rfl⟩
  refine ⟨r, h, ⟨h1, h2, h4, h5, h6⟩, h3, ?_⟩
  unfold WF at hs ⊢
  rw [h3, h4, hs]

/-- The operators with a number on the left. -/
theorem array_number_right (mem : Nat → Nat → α) (f : α → α → α) (s : Signal α R) (hs : s.WF) (y : α) :
    ∃ r, algebraArrayRight mem f s (.scalar y) = .ok r ∧ Pointwise (fun x => f y x) s r ∧ r.labels = s.labels ∧
      r.WF := by
  obtain ⟨r, h, h1, h2, h3, h4, h5, h6⟩ := C14_array_right mem f s hs (.scalar y) ⟨Or.inr rfl, Or.inr rfl⟩
  refine ⟨r, h, ⟨h1, h2, h4, h5, h6⟩, h3, ?_⟩
  unfold WF at hs ⊢
  rw [h3, h4, hs]

/-- The operators for two signals with the same channels and the same time range. -/
theorem algebra_aligned [Zero α] (mem : Nat → Nat → α) (f : α → α → α) (pivot : Option α) (label : String)
    (a b : Signal α R) (h2 : a.offset = b.offset) (h3 : a.count = b.count) (h4 : a.length = b.length) :
    ∃ q, algebra mem f pivot label a b = .ok q ∧ q.rate = a.rate ∧ q.offset = a.offset ∧ q.count = a.count ∧
      q.length = a.length ∧ q.labels = List.replicate a.count label ∧
      ∀ c i, c < a.count → i < a.length → q.channels.get c i = f (a.channels.get c i) (b.channels.get c i) := by
  obtain ⟨q, hq, q1, q2, q3, q4, q5, q6⟩ :=
    C10_pointwise_partial mem f pivot a b label (compatible_of_count h3)
  have hcnt : q.count = a.count := by omega
  have hlen : q.length = a.length := by omega
  refine ⟨q, hq, q2, by omega, hcnt, hlen, by rw [q5, hcnt], ?_⟩
  intro c i hc hi
  have e := q6 c (q.offset + i) (by omega) (by omega) (by omega)
  have ea : a.at_ c (q.offset + i) = some (a.channels.get c i) := by
    rw [at_eq_some]
    exact ⟨hc, by omega, by omega, by congr 1; omega⟩
  have eb : b.at_ c (q.offset + i) = some (b.channels.get c i) := by
    rw [at_eq_some]
    exact ⟨by omega, by omega, by omega, by congr 1; omega⟩
  rw [bcast_eq_at a hc, bcast_eq_at b (by omega), ea, eb, at_eq_some] at e
  obtain ⟨-, -, -, e⟩ := e
  rw [← show f (a.channels.get c i) (b.channels.get c i) = combine f pivot (some (a.channels.get c i))
    (some (b.channels.get c i)) from rfl] at e
  rw [← e]
  congr 1
  omega

/-- The operators for two signals, which are both computed from the same signal. -/
theorem algebra_pointwise [Zero α] (mem : Nat → Nat → α) (f : α → α → α) (pivot : Option α) (label : String)
    {g h : α → α} {s a b : Signal α R} (ha : Pointwise g s a) (hb : Pointwise h s b) :
    ∃ q, algebra mem f pivot label a b = .ok q ∧ Pointwise (fun x => f (g x) (h x)) s q ∧
      q.labels = List.replicate s.count label := by
  obtain ⟨q, hq, q1, q2, q3, q4, q5, q6⟩ := algebra_aligned mem f pivot label a b
    (ha.offset.trans hb.offset.symm) (ha.count.trans hb.count.symm) (ha.length.trans hb.length.symm)
  refine ⟨q, hq, Pointwise.of_get (q1.trans ha.rate) (q2.trans ha.offset) (q3.trans ha.count)
    (q4.trans ha.length) ?_, by rw [q5, ha.count]⟩
  intro c i hc hi
  rw [q6 c i (hc.trans_eq ha.count.symm) (hi.trans_eq ha.length.symm), ha.get hc hi, hb.get hc hi]

/-! ### C106: powers -/

/-- C106: the samples of `signal ** n` for a natural number `n` are the n-th powers of the samples of the
signal, also for samples which are zero or negative. -/
theorem C106_power_natural (nan inf : ℝ) (mem : Nat → Nat → ℝ) (s : Signal ℝ R) (hs : s.WF) (n : Nat) :
    ∃ r, powArray nan inf mem s (.scalar n) = .ok r ∧ r.labels = s.labels ∧ Pointwise (fun x => x ^ n) s r := by
  obtain ⟨r, h, p, l, -⟩ := array_number mem (npPower nan inf) s hs (n : ℝ)
  refine ⟨r, h, l, ⟨p.rate, p.offset, p.count, p.length, ?_⟩⟩
  intro c i x hx
  rw [p.value c i x hx, npPower_natCast]

/-- C106: `signal ** 1` is the signal. -/
theorem C106_power_one (nan inf : ℝ) (mem : Nat → Nat → ℝ) (s : Signal ℝ R) (hs : s.WF) :
    ∃ r, powArray nan inf mem s (.scalar 1) = .ok r ∧ Same r s := by
  obtain ⟨r, h, l, p⟩ := C106_power_natural nan inf mem s hs 1
  rw [Nat.cast_one] at h
  refine ⟨r, h, same_of_labels (p.same (Pointwise.refl s) ?_) l⟩
  intro c i x _
  exact pow_one x

/-- C106: `signal ** 2` has the samples of `signal * signal`. -/
theorem C106_power_square (nan inf : ℝ) (m1 m2 : Nat → Nat → ℝ) (s : Signal ℝ R) (hs : s.WF) :
    ∃ r q, powArray nan inf m1 s (.scalar 2) = .ok r ∧ mul m2 s s = .ok q ∧ SameSamples r q ∧
      r.labels = s.labels ∧ q.labels = List.replicate s.count "Product" := by
  obtain ⟨r, h, l, p⟩ := C106_power_natural nan inf m1 s hs 2
  obtain ⟨q, hq, pq, lq⟩ := algebra_pointwise m2 (· * ·) none "Product" (Pointwise.refl s) (Pointwise.refl s)
  refine ⟨r, q, by exact_mod_cast h, hq, p.same pq ?_, l, lq⟩
  intro c i x _
  exact sq x

/-- C106: `signal ** m * signal ** n` has the samples of `signal ** (m + n)` for natural numbers. -/
theorem C106_power_add_natural (nan inf : ℝ) (m1 m2 m3 m4 : Nat → Nat → ℝ) (s : Signal ℝ R) (hs : s.WF)
    (m n : Nat) : ∃ a b q r, powArray nan inf m1 s (.scalar m) = .ok a ∧ powArray nan inf m2 s (.scalar n) = .ok b ∧
      mul m3 a b = .ok q ∧ powArray nan inf m4 s (.scalar (m + n)) = .ok r ∧ SameSamples q r := by
  obtain ⟨a, ha, -, pa⟩ := C106_power_natural nan inf m1 s hs m
  obtain ⟨b, hb, -, pb⟩ := C106_power_natural nan inf m2 s hs n
  obtain ⟨r, hr, -, pr⟩ := C106_power_natural nan inf m4 s hs (m + n)
  obtain ⟨q, hq, pq, -⟩ := algebra_pointwise m3 (· * ·) none "Product" pa pb
  rw [Nat.cast_add] at hr
  refine ⟨a, b, q, r, ha, hb, hq, hr, pq.same pr ?_⟩
  intro c i x _
  exact (pow_add x m n).symm

/-- All samples of the signal are positive. -/
def Positive (s : Signal ℝ R) : Prop := ∀ c i x, s.sample c i = some x → 0 < x

/-- C106: `signal ** a * signal ** b` has the samples of `signal ** (a + b)` for arbitrary numbers, if the
samples of the signal are positive. -/
theorem C106_power_add (nan inf : ℝ) (m1 m2 m3 m4 : Nat → Nat → ℝ) (s : Signal ℝ R) (hs : s.WF)
    (hp : s.Positive) (x y : ℝ) :
    ∃ a b q r, powArray nan inf m1 s (.scalar x) = .ok a ∧ powArray nan inf m2 s (.scalar y) = .ok b ∧
      mul m3 a b = .ok q ∧ powArray nan inf m4 s (.scalar (x + y)) = .ok r ∧ SameSamples q r := by
  obtain ⟨a, ha, pa, -⟩ := array_number m1 (npPower nan inf) s hs x
  obtain ⟨b, hb, pb, -⟩ := array_number m2 (npPower nan inf) s hs y
  obtain ⟨r, hr, pr, -⟩ := array_number m4 (npPower nan inf) s hs (x + y)
  obtain ⟨q, hq, pq, -⟩ := algebra_pointwise m3 (· * ·) none "Product" pa pb
  refine ⟨a, b, q, r, ha, hb, hq, hr, pq.same pr ?_⟩
  intro c i z hz
  have := hp c i z hz
  rw [npPower_of_pos _ _ this, npPower_of_pos _ _ this, npPower_of_pos _ _ this, Real.rpow_add this]

/-- C106: `(signal ** a) ** b` is `signal ** (a * b)`, if the samples of the signal are positive. -/
theorem C106_power_power (nan inf : ℝ) (m1 m2 m3 : Nat → Nat → ℝ) (s : Signal ℝ R) (hs : s.WF)
    (hp : s.Positive) (x y : ℝ) :
    ∃ a q r, powArray nan inf m1 s (.scalar x) = .ok a ∧ powArray nan inf m2 a (.scalar y) = .ok q ∧
      powArray nan inf m3 s (.scalar (x * y)) = .ok r ∧ Same q r := by
  obtain ⟨a, ha, pa, la, wa⟩ := array_number m1 (npPower nan inf) s hs x
  obtain ⟨q, hq, pq, lq, -⟩ := array_number m2 (npPower nan inf) a wa y
  obtain ⟨r, hr, pr, lr, -⟩ := array_number m3 (npPower nan inf) s hs (x * y)
  refine ⟨a, q, r, ha, hq, hr, same_of_labels ((pa.comp pq).same pr ?_) (lq.trans (la.trans lr.symm))⟩
  intro c i z hz
  have := hp c i z hz
  rw [npPower_of_pos _ _ this, npPower_of_pos _ _ this, npPower_of_pos _ _ (Real.rpow_pos_of_pos this _),
    Real.rpow_mul this.le]

/-- C106: `(signal ** 2) ** 0.5` is the magnitude of the signal. -/
theorem C106_root_of_square (nan inf : ℝ) (m1 m2 : Nat → Nat → ℝ) (s : Signal ℝ ℝ) (hs : s.WF) :
    ∃ a q, powArray nan inf m1 s (.scalar 2) = .ok a ∧ powArray nan inf m2 a (.scalar (1 / 2)) = .ok q ∧
      Same q (Level.absolute s) := by
  obtain ⟨a, ha, pa, la, wa⟩ := array_number m1 (npPower nan inf) s hs 2
  obtain ⟨q, hq, pq, lq, -⟩ := array_number m2 (npPower nan inf) a wa (1 / 2)
  have pr : Pointwise (fun x => |x|) s (Level.absolute s) :=
    Pointwise.of_get rfl rfl rfl rfl (fun _ _ _ _ => rfl)
  have lr : (Level.absolute s).labels = s.labels := new_labels_self s hs _ rfl s.rate s.offset
  refine ⟨a, q, ha, hq, same_of_labels ((pa.comp pq).same pr ?_) (lq.trans (la.trans lr.symm))⟩
  intro c i z hz
  have e := npPower_natCast nan inf z 2
  rw [Nat.cast_ofNat] at e
  rw [e, npPower_half _ _ (sq_nonneg z), Real.sqrt_sq_eq_abs]

/-- C106: the exponential law: for a positive number `b` and two signals with the same channels and the same
time range, `b ** s * b ** t` has the samples of `b ** (s + t)`. -/
theorem C106_exponential (nan inf : ℝ) (m1 m2 m3 m4 m5 : Nat → Nat → ℝ) (s t : Signal ℝ R) (hs : s.WF)
    (ht : t.WF) (h1 : s.offset = t.offset) (h2 : s.count = t.count) (h3 : s.length = t.length) (b : ℝ) (hb : 0 < b) :
    ∃ x y q z r, rpowArray nan inf m1 (.scalar b) s = .ok x ∧ rpowArray nan inf m2 (.scalar b) t = .ok y ∧
      mul m3 x y = .ok q ∧ add m4 s t = .ok z ∧ rpowArray nan inf m5 (.scalar b) z = .ok r ∧ SameSamples q r := by
  obtain ⟨x, hx, px, lx, wx⟩ := array_number_right m1 (npPower nan inf) s hs b
  obtain ⟨y, hy, py, ly, wy⟩ := array_number_right m2 (npPower nan inf) t ht b
  obtain ⟨q, hq, q1, q2, q3, q4, q5, q6⟩ := algebra_aligned m3 (· * ·) none "Product" x y
    (by rw [px.offset, py.offset, h1]) (by rw [px.count, py.count, h2]) (by rw [px.length, py.length, h3])
  obtain ⟨z, hz, z1, z2, z3, z4, z5, z6⟩ := algebra_aligned m4 (· + ·) none "Sum" s t h1 h2 h3
  obtain ⟨r, hr, pr, -, -⟩ := array_number_right m5 (npPower nan inf) z
    (by unfold WF; rw [z5, z3, List.length_replicate]) b
  refine ⟨x, y, q, z, r, hx, hy, hq, hz, hr, ?_, ?_, ?_, ?_, ?_⟩
  · rw [q1, px.rate, pr.rate, z1]
  · rw [q2, px.offset, pr.offset, z2]
  · show q.count = r.count
    rw [q3, px.count, pr.count, z3]
  · show q.length = r.length
    rw [q4, px.length, pr.length, z4]
  · intro c i hc hi
    have hc' : c < s.count := by change c < q.count at hc; rw [q3, px.count] at hc; exact hc
    have hi' : i < s.length := by change i < q.length at hi; rw [q4, px.length] at hi; exact hi
    rw [q6 c i (by rw [px.count]; exact hc') (by rw [px.length]; exact hi'), px.get hc' hi',
      py.get (by rw [← h2]; exact hc') (by rw [← h3]; exact hi'),
      pr.get (by rw [z3]; exact hc') (by rw [z4]; exact hi'), z6 c i hc' hi',
      npPower_of_pos _ _ hb, npPower_of_pos _ _ hb, npPower_of_pos _ _ hb, Real.rpow_add hb]

/-- C106: `signal ** other` for two signals. Where both have a sample, it is the power; where only one of
them has a sample, this sample is copied. -/
theorem C106_power_signals (nan inf : ℝ) (mem : Nat → Nat → ℝ) (s o : Signal ℝ R) (h : s.count = o.count) :
    ∃ r, pow nan inf mem s o = .ok r ∧ r.count = s.count ∧ r.labels = List.replicate s.count "Power" ∧
      r.offset = min s.offset o.offset ∧
      r.offset + r.length = max (s.offset + s.length) (o.offset + o.length) ∧
      (∀ c t x y, s.at_ c t = some x → o.at_ c t = some y → r.at_ c t = some (npPower nan inf x y)) ∧
      (∀ c t x, s.at_ c t = some x → o.at_ c t = none → r.at_ c t = some x) ∧
      (∀ c t y, s.at_ c t = none → o.at_ c t = some y → r.at_ c t = some y) := by
  obtain ⟨r, hr, r1, r2, r3, r4, r5, r6⟩ :=
    C10_pointwise_partial mem (npPower nan inf) none s o "Power" (compatible_of_count h)
  have hcnt : r.count = s.count := by omega
  have key : ∀ c t, c < s.count → r.offset ≤ t → t < r.offset + r.length →
      r.at_ c t = some (combine (npPower nan inf) none (s.at_ c t) (o.at_ c t)) := by
    intro c t hc a b
    rw [r6 c t (by omega) a b, bcast_eq_at s hc, bcast_eq_at o (by omega)]
  refine ⟨r, hr, hcnt, by rw [r5, hcnt], r3, r4, ?_, ?_, ?_⟩
  · intro c t x y hx hy
    obtain ⟨a1, a2, a3, -⟩ := at_eq_some.mp hx
    rw [key c t a1 (by omega) (by omega), hx, hy]
    rfl
  · intro c t x hx hy
    obtain ⟨a1, a2, a3, -⟩ := at_eq_some.mp hx
    rw [key c t a1 (by omega) (by omega), hx, hy]
    rfl
  · intro c t y hx hy
    obtain ⟨a1, a2, a3, -⟩ := at_eq_some.mp hy
    rw [key c t (by omega) (by omega) (by omega), hx, hy]
    rfl

/-! ### C106: remainders -/

/-- C106: the samples of `signal % n` for a positive number `n` are in the interval `[0, n)`, differ from the
samples of the signal by an integer multiple of `n`, and are determined by this. -/
theorem C106_mod_positive (nan : ℝ) (mem : Nat → Nat → ℝ) (s : Signal ℝ R) (hs : s.WF) (n : ℝ) (hn : 0 < n) :
    ∃ r, modArray nan mem s (.scalar n) = .ok r ∧ r.rate = s.rate ∧ r.offset = s.offset ∧ r.labels = s.labels ∧
      r.count = s.count ∧ r.length = s.length ∧
      ∀ c i x, s.sample c i = some x → ∃ y, r.sample c i = some y ∧ 0 ≤ y ∧ y < n ∧ (∃ k : ℤ, x = y + k * n) ∧
        ∀ z, 0 ≤ z → z < n → (∃ k : ℤ, x = z + k * n) → y = z := by
  obtain ⟨r, h, p, l, -⟩ := array_number mem (npMod nan) s hs n
  refine ⟨r, h, p.rate, p.offset, l, p.count, p.length, ?_⟩
  intro c i x hx
  refine ⟨_, p.value c i x hx, (npMod_pos nan x hn).1, (npMod_pos nan x hn).2, npMod_congruent nan x hn.ne', ?_⟩
  rintro z z1 z2 ⟨k, hk⟩
  exact npMod_unique nan x hn z1 z2 k hk

/-- C106: for a negative number `n`, the samples of `signal % n` are in the interval `(n, 0]`. -/
theorem C106_mod_negative (nan : ℝ) (mem : Nat → Nat → ℝ) (s : Signal ℝ R) (hs : s.WF) (n : ℝ) (hn : n < 0) :
    ∃ r, modArray nan mem s (.scalar n) = .ok r ∧ r.labels = s.labels ∧ r.count = s.count ∧ r.length = s.length ∧
      ∀ c i x, s.sample c i = some x →
        ∃ y, r.sample c i = some y ∧ n < y ∧ y ≤ 0 ∧ ∃ k : ℤ, x = y + k * n := by
  obtain ⟨r, h, p, l, -⟩ := array_number mem (npMod nan) s hs n
  refine ⟨r, h, l, p.count, p.length, ?_⟩
  intro c i x hx
  exact ⟨_, p.value c i x hx, (npMod_neg nan x hn).1, (npMod_neg nan x hn).2, npMod_congruent nan x hn.ne⟩

/-- C106: `(signal % n) % n` is `signal % n`. -/
theorem C106_mod_mod (nan : ℝ) (m1 m2 : Nat → Nat → ℝ) (s : Signal ℝ R) (hs : s.WF) (n : ℝ) (hn : n ≠ 0) :
    ∃ r q, modArray nan m1 s (.scalar n) = .ok r ∧ modArray nan m2 r (.scalar n) = .ok q ∧ Same q r := by
  obtain ⟨r, hr, pr, lr, wr⟩ := array_number m1 (npMod nan) s hs n
  obtain ⟨q, hq, pq, lq, -⟩ := array_number m2 (npMod nan) r wr n
  refine ⟨r, q, hr, hq, same_of_labels ((pr.comp pq).same pr ?_) lq⟩
  intro c i x _
  exact npMod_npMod nan x hn

/-- C106: adding an integer multiple of the divisor does not change the remainder. -/
theorem C106_mod_shift (nan : ℝ) (m1 m2 m3 : Nat → Nat → ℝ) (s : Signal ℝ R) (hs : s.WF) (n : ℝ) (hn : n ≠ 0)
    (k : ℤ) : ∃ a r q, addArray m1 s (.scalar (k * n)) = .ok a ∧ modArray nan m2 a (.scalar n) = .ok q ∧
      modArray nan m3 s (.scalar n) = .ok r ∧ Same q r := by
  obtain ⟨a, ha, pa, la, wa⟩ := array_number m1 (· + ·) s hs (k * n)
  obtain ⟨q, hq, pq, lq, -⟩ := array_number m2 (npMod nan) a wa n
  obtain ⟨r, hr, pr, lr, -⟩ := array_number m3 (npMod nan) s hs n
  refine ⟨a, r, q, ha, hq, hr, same_of_labels ((pa.comp pq).same pr ?_) (lq.trans (la.trans lr.symm))⟩
  intro c i x _
  exact npMod_add_mul nan x hn k

/-- C106: the remainder modulo zero is `nan` in each sample. -/
theorem C106_mod_zero (nan : ℝ) (mem : Nat → Nat → ℝ) (s : Signal ℝ R) (hs : s.WF) :
    ∃ r, modArray nan mem s (.scalar 0) = .ok r ∧ Pointwise (fun _ => nan) s r := by
  obtain ⟨r, hr, pr, -, -⟩ := array_number mem (npMod nan) s hs 0
  refine ⟨r, hr, pr.rate, pr.offset, pr.count, pr.length, ?_⟩
  intro c i x hx
  rw [pr.value c i x hx]
  unfold npMod
  rw [if_pos rfl]

/-- C106: the remainders of a number by the samples of a signal, which are positive. -/
theorem C106_rmod (nan : ℝ) (mem : Nat → Nat → ℝ) (s : Signal ℝ R) (hs : s.WF) (n : ℝ) (hp : s.Positive) :
    ∃ r, rmodArray nan mem (.scalar n) s = .ok r ∧ r.labels = s.labels ∧ r.count = s.count ∧ r.length = s.length ∧
      ∀ c i x, s.sample c i = some x →
        ∃ y, r.sample c i = some y ∧ 0 ≤ y ∧ y < x ∧ ∃ k : ℤ, n = y + k * x := by
  obtain ⟨r, h, p, l, -⟩ := array_number_right mem (npMod nan) s hs n
  refine ⟨r, h, l, p.count, p.length, ?_⟩
  intro c i x hx
  have := hp c i x hx
  exact ⟨_, p.value c i x hx, (npMod_pos nan n this).1, (npMod_pos nan n this).2, npMod_congruent nan n this.ne'⟩

/-- C106: `signal % other` for two signals: where both have samples, the sample of the result is the
remainder.  What is missing: the result also has samples, where only one of the two signals has one; see
`C106_mod_signals_violated`. -/
theorem C106_mod_signals_partial (nan : ℝ) (mem : Nat → Nat → ℝ) (s o : Signal ℝ R) (h : s.count = o.count) :
    ∃ r, mod nan mem s o = .ok r ∧ r.count = s.count ∧ r.labels = List.replicate s.count "Modulo" ∧
      r.offset = min s.offset o.offset ∧
      r.offset + r.length = max (s.offset + s.length) (o.offset + o.length) ∧
      (∀ c t x y, s.at_ c t = some x → o.at_ c t = some y → 0 < y →
        ∃ z, r.at_ c t = some z ∧ 0 ≤ z ∧ z < y ∧ ∃ k : ℤ, x = z + k * y) ∧
      (∀ c t x, s.at_ c t = some x → o.at_ c t = none → r.at_ c t = some x) ∧
      (∀ c t y, s.at_ c t = none → o.at_ c t = some y → r.at_ c t = some y) := by
  obtain ⟨r, hr, r1, r2, r3, r4, r5, r6⟩ :=
    C10_pointwise_partial mem (npMod nan) none s o "Modulo" (compatible_of_count h)
  have hcnt : r.count = s.count := by omega
  have key : ∀ c t, c < s.count → r.offset ≤ t → t < r.offset + r.length →
      r.at_ c t = some (combine (npMod nan) none (s.at_ c t) (o.at_ c t)) := by
    intro c t hc a b
    rw [r6 c t (by omega) a b, bcast_eq_at s hc, bcast_eq_at o (by omega)]
  refine ⟨r, hr, hcnt, by rw [r5, hcnt], r3, r4, ?_, ?_, ?_⟩
  · intro c t x y hx hy hpos
    obtain ⟨a1, a2, a3, -⟩ := at_eq_some.mp hx
    rw [key c t a1 (by omega) (by omega), hx, hy]
    exact ⟨_, rfl, (npMod_pos nan x hpos).1, (npMod_pos nan x hpos).2, npMod_congruent nan x hpos.ne'⟩
  · intro c t x hx hy
    obtain ⟨a1, a2, a3, -⟩ := at_eq_some.mp hx
    rw [key c t a1 (by omega) (by omega), hx, hy]
    rfl
  · intro c t y hx hy
    obtain ⟨a1, a2, a3, -⟩ := at_eq_some.mp hy
    rw [key c t (by omega) (by omega) (by omega), hx, hy]
    rfl

/-- a signal with one channel -/
def mono106 (offset : Int) (l : List ℝ) : Signal ℝ ℝ := ⟨⟨1, l.length, fun _ i => l.getD i 0⟩, 48000, offset, ["a"]⟩

/-- C106 is violated: the remainders by a signal are not always smaller than the divisor.  Where the divisor is longer
than the dividend, the result contains the divisor itself: `[5] % [3, 4]` is `[2, 4]`. -/
theorem C106_mod_signals_violated (nan : ℝ) (mem : Nat → Nat → ℝ) :
    ∃ r, mod nan mem (mono106 0 [5]) (mono106 0 [3, 4]) = .ok r ∧ (mono106 0 [3, 4]).at_ 0 1 = some 4 ∧
      r.at_ 0 1 = some 4 := by
  obtain ⟨r, hr, -, -, -, -, -, -, h⟩ :=
    C106_mod_signals_partial nan mem (mono106 0 [5]) (mono106 0 [3, 4]) rfl
  have h4 : (mono106 0 [3, 4]).at_ 0 1 = some 4 := rfl
  exact ⟨r, hr, h4, h 0 1 4 rfl h4⟩

/-! ### C106: the operators with a number on the left -/

/-- C106: `x + signal` is `signal + x`, and `x * signal` is `signal * x`. -/
theorem C106_right_commutative {K : Type} [CommRing K] (m1 m2 m3 m4 : Nat → Nat → K) (s : Signal K R) (hs : s.WF)
    (x : K) : ∃ a b p q, raddArray m1 (.scalar x) s = .ok a ∧ addArray m2 s (.scalar x) = .ok b ∧ Same a b ∧
      rmulArray m3 (.scalar x) s = .ok p ∧ mulArray m4 s (.scalar x) = .ok q ∧ Same p q := by
  obtain ⟨a, ha, pa, la, -⟩ := array_number_right m1 (· + ·) s hs x
  obtain ⟨b, hb, pb, lb, -⟩ := array_number m2 (· + ·) s hs x
  obtain ⟨p, hp, pp, lp, -⟩ := array_number_right m3 (· * ·) s hs x
  obtain ⟨q, hq, pq, lq, -⟩ := array_number m4 (· * ·) s hs x
  refine ⟨a, b, p, q, ha, hb, same_of_labels (pa.same pb ?_) (la.trans lb.symm), hp, hq,
    same_of_labels (pp.same pq ?_) (lp.trans lq.symm)⟩
  · intro c i y _
    exact add_comm x y
  · intro c i y _
    exact mul_comm x y

/-- C106: `x - signal` is `-(signal - x)`; subtracting the signal from a number twice restores the signal. -/
theorem C106_right_sub {K : Type} [CommRing K] (m1 m2 m3 : Nat → Nat → K) (s : Signal K R) (hs : s.WF)
    (x : K) : ∃ a b c, rsubArray m1 (.scalar x) s = .ok a ∧ subArray m2 s (.scalar x) = .ok b ∧
      SameSamples a (neg b) ∧ rsubArray m3 (.scalar x) a = .ok c ∧ Same c s := by
  obtain ⟨a, ha, pa, la, wa⟩ := array_number_right m1 (· - ·) s hs x
  obtain ⟨b, hb, pb, lb, -⟩ := array_number m2 (· - ·) s hs x
  obtain ⟨c, hc, pc, lc, -⟩ := array_number_right m3 (· - ·) a wa x
  have pn : Pointwise (fun y => -y) b (neg b) := Pointwise.of_get rfl rfl rfl rfl (fun _ _ _ _ => rfl)
  refine ⟨a, b, c, ha, hb, pa.same (pb.comp pn) ?_, hc, same_of_labels ((pa.comp pc).same (Pointwise.refl s) ?_)
    (lc.trans la)⟩
  · intro c i y _
    ring
  · intro c i y _
    ring

/-- C106: dividing a number other than zero by a signal without zeros twice restores the signal. -/
theorem C106_right_div {K : Type} [Field K] (m1 m2 : Nat → Nat → K) (s : Signal K R) (hs : s.WF)
    (x : K) (hx : x ≠ 0) (h0 : ∀ c i y, s.sample c i = some y → y ≠ 0) :
    ∃ a b, rdivArray m1 (.scalar x) s = .ok a ∧ rdivArray m2 (.scalar x) a = .ok b ∧ Same b s := by
  obtain ⟨a, ha, pa, la, wa⟩ := array_number_right m1 (· / ·) s hs x
  obtain ⟨b, hb, pb, lb, -⟩ := array_number_right m2 (· / ·) a wa x
  refine ⟨a, b, ha, hb, same_of_labels ((pa.comp pb).same (Pointwise.refl s) ?_) (lb.trans la)⟩
  intro c i y hy
  have := h0 c i y hy
  field_simp

/-- C106: the operations with a number can be undone: `(signal + x) - x` and, for a number other than zero,
`(signal * x) / x` are the signal. -/
theorem C106_undo {K : Type} [Field K] (m1 m2 m3 m4 : Nat → Nat → K) (s : Signal K R) (hs : s.WF)
    (x : K) : (∃ a b, addArray m1 s (.scalar x) = .ok a ∧ subArray m2 a (.scalar x) = .ok b ∧ Same b s) ∧
      (x ≠ 0 → ∃ a b, mulArray m3 s (.scalar x) = .ok a ∧ divArray m4 a (.scalar x) = .ok b ∧ Same b s) := by
  constructor
  · obtain ⟨a, ha, pa, la, wa⟩ := array_number m1 (· + ·) s hs x
    obtain ⟨b, hb, pb, lb, -⟩ := array_number m2 (· - ·) a wa x
    refine ⟨a, b, ha, hb, same_of_labels ((pa.comp pb).same (Pointwise.refl s) ?_) (lb.trans la)⟩
    intro c i y _
    ring
  · intro hx
    obtain ⟨a, ha, pa, la, wa⟩ := array_number m3 (· * ·) s hs x
    obtain ⟨b, hb, pb, lb, -⟩ := array_number m4 (· / ·) a wa x
    refine ⟨a, b, ha, hb, same_of_labels ((pa.comp pb).same (Pointwise.refl s) ?_) (lb.trans la)⟩
    intro c i y _
    field_simp

example : (mono106 2 [1, 2, 3]).WF ∧ (mono106 2 [1, 2, 3]).Positive ∧ (mono106 2 [1, -2, 3]).WF := by
  refine ⟨rfl, ?_, rfl⟩
  intro c i x hx
  obtain ⟨-, hi, h⟩ := sample_eq_some.mp hx
  change i < 3 at hi
  rw [← h]
  match i, hi with
  | 0, _ => show (0 : ℝ) < 1; norm_num
  | 1, _ => show (0 : ℝ) < 2; norm_num
  | 2, _ => show (0 : ℝ) < 3; norm_num

example : ∃ r, modArray 7 (fun _ _ => 99) (mono106 2 [1, -2, 3]) (.scalar (5 / 2)) = .ok r ∧
    r.sample 0 1 = some (1 / 2) := by
  obtain ⟨r, hr, -, -, -, -, -, h⟩ :=
    C106_mod_positive 7 (fun _ _ => 99) (mono106 2 [1, -2, 3]) rfl (5 / 2) (by norm_num)
  obtain ⟨y, hy, -, -, -, hu⟩ := h 0 1 (-2) rfl
  refine ⟨r, hr, ?_⟩
  rw [hy, hu (1 / 2) (by norm_num) (by norm_num) ⟨-1, by norm_num⟩]

end Signal

/-! ### C106: powers of spectrums -/

namespace Spectrum

variable {R : Type}

theorem npPowerC_natCast (nan x : ℂ) (n : Nat) : npPowerC nan x n = x ^ n := by
  unfold npPowerC
  rcases Nat.eq_zero_or_pos n with h | h
  · subst h; simp
  · have hn : ((n : ℕ) : ℂ) ≠ 0 := by exact_mod_cast h.ne'
    rw [if_neg hn]
    by_cases hx : x = 0
    · rw [if_pos hx, if_pos (by simpa using h), hx, zero_pow h.ne']
    · rw [if_neg hx, Complex.cpow_natCast]

/-- C106: the bins of `spectrum ** n` for a natural number `n` are the n-th powers of the bins of the spectrum. -/
theorem C106_spectrum_power_natural (nan : ℂ) (mem : Nat → Nat → ℂ) (s : Spectrum ℂ R) (hs : s.WF) (n : Nat) :
    ∃ r, powArray nan mem s (.scalar n) = .ok r ∧ r.resolution = s.resolution ∧ r.labels = s.labels ∧
      r.count = s.count ∧ r.length = s.length ∧ ∀ c k x, s.sample c k = some x → r.sample c k = some (x ^ n) := by
  obtain ⟨r, h, h1, h2, h3, h4, h5⟩ :=
    (C88_spectrum mem (npPowerC nan) s hs (.scalar (n : ℂ)) ⟨Or.inr rfl, Or.inr rfl⟩).1
  refine ⟨r, h, h1, h2, h3, h4, ?_⟩
  intro c k x hx
  rw [h5 c k x hx]
  exact congrArg some (npPowerC_natCast nan x n)

/-- C106: `spectrum ** -1` is `~spectrum` in each bin which is not zero. -/
theorem C106_spectrum_power_inverse (nan : ℂ) (m1 m2 : Nat → Nat → ℂ) (s : Spectrum ℂ R) (hs : s.WF) :
    ∃ r q, powArray nan m1 s (.scalar (-1)) = .ok r ∧ s.invert m2 = .ok q ∧ r.resolution = q.resolution ∧
      r.labels = q.labels ∧ r.count = q.count ∧ r.length = q.length ∧
      ∀ c k x, s.sample c k = some x → x ≠ 0 → r.sample c k = q.sample c k := by
  obtain ⟨r, h, h1, h2, h3, h4, h5⟩ :=
    (C88_spectrum m1 (npPowerC nan) s hs (.scalar (-1)) ⟨Or.inr rfl, Or.inr rfl⟩).1
  obtain ⟨q, g, g1, g2, g3, g4, g5⟩ := (C88_spectrum m2 (· / ·) s hs (.scalar 1) ⟨Or.inr rfl, Or.inr rfl⟩).2
  refine ⟨r, q, h, g, h1.trans g1.symm, h2.trans g2.symm, h3.trans g3.symm, h4.trans g4.symm, ?_⟩
  intro c k x hx h0
  rw [h5 c k x hx, g5 c k x hx]
  congr 1
  show npPowerC nan x (-1) = 1 / x
  unfold npPowerC
  rw [if_neg (by norm_num), if_neg h0, Complex.cpow_neg_one, one_div]

/-- C106: `spectrum ** 2` has the same bins as `spectrum * spectrum`. -/
theorem C106_spectrum_power_square (nan : ℂ) (m1 m2 : Nat → Nat → ℂ) (s : Spectrum ℂ R) (hs : s.WF) :
    ∃ r q, powArray nan m1 s (.scalar 2) = .ok r ∧ mul m2 s s = .ok q ∧ r.resolution = q.resolution ∧
      r.count = q.count ∧ r.length = q.length ∧ r.labels = s.labels ∧
      q.labels = List.replicate s.count "Product" ∧
      ∀ c k, c < s.count → k < s.length → r.channels.get c k = q.channels.get c k := by
  obtain ⟨r, h, h1, h2, h3, h4, h5⟩ := C106_spectrum_power_natural nan m1 s hs 2
  obtain ⟨q, g, g1, g2, g3, g4, g5⟩ := C15_binwise_partial m2 (· * ·) none "Product" s s rfl
  have hc : resultCount s s = s.count := by
    unfold resultCount
    split <;> simp
  rw [hc] at g1
  refine ⟨r, q, by exact_mod_cast h, g, h1.trans g3.symm, h3.trans g1.symm, h4.trans g2.symm, h2,
    by rw [g4, g1], ?_⟩
  intro c k a b
  have e1 := (sample_eq_some.mp (h5 c k _ (sample_eq_some.mpr ⟨a, b, rfl⟩))).2.2
  have hb : bin s c k = some (s.channels.get c k) := by
    unfold bin
    rw [if_pos (Or.inr a)]
    congr 2
    split <;> omega
  have e2 := g5 c k (by omega) (by omega)
  rw [hb] at e2
  rw [e1, e2]
  exact sq _

example : (⟨⟨1, 2, fun _ k => if k = 0 then 1 else Complex.I⟩, 10, ["a"]⟩ : Spectrum ℂ ℝ).WF := rfl

end Spectrum
end Verif
