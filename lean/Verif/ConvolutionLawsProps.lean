import Verif.ConvolutionProps
import Verif.SignalLawsProps
import Mathlib.Algebra.Ring.Rat
import Mathlib.Tactic.NormNum

/-
Property C103: the algebraic laws of the convolution of signals (`Signal.convolve` with the mode `FULL`
and `Signal.correlate`, `_signal.py:378-437`): it is associative, distributes over the sum, commutes with
time shifts, a unit impulse is neutral and the correlation is a convolution with a reversed signal.
-/

namespace Verif

/-! ### Sums -/

section
variable {α : Type}

/-- The convolution of functions on the integers is associative. -/
theorem conv_assoc [NonUnitalSemiring α] (a b c : Int → α) (ha : a.support.Finite) (hb : b.support.Finite)
    (t : Int) :
    ∑ᶠ u : Int, (∑ᶠ v : Int, a v * b (u - v)) * c (t - u) =
      ∑ᶠ v : Int, a v * ∑ᶠ w : Int, b w * c (t - v - w) := by
  let e : Int × Int ≃ Int × Int :=
    { toFun := fun p => (p.1 + p.2, p.1)
      invFun := fun q => (q.2, q.1 - q.2)
      left_inv := fun p => by simp
      right_inv := fun q => by simp }
  let F : Int × Int → α := fun q => a q.2 * b (q.1 - q.2) * c (t - q.1)
  let G : Int × Int → α := fun p => a p.1 * (b p.2 * c (t - p.1 - p.2))
  have hFG : ∀ p, F (e p) = G p := by
    intro p
    show a p.1 * b (p.1 + p.2 - p.1) * c (t - (p.1 + p.2)) = a p.1 * (b p.2 * c (t - p.1 - p.2))
    rw [mul_assoc, show p.1 + p.2 - p.1 = p.2 by omega, show t - (p.1 + p.2) = t - p.1 - p.2 by omega]
  have hG : G.support.Finite := by
    refine (ha.prod hb).subset fun p hp => ?_
    rw [Function.mem_support] at hp
    refine ⟨fun h => hp ?_, fun h => hp ?_⟩
    · show a p.1 * _ = 0
      rw [h, zero_mul]
    · show a p.1 * (b p.2 * _) = 0
      rw [h, zero_mul, mul_zero]
  have hF : F.support.Finite := by
    refine (hG.image e).subset fun q hq => ⟨e.symm q, ?_, e.apply_symm_apply q⟩
    rw [Function.mem_support, ← hFG, e.apply_symm_apply]
    exact hq
  have h1 : ∑ᶠ u : Int, (∑ᶠ v : Int, a v * b (u - v)) * c (t - u) = ∑ᶠ q, F q := by
    rw [finsum_curry F hF]
    refine finsum_congr fun u => ?_
    exact finsum_mul' _ _ (ha.subset fun v hv h => hv (by
      show a v * _ = 0
      rw [h, zero_mul]))
  have h2 : ∑ᶠ v : Int, a v * ∑ᶠ w : Int, b w * c (t - v - w) = ∑ᶠ p, G p := by
    rw [finsum_curry G hG]
    refine finsum_congr fun v => ?_
    exact mul_finsum' _ _ (hb.subset fun w hw h => hw (by
      show b w * _ = 0
      rw [h, zero_mul]))
  rw [h1, h2, ← finsum_comp_equiv e]
  exact finsum_congr hFG

end

namespace Signal

variable {α R : Type}

theorem val_eq_value [Zero α] (s : Signal α R) (c : Nat) (t : Int) : s.val c t = s.value (s.chan c) t := by
  unfold val value bcast chan
  split <;> rfl

theorem val_support [Zero α] (s : Signal α R) (c : Nat) : (s.val c).support.Finite := by
  refine (Set.finite_Ico s.offset (s.offset + s.length)).subset fun t ht => ?_
  by_contra h
  rw [Set.mem_Ico] at h
  refine ht ?_
  rw [val_eq_value, value, at_none_of_time s _ t h]
  rfl

theorem value_of_not_covers [Zero α] (s : Signal α R) (c : Nat) (t : Int) (h : ¬ s.Covers t) :
    s.value c t = 0 := by
  unfold value
  rw [at_none_of_time s c t h]
  rfl

/-- The number of channels of a convolution is associative. -/
def cnt (m n : Nat) : Nat := if n = 1 then m else if m = 1 then n else min m n

theorem cnt_assoc (a b c : Nat) : cnt (cnt a b) c = cnt a (cnt b c) := by
  unfold cnt
  repeat' split
  all_goals omega

section
variable [NonUnitalNonAssocCommSemiring α] (mem : Nat → Nat → α)

/-- What the full convolution does, in terms of zero-extended values. -/
structure IsConv (r s o : Signal α R) : Prop where
  rate : r.rate = s.rate
  offset : r.offset = s.offset + o.offset
  length : r.length + 1 = s.length + o.length
  count : r.count = cnt s.count o.count
  value : ∀ c t, c < cnt s.count o.count → r.value c t = convAt s o c t

theorem isConv (label : String) (s o : Signal α R) (hs : 0 < s.length) (ho : 0 < o.length) :
    ∃ r, convolve (fullConvolution mem) label s o = .ok r ∧ IsConv r s o := by
  obtain ⟨r, a1, a2, a3, ⟨a4, a5, a6⟩, a7⟩ := C17_full mem label s o hs ho
  refine ⟨r, a1, a5, a2, a3, a4, fun c t hc => ?_⟩
  by_cases ht : r.Covers t
  · unfold value
    rw [a6 c t hc ht]
    rfl
  · rw [value_of_not_covers r c t ht, a7 c t hc ht]

/-- The values of the convolution, where one channel stands in for many. -/
theorem IsConv.val {r s o : Signal α R} (h : IsConv r s o) {c : Nat} (hc : r.chan c < r.count) (t : Int) :
    r.val c t = convAt s o c t := by
  rw [val_eq_value, h.value _ t (by rw [← h.count]; exact hc)]
  unfold chan
  split
  · rename_i h1
    have h2 := h.count
    rw [h1] at h2
    have h3 : s.count = 1 ∧ o.count = 1 := by
      unfold cnt at h2
      split at h2
      · omega
      · split at h2 <;> omega
    unfold convAt
    refine finsum_congr fun u => ?_
    simp only [val_eq_value, chan, h3.1, h3.2, if_true]
  · rfl

theorem IsConv.same {r q s o s' o' : Signal α R} (hr : IsConv r s o) (hq : IsConv q s' o')
    (h1 : s.rate = s'.rate) (h2 : s.offset + o.offset = s'.offset + o'.offset)
    (h3 : s.length + o.length = s'.length + o'.length) (h4 : cnt s.count o.count = cnt s'.count o'.count)
    (h : ∀ c t, c < r.count → convAt s o c t = convAt s' o' c t) : SameSamples r q := by
  have e1 := hr.count
  have e2 := hq.count
  have e3 := hr.length
  have e4 := hq.length
  have e5 := hr.offset
  have e6 := hq.offset
  refine sameSamples_of_at (by rw [hr.rate, hq.rate, h1]) (by omega) (by omega) (by omega) ?_
  intro c t hc k1 k2
  refine at_of_value hc (by omega) k1 k2 (by omega) (by omega) ?_
  rw [hr.value c t (by omega), hq.value c t (by omega), h c t hc]

end

/-! ### C103 -/

/-- a signal with one channel -/
def convMono : Signal Rat Rat := new { rows := 1, cols := 2, get := fun _ t => t + 1 } 48000 0 (some ["mono"])

/-- a signal with two channels -/
def convStereo : Signal Rat Rat := new { rows := 2, cols := 2, get := fun c t => c + t + 1 } 48000 3 (some ["left", "right"])

/-- a unit impulse -/
def convImpulse : Signal Rat Rat := new { rows := 1, cols := 1, get := fun _ _ => 1 } 48000 (-7) none

example : 0 < convMono.length ∧ 0 < convStereo.length ∧ convMono.count = 1 ∧ convStereo.count = 2 ∧
    convMono.offset ≠ convStereo.offset := by decide

/-- the hypotheses of `C103_impulse` -/
example : 0 < convStereo.length ∧ convImpulse.length = 1 ∧ convImpulse.count = 1 ∧
    convImpulse.channels.get 0 0 = 1 ∧ convImpulse.offset = -7 := ⟨by decide, rfl, rfl, rfl, rfl⟩

/-- The sum of a convolution, which is not trivial. -/
example : npFull 2 2 (convMono.channels.get 0) (convStereo.channels.get 1) 1 = 7 := by
  simp [npFull, convMono, convStereo, new, Finset.sum_range_succ]
  norm_num

section
variable [NonUnitalCommSemiring α] (m1 m2 m3 m4 : Nat → Nat → α)

/-- C103: the convolution is associative: `a.convolve(b).convolve(c)` and `a.convolve(b.convolve(c))` have
the same sampling rate, offset, length, number of channels and samples, for all offsets and numbers of
channels (also if the operands have different numbers of channels). -/
theorem C103_associative (label : String) (a b c : Signal α R) (ha : 0 < a.length) (hb : 0 < b.length)
    (hc : 0 < c.length) :
    ∃ ab abc bc abc', convolve (fullConvolution m1) label a b = .ok ab ∧
      convolve (fullConvolution m2) label ab c = .ok abc ∧
      convolve (fullConvolution m3) label b c = .ok bc ∧
      convolve (fullConvolution m4) label a bc = .ok abc' ∧ SameSamples abc abc' := by
  obtain ⟨ab, x1, y1⟩ := isConv m1 label a b ha hb
  have l1 := y1.length
  obtain ⟨abc, x2, y2⟩ := isConv m2 label ab c (by omega) hc
  obtain ⟨bc, x3, y3⟩ := isConv m3 label b c hb hc
  have l3 := y3.length
  obtain ⟨abc', x4, y4⟩ := isConv m4 label a bc ha (by omega)
  have o1 := y1.offset
  have o3 := y3.offset
  have n : cnt ab.count c.count = cnt a.count bc.count := by
    rw [y1.count, y3.count, cnt_assoc]
  refine ⟨ab, abc, bc, abc', x1, x2, x3, x4, y2.same y4 y1.rate (by omega) (by omega) n ?_⟩
  intro k t hk
  have k1 : k < convCount ab c := by
    have := y2.count
    unfold cnt at this
    unfold convCount
    omega
  have k2 : k < convCount a bc := by
    have := y2.count
    rw [n] at this
    unfold cnt at this
    unfold convCount
    omega
  unfold convAt
  have e1 : ∀ u, ab.val k u = convAt a b k u := fun u => y1.val (chan_lt_left k1) u
  have e2 : ∀ u, bc.val k u = convAt b c k u := fun u => y3.val (chan_lt_right k2) u
  simp only [e1, e2]
  exact conv_assoc _ _ _ (val_support a k) (val_support b k) t

/-- C103: the convolution distributes over the sum: `a.convolve(b + c)` and `a.convolve(b) + a.convolve(c)`
have the same samples, for all lengths and offsets; `b` and `c` have the same number of channels. -/
theorem C103_distributive (m5 : Nat → Nat → α) (label : String) (a b c : Signal α R) (ha : 0 < a.length)
    (hb : 0 < b.length) (hc : 0 < c.length) (hcount : b.count = c.count) :
    ∃ sum conv ab ac sum', b.add m1 c = .ok sum ∧ convolve (fullConvolution m2) label a sum = .ok conv ∧
      convolve (fullConvolution m3) label a b = .ok ab ∧ convolve (fullConvolution m4) label a c = .ok ac ∧
      ab.add m5 ac = .ok sum' ∧ SameSamples conv sum' := by
  obtain ⟨sum, h1, g1⟩ := C10_pointwise_partial m1 (· + ·) none b c "Sum" (compatible_of_count hcount)
  have v1 := C11_add_value b c sum hcount g1
  obtain ⟨p1, p2, p3, p4, p5, p6⟩ := g1
  obtain ⟨conv, x1, y1⟩ := isConv m2 label a sum ha (by omega)
  obtain ⟨ab, x2, y2⟩ := isConv m3 label a b ha hb
  obtain ⟨ac, x3, y3⟩ := isConv m4 label a c ha hc
  have n1 := y1.count
  have n2 := y2.count
  have n3 := y3.count
  rw [← hcount] at n3
  rw [show sum.count = b.count by omega] at n1
  obtain ⟨sum', h5, g5⟩ := C10_pointwise_partial m5 (· + ·) none ab ac "Sum" (compatible_of_count (by omega))
  have v5 := C11_add_value ab ac sum' (by omega) g5
  obtain ⟨q1, q2, q3, q4, q5, q6⟩ := g5
  have l1 := y1.length
  have l2 := y2.length
  have l3 := y3.length
  have o1 := y1.offset
  have o2 := y2.offset
  have o3 := y3.offset
  refine ⟨sum, conv, ab, ac, sum', h1, x1, x2, x3, h5, ?_⟩
  refine sameSamples_of_at (by rw [y1.rate, q2, y2.rate]) (by omega) (by omega) (by omega) ?_
  intro k t hk k1 k2
  refine at_of_value hk (by omega) k1 k2 (by omega) (by omega) ?_
  have c1 : k < convCount a b := by
    unfold cnt at n1
    unfold convCount
    omega
  rw [v5 k (by omega), y1.value k t (by rw [show sum.count = b.count by omega]; omega),
    y2.value k t (by omega), y3.value k t (by rw [← hcount]; omega)]
  unfold convAt
  rw [← finsum_add_distrib]
  · refine finsum_congr fun u => ?_
    rw [← mul_add]
    congr 1
    have hch : sum.chan k = b.chan k ∧ c.chan k = b.chan k := by
      unfold chan
      rw [show sum.count = b.count by omega, ← hcount]
      exact ⟨rfl, rfl⟩
    rw [val_eq_value, val_eq_value, val_eq_value, hch.1, hch.2]
    exact v1 _ (chan_lt_right c1) _
  · exact (val_support a k).subset fun u hu h => hu (by
      show a.val k u * _ = 0
      rw [h, zero_mul])
  · exact (val_support a k).subset fun u hu h => hu (by
      show a.val k u * _ = 0
      rw [h, zero_mul])

/-- C103: a gain can be applied to an operand or to the result: `(a * k).convolve(b)` and
`a.convolve(b) * k` have the same samples. -/
theorem C103_gain (label : String) (k : α) (a b : Signal α R) (ha : 0 < a.length) (hb : 0 < b.length) :
    ∃ r r', convolve (fullConvolution m1) label a b = .ok r ∧
      convolve (fullConvolution m2) label (a.mapSamples (· * k)) b = .ok r' ∧
      SameSamples r' (r.mapSamples (· * k)) := by
  obtain ⟨r, x1, y1⟩ := isConv m1 label a b ha hb
  obtain ⟨r', x2, y2⟩ := isConv m2 label (a.mapSamples (· * k)) b ha hb
  have hval : ∀ (s : Signal α R) c t, (s.mapSamples (· * k)).value c t = s.value c t * k := by
    intro s c t
    have : (s.mapSamples (· * k)).at_ c t = (s.at_ c t).map (· * k) := by
      show (if s.offset ≤ t then (if c < s.count ∧ (t - s.offset).toNat < s.length then
        some (s.channels.get c (t - s.offset).toNat * k) else none) else none) = _
      unfold at_ sample
      split
      · split <;> rfl
      · rfl
    unfold value
    rw [this]
    cases s.at_ c t <;> simp
  refine ⟨r, r', x1, x2, ?_⟩
  have n1 := y1.count
  have n2 := y2.count
  have l1 := y1.length
  have l2 := y2.length
  refine sameSamples_of_at (by rw [y2.rate]; exact y1.rate.symm) (by rw [y2.offset]; exact y1.offset.symm)
    (n2.trans n1.symm) (show r'.length = r.length from by
      change r'.length + 1 = a.length + b.length at l2
      omega) ?_
  intro c t hc k1 k2
  change r'.count = cnt a.count b.count at n2
  have l3 : r'.length = r.length := by
    change r'.length + 1 = a.length + b.length at l2
    omega
  have o3 : r'.offset = r.offset := by rw [y2.offset]; exact y1.offset.symm
  refine at_of_value hc (show c < r.count by omega) k1 k2 (show r.offset ≤ t by omega)
    (show t < r.offset + r.length by omega) ?_
  rw [hval, y2.value c t (by show c < cnt a.count b.count; omega), y1.value c t (by omega)]
  unfold convAt
  rw [finsum_mul' _ _ ((val_support a c).subset fun u hu h => hu (by
      show a.val c u * _ = 0
      rw [h, zero_mul]))]
  refine finsum_congr fun u => ?_
  rw [val_eq_value (a.mapSamples _), hval, val_eq_value a c]
  show a.value (a.chan c) u * k * _ = _
  rw [mul_assoc, mul_assoc, mul_comm k]

end

section
variable [NonUnitalNonAssocCommSemiring α] (m1 m2 m3 m4 : Nat → Nat → α)

theorem shift_offset (mem : Nat → Nat → α) (s : Signal α R) (n : Int) :
    ∃ r, s.shift mem (some n) .offset = .ok r ∧ r.channels = s.channels ∧ r.rate = s.rate ∧
      r.offset = s.offset + n ∧ (s.WF → r.labels = s.labels) := by
  unfold shift
  by_cases h : n = 0
  · subst h
    exact ⟨s, by simp, rfl, rfl, by simp, fun _ => rfl⟩
  · rw [if_neg (by simpa using h)]
    exact ⟨_, rfl, rfl, rfl, rfl, fun hs => sanitize_self hs⟩

theorem value_shifted {n : Int} {s q : Signal α R} (h1 : q.channels = s.channels) (h2 : q.offset = s.offset + n)
    (c : Nat) (t : Int) : q.value c t = s.value c (t - n) := by
  unfold value at_ sample count length
  rw [h1, h2]
  by_cases h : s.offset + n ≤ t
  · rw [if_pos h, if_pos (show s.offset ≤ t - n by omega),
      show (t - (s.offset + n)).toNat = (t - n - s.offset).toNat by omega]
  · rw [if_neg h, if_neg (show ¬ s.offset ≤ t - n by omega)]

/-- C103: the convolution commutes with time shifts: shifting one operand (no matter which one) by `n`
samples shifts the result by `n` samples. -/
theorem C103_shift (label : String) (n : Int) (a b : Signal α R) (ha : 0 < a.length) (hb : 0 < b.length) :
    ∃ r r' a' b' x y, convolve (fullConvolution m1) label a b = .ok r ∧ r.shift m2 (some n) .offset = .ok r' ∧
      a.shift m2 (some n) .offset = .ok a' ∧ b.shift m2 (some n) .offset = .ok b' ∧
      convolve (fullConvolution m3) label a' b = .ok x ∧ convolve (fullConvolution m4) label a b' = .ok y ∧
      SameSamples x r' ∧ SameSamples y r' := by
  obtain ⟨r, x1, y1⟩ := isConv m1 label a b ha hb
  obtain ⟨r', s1, s2, s3, s4, _⟩ := shift_offset m2 r n
  obtain ⟨a', t1, t2, t3, t4, _⟩ := shift_offset m2 a n
  obtain ⟨b', u1, u2, u3, u4, _⟩ := shift_offset m2 b n
  have la : a'.length = a.length := congrArg Mat.cols t2
  have lb : b'.length = b.length := congrArg Mat.cols u2
  have lr : r'.length = r.length := congrArg Mat.cols s2
  have ca : a'.count = a.count := congrArg Mat.rows t2
  have cb : b'.count = b.count := congrArg Mat.rows u2
  have cr : r'.count = r.count := congrArg Mat.rows s2
  obtain ⟨x, x2, y2⟩ := isConv m3 label a' b (by omega) hb
  obtain ⟨y, x3, y3⟩ := isConv m4 label a b' ha (by omega)
  refine ⟨r, r', a', b', x, y, x1, s1, t1, u1, x2, x3, ?_, ?_⟩
  all_goals
    have n1 := y1.count
    have l1 := y1.length
    have o1 := y1.offset
  · have n2 := y2.count
    have l2 := y2.length
    have o2 := y2.offset
    rw [ca] at n2
    refine sameSamples_of_at (by rw [y2.rate, t3, s3, y1.rate]) (by omega) (by omega) (by omega) ?_
    intro c t hc k1 k2
    refine at_of_value hc (by omega) k1 k2 (by omega) (by omega) ?_
    rw [value_shifted s2 s4, y1.value c _ (by omega), y2.value c t (by rw [ca]; omega)]
    unfold convAt
    rw [← finsum_comp_equiv (Equiv.addRight n)]
    refine finsum_congr fun u => ?_
    have hch : a'.chan c = a.chan c := by unfold chan; rw [ca]
    rw [val_eq_value a', value_shifted t2 t4, hch, ← val_eq_value a, Equiv.coe_addRight,
      show u + n - n = u by omega, show t - (u + n) = t - n - u by omega]
  · have n2 := y3.count
    have l2 := y3.length
    have o2 := y3.offset
    rw [cb] at n2
    refine sameSamples_of_at (by rw [y3.rate, s3, y1.rate]) (by omega) (by omega) (by omega) ?_
    intro c t hc k1 k2
    refine at_of_value hc (by omega) k1 k2 (by omega) (by omega) ?_
    rw [value_shifted s2 s4, y1.value c _ (by omega), y3.value c t (by rw [cb]; omega)]
    unfold convAt
    refine finsum_congr fun u => ?_
    have hch : b'.chan c = b.chan c := by unfold chan; rw [cb]
    rw [val_eq_value b', value_shifted u2 u4, hch, ← val_eq_value b, show t - u - n = t - n - u by omega]

end

/-- C103: the convolution with a unit impulse at the time `o.offset` is the signal, which is shifted by
`o.offset`.  In particular, an impulse at the time zero is neutral. -/
theorem C103_impulse [CommSemiring α] (m1 m2 : Nat → Nat → α) (label : String) (s o : Signal α R)
    (hs : 0 < s.length) (hl : o.length = 1) (hc : o.count = 1) (ho : o.channels.get 0 0 = 1) :
    ∃ r r', convolve (fullConvolution m1) label s o = .ok r ∧ s.shift m2 (some o.offset) .offset = .ok r' ∧
      SameSamples r r' := by
  obtain ⟨r, x1, y1⟩ := isConv m1 label s o hs (by omega)
  obtain ⟨r', s1, s2, s3, s4, _⟩ := shift_offset m2 s o.offset
  have lr : r'.length = s.length := congrArg Mat.cols s2
  have cr : r'.count = s.count := congrArg Mat.rows s2
  have n1 := y1.count
  have l1 := y1.length
  have o1 := y1.offset
  rw [hc, cnt, if_pos rfl] at n1
  refine ⟨r, r', x1, s1, ?_⟩
  refine sameSamples_of_at (by rw [y1.rate, s3]) (by omega) (by omega) (by omega) ?_
  intro c t hk k1 k2
  refine at_of_value hk (by omega) k1 k2 (by omega) (by omega) ?_
  rw [value_shifted s2 s4, y1.value c t (by rw [← y1.count]; exact hk)]
  have hov : ∀ u, o.val c u = if u = o.offset then 1 else 0 := by
    intro u
    rw [val_eq_ext o (by unfold chan; rw [if_pos hc]; omega), ext, hl]
    by_cases h : u = o.offset
    · rw [if_pos (by omega), if_pos h, h, chan, if_pos hc]
      simpa using ho
    · rw [if_neg (by omega), if_neg h]
  unfold convAt
  rw [finsum_eq_single _ (t - o.offset)]
  · rw [hov, if_pos (by omega), mul_one, val_eq_value]
    unfold chan
    split
    · congr 1
      omega
    · rfl
  · intro u hu
    rw [hov, if_neg (by omega), mul_zero]

/-! ### The correlation -/

section
variable [NonUnitalNonAssocCommSemiring α] (m1 m2 : Nat → Nat → α)

/-- What the full correlation does, in terms of zero-extended values. -/
structure IsCorr (r s o : Signal α R) : Prop where
  rate : r.rate = s.rate
  offset : r.offset = o.offset - (s.offset + s.length - 1)
  length : r.length + 1 = s.length + o.length
  count : r.count = cnt s.count o.count
  value : ∀ c t, c < cnt s.count o.count → r.value c t = corrAt s o c t

theorem isCorr (label : String) (s o : Signal α R) (hs : 0 < s.length) (ho : 0 < o.length) :
    ∃ r, convolve (fullCorrelation m1) label s o = .ok r ∧ IsCorr r s o := by
  obtain ⟨r, a1, a2, a3, ⟨a4, a5, a6⟩, a7⟩ := C20_full m1 label s o hs ho
  refine ⟨r, a1, a5, a2, a3, a4, fun c t hc => ?_⟩
  by_cases ht : r.Covers t
  · unfold value
    rw [a6 c t hc ht]
    rfl
  · rw [value_of_not_covers r c t ht, a7 c t hc ht]

/-- C103: exchanging the operands of a correlation reverses the result in time. -/
theorem C103_correlation_exchanged (label : String) (s o : Signal α R) (hs : 0 < s.length)
    (ho : 0 < o.length) :
    ∃ r r', convolve (fullCorrelation m1) label s o = .ok r ∧ convolve (fullCorrelation m2) label o s = .ok r' ∧
      r.count = r'.count ∧ r.length = r'.length ∧ ∀ c t, r.at_ c t = r'.at_ c (-t) := by
  obtain ⟨r, x1, y1⟩ := isCorr m1 label s o hs ho
  obtain ⟨r', x2, y2⟩ := isCorr m2 label o s ho hs
  have n1 := y1.count
  have n2 := y2.count
  have l1 := y1.length
  have l2 := y2.length
  have o1 := y1.offset
  have o2 := y2.offset
  have hn : cnt s.count o.count = cnt o.count s.count := by
    unfold cnt; split <;> split <;> omega
  refine ⟨r, r', x1, x2, by omega, by omega, fun c t => ?_⟩
  by_cases h : c < r.count ∧ r.offset ≤ t ∧ t < r.offset + r.length
  · have e1 : r.at_ c t = some _ := at_eq_some.mpr ⟨h.1, h.2.1, h.2.2, rfl⟩
    have e2 : r'.at_ c (-t) = some _ := at_eq_some.mpr ⟨by omega, by omega, by omega, rfl⟩
    have e3 : r.value c t = r'.value c (-t) := by
      rw [y1.value c t (by omega), y2.value c _ (by omega)]
      unfold corrAt
      rw [← finsum_comp_equiv (Equiv.addRight (-t))]
      refine finsum_congr fun u => ?_
      rw [Equiv.coe_addRight, mul_comm, show u + -t + t = u by omega]
    unfold value at e3
    rw [e1, e2] at e3 ⊢
    simpa using e3
  · have e1 : r.at_ c t = none := by
      rw [Option.eq_none_iff_forall_ne_some]
      intro x hx
      rw [at_eq_some] at hx
      exact h ⟨hx.1, hx.2.1, hx.2.2.1⟩
    have e2 : r'.at_ c (-t) = none := by
      rw [Option.eq_none_iff_forall_ne_some]
      intro x hx
      rw [at_eq_some] at hx
      omega
    rw [e1, e2]

/-- C103: the channels of `s.correlate(o)` are those of `reversed(s).convolve(o)`, as it is documented, but
the result of the convolution begins `2 * (s.length - 1)` samples later (because of the offset of the
reversed signal, see C09).  So the two are the same signal only if `s` has a single sample. -/
theorem C103_correlation_partial (label : String) (s o : Signal α R) (hs : 0 < s.length) (ho : 0 < o.length) :
    ∃ r r', convolve (fullCorrelation m1) label s o = .ok r ∧
      convolve (fullConvolution m2) label s.reversed o = .ok r' ∧ r.rate = r'.rate ∧
      r.channels.Eqv r'.channels ∧ r'.offset = r.offset + 2 * ((s.length : Int) - 1) := by
  obtain ⟨r, x1, y1⟩ := isCorr m1 label s o hs ho
  obtain ⟨r', x2, y2⟩ := isConv m2 label s.reversed o hs ho
  have n1 := y1.count
  have n2 := y2.count
  have l1 := y1.length
  have l2 := y2.length
  have o1 := y1.offset
  have o2 := y2.offset
  change r'.offset = ((s.length : Int) - s.offset - 1) + o.offset at o2
  change r'.length + 1 = s.length + o.length at l2
  change r'.count = cnt s.count o.count at n2
  have hoff : r'.offset = r.offset + 2 * ((s.length : Int) - 1) := by omega
  refine ⟨r, r', x1, x2, by rw [y1.rate, y2.rate]; rfl, ⟨by show r.count = r'.count; omega,
    by show r.length = r'.length; omega, ?_⟩, hoff⟩
  intro c i hc hi
  change c < r.count at hc
  change i < r.length at hi
  have e1 : r.at_ c (r.offset + i) = some (r.channels.get c i) :=
    at_eq_some.mpr ⟨hc, by omega, by omega, by congr 1; omega⟩
  have e2 : r'.at_ c (r'.offset + i) = some (r'.channels.get c i) :=
    at_eq_some.mpr ⟨by omega, by omega, by omega, by congr 1; omega⟩
  have e3 : r.value c (r.offset + i) = r'.value c (r'.offset + i) := by
    rw [y1.value c _ (by omega), y2.value c _ (by show c < cnt s.count o.count; omega)]
    unfold corrAt convAt
    rw [← finsum_comp_equiv (Equiv.subLeft (2 * ((s.length : Int) - 1)))]
    refine finsum_congr fun u => ?_
    rw [Equiv.subLeft_apply, val_eq_value, val_eq_value s.reversed, show s.reversed.chan c = s.chan c from rfl]
    unfold value
    rw [C09_time_shifted, show -(u - 2 * ((s.length : Int) - 1)) = 2 * ((s.length : Int) - 1) - u by omega,
      show 2 * ((s.length : Int) - 1) - u + (r.offset + i) = r'.offset + i - u by omega]
  unfold value at e3
  rw [e1, e2] at e3
  simpa using e3

end

theorem convolve_labels {f : Convolver α} {label : String} {s o r : Signal α R}
    (h : convolve f label s o = .ok r) :
    r.labels = sanitizeLabels (some (List.replicate s.count label)) r.count := by
  unfold convolve at h
  cases hc : convolveWithArray f s o.channels o.offset with
  | error e => rw [hc] at h; cases h
  | ok v =>
    rw [hc] at h
    cases h
    rfl

/-! ### Violations -/

/-- `s.correlate(o)` and `reversed(s).convolve(o)` are different signals: their offsets differ.
(`_signal.py:179-192`: the offset of the reversed signal is `length - offset - 1` instead of
`-(offset + length - 1)`.) -/
theorem C103_correlation_violated :
    ∃ (s o : Signal Rat Rat) (r r' : Signal Rat Rat), 0 < s.length ∧ 0 < o.length ∧
      convolve (fullCorrelation fun _ _ => 0) "Correlation" s o = .ok r ∧
      convolve (fullConvolution fun _ _ => 0) "Correlation" s.reversed o = .ok r' ∧
      ¬ SameSamples r r' ∧ ¬ ∀ c t, r.at_ c t = r'.at_ c t := by
  obtain ⟨r, r', h1, h2, h3, h4, h5⟩ := C103_correlation_partial (fun _ _ => 0) (fun _ _ => 0) "Correlation"
    convMono convMono (by decide) (by decide)
  obtain ⟨q, k1, k2⟩ := isCorr (fun _ _ => 0) "Correlation" convMono convMono (by decide) (by decide)
  rw [h1] at k1
  cases k1
  have hl : (convMono.length : Int) = 2 := rfl
  have hq : r.length + 1 = 2 + 2 := k2.length
  have hn : r.count = 1 := k2.count
  refine ⟨convMono, convMono, r, r', by decide, by decide, h1, h2, fun h => ?_, fun h => ?_⟩
  · have := h.2.1
    omega
  · have e1 : r.at_ 0 r.offset = some _ := at_eq_some.mpr ⟨by omega, by omega, by omega, rfl⟩
    have e2 := h 0 r.offset
    rw [e1, at_none_of_time r' 0 r.offset (by omega)] at e2
    cases e2

/-- The convolution is not commutative with respect to the labels: the labels are repeated for the channels
of the first operand only (`_signal.py:678`), so that `a.convolve(b) == b.convolve(a)` is `False` for a
one-channel signal `a` and a two-channel signal `b`. -/
theorem C103_labels_violated :
    ∃ (a b : Signal Rat Rat) (r r' : Signal Rat Rat), 0 < a.length ∧ 0 < b.length ∧
      convolve (fullConvolution fun _ _ => 0) "Convolution" a b = .ok r ∧
      convolve (fullConvolution fun _ _ => 0) "Convolution" b a = .ok r' ∧
      r.labels = ["Convolution", ""] ∧ r'.labels = ["Convolution", "Convolution"] := by
  obtain ⟨r, x1, y1⟩ := isConv (fun _ _ => 0) "Convolution" convMono convStereo (by decide) (by decide)
  obtain ⟨r', x2, y2⟩ := isConv (fun _ _ => 0) "Convolution" convStereo convMono (by decide) (by decide)
  refine ⟨convMono, convStereo, r, r', by decide, by decide, x1, x2, ?_, ?_⟩
  · have hl := convolve_labels x1
    rw [hl, y1.count]
    decide
  · have hl := convolve_labels x2
    rw [hl, y2.count]
    decide

end Signal
end Verif
