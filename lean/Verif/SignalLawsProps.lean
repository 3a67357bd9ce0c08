import Verif.SignalAlgebraProps
import Mathlib.Algebra.Group.Basic

/-
Properties C11 and C12 (laws of addition, subtraction and multiplication of signals), C13 (equality and
hashes), C14 (arithmetic with numbers and arrays).
-/

namespace Verif
namespace Signal

variable {α R : Type}

/-- Two signals with the same parameters, labels and samples. -/
def Same (r q : Signal α R) : Prop :=
  r.rate = q.rate ∧ r.offset = q.offset ∧ r.labels = q.labels ∧ r.channels.Eqv q.channels

/-- Like `Same`, but the labels may be different. -/
def SameSamples (r q : Signal α R) : Prop :=
  r.rate = q.rate ∧ r.offset = q.offset ∧ r.channels.Eqv q.channels

theorem sameSamples_of_at {r q : Signal α R} (h1 : r.rate = q.rate) (h2 : r.offset = q.offset)
    (h3 : r.count = q.count) (h4 : r.length = q.length)
    (h : ∀ c t, c < r.count → r.offset ≤ t → t < r.offset + r.length → r.at_ c t = q.at_ c t) :
    SameSamples r q := by
  refine ⟨h1, h2, h3, h4, ?_⟩
  intro c i hc hi
  have e := h c (r.offset + i) hc (by omega) (by change i < r.length at hi; omega)
  have e1 : r.at_ c (r.offset + i) = some (r.channels.get c i) := by
    rw [at_eq_some]
    refine ⟨hc, by omega, by change i < r.length at hi; omega, ?_⟩
    congr 1; omega
  have e2 : q.at_ c (r.offset + i) = some (q.channels.get c i) := by
    rw [at_eq_some]
    change c < r.count at hc
    change i < r.length at hi
    refine ⟨by omega, by omega, by omega, ?_⟩
    congr 1; omega
  rw [e1, e2] at e
  exact Option.some.inj e

/-- The result of a commutative operator without pivot does not depend on the order of the operands. -/
theorem algebra_comm [Zero α] (f : α → α → α) (hf : ∀ x y, f x y = f y x) (label : String)
    (s o r q : Signal α R) (hrate : s.rate = o.rate)
    (hr : AlgebraSpec f none s o label r) (hq : AlgebraSpec f none o s label q) : Same r q := by
  obtain ⟨r1, r2, r3, r4, r5, r6⟩ := hr
  obtain ⟨q1, q2, q3, q4, q5, q6⟩ := hq
  have hcnt : r.count = q.count := by omega
  have hlen : r.length = q.length := by omega
  have hss : SameSamples r q := by
    refine sameSamples_of_at (by rw [r2, q2, hrate]) (by omega) hcnt hlen ?_
    intro c t hc h1 h2
    rw [r6 c t hc h1 h2, q6 c t (by omega) (by omega) (by omega)]
    congr 1
    cases s.bcast c t <;> cases o.bcast c t <;> simp [combine, hf]
  exact ⟨hss.1, hss.2.1, by rw [r5, q5, hcnt], hss.2.2⟩

theorem compatible_symm {s o : Signal α R} (h : Compatible s o) : Compatible o s :=
  ⟨fun g => h.2 ⟨g.2, g.1⟩, fun g => h.1 ⟨g.2, g.1⟩⟩

/-! ### C11 -/

/-- C11: `a + b == b + a`. -/
theorem C11_add_comm [AddCommMonoid α] (mem mem' : Nat → Nat → α) (s o : Signal α R) (h : Compatible s o)
    (hrate : s.rate = o.rate) :
    ∃ r q, s.add mem o = .ok r ∧ o.add mem' s = .ok q ∧ Same r q := by
  obtain ⟨r, hr, hr'⟩ := C10_pointwise_partial mem (· + ·) none s o "Sum" h
  obtain ⟨q, hq, hq'⟩ := C10_pointwise_partial mem' (· + ·) none o s "Sum" (compatible_symm h)
  exact ⟨r, q, hr, hq, algebra_comm _ (fun x y => add_comm x y) _ _ _ _ _ hrate hr' hq'⟩

theorem bcast_eq_at (s : Signal α R) {c : Nat} (hc : c < s.count) (t : Int) : s.bcast c t = s.at_ c t := by
  unfold bcast
  by_cases h : s.count = 1
  · rw [if_pos h]; congr 1; omega
  · rw [if_neg h]

theorem at_none_of_time (s : Signal α R) (c : Nat) (t : Int) (h : ¬ (s.offset ≤ t ∧ t < s.offset + s.length)) :
    s.at_ c t = none := by
  rw [Option.eq_none_iff_forall_ne_some]
  intro x hx
  rw [at_eq_some] at hx
  exact h ⟨hx.2.1, hx.2.2.1⟩

/-- The value of a signal at a point in time, where everything outside of the signal is zero. -/
def value [Zero α] (s : Signal α R) (c : Nat) (t : Int) : α := (s.at_ c t).getD 0

theorem combine_add [AddCommMonoid α] (x y : Option α) : combine (· + ·) none x y = x.getD 0 + y.getD 0 := by
  cases x <;> cases y <;> simp [combine]

theorem combine_sub [AddCommGroup α] (x y : Option α) :
    combine (· - ·) (some 0) x y = x.getD 0 - y.getD 0 := by
  cases x <;> cases y <;> simp [combine]

/-- The sum of two signals with the same number of channels, seen as functions of time. -/
theorem C11_add_value [AddCommMonoid α] (s o r : Signal α R) (hcount : s.count = o.count)
    (hr : AlgebraSpec (· + ·) none s o "Sum" r) (c : Nat) (hc : c < s.count) (t : Int) :
    r.value c t = s.value c t + o.value c t := by
  obtain ⟨r1, r2, r3, r4, r5, r6⟩ := hr
  unfold value
  by_cases h : r.offset ≤ t ∧ t < r.offset + r.length
  · rw [r6 c t (by omega) h.1 h.2, combine_add, bcast_eq_at s hc, bcast_eq_at o (by omega)]
    rfl
  · rw [at_none_of_time r c t h, at_none_of_time s c t (by omega), at_none_of_time o c t (by omega)]
    simp

theorem at_of_value [Zero α] {r q : Signal α R} {c : Nat} {t : Int} (hr : c < r.count) (hq : c < q.count)
    (h1 : r.offset ≤ t) (h2 : t < r.offset + r.length) (h3 : q.offset ≤ t) (h4 : t < q.offset + q.length)
    (h : r.value c t = q.value c t) : r.at_ c t = q.at_ c t := by
  have e1 : r.at_ c t = some _ := at_eq_some.mpr ⟨hr, h1, h2, rfl⟩
  have e2 : q.at_ c t = some _ := at_eq_some.mpr ⟨hq, h3, h4, rfl⟩
  unfold value at h
  rw [e1, e2] at h ⊢
  simpa using h

theorem compatible_of_count {s o : Signal α R} (h : s.count = o.count) : Compatible s o := by
  unfold Compatible; omega

/-- C11: `(a + b) + c == a + (b + c)` for signals with the same number of channels, at arbitrary
positions in time.  (For different numbers of channels, see `C11_mixed_channels_violated`.) -/
theorem C11_add_assoc [AddCommMonoid α] (m1 m2 m3 m4 : Nat → Nat → α) (a b c : Signal α R)
    (hab : a.count = b.count) (hbc : b.count = c.count) :
    ∃ ab abc bc abc', a.add m1 b = .ok ab ∧ ab.add m2 c = .ok abc ∧ b.add m3 c = .ok bc ∧
      a.add m4 bc = .ok abc' ∧ Same abc abc' := by
  obtain ⟨ab, h1, g1⟩ := C10_pointwise_partial m1 (· + ·) none a b "Sum" (compatible_of_count hab)
  have e1 : ab.count = a.count := by have := g1.1; omega
  obtain ⟨abc, h2, g2⟩ := C10_pointwise_partial m2 (· + ·) none ab c "Sum" (compatible_of_count (by omega))
  have e2 : abc.count = a.count := by have := g2.1; omega
  obtain ⟨bc, h3, g3⟩ := C10_pointwise_partial m3 (· + ·) none b c "Sum" (compatible_of_count hbc)
  have e3 : bc.count = a.count := by have := g3.1; omega
  obtain ⟨abc', h4, g4⟩ := C10_pointwise_partial m4 (· + ·) none a bc "Sum" (compatible_of_count (by omega))
  have e4 : abc'.count = a.count := by have := g4.1; omega
  refine ⟨ab, abc, bc, abc', h1, h2, h3, h4, ?_⟩
  have v1 := C11_add_value a b ab hab g1
  have v2 := C11_add_value ab c abc (by omega) g2
  have v3 := C11_add_value b c bc hbc g3
  have v4 := C11_add_value a bc abc' (by omega) g4
  obtain ⟨_, a2, a3, a4, a5, _⟩ := g1
  obtain ⟨_, b2, b3, b4, b5, _⟩ := g2
  obtain ⟨_, c2, c3, c4, c5, _⟩ := g3
  obtain ⟨_, d2, d3, d4, d5, _⟩ := g4
  have hoff : abc.offset = abc'.offset := by omega
  have hlen : abc.length = abc'.length := by omega
  have hss : SameSamples abc abc' := by
    refine sameSamples_of_at (by rw [b2, a2, d2]) hoff (by omega) hlen ?_
    intro k t hk k1 k2
    refine at_of_value hk (by omega) k1 k2 (by omega) (by omega) ?_
    rw [v2 k (by omega), v1 k (by omega), v4 k (by omega), v3 k (by omega), add_assoc]
  exact ⟨hss.1, hss.2.1, by rw [b5, d5, e2, e4], hss.2.2⟩

/-- C11: `a - b` has the same samples as `a + (-b)`. -/
theorem C11_sub_eq_add_neg [AddCommGroup α] (m1 m2 : Nat → Nat → α) (a b : Signal α R) (h : Compatible a b) :
    ∃ r q, a.sub m1 b = .ok r ∧ a.add m2 b.neg = .ok q ∧ SameSamples r q := by
  obtain ⟨r, hr, g1⟩ := C10_pointwise_partial m1 (· - ·) (some 0) a b "Difference" h
  obtain ⟨q, hq, g2⟩ := C10_pointwise_partial m2 (· + ·) none a b.neg "Sum" h
  refine ⟨r, q, hr, hq, ?_⟩
  obtain ⟨r1, r2, r3, r4, r5, r6⟩ := g1
  obtain ⟨q1, q2, q3, q4, q5, q6⟩ := g2
  have n1 : b.neg.count = b.count := rfl
  have n2 : b.neg.length = b.length := rfl
  have n3 : b.neg.offset = b.offset := rfl
  refine sameSamples_of_at (by rw [r2, q2]) (by omega) (by omega) (by omega) ?_
  intro c t hc k1 k2
  rw [r6 c t hc k1 k2, q6 c t (by omega) (by omega) (by omega), combine_sub, combine_add]
  congr 1
  have hb : b.neg.bcast c t = (b.bcast c t).map (fun x => -x) := by
    apply Option.ext
    intro x
    unfold bcast
    rw [n1, at_eq_some, Option.map_eq_some_iff]
    constructor
    · rintro ⟨i1, i2, i3, i4⟩
      exact ⟨_, at_eq_some.mpr ⟨i1, i2, i3, rfl⟩, i4⟩
    · rintro ⟨y, i1, i2⟩
      rw [at_eq_some] at i1
      exact ⟨i1.1, i1.2.1, i1.2.2.1, by rw [← i2, ← i1.2.2.2]; rfl⟩
  rw [hb]
  cases b.bcast c t <;> simp [sub_eq_add_neg]

/-- The associativity of the addition is violated for signals with one, two and three channels: the
channel of the one-channel signal is added to the third channel in only one of the two expressions. -/
theorem C11_mixed_channels_violated : ∃ a b c ab abc bc abc' : Signal Nat Nat,
    a.count = 2 ∧ b.count = 1 ∧ c.count = 3 ∧
    a.add (fun _ _ => 0) b = .ok ab ∧ ab.add (fun _ _ => 0) c = .ok abc ∧
    b.add (fun _ _ => 0) c = .ok bc ∧ a.add (fun _ _ => 0) bc = .ok abc' ∧
    abc.at_ 2 0 = some 5 ∧ abc'.at_ 2 0 = some 8 :=
  ⟨new (Mat.ofRows 1 [[1], [2]]) 1 0 none, new (Mat.ofRows 1 [[3]]) 1 0 none,
    new (Mat.ofRows 1 [[5], [5], [5]]) 1 0 none, _, _, _, _, rfl, rfl, rfl, rfl, rfl, rfl, rfl, rfl, rfl⟩

/-! ### C12 -/

/-- C12: `a * b == b * a`. -/
theorem C12_mul_comm [Zero α] [CommMonoid α] (mem mem' : Nat → Nat → α) (s o : Signal α R) (h : Compatible s o)
    (hrate : s.rate = o.rate) :
    ∃ r q, s.mul mem o = .ok r ∧ o.mul mem' s = .ok q ∧ Same r q := by
  obtain ⟨r, hr, hr'⟩ := C10_pointwise_partial mem (· * ·) none s o "Product" h
  obtain ⟨q, hq, hq'⟩ := C10_pointwise_partial mem' (· * ·) none o s "Product" (compatible_symm h)
  exact ⟨r, q, hr, hq, algebra_comm _ (fun x y => mul_comm x y) _ _ _ _ _ hrate hr' hq'⟩

/-- The time ranges of the signals overlap or touch each other. -/
def NoGap (s o : Signal α R) : Prop :=
  max s.offset o.offset ≤ min (s.offset + s.length) (o.offset + o.length)

/-- The product at one point in time, where missing samples are neutral. -/
def optMul [Mul α] : Option α → Option α → Option α
  | none, y => y
  | some x, none => some x
  | some x, some y => some (x * y)

theorem optMul_assoc [CommMonoid α] (x y z : Option α) : optMul (optMul x y) z = optMul x (optMul y z) := by
  cases x <;> cases y <;> cases z <;> simp [optMul, mul_assoc]

theorem combine_mul [Zero α] [CommMonoid α] (x y : Option α) : combine (· * ·) none x y = (optMul x y).getD 0 := by
  cases x <;> cases y <;> simp [combine, optMul]

theorem mul_at [Zero α] [CommMonoid α] (s o r : Signal α R) (hcount : s.count = o.count) (hgap : NoGap s o)
    (hr : AlgebraSpec (· * ·) none s o "Product" r) (c : Nat) (hc : c < s.count) (t : Int) :
    r.at_ c t = optMul (s.at_ c t) (o.at_ c t) := by
  obtain ⟨r1, r2, r3, r4, r5, r6⟩ := hr
  unfold NoGap at hgap
  by_cases h : r.offset ≤ t ∧ t < r.offset + r.length
  · rw [r6 c t (by omega) h.1 h.2, combine_mul, bcast_eq_at s hc, bcast_eq_at o (by omega)]
    cases hs : s.at_ c t with
    | some x => cases o.at_ c t <;> rfl
    | none =>
      cases ho : o.at_ c t with
      | some y => rfl
      | none =>
        exfalso
        by_cases h1 : s.offset ≤ t ∧ t < s.offset + s.length
        · have := at_eq_some.mpr ⟨hc, h1.1, h1.2, rfl⟩
          rw [hs] at this; cases this
        · have := at_eq_some.mpr ⟨show c < o.count by omega, show o.offset ≤ t by omega,
            show t < o.offset + o.length by omega, rfl⟩
          rw [ho] at this; cases this
  · rw [at_none_of_time r c t h, at_none_of_time s c t (by omega), at_none_of_time o c t (by omega)]
    rfl

/-- C12: `(a * b) * c == a * (b * c)` for signals with the same number of channels, if there is no gap
between `a` and `b` and between `b` and `c`.
`_partial`: false if there is a gap, see `C12_assoc_violated`. -/
theorem C12_mul_assoc_partial [Zero α] [CommMonoid α] (m1 m2 m3 m4 : Nat → Nat → α) (a b c : Signal α R)
    (hab : a.count = b.count) (hbc : b.count = c.count) (hgap : NoGap a b) (hgap' : NoGap b c) :
    ∃ ab abc bc abc', a.mul m1 b = .ok ab ∧ ab.mul m2 c = .ok abc ∧ b.mul m3 c = .ok bc ∧
      a.mul m4 bc = .ok abc' ∧ Same abc abc' := by
  obtain ⟨ab, h1, g1⟩ := C10_pointwise_partial m1 (· * ·) none a b "Product" (compatible_of_count hab)
  have e1 : ab.count = a.count := by have := g1.1; omega
  obtain ⟨abc, h2, g2⟩ := C10_pointwise_partial m2 (· * ·) none ab c "Product" (compatible_of_count (by omega))
  have e2 : abc.count = a.count := by have := g2.1; omega
  obtain ⟨bc, h3, g3⟩ := C10_pointwise_partial m3 (· * ·) none b c "Product" (compatible_of_count hbc)
  have e3 : bc.count = a.count := by have := g3.1; omega
  obtain ⟨abc', h4, g4⟩ := C10_pointwise_partial m4 (· * ·) none a bc "Product" (compatible_of_count (by omega))
  have e4 : abc'.count = a.count := by have := g4.1; omega
  refine ⟨ab, abc, bc, abc', h1, h2, h3, h4, ?_⟩
  have v1 := mul_at a b ab hab hgap g1
  have v3 := mul_at b c bc hbc hgap' g3
  obtain ⟨_, a2, a3, a4, a5, _⟩ := g1
  obtain ⟨_, b2, b3, b4, b5, b6⟩ := g2
  obtain ⟨_, c2, c3, c4, c5, _⟩ := g3
  obtain ⟨_, d2, d3, d4, d5, d6⟩ := g4
  have hoff : abc.offset = abc'.offset := by omega
  have hlen : abc.length = abc'.length := by omega
  have hss : SameSamples abc abc' := by
    refine sameSamples_of_at (by rw [b2, a2, d2]) hoff (by omega) hlen ?_
    intro k t hk k1 k2
    rw [b6 k t hk k1 k2, d6 k t (by omega) (by omega) (by omega), combine_mul, combine_mul,
      bcast_eq_at ab (by omega), bcast_eq_at c (by omega), bcast_eq_at a (by omega), bcast_eq_at bc (by omega),
      v1 k (by omega), v3 k (by omega), optMul_assoc]
  exact ⟨hss.1, hss.2.1, by rw [b5, d5, e2, e4], hss.2.2⟩

example : NoGap demo2 demo2 := by unfold NoGap; decide

/-- C12 is violated if there is a gap: it is filled with zeros, which take part in the next product. -/
theorem C12_assoc_violated : ∃ a b c ab abc bc abc' : Signal Nat Nat,
    a.mul (fun _ _ => 0) b = .ok ab ∧ ab.mul (fun _ _ => 0) c = .ok abc ∧
    b.mul (fun _ _ => 0) c = .ok bc ∧ a.mul (fun _ _ => 0) bc = .ok abc' ∧
    abc.at_ 0 1 = some 0 ∧ abc'.at_ 0 1 = some 7 :=
  ⟨new (Mat.ofRows 1 [[2]]) 1 0 none, new (Mat.ofRows 1 [[3]]) 1 2 none, new (Mat.ofRows 1 [[7]]) 1 1 none,
    _, _, _, _, rfl, rfl, rfl, rfl, rfl, rfl⟩

/-! ### C14 -/

/-- The element of a number, row vector, column vector or matrix, which belongs to the sample `i` of
channel `c` according to numpy's broadcasting rules. -/
def element (other : Mat α) (c i : Nat) : α :=
  other.get (if other.rows = 1 then 0 else c) (if other.cols = 1 then 0 else i)

/-- The array can be broadcast to the signal's shape. -/
def Fits (s : Signal α R) (other : Mat α) : Prop :=
  (other.rows = s.count ∨ other.rows = 1) ∧ (other.cols = s.length ∨ other.cols = 1)

theorem algebra_array_ok (mem : Nat → Nat → α) (f : α → α → α) (s : Signal α R) (A B : Mat α)
    (hA : Fits s A) (hB : Fits s B) :
    ∃ C, Mat.ufunc2 f A B (alloc mem s.count s.length) .all .all = .ok C ∧ C.rows = s.count ∧
      C.cols = s.length ∧ ∀ c i, c < s.count → i < s.length → C.get c i = f (element A c i) (element B c i) := by
  unfold Fits at hA hB
  obtain ⟨C, hC, c1, c2, c3, _⟩ := Mat.ufunc2_of_broadcast (f := f) (out := alloc mem s.count s.length) (r := .all)
      (c := .all) 0 s.count 0 s.length rfl rfl rfl rfl
      (show A.broadcastTo s.count s.length = .ok _ by unfold Mat.broadcastTo; rw [if_pos hA])
      (show B.broadcastTo s.count s.length = .ok _ by unfold Mat.broadcastTo; rw [if_pos hB])
  refine ⟨C, hC, c1, c2, ?_⟩
  intro c i hc hi
  rw [c3 c i (Nat.zero_le _) hc (Nat.zero_le _) hi]
  rfl

theorem element_self (s : Signal α R) {c i : Nat} (hc : c < s.count) (hi : i < s.length) :
    element s.channels c i = s.channels.get c i := by
  unfold element
  change c < s.channels.rows at hc
  change i < s.channels.cols at hi
  congr 1
  · split <;> omega
  · split <;> omega

/-- C14: `signal ∘ other` for a number or an array; the signal is the first operand. -/
theorem C14_array (mem : Nat → Nat → α) (f : α → α → α) (s : Signal α R) (hs : s.WF) (other : Mat α)
    (h : Fits s other) :
    ∃ r, algebraArray mem f s other = .ok r ∧ r.rate = s.rate ∧ r.offset = s.offset ∧ r.labels = s.labels ∧
      r.count = s.count ∧ r.length = s.length ∧
      ∀ c i x, s.sample c i = some x → r.sample c i = some (f x (element other c i)) := by
  obtain ⟨C, hC, c1, c2, c3⟩ := algebra_array_ok mem f s s.channels other ⟨Or.inl rfl, Or.inl rfl⟩ h
  unfold algebraArray
  simp only [bind, Except.bind, hC]
  refine ⟨_, rfl, rfl, rfl, new_labels_self s hs C c1 _ _, c1, c2, ?_⟩
  intro c i x hx
  rw [sample_eq_some] at hx ⊢
  obtain ⟨h1, h2, h3⟩ := hx
  refine ⟨by rw [new_count, c1]; exact h1, by rw [new_length, c2]; exact h2, ?_⟩
  rw [new_channels, c3 c i h1 h2, element_self s h1 h2, h3]

/-- C14: `other ∘ signal` for a number or an array; the signal is the second operand. -/
theorem C14_array_right (mem : Nat → Nat → α) (f : α → α → α) (s : Signal α R) (hs : s.WF) (other : Mat α)
    (h : Fits s other) :
    ∃ r, algebraArrayRight mem f s other = .ok r ∧ r.rate = s.rate ∧ r.offset = s.offset ∧ r.labels = s.labels ∧
      r.count = s.count ∧ r.length = s.length ∧
      ∀ c i x, s.sample c i = some x → r.sample c i = some (f (element other c i) x) := by
  obtain ⟨C, hC, c1, c2, c3⟩ := algebra_array_ok mem f s other s.channels h ⟨Or.inl rfl, Or.inl rfl⟩
  unfold algebraArrayRight
  simp only [bind, Except.bind, hC]
  refine ⟨_, rfl, rfl, rfl, new_labels_self s hs C c1 _ _, c1, c2, ?_⟩
  intro c i x hx
  rw [sample_eq_some] at hx ⊢
  obtain ⟨h1, h2, h3⟩ := hx
  refine ⟨by rw [new_count, c1]; exact h1, by rw [new_length, c2]; exact h2, ?_⟩
  rw [new_channels, c3 c i h1 h2, element_self s h1 h2, h3]

/-- C14: arrays of other shapes are rejected. -/
theorem C14_wrong_shape (mem : Nat → Nat → α) (f : α → α → α) (s : Signal α R) (other : Mat α)
    (h : ¬ Fits s other) : algebraArray mem f s other = .error .valueError ∧
      algebraArrayRight mem f s other = .error .valueError := by
  unfold Fits at h
  obtain ⟨S, hs, _⟩ := Mat.broadcastTo_self (A := s.channels) (r := s.count) (c := s.length) rfl rfl
  have ho : other.broadcastTo s.count s.length = .error .valueError := by
    unfold Mat.broadcastTo; rw [if_neg h]
  constructor
  · unfold algebraArray Mat.ufunc2
    rw [show s.channels.broadcastTo (PySlice.all.count (alloc mem s.count s.length).rows)
        (PySlice.all.count (alloc mem s.count s.length).cols) = .ok S from hs,
      show other.broadcastTo (PySlice.all.count (alloc mem s.count s.length).rows)
        (PySlice.all.count (alloc mem s.count s.length).cols) = .error .valueError from ho]
    rfl
  · unfold algebraArrayRight Mat.ufunc2
    rw [show other.broadcastTo (PySlice.all.count (alloc mem s.count s.length).rows)
        (PySlice.all.count (alloc mem s.count s.length).cols) = .error .valueError from ho]
    rfl

example : Fits demo (.scalar 3) ∧ Fits demo (Mat.ofRows 3 [[1, 2, 3]]) ∧ ¬ Fits demo (Mat.ofRows 2 [[1, 2]]) := by
  unfold Fits; decide

/-! ### C13 -/

theorem anyDifferent_false (beq : α → α → Bool) (A B : Mat α) :
    anyDifferent beq A B = false ↔ ∀ c i, c < A.rows → i < A.cols → beq (A.get c i) (B.get c i) = true := by
  unfold anyDifferent
  rw [List.any_eq_false]
  simp only [List.mem_range, Bool.not_eq_true]
  constructor
  · intro h c i hc hi
    have := h c hc
    rw [List.any_eq_false] at this
    have := this i (List.mem_range.mpr hi)
    simpa using this
  · intro h c hc
    rw [List.any_eq_false]
    intro i hi
    have := h c i hc (List.mem_range.mp hi)
    simp [this]

/-- C13: `==` compares all parameters, labels and samples. -/
theorem C13_eq_iff [DecidableEq R] (beq : α → α → Bool) (s o : Signal α R) :
    s.eq beq o = true ↔ s.rate = o.rate ∧ s.offset = o.offset ∧ s.labels = o.labels ∧
      s.count = o.count ∧ s.length = o.length ∧
      ∀ c i, c < s.count → i < s.length → beq (s.channels.get c i) (o.channels.get c i) = true := by
  unfold eq
  by_cases h1 : s.rate = o.rate
  · rw [if_neg (by simpa using h1)]
    by_cases h2 : s.offset = o.offset
    · rw [if_neg (by simpa using h2)]
      by_cases h3 : s.count = o.count ∧ s.length = o.length
      · rw [if_neg (not_not.mpr h3)]
        cases h4 : anyDifferent beq s.channels o.channels with
        | true =>
          rw [if_pos rfl]
          constructor
          · intro h; cases h
          · intro h
            have := (anyDifferent_false beq s.channels o.channels).mpr h.2.2.2.2.2
            rw [this] at h4; cases h4
        | false =>
          rw [if_neg (by simp)]
          have := (anyDifferent_false beq s.channels o.channels).mp h4
          by_cases h5 : s.labels = o.labels
          · rw [if_neg (by simpa using h5)]
            exact ⟨fun _ => ⟨h1, h2, h5, h3.1, h3.2, this⟩, fun _ => rfl⟩
          · rw [if_pos h5]
            exact ⟨fun h => (by cases h), fun h => absurd h.2.2.1 h5⟩
      · rw [if_pos h3]
        exact ⟨fun h => (by cases h), fun h => absurd ⟨h.2.2.2.1, h.2.2.2.2.1⟩ h3⟩
    · rw [if_pos h2]
      exact ⟨fun h => (by cases h), fun h => absurd h.2.1 h2⟩
  · rw [if_pos h1]
    exact ⟨fun h => (by cases h), fun h => absurd h.1 h1⟩

/-- C13: if the comparison of samples is reflexive (i.e. there is no NaN among the samples), `==` is reflexive.
`_partial`: signals with NaN are not equal to themselves, see `C13_nan_violated`. -/
theorem C13_refl_partial [DecidableEq R] (beq : α → α → Bool) (s : Signal α R)
    (h : ∀ c i, c < s.count → i < s.length → beq (s.channels.get c i) (s.channels.get c i) = true) :
    s.eq beq s = true := (C13_eq_iff beq s s).mpr ⟨rfl, rfl, rfl, rfl, rfl, h⟩

/-- C13: `==` is symmetric and transitive if the comparison of samples is. -/
theorem C13_symm [DecidableEq R] (beq : α → α → Bool) (hsymm : ∀ x y, beq x y = true → beq y x = true)
    (s o : Signal α R) (h : s.eq beq o = true) : o.eq beq s = true := by
  rw [C13_eq_iff] at h ⊢
  obtain ⟨h1, h2, h3, h4, h5, h6⟩ := h
  exact ⟨h1.symm, h2.symm, h3.symm, h4.symm, h5.symm,
    fun c i hc hi => hsymm _ _ (h6 c i (h4 ▸ hc) (h5 ▸ hi))⟩

theorem C13_trans [DecidableEq R] (beq : α → α → Bool)
    (htrans : ∀ x y z, beq x y = true → beq y z = true → beq x z = true)
    (a b c : Signal α R) (h : a.eq beq b = true) (h' : b.eq beq c = true) : a.eq beq c = true := by
  rw [C13_eq_iff] at h h' ⊢
  obtain ⟨h1, h2, h3, h4, h5, h6⟩ := h
  obtain ⟨g1, g2, g3, g4, g5, g6⟩ := h'
  exact ⟨h1.trans g1, h2.trans g2, h3.trans g3, h4.trans g4, h5.trans g5,
    fun k i hk hi => htrans _ _ _ (h6 k i hk hi) (g6 k i (h4 ▸ hk) (h5 ▸ hi))⟩

/-- C13: equal signals have equal hashes, if equal samples have equal hashes (as it is the case for
numbers in python, e.g. for 0.0 and -0.0). -/
theorem C13_hash [DecidableEq R] (beq : α → α → Bool) (hashSample : α → Int)
    (hh : ∀ x y, beq x y = true → hashSample x = hashSample y)
    (hashTuple : (Nat × Nat) × List Int × List String → Int) (hashOuter : Int × R × Int → Int)
    (s o : Signal α R) (h : s.eq beq o = true) :
    s.hash hashSample hashTuple hashOuter = o.hash hashSample hashTuple hashOuter := by
  rw [C13_eq_iff] at h
  obtain ⟨h1, h2, h3, h4, h5, h6⟩ := h
  unfold hash
  have e : s.channels.flat.map hashSample = o.channels.flat.map hashSample := by
    unfold Mat.flat
    rw [show o.channels.rows = s.count from h4.symm, show o.channels.cols = s.length from h5.symm,
      List.map_flatMap, List.map_flatMap]
    refine List.flatMap_congr fun c hc => ?_
    rw [List.map_map, List.map_map]
    refine List.map_congr_left fun i hi => ?_
    exact hh _ _ (h6 c i (List.mem_range.mp hc) (List.mem_range.mp hi))
  rw [e, h1, h2, h3, h4, h5]

/-- C13 is violated if a signal contains NaN (a sample that is different from itself): `s == s` is false. -/
theorem C13_nan_violated [DecidableEq R] (beq : α → α → Bool) (s : Signal α R) (c i : Nat) (hc : c < s.count)
    (hi : i < s.length) (h : beq (s.channels.get c i) (s.channels.get c i) = false) :
    s.eq beq s = false := by
  cases he : s.eq beq s with
  | false => rfl
  | true =>
    rw [C13_eq_iff] at he
    rw [he.2.2.2.2.2 c i hc hi] at h
    cases h

example : demo.eq (· == ·) demo = true ∧ demo.eq (· == ·) demo2 = false := by
  constructor <;> rfl

end Signal
end Verif
