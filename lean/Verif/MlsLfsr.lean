import Verif.MlsRegister
import Mathlib.Data.Nat.Bitwise
import Mathlib.Dynamics.PeriodicPts.Defs
import Mathlib.Tactic.NormNum.Prime
import Mathlib.NumberTheory.LucasLehmer
import Mathlib.Algebra.BigOperators.Group.Finset.Basic

/-
Shift registers with linear feedback: polynomials over the field with two elements act on binary sequences, and the
polynomials of the taps in `Verif.MlsRegister` are primitive, so the sequences have the maximum period.
-/

namespace Verif
namespace Mls

/-! ### Polynomials as natural numbers -/

/-- The polynomial, whose coefficients are the lowest `w` bits of `q`, applied to the shift operator and the sequence
`s`. -/
def act : Nat → Nat → (Nat → Bool) → Nat → Bool
  | 0, _, _, _ => false
  | w + 1, q, s, i => xor (q.testBit 0 && s i) (act w (q / 2) s (i + 1))

theorem act_shift (w q : Nat) (s : Nat → Bool) (k i : Nat) : act w q (fun j => s (j + k)) i = act w q s (i + k) := by
  induction w generalizing q i with
  | zero => rfl
  | succ w ih => rw [act, act, ih, show i + 1 + k = i + k + 1 by omega]

theorem act_xor (w a b : Nat) (s : Nat → Bool) (i : Nat) :
    act w (a ^^^ b) s i = xor (act w a s i) (act w b s i) := by
  induction w generalizing a b i with
  | zero => rfl
  | succ w ih =>
    rw [act, act, act, Nat.testBit_xor, show (a ^^^ b) / 2 = a / 2 ^^^ b / 2 from by
      rw [← Nat.shiftRight_one, ← Nat.shiftRight_one, ← Nat.shiftRight_one, Nat.shiftRight_xor_distrib], ih]
    generalize a.testBit 0 = x
    generalize b.testBit 0 = y
    generalize s i = z
    generalize act w (a / 2) s (i + 1) = u
    generalize act w (b / 2) s (i + 1) = v
    revert x y z u v
    decide

theorem act_seq (w q : Nat) (s t : Nat → Bool) (i : Nat) :
    act w q (fun j => xor (s j) (t j)) i = xor (act w q s i) (act w q t i) := by
  induction w generalizing q i with
  | zero => rfl
  | succ w ih =>
    rw [act, act, act, ih]
    generalize q.testBit 0 = x
    generalize s i = y
    generalize t i = z
    generalize act w (q / 2) s (i + 1) = u
    generalize act w (q / 2) t (i + 1) = v
    revert x y z u v
    decide

theorem act_zero (w : Nat) (s : Nat → Bool) (i : Nat) : act w 0 s i = false := by
  induction w generalizing i with
  | zero => rfl
  | succ w ih =>
    rw [act, Nat.zero_div, ih]
    simp

theorem act_false (w q i : Nat) : act w q (fun _ => false) i = false := by
  induction w generalizing q i with
  | zero => rfl
  | succ w ih => rw [act, ih]; simp

theorem act_double (w q : Nat) (s : Nat → Bool) (i : Nat) : act (w + 1) (2 * q) s i = act w q s (i + 1) := by
  rw [act, Nat.mul_div_cancel_left q (by decide)]
  simp

theorem act_one (w : Nat) (s : Nat → Bool) (i : Nat) : act (w + 1) 1 s i = s i := by
  rw [act, show 1 / 2 = 0 from rfl, act_zero]
  simp

/-- more coefficients than the polynomial has -/
theorem act_width (w q : Nat) (s : Nat → Bool) (i : Nat) (h : q < 2 ^ w) : act (w + 1) q s i = act w q s i := by
  induction w generalizing q i with
  | zero =>
    obtain rfl : q = 0 := by
      rw [pow_zero] at h
      omega
    exact act_zero 1 s i
  | succ w ih =>
    rw [act, ih _ _ (by rw [pow_succ] at h; omega), ← act]

/-! ### Sequences of a shift register -/

/-- The sequence satisfies the recurrence with the polynomial `p` of degree `n`. -/
def Recurrent (n p : Nat) (s : Nat → Bool) : Prop := ∀ i, act (n + 1) p s i = false

theorem Recurrent.shift {n p : Nat} {s : Nat → Bool} (h : Recurrent n p s) (k : Nat) :
    Recurrent n p fun i => s (i + k) := fun i => by rw [act_shift]; exact h _

theorem Recurrent.xor {n p : Nat} {s t : Nat → Bool} (hs : Recurrent n p s) (ht : Recurrent n p t) :
    Recurrent n p fun i => xor (s i) (t i) := fun i => by rw [act_seq, hs, ht]; rfl

theorem Recurrent.act {n p : Nat} {s : Nat → Bool} (hs : Recurrent n p s) (w q : Nat) :
    Recurrent n p (act w q s) := by
  have h0 : ∀ m, Recurrent n p fun i => m && s i := by
    intro m
    cases m with
    | false => simp only [Bool.false_and]; exact fun i => act_false _ _ _
    | true => simp only [Bool.true_and]; exact hs
  induction w generalizing q with
  | zero => exact fun i => act_false _ _ _
  | succ w ih =>
    have h1 := (ih (q / 2)).shift 1
    exact (h0 (q.testBit 0)).xor h1

/-! ### Arithmetic modulo the polynomial -/

/-- multiplication with the variable -/
def mulX (n p q : Nat) : Nat := if (2 * q).testBit n then (2 * q) ^^^ p else 2 * q

theorem mulX_lt {n p q : Nat} (hp : p.testBit n = true) (hp1 : p < 2 ^ (n + 1)) (hq : q < 2 ^ n) :
    mulX n p q < 2 ^ n := by
  unfold mulX
  have h2 : 2 * q < 2 ^ (n + 1) := by rw [pow_succ]; omega
  have key : ∀ x, x < 2 ^ (n + 1) → x.testBit n = false → x < 2 ^ n := by
    intro x hx hb
    refine Nat.lt_pow_two_of_testBit x fun i hi => ?_
    rcases Nat.eq_or_lt_of_le hi with rfl | hi
    · exact hb
    · exact Nat.testBit_lt_two_pow (lt_of_lt_of_le hx (Nat.pow_le_pow_right (by decide) hi))
  split
  · next h =>
    exact key _ (Nat.xor_lt_two_pow h2 hp1) (by rw [Nat.testBit_xor, h, hp]; rfl)
  · next h => exact key _ h2 (by simpa using h)

theorem act_mulX {n p q : Nat} {s : Nat → Bool} (hs : Recurrent n p s) (hp : p.testBit n = true)
    (hp1 : p < 2 ^ (n + 1)) (hq : q < 2 ^ n) (i : Nat) : act n (mulX n p q) s i = act n q s (i + 1) := by
  rw [← act_width n _ s i (mulX_lt hp hp1 hq), ← act_double]
  unfold mulX
  split
  · rw [act_xor, hs]
    simp
  · rfl

/-- the product of two polynomials, of which the first has `k` coefficients -/
def mulMod (n p : Nat) : Nat → Nat → Nat → Nat
  | 0, _, _ => 0
  | k + 1, a, b =>
    if a.testBit 0 then mulX n p (mulMod n p k (a / 2) b) ^^^ b else mulX n p (mulMod n p k (a / 2) b)

theorem mulMod_lt {n p : Nat} (hp : p.testBit n = true) (hp1 : p < 2 ^ (n + 1)) (k a b : Nat) (hb : b < 2 ^ n) :
    mulMod n p k a b < 2 ^ n := by
  induction k generalizing a with
  | zero => exact Nat.two_pow_pos n
  | succ k ih =>
    rw [mulMod]
    split
    · exact Nat.xor_lt_two_pow (mulX_lt hp hp1 (ih _)) hb
    · exact mulX_lt hp hp1 (ih _)

theorem act_mulMod {n p : Nat} {s : Nat → Bool} (hs : Recurrent n p s) (hp : p.testBit n = true)
    (hp1 : p < 2 ^ (n + 1)) (k a b : Nat) (hb : b < 2 ^ n) (i : Nat) :
    act n (mulMod n p k a b) s i = act k a (act n b s) i := by
  induction k generalizing a i with
  | zero => exact act_zero _ _ _
  | succ k ih =>
    rw [mulMod, act]
    split
    · next h => rw [act_xor, act_mulX hs hp hp1 (mulMod_lt hp hp1 _ _ _ hb), ih, h, Bool.true_and, Bool.xor_comm]
    · next h =>
      rw [act_mulX hs hp hp1 (mulMod_lt hp hp1 _ _ _ hb), ih]
      simp [h]

/-- the power of the variable with an exponent of at most `f` bits -/
def powX (n p : Nat) : Nat → Nat → Nat
  | 0, _ => 1
  | f + 1, e =>
    let r := powX n p f (e / 2)
    if e.testBit 0 then mulX n p (mulMod n p n r r) else mulMod n p n r r

theorem powX_lt {n p : Nat} (hn : 0 < n) (hp : p.testBit n = true) (hp1 : p < 2 ^ (n + 1)) (f e : Nat) :
    powX n p f e < 2 ^ n := by
  induction f generalizing e with
  | zero => exact Nat.one_lt_two_pow (by omega)
  | succ f ih =>
    rw [powX]
    split
    · exact mulX_lt hp hp1 (mulMod_lt hp hp1 _ _ _ (ih _))
    · exact mulMod_lt hp hp1 _ _ _ (ih _)

theorem act_powX {n p : Nat} {s : Nat → Bool} (hs : Recurrent n p s) (hn : 0 < n) (hp : p.testBit n = true)
    (hp1 : p < 2 ^ (n + 1)) (f e : Nat) (he : e < 2 ^ f) (i : Nat) : act n (powX n p f e) s i = s (i + e) := by
  induction f generalizing e s i with
  | zero =>
    obtain rfl : e = 0 := by
      rw [pow_zero] at he
      omega
    obtain ⟨m, rfl⟩ : ∃ m, n = m + 1 := ⟨n - 1, by omega⟩
    exact act_one _ _ _
  | succ f ih =>
    have he' : e / 2 < 2 ^ f := by rw [pow_succ] at he; omega
    have h2 : ∀ i, act n (mulMod n p n (powX n p f (e / 2)) (powX n p f (e / 2))) s i = s (i + 2 * (e / 2)) := by
      intro i
      rw [act_mulMod hs hp hp1 _ _ _ (powX_lt hn hp hp1 _ _),
        show act n (powX n p f (e / 2)) s = fun j => s (j + e / 2) from funext fun j => ih hs _ he' j,
        ih (hs.shift (e / 2)) _ he']
      congr 1
      omega
    rw [powX]
    split
    · next h =>
      rw [act_mulX hs hp hp1 (mulMod_lt hp hp1 _ _ _ (powX_lt hn hp hp1 _ _)), h2]
      congr 1
      have : e % 2 = 1 := by simpa [Nat.testBit_zero] using h
      omega
    · next h =>
      rw [h2]
      congr 1
      have : e % 2 ≠ 1 := by simpa [Nat.testBit_zero] using h
      omega

/-! ### Primitive polynomials -/

/-- The polynomial of a shift register: `x^n + x^t + ... + 1` -/
def polynomial (n : Nat) : Nat := (taps n).foldl (fun p t => p ^^^ 2 ^ t) (2 ^ n ^^^ 1)

/-- The prime factors of `2^n - 1`, their exponents and the inverse of `x^((2^n - 1) / q) - 1` modulo the polynomial for
each prime factor `q`. -/
def certificate : Nat → List (Nat × Nat × Nat)
  | 2 => [(3, 1, 2)]
  | 3 => [(7, 1, 4)]
  | 4 => [(3, 1, 11), (5, 1, 13)]
  | 5 => [(31, 1, 24)]
  | 6 => [(3, 2, 57), (7, 1, 36)]
  | 7 => [(127, 1, 64)]
  | 8 => [(3, 1, 172), (5, 1, 143), (17, 1, 70)]
  | 9 => [(7, 1, 239), (73, 1, 390)]
  | 10 => [(3, 1, 399), (11, 1, 730), (31, 1, 92)]
  | 11 => [(23, 1, 964), (89, 1, 574)]
  | 12 => [(3, 2, 654), (5, 1, 3024), (7, 1, 3986), (13, 1, 2293)]
  | 13 => [(8191, 1, 5888)]
  | 14 => [(3, 1, 7794), (43, 1, 1781), (127, 1, 11009)]
  | 15 => [(7, 1, 19453), (31, 1, 8896), (151, 1, 15797)]
  | 16 => [(3, 1, 58155), (5, 1, 65034), (17, 1, 33516), (257, 1, 32557)]
  | 17 => [(131071, 1, 114688)]
  | 18 => [(3, 3, 109747), (7, 1, 59550), (19, 1, 163407), (73, 1, 124293)]
  | 19 => [(524287, 1, 376832)]
  | 20 => [(3, 1, 403886), (5, 2, 414059), (11, 1, 962731), (31, 1, 462809), (41, 1, 753257)]
  | 21 => [(7, 2, 641756), (127, 1, 611071), (337, 1, 2024737)]
  | 22 => [(3, 1, 3044451), (23, 1, 2437531), (89, 1, 2317864), (683, 1, 10830)]
  | 23 => [(47, 1, 8366813), (178481, 1, 650454)]
  | 24 => [(3, 2, 5300308), (5, 1, 1330956), (7, 1, 13235997), (13, 1, 11669013), (17, 1, 11452), (241, 1, 3213015)]
  | 25 => [(31, 1, 19814851), (601, 1, 24372129), (1801, 1, 19623308)]
  | 26 => [(3, 1, 22960722), (2731, 1, 21058221), (8191, 1, 49736167)]
  | 27 => [(7, 1, 60892125), (73, 1, 18637814), (262657, 1, 73030652)]
  | 28 => [(3, 1, 52394502), (5, 1, 107128099), (29, 1, 109517482), (43, 1, 262617605), (113, 1, 134720072), (127, 1, 161022257)]
  | 29 => [(233, 1, 307092636), (1103, 1, 478787384), (2089, 1, 67317926)]
  | 30 => [(3, 2, 1525375), (7, 1, 419263787), (11, 1, 225076257), (31, 1, 24557254), (151, 1, 1438164), (331, 1, 881060417)]
  | 31 => [(2147483647, 1, 1879048192)]
  | 32 => [(3, 1, 2583571586), (5, 1, 567667165), (17, 1, 1355749172), (257, 1, 4141189751), (65537, 1, 1631436590)]
  | _ => []

/-- The certificate is correct. -/
def valid (n : Nat) : Bool :=
  (polynomial n).testBit n && decide (polynomial n < 2 ^ (n + 1)) &&
  decide (((certificate n).map fun c => c.1 ^ c.2.1).prod = 2 ^ n - 1) &&
  decide (powX n (polynomial n) n (2 ^ n - 1) = 1) &&
  (certificate n).all fun c =>
    decide (mulMod n (polynomial n) n c.2.2 (powX n (polynomial n) n ((2 ^ n - 1) / c.1) ^^^ 1) = 1)

theorem valid_all : ∀ n ∈ List.range' 2 31, valid n = true := by decide +kernel

theorem prime_31 : Nat.Prime 2147483647 :=
  lucas_lehmer_sufficiency 31 (by norm_num) (by norm_num)

theorem certificate_prime (n : Nat) : ∀ c ∈ certificate n, c.1.Prime := by
  unfold certificate
  split <;> simp only [List.mem_cons, List.not_mem_nil, or_false, forall_eq_or_imp, forall_eq, false_imp_iff,
    implies_true] <;> first | exact prime_31 | norm_num

/-! ### The period -/

/-- The shift operator on sequences. -/
def shiftSeq (s : Nat → Bool) : Nat → Bool := fun i => s (i + 1)

theorem shiftSeq_iterate (s : Nat → Bool) (k : Nat) : shiftSeq^[k] s = fun i => s (i + k) := by
  induction k generalizing s with
  | zero => rfl
  | succ k ih =>
    rw [Function.iterate_succ_apply, ih]
    funext i
    show s (i + k + 1) = _
    rfl

theorem periodic_iff (s : Nat → Bool) (k : Nat) : Function.IsPeriodicPt shiftSeq k s ↔ ∀ i, s (i + k) = s i := by
  unfold Function.IsPeriodicPt Function.IsFixedPt
  rw [shiftSeq_iterate]
  exact ⟨fun h i => congrFun h i, fun h => funext h⟩

/-- Every sequence of the shift register has the period `2^n - 1`. -/
theorem period (n : Nat) (h2 : 2 ≤ n) (h32 : n ≤ 32) {s : Nat → Bool} (hs : Recurrent n (polynomial n) s) (i : Nat) :
    s (i + (2 ^ n - 1)) = s i := by
  have hv := valid_all n (List.mem_range'_1.mpr ⟨h2, by omega⟩)
  unfold valid at hv
  simp only [Bool.and_eq_true, decide_eq_true_eq] at hv
  obtain ⟨⟨⟨⟨v1, v2⟩, v3⟩, v4⟩, v5⟩ := hv
  rw [← act_powX hs (by omega) v1 v2 n (2 ^ n - 1) (by have := Nat.two_pow_pos n; omega), v4]
  obtain ⟨m, rfl⟩ : ∃ m, n = m + 1 := ⟨n - 1, by omega⟩
  exact act_one _ _ _

/-- No shorter period: a sequence of the shift register, that is not zero, differs from its shifted copies. -/
theorem aperiodic (n : Nat) (h2 : 2 ≤ n) (h32 : n ≤ 32) {s : Nat → Bool} (hs : Recurrent n (polynomial n) s)
    (h0 : ∃ i, s i = true) (d : Nat) (hd : ¬ (2 ^ n - 1) ∣ d) : ∃ i, s (i + d) ≠ s i := by
  have hv := valid_all n (List.mem_range'_1.mpr ⟨h2, by omega⟩)
  unfold valid at hv
  simp only [Bool.and_eq_true, decide_eq_true_eq, List.all_eq_true] at hv
  obtain ⟨⟨⟨⟨v1, v2⟩, v3⟩, v4⟩, v5⟩ := hv
  by_contra hc
  push Not at hc
  have hN : 0 < 2 ^ n - 1 := by
    have : 2 ^ 1 ≤ 2 ^ n := Nat.pow_le_pow_right (by decide) (by omega)
    omega
  have p1 := (periodic_iff s _).mpr (period n h2 h32 hs)
  have p2 := (periodic_iff s _).mpr hc
  have p3 := p1.gcd p2
  have hg : Nat.gcd (2 ^ n - 1) d ∣ 2 ^ n - 1 := Nat.gcd_dvd_left _ _
  have hne : Nat.gcd (2 ^ n - 1) d ≠ 2 ^ n - 1 := fun h => hd (h ▸ Nat.gcd_dvd_right _ _)
  obtain ⟨m, hm⟩ := hg
  have hm1 : m ≠ 1 := fun h => hne (by rw [h, mul_one] at hm; exact hm.symm)
  obtain ⟨q, q1, q2⟩ := Nat.exists_prime_and_dvd hm1
  -- the prime factor is one of those in the certificate
  have q3 : q ∣ ((certificate n).map fun c => c.1 ^ c.2.1).prod := by
    rw [v3, hm]
    exact q2.trans (Nat.dvd_mul_left _ _)
  obtain ⟨x, x1, x2⟩ := (q1.prime.dvd_prod_iff).mp q3
  obtain ⟨c, c1, rfl⟩ := List.mem_map.mp x1
  have q4 : q = c.1 := (Nat.prime_dvd_prime_iff_eq q1 (certificate_prime n c c1)).mp (q1.dvd_of_dvd_pow x2)
  subst q4
  have p4 : Function.IsPeriodicPt shiftSeq ((2 ^ n - 1) / c.1) s := by
    obtain ⟨r, hr⟩ := q2
    refine p3.trans_dvd ⟨r, ?_⟩
    rw [hr] at hm
    conv_lhs => rw [hm]
    rw [show ∀ a b e : Nat, a * (b * e) = b * (a * e) from fun a b e => by ring, Nat.mul_div_cancel_left _ q1.pos]
  rw [periodic_iff] at p4
  obtain ⟨i, hi⟩ := h0
  have hlt : (2 ^ n - 1) / c.1 < 2 ^ n := lt_of_le_of_lt (Nat.div_le_self _ _) (by omega)
  have hz : act n (powX n (polynomial n) n ((2 ^ n - 1) / c.1) ^^^ 1) s = fun _ => false := by
    funext j
    rw [act_xor, act_powX hs (by omega) v1 v2 n _ hlt, p4]
    obtain ⟨m, rfl⟩ : ∃ m, n = m + 1 := ⟨n - 1, by omega⟩
    rw [act_one]
    simp
  have h1 := act_mulMod hs v1 v2 n c.2.2 (powX n (polynomial n) n ((2 ^ n - 1) / c.1) ^^^ 1)
    (Nat.xor_lt_two_pow (powX_lt (by omega) v1 v2 _ _) (Nat.one_lt_two_pow (by omega))) i
  rw [v5 c c1, hz, act_false] at h1
  obtain ⟨m, rfl⟩ : ∃ m, n = m + 1 := ⟨n - 1, by omega⟩
  rw [act_one, hi] at h1
  cases h1

/-! ### The states of the register -/

/-- The number, whose bits are the next `n` bits of the sequence. -/
def window (n : Nat) (s : Nat → Bool) (i : Nat) : Nat := ∑ j ∈ Finset.range n, (s (i + j)).toNat * 2 ^ j

theorem window_succ (n : Nat) (s : Nat → Bool) (i : Nat) :
    window (n + 1) s i = (s i).toNat + 2 * window n s (i + 1) := by
  unfold window
  rw [Finset.sum_range_succ', add_comm, Finset.mul_sum]
  congr 1
  · simp
  · refine Finset.sum_congr rfl fun j _ => ?_
    rw [show i + (j + 1) = i + 1 + j by omega]
    ring

theorem window_lt (n : Nat) (s : Nat → Bool) (i : Nat) : window n s i < 2 ^ n := by
  induction n generalizing i with
  | zero => simp [window]
  | succ n ih =>
    rw [window_succ, pow_succ]
    have := ih (i + 1)
    have := Bool.toNat_le (s i)
    omega

theorem toNat_injective {a b : Bool} (h : a.toNat = b.toNat) : a = b := by
  revert a b
  decide

theorem window_eq_iff (n : Nat) (s t : Nat → Bool) (i k : Nat) :
    window n s i = window n t k ↔ ∀ j, j < n → s (i + j) = t (k + j) := by
  induction n generalizing i k with
  | zero => simp [window]
  | succ n ih =>
    have h1 := Bool.toNat_le (s i)
    have h2 := Bool.toNat_le (t k)
    rw [window_succ, window_succ]
    constructor
    · intro h j hj
      have h3 : (s i).toNat = (t k).toNat := by omega
      cases j with
      | zero => exact toNat_injective h3
      | succ j =>
        have := (ih (i + 1) (k + 1)).mp (by omega) j (by omega)
        rw [show i + 1 + j = i + (j + 1) by omega, show k + 1 + j = k + (j + 1) by omega] at this
        exact this
    · intro h
      rw [show s i = t k from h 0 (by omega), (ih (i + 1) (k + 1)).mpr fun j hj => by
        have := h (j + 1) (by omega)
        rw [show i + 1 + j = i + (j + 1) by omega, show k + 1 + j = k + (j + 1) by omega]
        exact this]

theorem act_top (w q : Nat) (s : Nat → Bool) (i : Nat) (h : ∀ j, j < w → s (i + j) = false) :
    act (w + 1) q s i = (q.testBit w && s (i + w)) := by
  induction w generalizing q i with
  | zero => simp [act]
  | succ w ih =>
    rw [act, ih (q / 2) (i + 1) fun j hj => by rw [show i + 1 + j = i + (j + 1) by omega]; exact h (j + 1) (by omega),
      show s i = false from h 0 (by omega), Bool.and_false, Bool.false_xor, Nat.testBit_succ,
      show i + 1 + w = i + (w + 1) by omega]

/-- A sequence is determined by the state of the register. -/
theorem Recurrent.ext {n p : Nat} {s t : Nat → Bool} (hs : Recurrent n p s) (ht : Recurrent n p t)
    (hp : p.testBit n = true) (h : ∀ j, j < n → s j = t j) (i : Nat) : s i = t i := by
  have hd := hs.xor ht
  have h0 : ∀ i, (Bool.xor (s i) (t i)) = false := by
    intro i
    induction i using Nat.strong_induction_on with
    | _ i ih =>
      by_cases hi : i < n
      · rw [h i hi, Bool.xor_self]
      · have := hd (i - n)
        rw [act_top _ _ _ _ fun j hj => ih _ (by omega), hp, Bool.true_and, Nat.sub_add_cancel (by omega)] at this
        exact this
  have := h0 i
  revert this
  generalize s i = a
  generalize t i = b
  revert a b
  decide

theorem polynomial_top (n : Nat) (h2 : 2 ≤ n) (h32 : n ≤ 32) : (polynomial n).testBit n = true := by
  have hv := valid_all n (List.mem_range'_1.mpr ⟨h2, by omega⟩)
  unfold valid at hv
  simp only [Bool.and_eq_true, decide_eq_true_eq] at hv
  exact hv.1.1.1.1

theorem recurrent_false (n p : Nat) : Recurrent n p fun _ => false := fun _ => act_false _ _ _

section Maximal

variable {n : Nat} (h2 : 2 ≤ n) (h32 : n ≤ 32) {s : Nat → Bool} (hs : Recurrent n (polynomial n) s)
  (h0 : ∃ i, s i = true)

include h2 h32 hs

theorem shift_back {i : Nat} (hi : i < 2 ^ n - 1) (j : Nat) : s (j + (2 ^ n - 1) - i + i) = s j := by
  rw [Nat.sub_add_cancel (by omega)]
  exact period n h2 h32 hs j

include h0

theorem window_injective : Set.InjOn (window n s) (Finset.range (2 ^ n - 1)) := by
  have key : ∀ i k, i < k → k < 2 ^ n - 1 → window n s i ≠ window n s k := by
    intro i k hik hk h
    rw [window_eq_iff] at h
    have h' := (hs.shift i).ext (hs.shift k) (polynomial_top n h2 h32) fun j hj => by
      rw [add_comm j i, add_comm j k]
      exact h j hj
    obtain ⟨j, hj⟩ := aperiodic n h2 h32 hs h0 (k - i) fun hd => by
      have := Nat.le_of_dvd (by omega) hd
      omega
    apply hj
    rw [← period n h2 h32 hs, show j + (k - i) + (2 ^ n - 1) = (j + (2 ^ n - 1) - i) + k by omega, ← h',
      shift_back h2 h32 hs (by omega)]
  intro i hi k hk h
  rw [Finset.coe_range, Set.mem_Iio] at hi hk
  rcases lt_trichotomy i k with hlt | heq | hgt
  · exact absurd h (key i k hlt hk)
  · exact heq
  · exact absurd h.symm (key k i hgt hi)

theorem window_ne_zero {i : Nat} (hi : i < 2 ^ n - 1) : window n s i ≠ 0 := by
  intro h
  have hz : window n (fun _ => false) 0 = 0 := by simp [window]
  rw [← hz, window_eq_iff] at h
  have h' := (hs.shift i).ext (recurrent_false n _) (polynomial_top n h2 h32) fun j hj => by
    rw [add_comm j i]
    exact h j hj
  obtain ⟨j, hj⟩ := h0
  rw [← shift_back h2 h32 hs hi j, h'] at hj
  cases hj

/-- Within one period, the register takes each of its states but zero exactly once. -/
theorem window_image : (Finset.range (2 ^ n - 1)).image (window n s) = Finset.Ico 1 (2 ^ n) := by
  refine Finset.eq_of_subset_of_card_le (fun v hv => ?_) ?_
  · obtain ⟨i, i1, rfl⟩ := Finset.mem_image.mp hv
    rw [Finset.mem_Ico]
    have := window_ne_zero h2 h32 hs h0 (Finset.mem_range.mp i1)
    exact ⟨by omega, window_lt n s i⟩
  · rw [Finset.card_image_of_injOn (window_injective h2 h32 hs h0), Finset.card_range, Nat.card_Ico]

theorem sum_window (f : Nat → Int) : ∑ i ∈ Finset.range (2 ^ n - 1), f (window n s i) = ∑ v ∈ Finset.Ico 1 (2 ^ n), f v := by
  rw [← window_image h2 h32 hs h0, Finset.sum_image (window_injective h2 h32 hs h0)]

/-- The sum of one period: there is one more bit, that is set. -/
theorem sum_period : ∑ i ∈ Finset.range (2 ^ n - 1), (if s i then (1 : Int) else -1) = 1 := by
  have h1 : ∀ i, (if s i then (1 : Int) else -1) = (fun v : Nat => if v % 2 = 1 then (1 : Int) else -1) (window n s i) := by
    intro i
    obtain ⟨m, rfl⟩ : ∃ m, n = m + 1 := ⟨n - 1, by omega⟩
    rw [window_succ]
    dsimp only
    cases s i
    · rw [if_neg (by simp), if_neg (by simp)]
    · rw [if_pos rfl, if_pos (by
        show (1 + _) % 2 = 1
        omega)]
  have h3 : ∀ m, ∑ v ∈ Finset.range (2 * m), (if v % 2 = 1 then (1 : Int) else -1) = 0 := by
    intro m
    induction m with
    | zero => rfl
    | succ m ih =>
      rw [show 2 * (m + 1) = 2 * m + 1 + 1 by omega, Finset.sum_range_succ, Finset.sum_range_succ, ih,
        if_neg (by omega), if_pos (by omega)]
      rfl
  rw [Finset.sum_congr rfl fun i _ => h1 i, sum_window h2 h32 hs h0 fun v => if v % 2 = 1 then (1 : Int) else -1]
  obtain ⟨m, rfl⟩ : ∃ m, n = m + 1 := ⟨n - 1, by omega⟩
  have h4 := h3 (2 ^ m)
  rw [show 2 * 2 ^ m = 2 ^ (m + 1) by rw [pow_succ]; omega, Finset.range_eq_Ico,
    Finset.sum_eq_sum_Ico_succ_bot (Nat.two_pow_pos _)] at h4
  have h5 : (if 0 % 2 = 1 then (1 : Int) else -1) = -1 := rfl
  rw [h5] at h4
  rw [zero_add] at h4
  omega

/-- The cyclic autocorrelation. -/
theorem autocorrelation (k : Nat) : ∑ i ∈ Finset.range (2 ^ n - 1),
    (if s i then (1 : Int) else -1) * (if s (i + k) then (1 : Int) else -1) =
      if (2 ^ n - 1) ∣ k then ((2 ^ n - 1 : Nat) : Int) else -1 := by
  split
  · next h =>
    obtain ⟨d, rfl⟩ := h
    have hp : ∀ i, s (i + (2 ^ n - 1) * d) = s i := by
      intro i
      induction d with
      | zero => rfl
      | succ d ih => rw [Nat.mul_succ, ← Nat.add_assoc, period n h2 h32 hs, ih]
    rw [Finset.sum_congr rfl fun i _ => (show _ = (1 : Int) by
      rw [hp]
      cases s i <;> rfl)]
    simp
  · next h =>
    obtain ⟨j, hj⟩ := aperiodic n h2 h32 hs h0 k h
    have := sum_period h2 h32 (hs.xor (hs.shift k)) ⟨j, by
      revert hj
      generalize s j = a
      generalize s (j + k) = b
      revert a b
      decide⟩
    refine Eq.trans ?_ (congrArg (fun x : Int => -x) this)
    show _ = -(∑ i ∈ Finset.range (2 ^ n - 1), _)
    rw [← Finset.sum_neg_distrib]
    refine Finset.sum_congr rfl fun i _ => ?_
    generalize s i = a
    generalize s (i + k) = b
    revert a b
    decide

end Maximal

/-! ### The shift register of scipy -/

theorem act_pow (w t : Nat) (s : Nat → Bool) (i : Nat) (h : t < w) : act w (2 ^ t) s i = s (i + t) := by
  induction t generalizing w i with
  | zero =>
    obtain ⟨v, rfl⟩ : ∃ v, w = v + 1 := ⟨w - 1, by omega⟩
    exact act_one _ _ _
  | succ t ih =>
    obtain ⟨v, rfl⟩ : ∃ v, w = v + 1 := ⟨w - 1, by omega⟩
    rw [pow_succ, mul_comm, act_double, ih _ _ (by omega)]
    congr 1
    omega

theorem act_foldl (w : Nat) (s : Nat → Bool) (i : Nat) (l : List Nat) (hl : ∀ t ∈ l, t < w) (q : Nat) :
    act w (l.foldl (fun p t => p ^^^ 2 ^ t) q) s i = l.foldl (fun f t => xor f (s (i + t))) (act w q s i) := by
  induction l generalizing q with
  | nil => rfl
  | cons t l ih =>
    rw [List.foldl_cons, List.foldl_cons, ih fun u hu => hl u (List.mem_cons_of_mem _ hu), act_xor,
      act_pow _ _ _ _ (hl t List.mem_cons_self)]

theorem foldl_xor (s : Nat → Bool) (l : List Nat) (b c : Bool) :
    l.foldl (fun f t => xor f (s t)) (xor b c) = xor b (l.foldl (fun f t => xor f (s t)) c) := by
  induction l generalizing c with
  | nil => rfl
  | cons t l ih => rw [List.foldl_cons, List.foldl_cons, Bool.xor_assoc, ih]

theorem taps_lt (n : Nat) : ∀ t ∈ taps n, t < n := by
  unfold taps
  split <;> first | decide | exact fun t ht => absurd ht List.not_mem_nil

theorem registerAt_fields (n : Nat) (state : List Bool) (hl : state.length = n) (i : Nat) :
    (registerAt n state i).idx = i % n ∧ (registerAt n state i).state.length = n := by
  induction i with
  | zero => exact ⟨(Nat.zero_mod n).symm, hl⟩
  | succ i ih =>
    rw [registerAt, Register.step]
    refine ⟨?_, ?_⟩
    · show ((registerAt n state i).idx + 1) % n = _
      rw [ih.1, Nat.mod_add_mod]
    · show ((registerAt n state i).state.set _ _).length = _
      rw [List.length_set, ih.2]

/-- the bits, that will be the next outputs -/
theorem registerAt_state (n : Nat) (state : List Bool) (hl : state.length = n) (d i : Nat) (hd : d < n) :
    (registerAt n state i).state.getD ((i + d) % n) false = shiftRegister n state (i + d) := by
  induction d generalizing i with
  | zero =>
    unfold shiftRegister Register.output
    rw [(registerAt_fields n state hl _).1]
    rfl
  | succ d ih =>
    have h := ih (i + 1) (by omega)
    rw [show i + 1 + d = i + (d + 1) by omega] at h
    rw [← h, registerAt, Register.step]
    show _ = ((registerAt n state i).state.set _ _).getD _ _
    rw [(registerAt_fields n state hl i).1, List.getD_eq_getElem?_getD, List.getD_eq_getElem?_getD,
      List.getElem?_set_ne]
    intro he
    have h1 : (i + (d + 1)) % n = i % n := he.symm
    have h2 : (d + 1) % n = 0 := by
      have := (Nat.ModEq.add_left_cancel' i (show i + (d + 1) ≡ i + 0 [MOD n] from h1))
      simpa [Nat.ModEq] using this
    rw [Nat.mod_eq_of_lt (by omega)] at h2
    omega

theorem shiftRegister_start (n : Nat) (state : List Bool) (hl : state.length = n) (j : Nat) (hj : j < n) :
    shiftRegister n state j = state.getD j false := by
  have := registerAt_state n state hl j 0 hj
  rw [zero_add] at this
  rw [← this, Nat.mod_eq_of_lt hj]
  rfl

/-- The output of the shift register satisfies the recurrence of its taps. -/
theorem shiftRegister_recurrent (n : Nat) (state : List Bool) (hn : 0 < n) (hl : state.length = n) :
    Recurrent n (polynomial n) (shiftRegister n state) := by
  intro i
  have h1 : shiftRegister n state (i + n) =
      (taps n).foldl (fun f t => xor f (shiftRegister n state (i + t))) (shiftRegister n state i) := by
    have h := registerAt_state n state hl (n - 1) (i + 1) (by omega)
    rw [show i + 1 + (n - 1) = i + n by omega] at h
    rw [← h, registerAt, Register.step]
    show ((registerAt n state i).state.set _ _).getD _ _ = _
    rw [(registerAt_fields n state hl i).1, Nat.add_mod_right, List.getD_eq_getElem?_getD, List.getElem?_set_self (by
      rw [(registerAt_fields n state hl i).2]
      exact Nat.mod_lt _ hn), Option.getD_some]
    refine List.foldl_ext _ _ _ fun f t ht => ?_
    congr 1
    rw [← registerAt_state n state hl t i (taps_lt n t ht), Nat.add_mod_mod, add_comm t i]
  rw [polynomial, act_foldl _ _ _ _ fun t ht => by have := taps_lt n t ht; omega, act_xor, act_pow _ _ _ _ (by omega),
    show act (n + 1) 1 (shiftRegister n state) i = shiftRegister n state i from act_one _ _ _]
  rw [foldl_xor (fun t => shiftRegister n state (i + t)), ← h1, Bool.xor_self]

end Mls
end Verif
