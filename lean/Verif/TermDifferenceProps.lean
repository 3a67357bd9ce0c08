import Verif.TermProps

/-
C32: the lowpass-to-highpass transform of differences and the arithmetic with transformed differences, the operands of which
have no differences (`_binary.py:145-262`).
-/

namespace Verif
namespace Filter

open Interpolation (Mode Logs)

section

variable {α K : Type} [Field α] [LinearOrder α] [Field K] [DecidableEq K] [Module α K]

/-- C32: The factory creates a term with the value of the difference, also with a transform, if the minuend is not zero.
(It is violated, if the minuend is zero: `C32_difference_violated`.) -/
theorem C32_difference_partial {E : Env α K} (hE : E.Lawful) (n : Nat) (m s r : Term α K) (tr : Bool)
    (hm : Plain false m) (hs : Plain false s) (h : differenceFactory E (n + 1) m s tr = .ok r)
    (hz : isZero n m = .ok false ∨ tr = false) :
    ∀ f t x, eval E f t (.difference m s tr) = some x → eval E f t r = some x := by
  intro f t x hx
  obtain ⟨y, z, e1, e2, rfl⟩ := (eval_difference ..).mp hx
  obtain ⟨zs, h1, h⟩ := bind_ok h
  cases zs with
  | true =>
    obtain ⟨zm, h2, h⟩ := bind_ok h
    have z0 := (checks_sound hE n).1 _ s hs h1 f _ z e2
    cases zm with
    | true =>
      cases h
      rw [eval_constant, (checks_sound hE n).1 _ m hm h2 f _ y e1, z0, sub_self]
    | false =>
      rw [z0, sub_zero]
      cases tr with
      | true =>
        refine ((sound hE n).inv m r hm h).2 f t y ?_
        simpa using e1
      | false =>
        cases h
        simpa using e1
  | false =>
    obtain ⟨zm, h2, h⟩ := bind_ok h
    cases zm with
    | true =>
      have ht : tr = false := by
        rcases hz with hz | hz
        · rw [h2] at hz
          cases hz
        · exact hz
      subst ht
      rw [(checks_sound hE n).1 _ m hm h2 f _ y e1, zero_sub]
      exact ((sound hE n).neg false s r hs h).2 f t z (by simpa using e2)
    | false =>
      obtain ⟨q, h3, h⟩ := bind_ok h
      cases q with
      | true =>
        have h : Term.constant 0 = r := ok_inj h
        subst h
        rw [eval_constant, (checks_sound hE n).2 _ m s hm hs h3 f _ y z e1 e2, sub_self]
      | false =>
        cases h
        exact hx

/-- C32: Sums, whose first operand is a difference with a transform. -/
theorem C32_difference_add {E : Env α K} (hE : E.Lawful) (n : Nat) (m s b r : Term α K) (tr : Bool)
    (hm : Plain false m) (hb : Plain false b) (h : add E (n + 1) (.difference m s tr) b = .ok r) :
    ∀ f t x y, eval E f t (.difference m s tr) = some x → eval E f t b = some y → eval E f t r = some (x + y) := by
  intro f t x y hx hy
  obtain ⟨u, v, e1, e2, rfl⟩ := (eval_difference ..).mp hx
  obtain ⟨b', e3, h⟩ := bind_ok (show ((if tr then invertTransform E n b else .ok b) >>= fun b =>
    add E n m b >>= fun m => .ok (.difference m s tr)) = .ok r from h)
  obtain ⟨m', e4, h⟩ := bind_ok h
  cases h
  have hb' : Plain false b' ∧ eval E f (t ^^ tr) b' = some y := by
    cases tr with
    | true =>
      obtain ⟨p, q⟩ := (sound hE n).inv b b' hb e3
      exact ⟨p, q f _ y (by simpa using hy)⟩
    | false =>
      cases e3
      exact ⟨hb, by simpa using hy⟩
  rw [eval_difference]
  exact ⟨u + y, v, ((sound hE n).add false m b' m' hm hb'.1 e4).2 f _ u y e1 hb'.2, e2, by ring⟩

/-- C32: Differences, whose minuend is a difference with a transform. -/
theorem C32_difference_sub {E : Env α K} (hE : E.Lawful) (n : Nat) (m s b r : Term α K) (tr : Bool)
    (hs : Plain false s) (hb : Plain false b) (h : sub E (n + 1) (.difference m s tr) b = .ok r) :
    ∀ f t x y, eval E f t (.difference m s tr) = some x → eval E f t b = some y → eval E f t r = some (x - y) := by
  intro f t x y hx hy
  obtain ⟨u, v, e1, e2, rfl⟩ := (eval_difference ..).mp hx
  obtain ⟨b', e3, h⟩ := bind_ok (show ((if tr then invertTransform E n b else .ok b) >>= fun b =>
    add E n s b >>= fun s => .ok (.difference m s tr)) = .ok r from h)
  obtain ⟨s', e4, h⟩ := bind_ok h
  cases h
  have hb' : Plain false b' ∧ eval E f (t ^^ tr) b' = some y := by
    cases tr with
    | true =>
      obtain ⟨p, q⟩ := (sound hE n).inv b b' hb e3
      exact ⟨p, q f _ y (by simpa using hy)⟩
    | false =>
      cases e3
      exact ⟨hb, by simpa using hy⟩
  rw [eval_difference]
  exact ⟨u, v + y, e1, ((sound hE n).add false s b' s' hs hb'.1 e4).2 f _ v y e2 hb'.2, by ring⟩

/-- C32: The negative of a difference with a transform. -/
theorem C32_difference_negate {E : Env α K} (n : Nat) (m s r : Term α K) (tr : Bool)
    (h : negate E (n + 1) (.difference m s tr) = .ok r) :
    ∀ f t x, eval E f t (.difference m s tr) = some x → eval E f t r = some (-x) := by
  intro f t x hx
  obtain ⟨u, v, e1, e2, rfl⟩ := (eval_difference ..).mp hx
  cases h
  rw [eval_difference]
  exact ⟨v, u, e2, e1, by ring⟩

end

-- the hypotheses are satisfiable: `1/s - 0` and `(s - 1)` transformed plus `s`
example : ∃ r : Term ℝ ℂ, differenceFactory complexEnv 4 (.polynomial [1, 0] false) (.constant 0) true = .ok r ∧
    isZero 3 (.polynomial [1, 0] false : Term ℝ ℂ) = .ok false ∧ r = .polynomial [1, 0] true := by
  refine ⟨_, ?_, ?_, rfl⟩
  · simp [differenceFactory, isZero, invertTransform, polynomialFactory, Bind.bind, Except.bind]
  · simp [isZero]

example : add complexEnv 4 (.difference (.polynomial [1, 0] false) (.constant 1) true) (.polynomial [1, 0] false) =
    .ok (.difference (.sum [.polynomial [1, 0] false, .polynomial [1, 0] true] false) (.constant 1) true : Term ℝ ℂ) := by
  simp [add, invertTransform, polynomialFactory, Bind.bind, Except.bind]

end Filter
end Verif
