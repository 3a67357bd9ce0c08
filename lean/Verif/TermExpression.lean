import Verif.TermOperators

/-
Expressions, with which terms are built: the terms in the namespace of the `Filter` class, which are the static methods
`factory` of the terms (`/repo/sumpf/_data/_filters/_base/_filter.py:106-116`), the operators and `invert_transform`.
-/

namespace Verif
namespace Filter

open Interpolation (Mode Logs)

variable {α K : Type} [Field α] [LinearOrder α] [Field K] [DecidableEq K] [Module α K]

/-- an expression, that is written by a user of the library -/
inductive Expr (α K : Type) where
  /-- `Filter.Constant(value)` -/
  | constant (v : K)
  /-- `Filter.Polynomial(coefficients, transform)` -/
  | polynomial (cs : List K) (tr : Bool)
  /-- `Filter.Exp(coefficient, transform)` -/
  | exp (c : K) (tr : Bool)
  /-- `Filter.Bands(xs, ys, interpolation, extrapolation)` -/
  | bands (xs : List α) (ys : List K) (i e : Mode)
  /-- `Filter.Absolute(value, transform)` -/
  | absolute (a : Expr α K) (tr : Bool)
  /-- `Filter.Negative(value, transform)` -/
  | negative (a : Expr α K) (tr : Bool)
  /-- `Filter.Sum(summands, transform)` -/
  | sum (l : List (Expr α K)) (tr : Bool)
  /-- `Filter.Difference(minuend, subtrahend, transform)` -/
  | difference (a b : Expr α K) (tr : Bool)
  /-- `Filter.Product(factors, transform)` -/
  | product (l : List (Expr α K)) (tr : Bool)
  /-- `Filter.Quotient(numerator, denominator, transform)` -/
  | quotient (a b : Expr α K) (tr : Bool)
  /-- `a + b` -/
  | add (a b : Expr α K)
  /-- `a - b` -/
  | sub (a b : Expr α K)
  /-- `a * b` -/
  | mul (a b : Expr α K)
  /-- `a / b` -/
  | div (a b : Expr α K)
  /-- `-a` -/
  | neg (a : Expr α K)
  /-- `abs(a)` -/
  | abs (a : Expr α K)
  /-- `~a` -/
  | invert (a : Expr α K)
  /-- `a.invert_transform()` -/
  | inverted (a : Expr α K)

mutual

/-- the term, that results from an expression, with the recursion depth `n` for each of the methods -/
def build (E : Env α K) (n : Nat) : Expr α K → Py (Term α K)
  | .constant v => .ok (.constant v)
  | .polynomial cs tr => .ok (polynomialFactory cs tr)
  | .exp c tr => .ok (expFactory c tr)
  | .bands xs ys i e => .ok (mkBands xs ys i e)
  | .absolute a tr => build E n a >>= fun a => absoluteFactory E n a tr
  | .negative a tr => build E n a >>= fun a => negativeFactory E n a tr
  | .sum l tr => buildList E n l >>= fun l => sumFactory E n l tr
  | .difference a b tr => build E n a >>= fun a => build E n b >>= fun b => differenceFactory E n a b tr
  | .product l tr => buildList E n l >>= fun l => productFactory E n l tr
  | .quotient a b tr => build E n a >>= fun a => build E n b >>= fun b => quotientFactory n a b tr
  | .add a b => build E n a >>= fun a => build E n b >>= fun b => add E n a b
  | .sub a b => build E n a >>= fun a => build E n b >>= fun b => sub E n a b
  | .mul a b => build E n a >>= fun a => build E n b >>= fun b => mul E n a b
  | .div a b => build E n a >>= fun a => build E n b >>= fun b => div a b
  | .neg a => build E n a >>= fun a => negate E n a
  | .abs a => build E n a >>= fun a => .ok (a.abs E)
  | .invert a => build E n a >>= fun a => a.invert
  | .inverted a => build E n a >>= fun a => invertTransform E n a

/-- the terms, that result from a sequence of expressions -/
def buildList (E : Env α K) (n : Nat) : List (Expr α K) → Py (List (Term α K))
  | [] => .ok []
  | a :: l => build E n a >>= fun a => buildList E n l >>= fun l => .ok (a :: l)

end

/-! ### the specification -/

/-- The quotient of two numbers is only defined, if the denominator is not zero. -/
def quotientSpec (x y : K) : Option K := if y = 0 then none else some (x / y)

mutual

/-- Specification: the value, that is meant by an expression, where `s` is the value of the Laplace variable at the
frequency `f`. The flag `tr` of an expression replaces `s` by `1 / s` in it and so does `invert_transform`. -/
def denote (E : Env α K) (f : α) (s : K) : Expr α K → Option K
  | .constant v => some v
  | .polynomial cs tr => some (cs.zipIdx.map fun p => p.1 * (if tr then s⁻¹ else s) ^ (cs.length - 1 - p.2)).sum
  | .exp c tr => some (E.exp (c * if tr then s⁻¹ else s))
  | .bands xs ys i e => bandsAt E f xs ys i (if e = .stairsLog then .stairsLin else e)
  | .absolute a tr => (denote E f (if tr then s⁻¹ else s) a).map E.abs
  | .negative a tr => (denote E f (if tr then s⁻¹ else s) a).map fun x => -x
  | .sum l tr => (denoteList E f (if tr then s⁻¹ else s) l).map List.sum
  | .difference a b tr => (denote E f (if tr then s⁻¹ else s) a).bind fun x =>
      (denote E f (if tr then s⁻¹ else s) b).map fun y => x - y
  | .product l tr => (denoteList E f (if tr then s⁻¹ else s) l).map List.prod
  | .quotient a b tr => (denote E f (if tr then s⁻¹ else s) a).bind fun x =>
      (denote E f (if tr then s⁻¹ else s) b).bind fun y => quotientSpec x y
  | .add a b => (denote E f s a).bind fun x => (denote E f s b).map fun y => x + y
  | .sub a b => (denote E f s a).bind fun x => (denote E f s b).map fun y => x - y
  | .mul a b => (denote E f s a).bind fun x => (denote E f s b).map fun y => x * y
  | .div a b => (denote E f s a).bind fun x => (denote E f s b).bind fun y => quotientSpec x y
  | .neg a => (denote E f s a).map fun x => -x
  | .abs a => (denote E f s a).map E.abs
  | .invert a => (denote E f s a).bind fun x => quotientSpec 1 x
  | .inverted a => denote E f s⁻¹ a

/-- the values of a sequence of expressions -/
def denoteList (E : Env α K) (f : α) (s : K) : List (Expr α K) → Option (List K)
  | [] => some []
  | a :: l => (denote E f s a).bind fun x => (denoteList E f s l).map fun xs => x :: xs

end

/-- Expressions, for which the specification holds. With `d = true`, there are differences, but no transforms; with
`d = false`, there are transforms, but no differences. The bands are interpolated with zeros or stairs. -/
inductive PlainExpr (d : Bool) : Expr α K → Prop where
  | constant (v : K) : PlainExpr d (.constant v)
  | polynomial (cs : List K) (tr : Bool) (ht : d = true → tr = false) : PlainExpr d (.polynomial cs tr)
  | exp (c : K) (tr : Bool) (ht : d = true → tr = false) : PlainExpr d (.exp c tr)
  | bands (xs : List α) (ys : List K) (i e : Mode) (hx : xs ≠ []) (hs : xs.Pairwise (· < ·))
      (hl : xs.length = ys.length) (hi : i = .zero ∨ i = .stairsLin ∨ i = .stairsLog)
      (he : e = .zero ∨ e = .stairsLin ∨ e = .stairsLog) : PlainExpr d (.bands xs ys i e)
  | absolute (a : Expr α K) (tr : Bool) (ha : PlainExpr d a) (ht : d = true → tr = false) : PlainExpr d (.absolute a tr)
  | negative (a : Expr α K) (tr : Bool) (ha : PlainExpr d a) (ht : d = true → tr = false) : PlainExpr d (.negative a tr)
  | sum (l : List (Expr α K)) (tr : Bool) (hl : ∀ a ∈ l, PlainExpr d a) (ht : d = true → tr = false) :
      PlainExpr d (.sum l tr)
  | difference (a b : Expr α K) (ha : PlainExpr d a) (hb : PlainExpr d b) (hd : d = true) :
      PlainExpr d (.difference a b false)
  | product (l : List (Expr α K)) (tr : Bool) (h0 : l ≠ []) (hl : ∀ a ∈ l, PlainExpr d a) (ht : d = true → tr = false) :
      PlainExpr d (.product l tr)
  | quotient (a b : Expr α K) (tr : Bool) (ha : PlainExpr d a) (hb : PlainExpr d b) (ht : d = true → tr = false) :
      PlainExpr d (.quotient a b tr)
  | add (a b : Expr α K) (ha : PlainExpr d a) (hb : PlainExpr d b) : PlainExpr d (.add a b)
  | sub (a b : Expr α K) (ha : PlainExpr d a) (hb : PlainExpr d b) (hd : d = true) : PlainExpr d (.sub a b)
  | mul (a b : Expr α K) (ha : PlainExpr d a) (hb : PlainExpr d b) : PlainExpr d (.mul a b)
  | div (a b : Expr α K) (ha : PlainExpr d a) (hb : PlainExpr d b) : PlainExpr d (.div a b)
  | neg (a : Expr α K) (ha : PlainExpr d a) : PlainExpr d (.neg a)
  | abs (a : Expr α K) (ha : PlainExpr d a) : PlainExpr d (.abs a)
  | invert (a : Expr α K) (ha : PlainExpr d a) : PlainExpr d (.invert a)
  | inverted (a : Expr α K) (ha : PlainExpr d a) (hd : d = false) : PlainExpr d (.inverted a)

/-! ### the proof -/

theorem polyval_powers (cs : List K) (s : K) :
    polyval cs s = (cs.zipIdx.map fun p => p.1 * s ^ (cs.length - 1 - p.2)).sum := by
  induction cs with
  | nil => rfl
  | cons c cs ih =>
    rw [polyval_cons, ih, List.zipIdx_cons, List.map_cons, List.sum_cons]
    have e1 : (c :: cs).length - 1 - 0 = cs.length := by simp
    rw [e1]
    congr 1
    rw [zero_add, List.zipIdx_succ, List.map_map]
    congr 1
    apply List.map_congr_left
    intro p hp
    have : (c :: cs).length - 1 - (p.2 + 1) = cs.length - 1 - p.2 := by
      simp only [List.length_cons]
      omega
    simp only [Function.comp, this]

/-- the value of `s` with the flag -/
def sOf (E : Env α K) (f : α) (t : Bool) : K := if t then (E.s f)⁻¹ else E.s f

theorem sOf_xor (E : Env α K) (f : α) (t tr : Bool) :
    (if tr then (sOf E f t)⁻¹ else sOf E f t) = sOf E f (t ^^ tr) := by
  cases t <;> cases tr <;> simp [sOf]

theorem sValue_sOf {E : Env α K} {f : α} (hf : E.s f ≠ 0) (t : Bool) : sValue E f t = some (sOf E f t) := by
  cases t <;> simp [sValue, sOf, hf]

theorem map_some {β γ : Type} {g : β → γ} {o : Option β} {y : γ} (h : o.map g = some y) : ∃ x, o = some x ∧ g x = y := by
  cases o with
  | none => cases h
  | some x => exact ⟨x, rfl, Option.some.inj h⟩

theorem obind_some {β γ : Type} {g : β → Option γ} {o : Option β} {y : γ} (h : o.bind g = some y) :
    ∃ x, o = some x ∧ g x = some y := by
  cases o with
  | none => cases h
  | some x => exact ⟨x, rfl, h⟩

theorem quotientSpec_some {x y z : K} (h : quotientSpec x y = some z) : y ≠ 0 ∧ x / y = z := by
  unfold quotientSpec at h
  by_cases hy : y = 0
  · rw [if_pos hy] at h
    cases h
  · rw [if_neg hy] at h
    exact ⟨hy, Option.some.inj h⟩

theorem polynomialFactory_sound {E : Env α K} {d : Bool} (cs : List K) (tr : Bool) (ht : d = true → tr = false) :
    Plain d (polynomialFactory cs tr : Term α K) ∧ ∀ f, E.s f ≠ 0 → ∀ t,
      eval E f t (polynomialFactory cs tr) = some (polyval cs (sOf E f (t ^^ tr))) := by
  have key : ∀ s, polyval cs s = polyval (cs.dropWhile (· = 0)) s := fun s => (polyval_dropWhile cs s).symm
  unfold polynomialFactory
  generalize cs.dropWhile (· = 0) = cs' at key
  match cs' with
  | [] =>
    refine ⟨.constant 0, fun f _ t => ?_⟩
    rw [eval_constant, key, polyval_nil]
  | [c] =>
    refine ⟨.constant c, fun f _ t => ?_⟩
    rw [eval_constant, key, polyval_cons, polyval_nil]
    simp
  | c :: c' :: cs' =>
    refine ⟨.polynomial _ _ (by simp) ht, fun f hf t => ?_⟩
    dsimp only
    rw [eval_polynomial]
    exact ⟨_, sValue_sOf hf _, key _⟩

theorem expression {E : Env α K} (hE : E.Lawful) (n : Nat) {d : Bool} {e : Expr α K} (he : PlainExpr d e) :
    ∀ r, build E n e = .ok r → Plain d r ∧
      ∀ f, E.s f ≠ 0 → ∀ t x, denote E f (sOf E f t) e = some x → eval E f t r = some x := by
  have list : ∀ l : List (Expr α K), (∀ a ∈ l, ∀ r, build E n a = .ok r → Plain d r ∧
      ∀ f, E.s f ≠ 0 → ∀ t x, denote E f (sOf E f t) a = some x → eval E f t r = some x) →
      ∀ rs, buildList E n l = .ok rs → rs.length = l.length ∧ (∀ a ∈ rs, Plain d a) ∧ ∀ f, E.s f ≠ 0 → ∀ t xs,
        denoteList E f (sOf E f t) l = some xs → List.Forall₂ (fun a x => eval E f t a = some x) rs xs := by
    intro l
    induction l with
    | nil =>
      intro _ rs h
      cases h
      refine ⟨rfl, by simp, fun f _ t xs hx => ?_⟩
      cases hx
      exact .nil
    | cons a l ih =>
      intro hl rs h
      obtain ⟨r, h1, h⟩ := bind_ok h
      obtain ⟨rs', h2, h⟩ := bind_ok h
      cases h
      obtain ⟨p0, p1, p2⟩ := ih (fun a ha => hl a (List.mem_cons_of_mem _ ha)) rs' h2
      obtain ⟨q1, q2⟩ := hl a List.mem_cons_self r h1
      refine ⟨by simp [p0], ?_, fun f hf t xs hx => ?_⟩
      · intro b hb
        rcases List.mem_cons.mp hb with rfl | hb
        · exact q1
        · exact p1 b hb
      · obtain ⟨x, hx1, hx⟩ := obind_some hx
        obtain ⟨xs', hx2, rfl⟩ := map_some hx
        exact .cons (q2 f hf t x hx1) (p2 f hf t xs' hx2)
  have S := sound hE n
  induction he with
  | constant v =>
    intro r h
    cases h
    refine ⟨.constant v, fun f _ t x hx => ?_⟩
    rw [eval_constant]
    exact (Option.some.inj hx).symm
  | polynomial cs tr ht =>
    intro r h
    cases h
    obtain ⟨p, q⟩ := polynomialFactory_sound (E := E) cs tr ht
    refine ⟨p, fun f hf t x hx => ?_⟩
    rw [q f hf t, ← Option.some.inj hx, sOf_xor, polyval_powers]
  | exp c tr ht =>
    intro r h
    have h : expFactory c tr = r := ok_inj h
    unfold expFactory at h
    by_cases hc : c = 0
    · rw [if_pos hc] at h
      subst h
      refine ⟨.constant 1, fun f _ t x hx => ?_⟩
      rw [eval_constant, ← Option.some.inj hx, hc, zero_mul, hE.exp_zero]
    · rw [if_neg hc] at h
      subst h
      refine ⟨.exp c tr ht, fun f hf t x hx => ?_⟩
      rw [eval_exp]
      refine ⟨_, sValue_sOf hf _, ?_⟩
      rw [← Option.some.inj hx, sOf_xor]
  | bands xs ys i e hx hs hl hi he =>
    intro r h
    cases h
    unfold mkBands
    refine ⟨.bands _ _ _ _ hx hs hl hi ?_ ?_, fun f _ t x hx => ?_⟩
    · rcases he with rfl | rfl | rfl
      · exact Or.inl rfl
      · exact Or.inr (Or.inl rfl)
      · exact Or.inr (Or.inl rfl)
    · rcases he with rfl | rfl | rfl <;> decide
    · rw [eval_bands]
      exact hx
  | absolute a tr _ ht ih =>
    intro r h
    obtain ⟨b, h1, h⟩ := bind_ok h
    obtain ⟨p1, q1⟩ := ih b h1
    obtain ⟨p2, q2⟩ := S.absF d b tr r p1 ht h
    refine ⟨p2, fun f hf t x hx => q2 f t x ?_⟩
    obtain ⟨y, hy, rfl⟩ := map_some hx
    rw [eval_absolute]
    exact ⟨y, q1 f hf _ y (by rw [← sOf_xor]; exact hy), rfl⟩
  | negative a tr _ ht ih =>
    intro r h
    obtain ⟨b, h1, h⟩ := bind_ok h
    obtain ⟨p1, q1⟩ := ih b h1
    obtain ⟨p2, q2⟩ := S.negF d b tr r p1 ht h
    refine ⟨p2, fun f hf t x hx => q2 f t x ?_⟩
    obtain ⟨y, hy, rfl⟩ := map_some hx
    rw [eval_negative, neg_neg]
    exact q1 f hf _ y (by rw [← sOf_xor]; exact hy)
  | sum l tr hl ht ih =>
    intro r h
    obtain ⟨rs, h1, h⟩ := bind_ok h
    obtain ⟨_, p1, q1⟩ := list l ih rs h1
    obtain ⟨p2, q2⟩ := S.sumF d rs tr r p1 ht h
    refine ⟨p2, fun f hf t x hx => q2 f t x ?_⟩
    obtain ⟨ys, hy, rfl⟩ := map_some hx
    rw [eval_sum]
    exact ⟨ys, q1 f hf _ ys (by rw [← sOf_xor]; exact hy), rfl⟩
  | difference a b _ _ hd iha ihb =>
    intro r h
    subst hd
    obtain ⟨ra, h1, h⟩ := bind_ok h
    obtain ⟨rb, h2, h⟩ := bind_ok h
    obtain ⟨p1, q1⟩ := iha ra h1
    obtain ⟨p2, q2⟩ := ihb rb h2
    obtain ⟨p3, q3⟩ := S.diffF ra rb r p1 p2 h
    refine ⟨p3, fun f hf t x hx => q3 f t x ?_⟩
    obtain ⟨y, hy, hx⟩ := obind_some hx
    obtain ⟨z, hz, rfl⟩ := map_some hx
    rw [eval_difference]
    exact ⟨y, z, q1 f hf _ y (by simpa using hy), q2 f hf _ z (by simpa using hz), rfl⟩
  | product l tr h0 hl ht ih =>
    intro r h
    obtain ⟨rs, h1, h⟩ := bind_ok h
    obtain ⟨p0, p1, q1⟩ := list l ih rs h1
    obtain ⟨p2, q2⟩ := S.prodF d rs tr r p1 ht h
    refine ⟨p2, fun f hf t x hx => q2 f t x ?_⟩
    obtain ⟨ys, hy, rfl⟩ := map_some hx
    rw [eval_product]
    · exact ⟨ys, q1 f hf _ ys (by rw [← sOf_xor]; exact hy), rfl⟩
    · rintro rfl
      exact h0 (List.length_eq_zero_iff.mp p0.symm)
  | quotient a b tr _ _ ht iha ihb =>
    intro r h
    obtain ⟨ra, h1, h⟩ := bind_ok h
    obtain ⟨rb, h2, h⟩ := bind_ok h
    obtain ⟨p1, q1⟩ := iha ra h1
    obtain ⟨p2, q2⟩ := ihb rb h2
    obtain ⟨p3, q3⟩ := quotientFactory_sound hE p1 p2 ht h
    refine ⟨p3, fun f hf t x hx => q3 f t x ?_⟩
    obtain ⟨y, hy, hx⟩ := obind_some hx
    obtain ⟨z, hz, hx⟩ := obind_some hx
    obtain ⟨hz0, rfl⟩ := quotientSpec_some hx
    rw [eval_quotient]
    exact ⟨y, z, q1 f hf _ y (by rw [← sOf_xor]; exact hy), q2 f hf _ z (by rw [← sOf_xor]; exact hz), hz0, rfl⟩
  | add a b _ _ iha ihb =>
    intro r h
    obtain ⟨ra, h1, h⟩ := bind_ok h
    obtain ⟨rb, h2, h⟩ := bind_ok h
    obtain ⟨p1, q1⟩ := iha ra h1
    obtain ⟨p2, q2⟩ := ihb rb h2
    obtain ⟨p3, q3⟩ := S.add d ra rb r p1 p2 h
    refine ⟨p3, fun f hf t x hx => ?_⟩
    obtain ⟨y, hy, hx⟩ := obind_some hx
    obtain ⟨z, hz, rfl⟩ := map_some hx
    exact q3 f t y z (q1 f hf t y hy) (q2 f hf t z hz)
  | sub a b _ _ hd iha ihb =>
    intro r h
    obtain ⟨ra, h1, h⟩ := bind_ok h
    obtain ⟨rb, h2, h⟩ := bind_ok h
    obtain ⟨p1, q1⟩ := iha ra h1
    obtain ⟨p2, q2⟩ := ihb rb h2
    obtain ⟨p3, q3⟩ := sound_sub hE n d ra rb r p1 p2 h
    refine ⟨p3 hd, fun f hf t x hx => ?_⟩
    obtain ⟨y, hy, hx⟩ := obind_some hx
    obtain ⟨z, hz, rfl⟩ := map_some hx
    exact q3 f t y z (q1 f hf t y hy) (q2 f hf t z hz)
  | mul a b _ _ iha ihb =>
    intro r h
    obtain ⟨ra, h1, h⟩ := bind_ok h
    obtain ⟨rb, h2, h⟩ := bind_ok h
    obtain ⟨p1, q1⟩ := iha ra h1
    obtain ⟨p2, q2⟩ := ihb rb h2
    obtain ⟨p3, q3⟩ := S.mul d ra rb r p1 p2 h
    refine ⟨p3, fun f hf t x hx => ?_⟩
    obtain ⟨y, hy, hx⟩ := obind_some hx
    obtain ⟨z, hz, rfl⟩ := map_some hx
    exact q3 f t y z (q1 f hf t y hy) (q2 f hf t z hz)
  | div a b _ _ iha ihb =>
    intro r h
    obtain ⟨ra, h1, h⟩ := bind_ok h
    obtain ⟨rb, h2, h⟩ := bind_ok h
    obtain ⟨p1, q1⟩ := iha ra h1
    obtain ⟨p2, q2⟩ := ihb rb h2
    obtain ⟨p3, q3⟩ := sound_div (E := E) d ra rb r p1 p2 h
    refine ⟨p3, fun f hf t x hx => ?_⟩
    obtain ⟨y, hy, hx⟩ := obind_some hx
    obtain ⟨z, hz, hx⟩ := obind_some hx
    obtain ⟨hz0, rfl⟩ := quotientSpec_some hx
    exact q3 f t y z (q1 f hf t y hy) (q2 f hf t z hz) hz0
  | neg a _ ih =>
    intro r h
    obtain ⟨b, h1, h⟩ := bind_ok h
    obtain ⟨p1, q1⟩ := ih b h1
    obtain ⟨p2, q2⟩ := S.neg d b r p1 h
    refine ⟨p2, fun f hf t x hx => ?_⟩
    obtain ⟨y, hy, rfl⟩ := map_some hx
    exact q2 f t y (q1 f hf t y hy)
  | abs a _ ih =>
    intro r h
    obtain ⟨b, h1, h⟩ := bind_ok h
    cases h
    obtain ⟨p1, q1⟩ := ih b h1
    obtain ⟨p2, q2⟩ := abs_sound hE p1
    refine ⟨p2, fun f hf t x hx => ?_⟩
    obtain ⟨y, hy, rfl⟩ := map_some hx
    exact q2 f t y (q1 f hf t y hy)
  | invert a _ ih =>
    intro r h
    obtain ⟨b, h1, h⟩ := bind_ok h
    obtain ⟨p1, q1⟩ := ih b h1
    obtain ⟨p2, q2⟩ := sound_invert hE d b r p1 h
    refine ⟨p2, fun f hf t x hx => ?_⟩
    obtain ⟨y, hy, hx⟩ := obind_some hx
    obtain ⟨hy0, rfl⟩ := quotientSpec_some hx
    exact q2 f t y (q1 f hf t y hy) hy0
  | inverted a _ hd ih =>
    intro r h
    subst hd
    obtain ⟨b, h1, h⟩ := bind_ok h
    obtain ⟨p1, q1⟩ := ih b h1
    obtain ⟨p2, q2⟩ := S.inv b r p1 h
    refine ⟨p2, fun f hf t x hx => q2 f t x ?_⟩
    refine q1 f hf _ x ?_
    have : sOf E f (!t) = (sOf E f t)⁻¹ := by cases t <;> simp [sOf]
    rw [this]
    exact hx

end Filter
end Verif
