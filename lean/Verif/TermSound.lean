import Verif.Term
import Verif.InterpolationProps
import Mathlib.Tactic.Ring
import Mathlib.Tactic.FieldSimp
import Mathlib.Data.List.Forall2

/-
Lemmas about the evaluation of filter terms: the values of the composite terms, of interpolated supporting points and
of polynomials, and the proof, that the operators and factories of the terms preserve the meaning of plain terms.
-/

namespace Verif
namespace Filter

open Interpolation (Mode Logs)

variable {α K : Type} [Field α] [LinearOrder α] [Field K] [DecidableEq K] [Module α K]

/-! ### monadic helpers -/

theorem bind_ok {β γ : Type} {x : Py β} {g : β → Py γ} {r : γ} (h : (x >>= g) = .ok r) :
    ∃ b, x = .ok b ∧ g b = .ok r := by
  cases x with
  | error e => exact absurd h (by intro h; cases h)
  | ok b => exact ⟨b, rfl, h⟩

theorem ok_inj {β : Type} {x y : β} (h : (Except.ok x : Py β) = .ok y) : x = y := by
  injection h

theorem mapM_forall2 {β γ : Type} {g : β → Py γ} {l : List β} {r : List γ} (h : l.mapM g = .ok r) :
    List.Forall₂ (fun a b => g a = .ok b) l r := by
  induction l generalizing r with
  | nil =>
    rw [List.mapM_nil] at h
    cases h
    exact .nil
  | cons a l ih =>
    rw [List.mapM_cons] at h
    obtain ⟨b, h1, h2⟩ := bind_ok h
    obtain ⟨bs, h3, h4⟩ := bind_ok h2
    cases h4
    exact .cons h1 (ih h3)

theorem allM_true {β : Type} {p : β → Py Bool} {l : List β} (h : allM p l = .ok true) : ∀ a ∈ l, p a = .ok true := by
  induction l with
  | nil => intro a ha; simp at ha
  | cons a l ih =>
    obtain ⟨b, h1, h2⟩ := bind_ok h
    cases b with
    | false => cases h2
    | true =>
      intro c hc
      rcases List.mem_cons.mp hc with rfl | hc
      · exact h1
      · exact ih h2 c hc

theorem anyM_true {β : Type} {p : β → Py Bool} {l : List β} (h : anyM p l = .ok true) : ∃ a ∈ l, p a = .ok true := by
  induction l with
  | nil => cases h
  | cons a l ih =>
    obtain ⟨b, h1, h2⟩ := bind_ok h
    cases b with
    | true => exact ⟨a, List.mem_cons_self, h1⟩
    | false =>
      obtain ⟨c, hc, hp⟩ := ih h2
      exact ⟨c, List.mem_cons_of_mem _ hc, hp⟩

/-! ### values of composite terms -/

omit [DecidableEq K] in
theorem foldl_add_some (l : List (Option K)) (r : Option K) (x : K) :
    l.foldl (fun r v => r.bind fun x => v.map fun y => x + y) r = some x ↔
      ∃ (r0 : K) (xs : List K), r = some r0 ∧ l = xs.map some ∧ x = r0 + xs.sum := by
  induction l generalizing r with
  | nil =>
    constructor
    · intro h
      exact ⟨x, [], h, rfl, by simp⟩
    · rintro ⟨r0, xs, rfl, h2, rfl⟩
      cases xs with
      | nil => simp
      | cons a l => simp at h2
  | cons v l ih =>
    rw [List.foldl_cons, ih]
    constructor
    · rintro ⟨r0, xs, h1, rfl, rfl⟩
      cases r with
      | none => simp at h1
      | some r =>
        cases v with
        | none => simp at h1
        | some v =>
          have : r + v = r0 := by simpa using h1
          exact ⟨r, v :: xs, rfl, rfl, by rw [List.sum_cons, ← this]; ring⟩
    · rintro ⟨r0, xs, rfl, h2, rfl⟩
      cases xs with
      | nil => simp at h2
      | cons a xs =>
        rw [List.map_cons, List.cons.injEq] at h2
        obtain ⟨rfl, rfl⟩ := h2
        exact ⟨r0 + a, xs, rfl, rfl, by rw [List.sum_cons]; ring⟩

omit [DecidableEq K] in
theorem foldl_mul_some (l : List (Option K)) (r : Option K) (x : K) :
    l.foldl (fun r v => r.bind fun x => v.map fun y => x * y) r = some x ↔
      ∃ (r0 : K) (xs : List K), r = some r0 ∧ l = xs.map some ∧ x = r0 * xs.prod := by
  induction l generalizing r with
  | nil =>
    constructor
    · intro h
      exact ⟨x, [], h, rfl, by simp⟩
    · rintro ⟨r0, xs, rfl, h2, rfl⟩
      cases xs with
      | nil => simp
      | cons a l => simp at h2
  | cons v l ih =>
    rw [List.foldl_cons, ih]
    constructor
    · rintro ⟨r0, xs, h1, rfl, rfl⟩
      cases r with
      | none => simp at h1
      | some r =>
        cases v with
        | none => simp at h1
        | some v =>
          have : r * v = r0 := by simpa using h1
          exact ⟨r, v :: xs, rfl, rfl, by rw [List.prod_cons, ← this]; ring⟩
    · rintro ⟨r0, xs, rfl, h2, rfl⟩
      cases xs with
      | nil => simp at h2
      | cons a xs =>
        rw [List.map_cons, List.cons.injEq] at h2
        obtain ⟨rfl, rfl⟩ := h2
        exact ⟨r0 * a, xs, rfl, rfl, by rw [List.prod_cons]; ring⟩

omit [DecidableEq K] in
theorem sumValues_some (l : List (Option K)) (x : K) :
    sumValues l = some x ↔ ∃ xs : List K, l = xs.map some ∧ x = xs.sum := by
  cases l with
  | nil =>
    constructor
    · intro h
      exact ⟨[], rfl, by simpa [sumValues] using h.symm⟩
    · rintro ⟨xs, h1, rfl⟩
      cases xs with
      | nil => simp [sumValues]
      | cons a l => simp at h1
  | cons v l =>
    rw [sumValues, foldl_add_some]
    constructor
    · rintro ⟨r0, xs, rfl, rfl, rfl⟩
      exact ⟨r0 :: xs, rfl, by simp⟩
    · rintro ⟨xs, h1, rfl⟩
      cases xs with
      | nil => simp at h1
      | cons a xs =>
        rw [List.map_cons, List.cons.injEq] at h1
        exact ⟨a, xs, h1.1, h1.2, by simp⟩

omit [DecidableEq K] in
theorem productValues_some (l : List (Option K)) (hl : l ≠ []) (x : K) :
    productValues l = some x ↔ ∃ xs : List K, l = xs.map some ∧ x = xs.prod := by
  cases l with
  | nil => exact absurd rfl hl
  | cons v l =>
    rw [productValues, foldl_mul_some]
    constructor
    · rintro ⟨r0, xs, rfl, rfl, rfl⟩
      exact ⟨r0 :: xs, rfl, by simp⟩
    · rintro ⟨xs, h1, rfl⟩
      cases xs with
      | nil => simp at h1
      | cons a xs =>
        rw [List.map_cons, List.cons.injEq] at h1
        exact ⟨a, xs, h1.1, h1.2, by simp⟩

theorem evalList_some (E : Env α K) (f : α) (t : Bool) (l : List (Term α K)) (xs : List K) :
    evalList E f t l = xs.map some ↔ List.Forall₂ (fun a x => eval E f t a = some x) l xs := by
  induction l generalizing xs with
  | nil =>
    cases xs with
    | nil => simp [evalList]
    | cons x xs => simp [evalList]
  | cons a l ih =>
    cases xs with
    | nil => simp [evalList]
    | cons x xs => simp [evalList, ih]

theorem evalList_ne_nil (E : Env α K) (f : α) (t : Bool) {l : List (Term α K)} (h : l ≠ []) :
    evalList E f t l ≠ [] := by
  cases l with
  | nil => exact absurd rfl h
  | cons a l => simp [evalList]

theorem eval_sum (E : Env α K) (f : α) (t tr : Bool) (l : List (Term α K)) (x : K) :
    eval E f t (.sum l tr) = some x ↔
      ∃ xs, List.Forall₂ (fun a y => eval E f (t ^^ tr) a = some y) l xs ∧ x = xs.sum := by
  rw [eval, sumValues_some]
  simp only [evalList_some]

theorem eval_product (E : Env α K) (f : α) (t tr : Bool) {l : List (Term α K)} (hl : l ≠ []) (x : K) :
    eval E f t (.product l tr) = some x ↔
      ∃ xs, List.Forall₂ (fun a y => eval E f (t ^^ tr) a = some y) l xs ∧ x = xs.prod := by
  rw [eval, productValues_some _ (evalList_ne_nil E f _ hl)]
  simp only [evalList_some]

theorem eval_product_nil (E : Env α K) (f : α) (t tr : Bool) : eval E f t (.product [] tr) = some 0 := by
  rw [eval, evalList, productValues]

theorem eval_difference (E : Env α K) (f : α) (t tr : Bool) (m s : Term α K) (x : K) :
    eval E f t (.difference m s tr) = some x ↔
      ∃ y z, eval E f (t ^^ tr) m = some y ∧ eval E f (t ^^ tr) s = some z ∧ x = y - z := by
  rw [eval]
  constructor
  · intro h
    obtain ⟨y, h1, h2⟩ := Option.bind_eq_some_iff.mp h
    obtain ⟨z, h3, h4⟩ := Option.map_eq_some_iff.mp h2
    exact ⟨y, z, h1, h3, h4.symm⟩
  · rintro ⟨y, z, h1, h2, rfl⟩
    rw [h1, h2]
    rfl

theorem eval_quotient (E : Env α K) (f : α) (t tr : Bool) (m s : Term α K) (x : K) :
    eval E f t (.quotient m s tr) = some x ↔
      ∃ y z, eval E f (t ^^ tr) m = some y ∧ eval E f (t ^^ tr) s = some z ∧ z ≠ 0 ∧ x = y / z := by
  rw [eval]
  constructor
  · intro h
    obtain ⟨y, h1, h2⟩ := Option.bind_eq_some_iff.mp h
    obtain ⟨z, h3, h4⟩ := Option.bind_eq_some_iff.mp h2
    unfold divide at h4
    by_cases hz : z = 0
    · rw [if_pos hz] at h4
      cases h4
    · rw [if_neg hz] at h4
      cases h4
      exact ⟨y, z, h1, h3, hz, rfl⟩
  · rintro ⟨y, z, h1, h2, h3, rfl⟩
    rw [h1, h2]
    show divide y z = _
    rw [divide, if_neg h3]

theorem eval_negative (E : Env α K) (f : α) (t tr : Bool) (v : Term α K) (x : K) :
    eval E f t (.negative v tr) = some x ↔ eval E f (t ^^ tr) v = some (-x) := by
  rw [eval]
  constructor
  · intro h
    obtain ⟨y, h1, h2⟩ := Option.map_eq_some_iff.mp h
    rw [h1, ← h2, neg_neg]
  · intro h
    rw [h]
    simp

theorem eval_absolute (E : Env α K) (f : α) (t tr : Bool) (v : Term α K) (x : K) :
    eval E f t (.absolute v tr) = some x ↔ ∃ y, eval E f (t ^^ tr) v = some y ∧ x = E.abs y := by
  rw [eval]
  constructor
  · intro h
    obtain ⟨y, h1, h2⟩ := Option.map_eq_some_iff.mp h
    exact ⟨y, h1, h2.symm⟩
  · rintro ⟨y, h1, rfl⟩
    rw [h1]
    rfl

theorem eval_polynomial (E : Env α K) (f : α) (t tr : Bool) (cs : List K) (x : K) :
    eval E f t (.polynomial cs tr) = some x ↔ ∃ s, sValue E f (t ^^ tr) = some s ∧ x = polyval cs s := by
  rw [eval]
  constructor
  · intro h
    obtain ⟨y, h1, h2⟩ := Option.map_eq_some_iff.mp h
    exact ⟨y, h1, h2.symm⟩
  · rintro ⟨y, h1, rfl⟩
    rw [h1]
    rfl

theorem eval_exp (E : Env α K) (f : α) (t tr : Bool) (c : K) (x : K) :
    eval E f t (.exp c tr) = some x ↔ ∃ s, sValue E f (t ^^ tr) = some s ∧ x = E.exp (c * s) := by
  rw [eval]
  constructor
  · intro h
    obtain ⟨y, h1, h2⟩ := Option.map_eq_some_iff.mp h
    exact ⟨y, h1, h2.symm⟩
  · rintro ⟨y, h1, rfl⟩
    rw [h1]
    rfl

theorem eval_constant (E : Env α K) (f : α) (t : Bool) (v x : K) : eval E f t (.constant v) = some x ↔ x = v := by
  rw [eval]
  constructor
  · intro h
    exact (Option.some.inj h).symm
  · rintro rfl
    rfl

theorem eval_bands (E : Env α K) (f : α) (t : Bool) (xs : List α) (ys : List K) (i e : Mode) :
    eval E f t (.bands xs ys i e) = bandsAt E f xs ys i e := by
  rw [eval]

/-! ### polynomials -/

omit [DecidableEq K] in
theorem polyval_foldl (cs : List K) (x y : K) :
    cs.foldl (fun y c => y * x + c) y = y * x ^ cs.length + polyval cs x := by
  induction cs generalizing y with
  | nil => simp [polyval]
  | cons c cs ih =>
    have e : polyval (c :: cs) x = (0 * x + c) * x ^ cs.length + polyval cs x := ih (0 * x + c)
    rw [List.foldl_cons, ih, e, List.length_cons]
    ring

omit [DecidableEq K] in
theorem polyval_cons (c : K) (cs : List K) (x : K) : polyval (c :: cs) x = c * x ^ cs.length + polyval cs x := by
  rw [polyval, List.foldl_cons, polyval_foldl]
  ring

omit [DecidableEq K] in
theorem polyval_nil (x : K) : polyval [] x = 0 := rfl

omit [DecidableEq K] in
theorem polyval_zeros (n : Nat) (cs : List K) (x : K) : polyval (List.replicate n 0 ++ cs) x = polyval cs x := by
  induction n with
  | zero => rfl
  | succ n ih =>
    rw [List.replicate_succ, List.cons_append, polyval_cons, ih]
    ring

theorem polyval_dropWhile (cs : List K) (x : K) : polyval (cs.dropWhile (· = 0)) x = polyval cs x := by
  induction cs with
  | nil => rfl
  | cons c cs ih =>
    by_cases hc : c = 0
    · rw [List.dropWhile_cons_of_pos (by simpa using hc), ih, polyval_cons, hc]
      ring
    · rw [List.dropWhile_cons_of_neg (by simpa using hc)]

omit [DecidableEq K] in
theorem polyval_zipWith (g : K → K → K) (u v : K) (hg : ∀ a b, g a b = u * a + v * b) (a b : List K)
    (h : a.length = b.length) (x : K) : polyval (List.zipWith g a b) x = u * polyval a x + v * polyval b x := by
  induction a generalizing b with
  | nil =>
    cases b with
    | nil => simp [polyval_nil]
    | cons b l => simp at h
  | cons a l ih =>
    cases b with
    | nil => simp at h
    | cons b l' =>
      have h' : l.length = l'.length := by simpa using h
      rw [List.zipWith_cons_cons, polyval_cons, polyval_cons, polyval_cons, ih l' h', hg, List.length_zipWith, ← h',
        Nat.min_self]
      ring

omit [DecidableEq K] in
theorem polyval_polyop (g : K → K → K) (u v : K) (hg : ∀ a b, g a b = u * a + v * b) (a b : List K) (x : K) :
    polyval (polyop g a b) x = u * polyval a x + v * polyval b x := by
  unfold polyop
  rw [polyval_zipWith g u v hg, polyval_zeros, polyval_zeros]
  simp
  omega

omit [DecidableEq K] in
theorem polyop_ne_nil (g : K → K → K) (a b : List K) (h : a ≠ []) : polyop g a b ≠ [] := by
  intro hcon
  have := congrArg List.length hcon
  have h' : a.length ≠ 0 := by simpa using h
  simp only [polyop, List.length_zipWith, List.length_append, List.length_replicate, List.length_nil] at this
  omega

omit [DecidableEq K] in
theorem polyval_append (a b : List K) (x : K) : polyval (a ++ b) x = polyval a x * x ^ b.length + polyval b x := by
  rw [polyval, List.foldl_append, polyval_foldl]
  rfl

omit [DecidableEq K] in
theorem polyval_changeLast (g : K → K) (d : K) (hg : ∀ c, g c = c + d) (cs : List K) (h : cs ≠ []) (x : K) :
    polyval (changeLast g cs) x = polyval cs x + d := by
  have e : cs = cs.dropLast ++ [cs.getLast h] := (List.dropLast_append_getLast h).symm
  unfold changeLast
  rw [List.getLast?_eq_getLast_of_ne_nil h]
  show polyval (cs.dropLast ++ [g (cs.getLast h)]) x = _
  conv_rhs => rw [e]
  rw [polyval_append, polyval_append, polyval_cons, polyval_cons, hg]
  simp only [List.length_nil, List.length_cons, polyval_nil]
  ring

omit [DecidableEq K] in
theorem changeLast_ne_nil (g : K → K) (cs : List K) (h : cs ≠ []) : changeLast g cs ≠ [] := by
  unfold changeLast
  rw [List.getLast?_eq_getLast_of_ne_nil h]
  simp

omit [DecidableEq K] in
theorem polyval_map_mul (w : K) (cs : List K) (x : K) : polyval (cs.map (· * w)) x = polyval cs x * w := by
  induction cs with
  | nil => simp [polyval_nil]
  | cons c cs ih =>
    rw [List.map_cons, polyval_cons, polyval_cons, ih, List.length_map]
    ring

theorem polyval_all_zero (cs : List K) (h : cs.all (· = 0) = true) (x : K) : polyval cs x = 0 := by
  induction cs with
  | nil => rfl
  | cons c cs ih =>
    rw [List.all_cons, Bool.and_eq_true] at h
    rw [polyval_cons, ih h.2, of_decide_eq_true h.1]
    ring

/-! ### supporting points -/

/-- the interpolations, whose values are either zero or the value of one of the supporting points, so that arithmetic
with the values of the supporting points is arithmetic with the interpolated values -/
def pointwise (m : Mode) : Prop := m = .zero ∨ m = .stairsLin ∨ m = .stairsLog

theorem lookup_index {β : Type} (x : α) (xs : List α) (hx : x ∈ xs) :
    ∃ k, k < xs.length ∧ ∀ ys : List β, xs.length = ys.length → value (Interpolation.lookup x xs ys) = ys[k]? := by
  obtain ⟨i, h1, h2, h3⟩ := Interpolation.exists_first x xs hx
  refine ⟨i, h1, ?_⟩
  intro ys hys
  rw [Interpolation.lookup_first x xs ys hys i _ h2 (List.getElem?_eq_getElem (by omega)) h3]
  rw [value, List.getElem?_eq_getElem]

theorem stairs_index {β : Type} (x : α) (xs : List α) (h0 : 0 < xs.length) :
    ∃ k, k < xs.length ∧ ∀ ys : List β, xs.length = ys.length → value (Interpolation.stairs x xs ys) = ys[k]? := by
  obtain ⟨j, hj⟩ : ∃ j, j = (if xs.length ≤ (xs.takeWhile (· < x)).length then (xs.takeWhile (· < x)).length - 1
    else (xs.takeWhile (· < x)).length) := ⟨_, rfl⟩
  have hlt : j < xs.length := by
    have := Interpolation.takeWhile_length_le (· < x) xs
    split at hj <;> omega
  have hidx : ∀ ys : List β, xs.length = ys.length → Interpolation.stairsIndex x xs ys = j := by
    intro ys hys
    rw [Interpolation.stairsIndex, ← hys, hj]
  by_cases hc : |x - xs[j - 1]| < |x - xs[j]|
  · refine ⟨j - 1, by omega, ?_⟩
    intro ys hys
    have hj0 : j ≠ 0 := by
      intro h
      subst h
      exact absurd hc (lt_irrefl _)
    unfold Interpolation.stairs
    rw [hidx ys hys, Interpolation.item_nat xs (j - 1) (by omega), Interpolation.item_nat xs j hlt]
    show value (if |x - xs[j - 1]| < |x - xs[j]| then _ else _) = _
    rw [if_pos hc, show ((j : Int) - 1) = ((j - 1 : Nat) : Int) by omega, Interpolation.item_nat ys (j - 1) (by omega)]
    rw [value, List.getElem?_eq_getElem]
  · refine ⟨j, hlt, ?_⟩
    intro ys hys
    unfold Interpolation.stairs
    rw [hidx ys hys, Interpolation.item_nat xs (j - 1) (by omega), Interpolation.item_nat xs j hlt]
    show value (if |x - xs[j - 1]| < |x - xs[j]| then _ else _) = _
    rw [if_neg hc, Interpolation.item_nat ys j (by omega)]
    rw [value, List.getElem?_eq_getElem]

theorem stairsLog_index {β : Type} (log2 : α → α) (x : α) (xs : List α) (h0 : 0 < xs.length) :
    ∃ k, k < xs.length ∧
      ∀ ys : List β, xs.length = ys.length → value (Interpolation.stairsLogScalar log2 x xs ys) = ys[k]? := by
  obtain ⟨lo, l1, l2, l3⟩ := Interpolation.minimum_spec xs h0
  obtain ⟨hi, m1, m2, m3⟩ := Interpolation.maximum_spec xs h0
  unfold Interpolation.stairsLogScalar
  rw [l1, m1]
  by_cases c1 : x < lo
  · obtain ⟨k, hk, e⟩ := lookup_index (β := β) lo xs l2
    refine ⟨k, hk, ?_⟩
    intro ys hys
    show value (if x < lo then _ else _) = _
    rw [if_pos c1]
    exact e ys hys
  · by_cases c2 : hi < x
    · obtain ⟨k, hk, e⟩ := lookup_index (β := β) hi xs m2
      refine ⟨k, hk, ?_⟩
      intro ys hys
      show value (if x < lo then _ else if hi < x then _ else _) = _
      rw [if_neg c1, if_pos c2]
      exact e ys hys
    · obtain ⟨k, hk, e⟩ := stairs_index (β := β) (log2 x) (xs.map log2) (by simpa using h0)
      refine ⟨k, by simpa using hk, ?_⟩
      intro ys hys
      show value (if x < lo then _ else if hi < x then _ else _) = _
      rw [if_neg c1, if_neg c2]
      exact e ys (by simpa using hys)

omit [DecidableEq K] in
theorem scalar_index (log : Logs α K) (m : Mode) (hm : pointwise m) (x : α) (xs : List α) (h0 : 0 < xs.length) :
    (∃ k, k < xs.length ∧ ∀ ys : List K, xs.length = ys.length → value (Interpolation.scalar log m x xs ys) = ys[k]?) ∨
      ∀ ys : List K, xs.length = ys.length → value (Interpolation.scalar log m x xs ys) = some 0 := by
  by_cases hx : x ∈ xs
  · left
    obtain ⟨k, hk, e⟩ := lookup_index (β := K) x xs hx
    refine ⟨k, hk, ?_⟩
    intro ys hys
    unfold Interpolation.scalar Interpolation.decorateScalar
    rw [if_pos hx]
    exact e ys hys
  · unfold Interpolation.scalar Interpolation.decorateScalar
    simp only [if_neg hx]
    rcases hm with rfl | rfl | rfl
    · right
      intro ys _
      rfl
    · left
      exact stairs_index x xs h0
    · left
      exact stairsLog_index log.x x xs h0

omit [DecidableEq K] in
theorem bandsAt_index (E : Env α K) (f : α) (xs : List α) (i e : Mode) (hx : xs ≠ []) (hi : pointwise i)
    (he : pointwise e) :
    (∃ k, k < xs.length ∧ ∀ ys : List K, xs.length = ys.length → bandsAt E f xs ys i e = ys[k]?) ∨
      ∀ ys : List K, xs.length = ys.length → bandsAt E f xs ys i e = some 0 := by
  cases xs with
  | nil => exact absurd rfl hx
  | cons x l =>
    unfold bandsAt
    by_cases c : f < x ∨ (x :: l).getLast (List.cons_ne_nil x l) < f
    · simp only [if_pos c]
      exact scalar_index E.log e he f (x :: l) (by simp)
    · simp only [if_neg c]
      exact scalar_index E.log i hi f (x :: l) (by simp)

omit [DecidableEq K] in
/-- arithmetic with the supporting points is arithmetic with the interpolated values -/
theorem bandsAt_map (E : Env α K) (f : α) (xs : List α) (ys : List K) (i e : Mode) (hx : xs ≠ [])
    (hl : xs.length = ys.length) (hi : pointwise i) (he : pointwise e) (g : K → K) (hg : g 0 = 0) (y : K)
    (h : bandsAt E f xs ys i e = some y) : bandsAt E f xs (ys.map g) i e = some (g y) := by
  rcases bandsAt_index E f xs i e hx hi he with ⟨k, hk, hind⟩ | hind
  · rw [hind ys hl] at h
    rw [hind _ (by simpa using hl), List.getElem?_map, h]
    rfl
  · rw [hind ys hl] at h
    rw [hind _ (by simpa using hl), ← Option.some.inj h, hg]

omit [DecidableEq K] in
theorem bandsAt_zipWith (E : Env α K) (f : α) (xs : List α) (ys zs : List K) (i e : Mode) (hx : xs ≠ [])
    (hl : xs.length = ys.length) (hl' : xs.length = zs.length) (hi : pointwise i) (he : pointwise e) (g : K → K → K)
    (hg : g 0 0 = 0) (y z : K) (h : bandsAt E f xs ys i e = some y) (h' : bandsAt E f xs zs i e = some z) :
    bandsAt E f xs (List.zipWith g ys zs) i e = some (g y z) := by
  rcases bandsAt_index E f xs i e hx hi he with ⟨k, hk, hind⟩ | hind
  · rw [hind ys hl] at h
    rw [hind zs hl'] at h'
    rw [hind _ (by rw [List.length_zipWith]; omega), List.getElem?_zipWith, h, h']
  · rw [hind ys hl] at h
    rw [hind zs hl'] at h'
    rw [hind _ (by rw [List.length_zipWith]; omega), ← Option.some.inj h, ← Option.some.inj h', hg]

omit [DecidableEq K] in
theorem bandsAt_zeros (E : Env α K) (f : α) (xs : List α) (ys : List K) (i e : Mode) (hx : xs ≠ [])
    (hl : xs.length = ys.length) (hi : pointwise i) (he : pointwise e) (hz : ∀ y ∈ ys, y = 0) (y : K)
    (h : bandsAt E f xs ys i e = some y) : y = 0 := by
  rcases bandsAt_index E f xs i e hx hi he with ⟨k, hk, hind⟩ | hind
  · rw [hind ys hl] at h
    exact hz y (List.mem_of_getElem? h)
  · rw [hind ys hl] at h
    exact (Option.some.inj h).symm

end Filter
end Verif
