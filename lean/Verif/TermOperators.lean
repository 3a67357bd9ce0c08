import Verif.TermPlain

/-
The proof, that the operators, the factories and `invert_transform` preserve the meaning of plain terms.
-/

namespace Verif
namespace Filter

open Interpolation (Mode Logs)

variable {α K : Type} [Field α] [LinearOrder α] [Field K] [DecidableEq K] [Module α K]

theorem mkBands_eq (xs : List α) (ys : List K) (i e : Mode) (h : e ≠ .stairsLog) :
    mkBands xs ys i e = .bands xs ys i e := by
  rw [mkBands, if_neg h]

theorem bandsOp_sound {E : Env α K} {d : Bool} {g : K → K → K} (hg : g 0 0 = 0) {xs : List α} {ys ys' : List K}
    {i e : Mode} {r : Term α K} (h1 : Plain d (.bands xs ys i e)) (h2 : Plain d (.bands xs ys' i e))
    (h : bandsOp g xs ys i e ys' = .ok r) :
    Plain d r ∧ ∀ f t x y, eval E f t (.bands xs ys i e) = some x → eval E f t (.bands xs ys' i e) = some y →
      eval E f t r = some (g x y) := by
  cases h1 with
  | bands _ _ _ _ hx hs hl hi he hne =>
    cases h2 with
    | bands _ _ _ _ _ _ hl' _ _ _ =>
      unfold bandsOp broadcast at h
      rw [if_pos (hl.symm.trans hl')] at h
      have h : Except.ok (Term.bands xs (List.zipWith g ys ys') i e) = (.ok r : Py (Term α K)) := by
        rw [← h]
        show _ = Except.ok (mkBands xs _ i e)
        rw [mkBands_eq _ _ _ _ hne]
      cases h
      refine ⟨.bands _ _ _ _ hx hs (by rw [List.length_zipWith]; omega) hi he hne, ?_⟩
      intro f t x y h3 h4
      rw [eval_bands] at *
      exact bandsAt_zipWith E f xs ys ys' i e hx hl hl' hi he g hg x y h3 h4

theorem bandsMap_sound {E : Env α K} {d : Bool} {g : K → K} (hg : g 0 = 0) {xs : List α} {ys : List K}
    {i e : Mode} (h1 : Plain d (.bands xs ys i e)) :
    Plain d (mkBands xs (ys.map g) i e) ∧ ∀ f t x, eval E f t (.bands xs ys i e) = some x →
      eval E f t (mkBands xs (ys.map g) i e) = some (g x) := by
  cases h1 with
  | bands _ _ _ _ hx hs hl hi he hne =>
    rw [mkBands_eq _ _ _ _ hne]
    refine ⟨.bands _ _ _ _ hx hs (by simpa using hl) hi he hne, ?_⟩
    intro f t x h3
    rw [eval_bands] at *
    exact bandsAt_map E f xs ys i e hx hl hi he g hg x h3

theorem dropZeros_sound {E : Env α K} (hE : E.Lawful) {n : Nat} {d : Bool} {l r : List (Term α K)}
    (hl : ∀ a ∈ l, Plain d a) (h : dropZeros n l = .ok r) :
    (∀ a ∈ r, Plain d a) ∧ ∀ f t xs, List.Forall₂ (fun a x => eval E f t a = some x) l xs →
      ∃ ys, List.Forall₂ (fun a x => eval E f t a = some x) r ys ∧ xs.sum = ys.sum := by
  induction l generalizing r with
  | nil =>
    cases h
    refine ⟨by simp, ?_⟩
    intro f t xs h
    exact ⟨xs, h, rfl⟩
  | cons a l ih =>
    obtain ⟨z, h1, h⟩ := bind_ok h
    obtain ⟨r', h2, h⟩ := bind_ok h
    obtain ⟨p, q⟩ := ih (fun a ha => hl a (List.mem_cons_of_mem _ ha)) h2
    cases z with
    | true =>
      cases h
      refine ⟨p, ?_⟩
      intro f t xs hxs
      cases hxs with
      | cons e1 e2 =>
        obtain ⟨ys, h3, h4⟩ := q f t _ e2
        refine ⟨ys, h3, ?_⟩
        rw [List.sum_cons, (checks_sound hE n).1 d a (hl a List.mem_cons_self) h1 f t _ e1, h4, zero_add]
    | false =>
      cases h
      refine ⟨?_, ?_⟩
      · intro b hb
        rcases List.mem_cons.mp hb with rfl | hb
        · exact hl b List.mem_cons_self
        · exact p b hb
      · intro f t xs hxs
        cases hxs with
        | cons e1 e2 =>
          obtain ⟨ys, h3, h4⟩ := q f t _ e2
          exact ⟨_, .cons e1 h3, by rw [List.sum_cons, List.sum_cons, h4]⟩

theorem quotientFactory_sound {E : Env α K} (hE : E.Lawful) {n : Nat} {d : Bool} {a b r : Term α K} {tr : Bool}
    (ha : Plain d a) (hb : Plain d b) (ht : d = true → tr = false) (h : quotientFactory n a b tr = .ok r) :
    Plain d r ∧ ∀ f t x, eval E f t (.quotient a b tr) = some x → eval E f t r = some x := by
  obtain ⟨z, h1, h⟩ := bind_ok h
  cases z with
  | true =>
    cases h
    refine ⟨.constant 0, ?_⟩
    intro f t x hx
    obtain ⟨u, v, h2, h3, h4, rfl⟩ := (eval_quotient ..).mp hx
    rw [(checks_sound hE n).1 d a ha h1 f _ u h2, zero_div, eval_constant]
  | false =>
    obtain ⟨q, h2, h⟩ := bind_ok h
    cases q with
    | true =>
      have h : Term.constant 1 = r := ok_inj h
      subst h
      refine ⟨.constant 1, ?_⟩
      intro f t x hx
      obtain ⟨u, v, h3, h4, h5, rfl⟩ := (eval_quotient ..).mp hx
      rw [(checks_sound hE n).2 d a b ha hb h2 f _ u v h3 h4, div_self h5, eval_constant]
    | false =>
      cases h
      exact ⟨.quotient a b tr ha hb ht, fun f t x hx => hx⟩

theorem abs_sound {E : Env α K} (hE : E.Lawful) {d : Bool} {a : Term α K} (ha : Plain d a) :
    Plain d (a.abs E) ∧ ∀ f t x, eval E f t a = some x → eval E f t (a.abs E) = some (E.abs x) := by
  have raw : ∀ {b : Term α K}, Plain d b → Plain d (.absolute b false) ∧
      ∀ f t x, eval E f t b = some x → eval E f t (.absolute b false) = some (E.abs x) := by
    intro b hb
    refine ⟨.absolute b false hb (fun _ => rfl), ?_⟩
    intro f t x hx
    rw [eval_absolute]
    exact ⟨x, by simpa using hx, rfl⟩
  cases ha with
  | constant v =>
    refine ⟨.constant _, ?_⟩
    intro f t x hx
    rw [eval_constant] at hx
    rw [Term.abs, eval_constant, hx]
  | bands xs ys i e hx hs hl hi he hne => exact bandsMap_sound hE.abs_zero (.bands xs ys i e hx hs hl hi he hne)
  | absolute v tr hv ht =>
    refine ⟨.absolute v tr hv ht, ?_⟩
    intro f t x hx
    rw [Term.abs]
    obtain ⟨y, hy, rfl⟩ := (eval_absolute ..).mp hx
    rw [eval_absolute]
    exact ⟨y, hy, hE.abs_abs y⟩
  | polynomial cs tr h ht => exact raw (.polynomial cs tr h ht)
  | exp c tr ht => exact raw (.exp c tr ht)
  | negative v tr hv ht => exact raw (.negative v tr hv ht)
  | sum l tr hl ht => exact raw (.sum l tr hl ht)
  | difference m s hm hs hd => exact raw (.difference m s hm hs hd)
  | product l tr hl ht => exact raw (.product l tr hl ht)
  | quotient m s tr hm hs ht => exact raw (.quotient m s tr hm hs ht)

theorem sum_pair {E : Env α K} {d : Bool} {a b : Term α K} (ha : Plain d a) (hb : Plain d b) :
    Plain d (.sum [a, b] false) ∧ ∀ f t x y, eval E f t a = some x → eval E f t b = some y →
      eval E f t (.sum [a, b] false) = some (x + y) := by
  refine ⟨.sum _ _ (by simp [ha, hb]) (fun _ => rfl), ?_⟩
  intro f t x y hx hy
  rw [eval_sum]
  exact ⟨[x, y], .cons (by simpa using hx) (.cons (by simpa using hy) .nil), by simp⟩

theorem product_pair {E : Env α K} {d : Bool} {a b : Term α K} (ha : Plain d a) (hb : Plain d b) :
    Plain d (.product [a, b] false) ∧ ∀ f t x y, eval E f t a = some x → eval E f t b = some y →
      eval E f t (.product [a, b] false) = some (x * y) := by
  refine ⟨.product _ _ (by simp [ha, hb]) (fun _ => rfl), ?_⟩
  intro f t x y hx hy
  rw [eval_product _ _ _ _ (by simp)]
  exact ⟨[x, y], .cons (by simpa using hx) (.cons (by simpa using hy) .nil), by simp⟩

theorem sum_append {E : Env α K} {d : Bool} {l l' : List (Term α K)} {tr : Bool} {f : α} {t : Bool} {x y : K}
    (hx : eval E f t (.sum l tr) = some x) (hy : eval E f t (.sum l' tr) = some y) :
    eval E f t (.sum (l ++ l') tr) = some (x + y) := by
  obtain ⟨xs, h1, rfl⟩ := (eval_sum ..).mp hx
  obtain ⟨ys, h2, rfl⟩ := (eval_sum ..).mp hy
  rw [eval_sum]
  exact ⟨xs ++ ys, List.rel_append h1 h2, by simp⟩

theorem sum_single {E : Env α K} {a : Term α K} {f : α} {t : Bool} {x : K} (hx : eval E f t a = some x) :
    eval E f t (.sum [a] false) = some x := by
  rw [eval_sum]
  exact ⟨[x], .cons (by simpa using hx) .nil, by simp⟩

theorem product_append {E : Env α K} {l l' : List (Term α K)} (hl : l ≠ []) (hl' : l' ≠ []) {tr : Bool} {f : α}
    {t : Bool} {x y : K} (hx : eval E f t (.product l tr) = some x) (hy : eval E f t (.product l' tr) = some y) :
    eval E f t (.product (l ++ l') tr) = some (x * y) := by
  obtain ⟨xs, h1, rfl⟩ := (eval_product _ _ _ _ hl _).mp hx
  obtain ⟨ys, h2, rfl⟩ := (eval_product _ _ _ _ hl' _).mp hy
  rw [eval_product _ _ _ _ (by simp [hl])]
  exact ⟨xs ++ ys, List.rel_append h1 h2, by simp⟩

theorem product_single {E : Env α K} {a : Term α K} {f : α} {t : Bool} {x : K} (hx : eval E f t a = some x) :
    eval E f t (.product [a] false) = some x := by
  rw [eval_product _ _ _ _ (by simp)]
  exact ⟨[x], .cons (by simpa using hx) .nil, by simp⟩

/-- the specification of all functions, that are recursive -/
structure Sound (E : Env α K) (n : Nat) : Prop where
  inv : ∀ a r, Plain false a → invertTransform E n a = .ok r →
    Plain false r ∧ ∀ f t x, eval E f (!t) a = some x → eval E f t r = some x
  absF : ∀ d v tr r, Plain d v → (d = true → tr = false) → absoluteFactory E n v tr = .ok r →
    Plain d r ∧ ∀ f t x, eval E f t (.absolute v tr) = some x → eval E f t r = some x
  negF : ∀ d v tr r, Plain d v → (d = true → tr = false) → negativeFactory E n v tr = .ok r →
    Plain d r ∧ ∀ f t x, eval E f t (.negative v tr) = some x → eval E f t r = some x
  sumF : ∀ d l tr r, (∀ a ∈ l, Plain d a) → (d = true → tr = false) → sumFactory E n l tr = .ok r →
    Plain d r ∧ ∀ f t x, eval E f t (.sum l tr) = some x → eval E f t r = some x
  diffF : ∀ m s r, Plain true m → Plain true s → differenceFactory E n m s false = .ok r →
    Plain true r ∧ ∀ f t x, eval E f t (.difference m s false) = some x → eval E f t r = some x
  prodF : ∀ d l tr r, (∀ a ∈ l, Plain d a) → (d = true → tr = false) → productFactory E n l tr = .ok r →
    Plain d r ∧ ∀ f t x, eval E f t (.product l tr) = some x → eval E f t r = some x
  neg : ∀ d a r, Plain d a → negate E n a = .ok r →
    Plain d r ∧ ∀ f t x, eval E f t a = some x → eval E f t r = some (-x)
  add : ∀ d a b r, Plain d a → Plain d b → add E n a b = .ok r →
    Plain d r ∧ ∀ f t x y, eval E f t a = some x → eval E f t b = some y → eval E f t r = some (x + y)
  mul : ∀ d a b r, Plain d a → Plain d b → mul E n a b = .ok r →
    Plain d r ∧ ∀ f t x y, eval E f t a = some x → eval E f t b = some y → eval E f t r = some (x * y)

theorem inv_list {E : Env α K} {n : Nat} (S : Sound E n) {l r : List (Term α K)} (hl : ∀ a ∈ l, Plain false a)
    (h : l.mapM (invertTransform E n) = .ok r) :
    (∀ a ∈ r, Plain false a) ∧ r.length = l.length ∧ ∀ f t xs, List.Forall₂ (fun a x => eval E f (!t) a = some x) l xs →
      List.Forall₂ (fun a x => eval E f t a = some x) r xs := by
  replace h := mapM_forall2 h
  induction h with
  | nil => exact ⟨by simp, rfl, fun f t xs h => by cases h; exact .nil⟩
  | cons e1 e2 ih =>
    obtain ⟨p, q, s⟩ := ih (fun a ha => hl a (List.mem_cons_of_mem _ ha))
    obtain ⟨p1, s1⟩ := S.inv _ _ (hl _ List.mem_cons_self) e1
    refine ⟨?_, by simp [q], ?_⟩
    · intro b hb
      rcases List.mem_cons.mp hb with rfl | hb
      · exact p1
      · exact p b hb
    · intro f t xs hxs
      cases hxs with
      | cons c1 c2 => exact .cons (s1 f t _ c1) (s f t _ c2)

theorem xor_not (t tr : Bool) : (t ^^ !tr) = ((!t) ^^ tr) := by
  cases t <;> cases tr <;> rfl

theorem flag_false {d : Bool} (ht : d = true → true = false) : d = false := by
  cases d with
  | false => rfl
  | true => exact absurd (ht rfl) (by simp)

theorem sound_inv {E : Env α K} (hE : E.Lawful) {n : Nat} (S : Sound E n) (a r : Term α K) (ha : Plain false a)
    (h : invertTransform E (n + 1) a = .ok r) :
    Plain false r ∧ ∀ f t x, eval E f (!t) a = some x → eval E f t r = some x := by
  cases ha with
  | constant v =>
    cases h
    refine ⟨.constant v, ?_⟩
    intro f t x hx
    rw [eval_constant] at *
    exact hx
  | polynomial cs tr hne =>
    have h : polynomialFactory cs (!tr) = r := ok_inj h
    have key : ∀ f t x, eval E f (!t) (.polynomial cs tr) = some x →
        ∃ s, sValue E f (t ^^ !tr) = some s ∧ x = polyval (cs.dropWhile (· = 0)) s := by
      intro f t x hx
      obtain ⟨s, h1, h2⟩ := (eval_polynomial ..).mp hx
      exact ⟨s, by rw [xor_not]; exact h1, by rw [polyval_dropWhile]; exact h2⟩
    unfold polynomialFactory at h
    generalize cs.dropWhile (· = 0) = cs' at h key
    match cs', h with
    | [], h =>
      subst h
      refine ⟨.constant 0, ?_⟩
      intro f t x hx
      obtain ⟨s, h1, rfl⟩ := key f t x hx
      rw [eval_constant, polyval_nil]
    | [c], h =>
      subst h
      refine ⟨.constant c, ?_⟩
      intro f t x hx
      obtain ⟨s, h1, rfl⟩ := key f t x hx
      rw [eval_constant, polyval_cons, polyval_nil]
      simp
    | c :: c' :: cs', h =>
      subst h
      refine ⟨.polynomial _ _ (by simp) (fun h => absurd h (by simp)), ?_⟩
      intro f t x hx
      rw [eval_polynomial]
      exact key f t x hx
  | exp c tr =>
    have h : expFactory c (!tr) = r := ok_inj h
    unfold expFactory at h
    by_cases hc : c = 0
    · rw [if_pos hc] at h
      subst h
      refine ⟨.constant 1, ?_⟩
      intro f t x hx
      obtain ⟨s, h1, rfl⟩ := (eval_exp ..).mp hx
      rw [eval_constant, hc, zero_mul, hE.exp_zero]
    · rw [if_neg hc] at h
      subst h
      refine ⟨.exp c _ (fun h => absurd h (by simp)), ?_⟩
      intro f t x hx
      obtain ⟨s, h1, h2⟩ := (eval_exp ..).mp hx
      rw [eval_exp]
      exact ⟨s, by rw [xor_not]; exact h1, h2⟩
  | bands xs ys i e hx hs hl hi he hne =>
    cases h
    refine ⟨.bands xs ys i e hx hs hl hi he hne, ?_⟩
    intro f t x hx
    rw [eval_bands] at *
    exact hx
  | absolute v tr hv =>
    obtain ⟨p, q⟩ := S.absF false v (!tr) r hv (fun h => absurd h (by simp)) h
    refine ⟨p, fun f t x hx => q f t x ?_⟩
    rw [eval_absolute] at *
    rw [xor_not]
    exact hx
  | negative v tr hv =>
    obtain ⟨p, q⟩ := S.negF false v (!tr) r hv (fun h => absurd h (by simp)) h
    refine ⟨p, fun f t x hx => q f t x ?_⟩
    rw [eval_negative] at *
    rw [xor_not]
    exact hx
  | sum l tr hl =>
    obtain ⟨p, q⟩ := S.sumF false l (!tr) r hl (fun h => absurd h (by simp)) h
    refine ⟨p, fun f t x hx => q f t x ?_⟩
    rw [eval_sum] at *
    rw [xor_not]
    exact hx
  | difference m s hm hs hd => cases hd
  | product l tr hl =>
    obtain ⟨p, q⟩ := S.prodF false l (!tr) r hl (fun h => absurd h (by simp)) h
    refine ⟨p, fun f t x hx => q f t x ?_⟩
    by_cases h0 : l = []
    · subst h0
      rw [eval_product_nil] at *
      exact hx
    · rw [eval_product _ _ _ _ h0] at *
      rw [xor_not]
      exact hx
  | quotient m s tr hm hs =>
    obtain ⟨p, q⟩ := quotientFactory_sound hE hm hs (fun h => absurd h (by simp)) h
    refine ⟨p, fun f t x hx => q f t x ?_⟩
    rw [eval_quotient] at *
    rw [xor_not]
    exact hx

theorem sound_absF {E : Env α K} (hE : E.Lawful) {n : Nat} (S : Sound E n) (d : Bool) (v : Term α K) (tr : Bool)
    (r : Term α K) (hv : Plain d v) (ht : d = true → tr = false) (h : absoluteFactory E (n + 1) v tr = .ok r) :
    Plain d r ∧ ∀ f t x, eval E f t (.absolute v tr) = some x → eval E f t r = some x := by
  cases tr with
  | false =>
    cases h
    obtain ⟨p, q⟩ := abs_sound hE hv
    refine ⟨p, fun f t x hx => ?_⟩
    obtain ⟨y, hy, rfl⟩ := (eval_absolute ..).mp hx
    exact q f t y (by simpa using hy)
  | true =>
    have hd := flag_false ht
    subst hd
    obtain ⟨w, h1, h⟩ := bind_ok h
    cases h
    obtain ⟨p, q⟩ := S.inv v w hv h1
    obtain ⟨p2, q2⟩ := abs_sound hE p
    refine ⟨p2, fun f t x hx => ?_⟩
    obtain ⟨y, hy, rfl⟩ := (eval_absolute ..).mp hx
    exact q2 f t y (q f t y (by simpa using hy))

theorem sound_negF {E : Env α K} {n : Nat} (S : Sound E n) (d : Bool) (v : Term α K) (tr : Bool)
    (r : Term α K) (hv : Plain d v) (ht : d = true → tr = false) (h : negativeFactory E (n + 1) v tr = .ok r) :
    Plain d r ∧ ∀ f t x, eval E f t (.negative v tr) = some x → eval E f t r = some x := by
  cases tr with
  | false =>
    obtain ⟨p, q⟩ := S.neg d v r hv h
    refine ⟨p, fun f t x hx => ?_⟩
    have := q f t (-x) (by simpa using (eval_negative ..).mp hx)
    rwa [neg_neg] at this
  | true =>
    have hd := flag_false ht
    subst hd
    obtain ⟨w, h1, h⟩ := bind_ok h
    obtain ⟨p, q⟩ := S.inv v w hv h1
    obtain ⟨p2, q2⟩ := S.neg false w r p h
    refine ⟨p2, fun f t x hx => ?_⟩
    have := q2 f t (-x) (q f t (-x) (by simpa using (eval_negative ..).mp hx))
    rwa [neg_neg] at this

theorem sound_sumF {E : Env α K} (hE : E.Lawful) {n : Nat} (S : Sound E n) (d : Bool) (l : List (Term α K)) (tr : Bool)
    (r : Term α K) (hl : ∀ a ∈ l, Plain d a) (ht : d = true → tr = false) (h : sumFactory E (n + 1) l tr = .ok r) :
    Plain d r ∧ ∀ f t x, eval E f t (.sum l tr) = some x → eval E f t r = some x := by
  obtain ⟨l', h1, h⟩ := bind_ok h
  obtain ⟨p, q⟩ := dropZeros_sound hE hl h1
  have key : ∀ f t x, eval E f t (.sum l tr) = some x → eval E f t (.sum l' tr) = some x := by
    intro f t x hx
    obtain ⟨xs, h2, rfl⟩ := (eval_sum ..).mp hx
    obtain ⟨ys, h3, h4⟩ := q f _ xs h2
    rw [eval_sum]
    exact ⟨ys, h3, h4⟩
  suffices Plain d r ∧ ∀ f t x, eval E f t (.sum l' tr) = some x → eval E f t r = some x from
    ⟨this.1, fun f t x hx => this.2 f t x (key f t x hx)⟩
  clear key q h1 hl
  match l', p, h with
  | [], p, h =>
    cases h
    refine ⟨.constant 0, fun f t x hx => ?_⟩
    obtain ⟨xs, h2, rfl⟩ := (eval_sum ..).mp hx
    cases h2
    rw [eval_constant]
    rfl
  | [a], p, h =>
    have ha := p a (by simp)
    cases tr with
    | false =>
      cases h
      refine ⟨ha, fun f t x hx => ?_⟩
      obtain ⟨xs, h2, rfl⟩ := (eval_sum ..).mp hx
      cases h2 with
      | cons c1 c2 =>
        cases c2
        simpa using c1
    | true =>
      have hd := flag_false ht
      subst hd
      obtain ⟨p2, q2⟩ := S.inv a r ha h
      refine ⟨p2, fun f t x hx => ?_⟩
      obtain ⟨xs, h2, rfl⟩ := (eval_sum ..).mp hx
      cases h2 with
      | cons c1 c2 =>
        cases c2
        exact q2 f t _ (by simpa using c1)
  | [a, b], p, h =>
    have ha := p a (by simp)
    have hb := p b (by simp)
    cases tr with
    | false =>
      obtain ⟨p2, q2⟩ := S.add d a b r ha hb h
      refine ⟨p2, fun f t x hx => ?_⟩
      obtain ⟨xs, h2, rfl⟩ := (eval_sum ..).mp hx
      cases h2 with
      | cons c1 c2 =>
        cases c2 with
        | cons c2 c3 =>
          cases c3
          simpa using q2 f t _ _ (by simpa using c1) (by simpa using c2)
    | true =>
      have hd := flag_false ht
      subst hd
      obtain ⟨a', e1, h⟩ := bind_ok h
      obtain ⟨b', e2, h⟩ := bind_ok h
      obtain ⟨pa, qa⟩ := S.inv a a' ha e1
      obtain ⟨pb, qb⟩ := S.inv b b' hb e2
      obtain ⟨p2, q2⟩ := S.add false a' b' r pa pb h
      refine ⟨p2, fun f t x hx => ?_⟩
      obtain ⟨xs, h2, rfl⟩ := (eval_sum ..).mp hx
      cases h2 with
      | cons c1 c2 =>
        cases c2 with
        | cons c2 c3 =>
          cases c3
          simpa using q2 f t _ _ (qa f t _ (by simpa using c1)) (qb f t _ (by simpa using c2))
  | a :: b :: c :: l', p, h =>
    cases h
    exact ⟨.sum _ _ p ht, fun f t x hx => hx⟩

theorem sound_diffF {E : Env α K} (hE : E.Lawful) {n : Nat} (S : Sound E n) (m s r : Term α K) (hm : Plain true m)
    (hs : Plain true s) (h : differenceFactory E (n + 1) m s false = .ok r) :
    Plain true r ∧ ∀ f t x, eval E f t (.difference m s false) = some x → eval E f t r = some x := by
  obtain ⟨zs, h1, h⟩ := bind_ok h
  cases zs with
  | true =>
    obtain ⟨zm, h2, h⟩ := bind_ok h
    cases zm with
    | true =>
      cases h
      refine ⟨.constant 0, fun f t x hx => ?_⟩
      obtain ⟨y, z, e1, e2, rfl⟩ := (eval_difference ..).mp hx
      rw [eval_constant, (checks_sound hE n).1 _ m hm h2 f _ y e1, (checks_sound hE n).1 _ s hs h1 f _ z e2, sub_self]
    | false =>
      cases h
      refine ⟨hm, fun f t x hx => ?_⟩
      obtain ⟨y, z, e1, e2, rfl⟩ := (eval_difference ..).mp hx
      rw [(checks_sound hE n).1 _ s hs h1 f _ z e2, sub_zero]
      simpa using e1
  | false =>
    obtain ⟨zm, h2, h⟩ := bind_ok h
    cases zm with
    | true =>
      obtain ⟨p, q⟩ := S.neg true s r hs h
      refine ⟨p, fun f t x hx => ?_⟩
      obtain ⟨y, z, e1, e2, rfl⟩ := (eval_difference ..).mp hx
      rw [(checks_sound hE n).1 _ m hm h2 f _ y e1, zero_sub]
      exact q f t z (by simpa using e2)
    | false =>
      obtain ⟨q, h3, h⟩ := bind_ok h
      cases q with
      | true =>
        have h : Term.constant 0 = r := ok_inj h
        subst h
        refine ⟨.constant 0, fun f t x hx => ?_⟩
        obtain ⟨y, z, e1, e2, rfl⟩ := (eval_difference ..).mp hx
        rw [eval_constant, (checks_sound hE n).2 _ m s hm hs h3 f _ y z e1 e2, sub_self]
      | false =>
        cases h
        exact ⟨.difference m s hm hs rfl, fun f t x hx => hx⟩

theorem sound_prodF {E : Env α K} (hE : E.Lawful) {n : Nat} (S : Sound E n) (d : Bool) (l : List (Term α K)) (tr : Bool)
    (r : Term α K) (hl : ∀ a ∈ l, Plain d a) (ht : d = true → tr = false) (h : productFactory E (n + 1) l tr = .ok r) :
    Plain d r ∧ ∀ f t x, eval E f t (.product l tr) = some x → eval E f t r = some x := by
  obtain ⟨z, h1, h⟩ := bind_ok h
  cases z with
  | true =>
    cases h
    refine ⟨.constant 0, fun f t x hx => ?_⟩
    rw [eval_constant]
    by_cases h0 : l = []
    · subst h0
      rw [eval_product_nil] at hx
      exact (Option.some.inj hx).symm
    · rw [if_neg (by simpa using h0)] at h1
      obtain ⟨xs, h2, rfl⟩ := (eval_product _ _ _ _ h0 _).mp hx
      obtain ⟨a, ha, h3⟩ := anyM_true h1
      exact prod_zero_of_forall2 h2 ⟨a, ha, fun y hy => (checks_sound hE n).1 d a (hl a ha) h3 f _ y hy⟩
  | false =>
    match l, hl, h1, h with
    | [], hl, h1, h => cases h1
    | [a], hl, h1, h =>
      have ha := hl a (by simp)
      cases tr with
      | false =>
        cases h
        refine ⟨ha, fun f t x hx => ?_⟩
        obtain ⟨xs, h2, rfl⟩ := (eval_product _ _ _ _ (by simp) _).mp hx
        cases h2 with
        | cons c1 c2 =>
          cases c2
          simpa using c1
      | true =>
        have hd := flag_false ht
        subst hd
        obtain ⟨p2, q2⟩ := S.inv a r ha h
        refine ⟨p2, fun f t x hx => ?_⟩
        obtain ⟨xs, h2, rfl⟩ := (eval_product _ _ _ _ (by simp) _).mp hx
        cases h2 with
        | cons c1 c2 =>
          cases c2
          rw [List.prod_singleton]
          exact q2 f t _ (by simpa using c1)
    | [a, b], hl, h1, h =>
      have ha := hl a (by simp)
      have hb := hl b (by simp)
      cases tr with
      | false =>
        obtain ⟨p2, q2⟩ := S.mul d a b r ha hb h
        refine ⟨p2, fun f t x hx => ?_⟩
        obtain ⟨xs, h2, rfl⟩ := (eval_product _ _ _ _ (by simp) _).mp hx
        cases h2 with
        | cons c1 c2 =>
          cases c2 with
          | cons c2 c3 =>
            cases c3
            simpa using q2 f t _ _ (by simpa using c1) (by simpa using c2)
      | true =>
        have hd := flag_false ht
        subst hd
        obtain ⟨a', e1, h⟩ := bind_ok h
        obtain ⟨b', e2, h⟩ := bind_ok h
        obtain ⟨pa, qa⟩ := S.inv a a' ha e1
        obtain ⟨pb, qb⟩ := S.inv b b' hb e2
        obtain ⟨p2, q2⟩ := S.mul false a' b' r pa pb h
        refine ⟨p2, fun f t x hx => ?_⟩
        obtain ⟨xs, h2, rfl⟩ := (eval_product _ _ _ _ (by simp) _).mp hx
        cases h2 with
        | cons c1 c2 =>
          cases c2 with
          | cons c2 c3 =>
            cases c3
            simpa using q2 f t _ _ (qa f t _ (by simpa using c1)) (qb f t _ (by simpa using c2))
    | a :: b :: c :: l', hl, h1, h =>
      cases h
      exact ⟨.product _ _ hl ht, fun f t x hx => hx⟩

theorem pointwise_not_nonNegative {m : Mode} (h : pointwise m) : nonNegative m = false := by
  rcases h with rfl | rfl | rfl <;> rfl

theorem sound_neg {E : Env α K} {n : Nat} (S : Sound E n) (d : Bool) (a r : Term α K) (ha : Plain d a)
    (h : negate E (n + 1) a = .ok r) :
    Plain d r ∧ ∀ f t x, eval E f t a = some x → eval E f t r = some (-x) := by
  have raw : ∀ {b : Term α K}, Plain d b → Plain d (.negative b false) ∧
      ∀ f t x, eval E f t b = some x → eval E f t (.negative b false) = some (-x) := by
    intro b hb
    refine ⟨.negative b false hb (fun _ => rfl), ?_⟩
    intro f t x hx
    rw [eval_negative, neg_neg]
    simpa using hx
  cases ha with
  | constant v =>
    cases h
    refine ⟨.constant _, fun f t x hx => ?_⟩
    rw [eval_constant] at *
    rw [hx]
  | bands xs ys i e hx hs hl hi he hne =>
    replace h : (if nonNegative i ∨ nonNegative e then .ok (.difference (.constant 0) (.bands xs ys i e) false)
      else .ok (mkBands xs (ys.map fun y => -y) i e)) = (.ok r : Py (Term α K)) := h
    rw [if_neg (by rw [pointwise_not_nonNegative hi, pointwise_not_nonNegative he]; simp)] at h
    cases h
    exact bandsMap_sound neg_zero (.bands xs ys i e hx hs hl hi he hne)
  | difference m s hm hs hd =>
    cases h
    refine ⟨.difference s m hs hm hd, fun f t x hx => ?_⟩
    obtain ⟨y, z, e1, e2, rfl⟩ := (eval_difference ..).mp hx
    rw [eval_difference]
    exact ⟨z, y, e2, e1, by ring⟩
  | negative v tr hv ht =>
    cases tr with
    | false =>
      cases h
      refine ⟨hv, fun f t x hx => ?_⟩
      simpa using (eval_negative ..).mp hx
    | true =>
      have hd := flag_false ht
      subst hd
      obtain ⟨p, q⟩ := S.inv v r hv h
      refine ⟨p, fun f t x hx => q f t (-x) ?_⟩
      simpa using (eval_negative ..).mp hx
  | polynomial cs tr hne ht =>
    cases h
    exact raw (.polynomial cs tr hne ht)
  | exp c tr ht =>
    cases h
    exact raw (.exp c tr ht)
  | absolute v tr hv ht =>
    cases h
    exact raw (.absolute v tr hv ht)
  | sum l tr hl ht =>
    cases h
    exact raw (.sum l tr hl ht)
  | product l tr hl ht =>
    cases h
    exact raw (.product l tr hl ht)
  | quotient m s tr hm hs ht =>
    cases h
    exact raw (.quotient m s tr hm hs ht)

/-- inverting the transform of all elements of a transformed sum -/
theorem sum_untransform {E : Env α K} {n : Nat} (S : Sound E n) {d : Bool} {l l' : List (Term α K)} {tr : Bool}
    (hl : ∀ a ∈ l, Plain d a) (ht : d = true → tr = false)
    (h : (if tr then l.mapM (invertTransform E n) else .ok l) = .ok l') :
    (∀ a ∈ l', Plain d a) ∧ ∀ f t x, eval E f t (.sum l tr) = some x → eval E f t (.sum l' false) = some x := by
  cases tr with
  | false =>
    cases h
    exact ⟨hl, fun f t x hx => hx⟩
  | true =>
    have hd := flag_false ht
    subst hd
    obtain ⟨p, _, q⟩ := inv_list S hl h
    refine ⟨p, fun f t x hx => ?_⟩
    obtain ⟨xs, h1, rfl⟩ := (eval_sum ..).mp hx
    rw [eval_sum]
    refine ⟨xs, ?_, rfl⟩
    have := q f t xs (by simpa using h1)
    simpa using this

theorem product_untransform {E : Env α K} {n : Nat} (S : Sound E n) {d : Bool} {l l' : List (Term α K)} {tr : Bool}
    (h0 : l ≠ []) (hl : ∀ a ∈ l, Plain d a) (ht : d = true → tr = false)
    (h : (if tr then l.mapM (invertTransform E n) else .ok l) = .ok l') :
    l' ≠ [] ∧ (∀ a ∈ l', Plain d a) ∧
      ∀ f t x, eval E f t (.product l tr) = some x → eval E f t (.product l' false) = some x := by
  cases tr with
  | false =>
    cases h
    exact ⟨h0, hl, fun f t x hx => hx⟩
  | true =>
    have hd := flag_false ht
    subst hd
    obtain ⟨p, hlen, q⟩ := inv_list S hl h
    have h0' : l' ≠ [] := by
      rintro rfl
      exact h0 (by simpa using hlen.symm)
    refine ⟨h0', p, fun f t x hx => ?_⟩
    obtain ⟨xs, h1, rfl⟩ := (eval_product _ _ _ _ h0 _).mp hx
    rw [eval_product _ _ _ _ h0']
    refine ⟨xs, ?_, rfl⟩
    have := q f t xs (by simpa using h1)
    simpa using this

theorem sound_add {E : Env α K} {n : Nat} (S : Sound E n) (d : Bool) (a b r : Term α K) (ha : Plain d a)
    (hb : Plain d b) (h : add E (n + 1) a b = .ok r) :
    Plain d r ∧ ∀ f t x y, eval E f t a = some x → eval E f t b = some y → eval E f t r = some (x + y) := by
  cases ha with
  | constant v =>
    by_cases hv : v = 0
    · replace h : (if v = 0 then .ok b else _) = (.ok r : Py (Term α K)) := h
      rw [if_pos hv] at h
      cases h
      refine ⟨hb, fun f t x y hx hy => ?_⟩
      rw [eval_constant] at hx
      rw [hx, hv, zero_add]
      exact hy
    · replace h : (if v = 0 then .ok b else _) = (.ok r : Py (Term α K)) := h
      rw [if_neg hv] at h
      cases b with
      | constant w =>
        cases h
        refine ⟨.constant _, fun f t x y hx hy => ?_⟩
        rw [eval_constant] at *
        rw [hx, hy]
      | _ =>
        cases h
        exact sum_pair (.constant v) hb
  | polynomial cs tr hne ht =>
    have ha : Plain d (.polynomial cs tr : Term α K) := .polynomial cs tr hne ht
    cases b with
    | polynomial cs' tr' =>
      replace h : (if tr = tr' then .ok (.polynomial (polyop (· + ·) cs cs') tr)
        else .ok (.sum [.polynomial cs tr, .polynomial cs' tr'] false)) = (.ok r : Py (Term α K)) := h
      by_cases hc : tr = tr'
      · rw [if_pos hc] at h
        subst hc
        cases h
        refine ⟨.polynomial _ _ (polyop_ne_nil _ _ _ hne) ht, fun f t x y hx hy => ?_⟩
        obtain ⟨s, e1, rfl⟩ := (eval_polynomial ..).mp hx
        obtain ⟨s', e2, rfl⟩ := (eval_polynomial ..).mp hy
        rw [e1] at e2
        cases e2
        rw [eval_polynomial]
        exact ⟨s, e1, by rw [polyval_polyop _ 1 1 (fun a b => by ring)]; ring⟩
      · rw [if_neg hc] at h
        cases h
        exact sum_pair ha hb
    | constant w =>
      replace h : (if cs.length ≠ 0 then .ok (.polynomial (changeLast (· + w) cs) tr)
        else .ok (.constant (-w))) = (.ok r : Py (Term α K)) := h
      rw [if_pos (by simpa using hne)] at h
      cases h
      refine ⟨.polynomial _ _ (changeLast_ne_nil _ _ hne) ht, fun f t x y hx hy => ?_⟩
      obtain ⟨s, e1, rfl⟩ := (eval_polynomial ..).mp hx
      rw [eval_constant] at hy
      rw [eval_polynomial]
      exact ⟨s, e1, by rw [polyval_changeLast _ w (fun c => rfl) cs hne, hy]⟩
    | _ =>
      cases h
      exact sum_pair ha hb
  | exp c tr ht =>
    cases h
    exact sum_pair (.exp c tr ht) hb
  | bands xs ys i e hx hs hl hi he hne =>
    have ha : Plain d (.bands xs ys i e) := .bands xs ys i e hx hs hl hi he hne
    cases b with
    | bands xs' ys' i' e' =>
      replace h : (if xs = xs' ∧ i = i' ∧ e = e' then bandsOp (· + ·) xs ys i e ys'
        else .ok (.sum [.bands xs ys i e, .bands xs' ys' i' e'] false)) = (.ok r : Py (Term α K)) := h
      by_cases hc : xs = xs' ∧ i = i' ∧ e = e'
      · rw [if_pos hc] at h
        obtain ⟨rfl, rfl, rfl⟩ := hc
        exact bandsOp_sound (by simp) ha hb h
      · rw [if_neg hc] at h
        cases h
        exact sum_pair ha hb
    | _ =>
      cases h
      exact sum_pair ha hb
  | absolute v tr hv ht =>
    cases h
    exact sum_pair (.absolute v tr hv ht) hb
  | negative v tr hv ht =>
    cases h
    exact sum_pair (.negative v tr hv ht) hb
  | sum l tr hl ht =>
    by_cases h0 : l = []
    · subst h0
      cases h
      refine ⟨hb, fun f t x y hx hy => ?_⟩
      obtain ⟨xs, h1, rfl⟩ := (eval_sum ..).mp hx
      cases h1
      rw [List.sum_nil, zero_add]
      exact hy
    · have gen : ((if tr then l.mapM (invertTransform E n) else .ok l) >>= fun l => .ok (.sum (l ++ [b]) false)) =
          (.ok r : Py (Term α K)) → Plain d r ∧ ∀ f t x y, eval E f t (.sum l tr) = some x → eval E f t b = some y →
            eval E f t r = some (x + y) := by
        intro h
        obtain ⟨l', e1, h⟩ := bind_ok h
        cases h
        obtain ⟨p, q⟩ := sum_untransform S hl ht e1
        refine ⟨.sum _ _ ?_ (fun _ => rfl), fun f t x y hx hy => sum_append (d := d) (q f t x hx) (sum_single hy)⟩
        intro a ha
        rcases List.mem_append.mp ha with ha | ha
        · exact p a ha
        · rw [List.mem_singleton.mp ha]
          exact hb
      cases b with
      | sum l' tr' =>
        replace h : (if l.length = 0 then .ok (.sum l' tr') else if tr = tr' then .ok (.sum (l ++ l') tr)
          else (if tr then l.mapM (invertTransform E n) else .ok l) >>= fun l =>
            .ok (.sum (l ++ [.sum l' tr']) false)) = (.ok r : Py (Term α K)) := h
        rw [if_neg (by simpa using h0)] at h
        by_cases hc : tr = tr'
        · rw [if_pos hc] at h
          subst hc
          cases h
          cases hb with
          | sum _ _ hl' _ =>
            refine ⟨.sum _ _ ?_ ht, fun f t x y hx hy => sum_append (d := d) hx hy⟩
            intro a ha
            rcases List.mem_append.mp ha with ha | ha
            · exact hl a ha
            · exact hl' a ha
        · rw [if_neg hc] at h
          exact gen h
      | _ =>
        exact gen ((if_neg (c := l.length = 0) (by simpa using h0)).symm.trans h)
  | difference m s hm hs hd =>
    obtain ⟨m', e1, h⟩ := bind_ok (show (add E n m b >>= fun m => .ok (.difference m s false)) = .ok r from h)
    cases h
    obtain ⟨p, q⟩ := S.add d m b m' hm hb e1
    refine ⟨.difference _ _ p hs hd, fun f t x y hx hy => ?_⟩
    obtain ⟨u, v, e1, e2, rfl⟩ := (eval_difference ..).mp hx
    rw [eval_difference]
    have := q f t u y (by simpa using e1) hy
    exact ⟨u + y, v, by simpa using this, e2, by ring⟩
  | product l tr hl ht =>
    cases h
    exact sum_pair (.product l tr hl ht) hb
  | quotient m s tr hm hs ht =>
    cases h
    exact sum_pair (.quotient m s tr hm hs ht) hb

theorem sound_mul {E : Env α K} (hE : E.Lawful) {n : Nat} (S : Sound E n) (d : Bool) (a b r : Term α K) (ha : Plain d a)
    (hb : Plain d b) (h : mul E (n + 1) a b = .ok r) :
    Plain d r ∧ ∀ f t x y, eval E f t a = some x → eval E f t b = some y → eval E f t r = some (x * y) := by
  cases ha with
  | constant v =>
    replace h : (if v = 0 then .ok (.constant v) else if v = 1 then .ok b else if v = -1 then negate E n b else _) =
      (.ok r : Py (Term α K)) := h
    by_cases hv : v = 0
    · rw [if_pos hv] at h
      cases h
      refine ⟨.constant v, fun f t x y hx hy => ?_⟩
      rw [eval_constant] at *
      rw [hx, hv, zero_mul]
    · rw [if_neg hv] at h
      by_cases hv1 : v = 1
      · rw [if_pos hv1] at h
        cases h
        refine ⟨hb, fun f t x y hx hy => ?_⟩
        rw [eval_constant] at hx
        rw [hx, hv1, one_mul]
        exact hy
      · rw [if_neg hv1] at h
        by_cases hv2 : v = -1
        · rw [if_pos hv2] at h
          obtain ⟨p, q⟩ := S.neg d b r hb h
          refine ⟨p, fun f t x y hx hy => ?_⟩
          rw [eval_constant] at hx
          rw [hx, hv2, neg_one_mul]
          exact q f t y hy
        · rw [if_neg hv2] at h
          cases b with
          | constant w =>
            cases h
            refine ⟨.constant _, fun f t x y hx hy => ?_⟩
            rw [eval_constant] at *
            rw [hx, hy]
          | _ =>
            cases h
            exact product_pair (.constant v) hb
  | polynomial cs tr hne ht =>
    have ha : Plain d (.polynomial cs tr : Term α K) := .polynomial cs tr hne ht
    cases b with
    | constant w =>
      cases h
      refine ⟨.polynomial _ _ (by simpa using hne) ht, fun f t x y hx hy => ?_⟩
      obtain ⟨s, e1, rfl⟩ := (eval_polynomial ..).mp hx
      rw [eval_constant] at hy
      rw [eval_polynomial]
      exact ⟨s, e1, by rw [polyval_map_mul, hy]⟩
    | _ =>
      cases h
      exact product_pair ha hb
  | exp c tr ht =>
    cases h
    exact product_pair (.exp c tr ht) hb
  | bands xs ys i e hx hs hl hi he hne =>
    have ha : Plain d (.bands xs ys i e) := .bands xs ys i e hx hs hl hi he hne
    cases b with
    | bands xs' ys' i' e' =>
      replace h : (if xs = xs' ∧ i = i' ∧ e = e' then bandsOp (· * ·) xs ys i e ys'
        else .ok (.product [.bands xs ys i e, .bands xs' ys' i' e'] false)) = (.ok r : Py (Term α K)) := h
      by_cases hc : xs = xs' ∧ i = i' ∧ e = e'
      · rw [if_pos hc] at h
        obtain ⟨rfl, rfl, rfl⟩ := hc
        exact bandsOp_sound (by simp) ha hb h
      · rw [if_neg hc] at h
        cases h
        exact product_pair ha hb
    | _ =>
      cases h
      exact product_pair ha hb
  | absolute v tr hv ht =>
    cases h
    exact product_pair (.absolute v tr hv ht) hb
  | negative v tr hv ht =>
    cases h
    exact product_pair (.negative v tr hv ht) hb
  | sum l tr hl ht =>
    cases h
    exact product_pair (.sum l tr hl ht) hb
  | difference m s hm hs hd =>
    cases h
    exact product_pair (.difference m s hm hs hd) hb
  | product l tr hl ht =>
    by_cases h0 : l = []
    · subst h0
      cases h
      refine ⟨.constant 0, fun f t x y hx hy => ?_⟩
      rw [eval_product_nil] at hx
      rw [eval_constant, ← Option.some.inj hx, zero_mul]
    · replace h : (if l.length = 0 then .ok (.constant 0) else isZero n b >>= fun z =>
        if z then .ok (.constant 0) else _) = (.ok r : Py (Term α K)) := h
      rw [if_neg (by simpa using h0)] at h
      replace h := bind_ok h
      obtain ⟨z, hz, h⟩ := h
      cases z with
      | true =>
        cases h
        refine ⟨.constant 0, fun f t x y hx hy => ?_⟩
        rw [eval_constant, (checks_sound hE n).1 d b hb hz f t y hy, mul_zero]
      | false =>
        have gen : ((if tr then l.mapM (invertTransform E n) else .ok l) >>= fun l => .ok (.product (l ++ [b]) false)) =
            (.ok r : Py (Term α K)) → Plain d r ∧ ∀ f t x y, eval E f t (.product l tr) = some x →
              eval E f t b = some y → eval E f t r = some (x * y) := by
          intro h
          obtain ⟨l', e1, h⟩ := bind_ok h
          cases h
          obtain ⟨h0', p, q⟩ := product_untransform S h0 hl ht e1
          refine ⟨.product _ _ ?_ (fun _ => rfl),
            fun f t x y hx hy => product_append h0' (by simp) (q f t x hx) (product_single hy)⟩
          intro a ha
          rcases List.mem_append.mp ha with ha | ha
          · exact p a ha
          · rw [List.mem_singleton.mp ha]
            exact hb
        cases b with
        | product l' tr' =>
          have h0' : l' ≠ [] := by
            rintro rfl
            cases n with
            | zero => simp [isZero] at hz
            | succ n => simp [isZero] at hz
          cases hb with
          | product _ _ hl' ht' =>
            replace h : (if tr = tr' then .ok (.product (l ++ l') tr)
              else l'.mapM (invertTransform E n) >>= fun l' => .ok (.product (l ++ l') tr)) =
                (.ok r : Py (Term α K)) := h
            by_cases hc : tr = tr'
            · rw [if_pos hc] at h
              subst hc
              cases h
              refine ⟨.product _ _ ?_ ht, fun f t x y hx hy => product_append h0 h0' hx hy⟩
              intro a ha
              rcases List.mem_append.mp ha with ha | ha
              · exact hl a ha
              · exact hl' a ha
            · rw [if_neg hc] at h
              have hd : d = false := by
                cases d with
                | false => rfl
                | true => exact absurd ((ht rfl).trans (ht' rfl).symm) hc
              subst hd
              obtain ⟨l2, e1, h⟩ := bind_ok h
              cases h
              obtain ⟨p, hlen, q⟩ := inv_list S hl' e1
              have h2 : l2 ≠ [] := by
                rintro rfl
                exact h0' (by simpa using hlen.symm)
              refine ⟨.product _ _ ?_ ht, fun f t x y hx hy => ?_⟩
              · intro a ha
                rcases List.mem_append.mp ha with ha | ha
                · exact hl a ha
                · exact p a ha
              · refine product_append h0 h2 hx ?_
                obtain ⟨ys, e2, rfl⟩ := (eval_product _ _ _ _ h0' _).mp hy
                rw [eval_product _ _ _ _ h2]
                refine ⟨ys, q f _ ys ?_, rfl⟩
                have e3 : (!(t ^^ tr)) = (t ^^ tr') := by
                  revert hc
                  cases t <;> cases tr <;> cases tr' <;> simp
                rw [e3]
                exact e2
        | _ => exact gen h
  | quotient m s tr hm hs ht =>
    cases h
    exact product_pair (.quotient m s tr hm hs ht) hb

/-- the specification holds for every recursion depth -/
theorem sound {E : Env α K} (hE : E.Lawful) (n : Nat) : Sound E n := by
  induction n with
  | zero =>
    constructor
    · intro a r _ h
      simp [invertTransform] at h
    · intro d v tr r _ _ h
      simp [absoluteFactory] at h
    · intro d v tr r _ _ h
      simp [negativeFactory] at h
    · intro d l tr r _ _ h
      simp [sumFactory] at h
    · intro m s r _ _ h
      simp [differenceFactory] at h
    · intro d l tr r _ _ h
      simp [productFactory] at h
    · intro d a r _ h
      simp [negate] at h
    · intro d a b r _ _ h
      simp [Filter.add] at h
    · intro d a b r _ _ h
      simp [Filter.mul] at h
  | succ n S =>
    exact ⟨sound_inv hE S, sound_absF hE S, sound_negF S, sound_sumF hE S, sound_diffF hE S, sound_prodF hE S,
      sound_neg S, sound_add S, sound_mul hE S⟩

theorem difference_pair {E : Env α K} {a b : Term α K} :
    ∀ f t x y, eval E f t a = some x → eval E f t b = some y →
      eval E f t (.difference a b false) = some (x - y) := by
  intro f t x y hx hy
  rw [eval_difference]
  exact ⟨x, y, by simpa using hx, by simpa using hy, rfl⟩

theorem quotient_pair {E : Env α K} {d : Bool} {a b : Term α K} (ha : Plain d a) (hb : Plain d b) :
    Plain d (.quotient a b false) ∧ ∀ f t x y, eval E f t a = some x → eval E f t b = some y → y ≠ 0 →
      eval E f t (.quotient a b false) = some (x / y) := by
  refine ⟨.quotient _ _ _ ha hb (fun _ => rfl), ?_⟩
  intro f t x y hx hy h
  rw [eval_quotient]
  exact ⟨x, y, by simpa using hx, by simpa using hy, h, rfl⟩

theorem sound_sub {E : Env α K} (hE : E.Lawful) (n : Nat) (d : Bool) (a b r : Term α K) (ha : Plain d a)
    (hb : Plain d b) (h : sub E n a b = .ok r) :
    (d = true → Plain d r) ∧
      ∀ f t x y, eval E f t a = some x → eval E f t b = some y → eval E f t r = some (x - y) := by
  have raw : ∀ {a b : Term α K}, Plain d a → Plain d b → (d = true → Plain d (.difference a b false)) ∧
      ∀ f t x y, eval E f t a = some x → eval E f t b = some y →
        eval E f t (.difference a b false) = some (x - y) :=
    fun ha hb => ⟨fun hd => .difference _ _ ha hb hd, difference_pair⟩
  cases n with
  | zero => simp [sub] at h
  | succ n =>
  cases ha with
  | constant v =>
    replace h : (if v = 0 then negate E n b else _) = (.ok r : Py (Term α K)) := h
    by_cases hv : v = 0
    · rw [if_pos hv] at h
      obtain ⟨p, q⟩ := (sound hE n).neg d b r hb h
      refine ⟨fun _ => p, fun f t x y hx hy => ?_⟩
      rw [eval_constant] at hx
      rw [hx, hv, zero_sub]
      exact q f t y hy
    · rw [if_neg hv] at h
      cases b with
      | constant w =>
        cases h
        refine ⟨fun _ => .constant _, fun f t x y hx hy => ?_⟩
        rw [eval_constant] at *
        rw [hx, hy]
      | _ =>
        cases h
        exact raw (.constant v) hb
  | polynomial cs tr hne ht =>
    have ha : Plain d (.polynomial cs tr : Term α K) := .polynomial cs tr hne ht
    cases b with
    | polynomial cs' tr' =>
      replace h : (if tr = tr' then .ok (.polynomial (polyop (· - ·) cs cs') tr)
        else .ok (.difference (.polynomial cs tr) (.polynomial cs' tr') false)) = (.ok r : Py (Term α K)) := h
      by_cases hc : tr = tr'
      · rw [if_pos hc] at h
        subst hc
        cases h
        refine ⟨fun _ => .polynomial _ _ (polyop_ne_nil _ _ _ hne) ht, fun f t x y hx hy => ?_⟩
        obtain ⟨s, e1, rfl⟩ := (eval_polynomial ..).mp hx
        obtain ⟨s', e2, rfl⟩ := (eval_polynomial ..).mp hy
        rw [e1] at e2
        cases e2
        rw [eval_polynomial]
        exact ⟨s, e1, by rw [polyval_polyop _ 1 (-1) (fun a b => by ring)]; ring⟩
      · rw [if_neg hc] at h
        cases h
        exact raw ha hb
    | constant w =>
      replace h : (if cs.length ≠ 0 then .ok (.polynomial (changeLast (· - w) cs) tr)
        else .ok (.constant (-w))) = (.ok r : Py (Term α K)) := h
      rw [if_pos (by simpa using hne)] at h
      cases h
      refine ⟨fun _ => .polynomial _ _ (changeLast_ne_nil _ _ hne) ht, fun f t x y hx hy => ?_⟩
      obtain ⟨s, e1, rfl⟩ := (eval_polynomial ..).mp hx
      rw [eval_constant] at hy
      rw [eval_polynomial]
      exact ⟨s, e1, by rw [polyval_changeLast _ (-w) (fun c => sub_eq_add_neg c w) cs hne, hy, sub_eq_add_neg]⟩
    | _ =>
      cases h
      exact raw ha hb
  | exp c tr ht =>
    cases h
    exact raw (.exp c tr ht) hb
  | bands xs ys i e hx hs hl hi he hne =>
    have ha : Plain d (.bands xs ys i e) := .bands xs ys i e hx hs hl hi he hne
    cases b with
    | bands xs' ys' i' e' =>
      replace h : (if xs = xs' ∧ i = i' ∧ e = e' then bandsOp (· - ·) xs ys i e ys'
        else .ok (.difference (.bands xs ys i e) (.bands xs' ys' i' e') false)) = (.ok r : Py (Term α K)) := h
      by_cases hc : xs = xs' ∧ i = i' ∧ e = e'
      · rw [if_pos hc] at h
        obtain ⟨rfl, rfl, rfl⟩ := hc
        obtain ⟨p, q⟩ := bandsOp_sound (E := E) (by simp) ha hb h
        exact ⟨fun _ => p, q⟩
      · rw [if_neg hc] at h
        cases h
        exact raw ha hb
    | _ =>
      cases h
      exact raw ha hb
  | absolute v tr hv ht =>
    cases h
    exact raw (.absolute v tr hv ht) hb
  | negative v tr hv ht =>
    cases h
    exact raw (.negative v tr hv ht) hb
  | sum l tr hl ht =>
    cases h
    exact raw (.sum l tr hl ht) hb
  | difference m s hm hs hd =>
    obtain ⟨s', e1, h⟩ := bind_ok (show (add E n s b >>= fun s => .ok (.difference m s false)) = .ok r from h)
    cases h
    obtain ⟨p, q⟩ := (sound hE n).add d s b s' hs hb e1
    refine ⟨fun _ => .difference _ _ hm p hd, fun f t x y hx hy => ?_⟩
    obtain ⟨u, v, e1, e2, rfl⟩ := (eval_difference ..).mp hx
    rw [eval_difference]
    have := q f t v y (by simpa using e2) hy
    exact ⟨u, v + y, e1, by simpa using this, by ring⟩
  | product l tr hl ht =>
    cases h
    exact raw (.product l tr hl ht) hb
  | quotient m s tr hm hs ht =>
    cases h
    exact raw (.quotient m s tr hm hs ht) hb

theorem sound_div {E : Env α K} (d : Bool) (a b r : Term α K) (ha : Plain d a) (hb : Plain d b) (h : div a b = .ok r) :
    Plain d r ∧ ∀ f t x y, eval E f t a = some x → eval E f t b = some y → y ≠ 0 →
      eval E f t r = some (x / y) := by
  cases ha with
  | constant v =>
    replace h : (if v = 0 then .ok (.constant v) else _) = (.ok r : Py (Term α K)) := h
    by_cases hv : v = 0
    · rw [if_pos hv] at h
      cases h
      refine ⟨.constant v, fun f t x y hx hy _ => ?_⟩
      rw [eval_constant] at *
      rw [hx, hv, zero_div]
    · rw [if_neg hv] at h
      cases b with
      | constant w =>
        replace h : (if w = 0 then .error .zeroDivisionError else .ok (.constant (v / w))) =
          (.ok r : Py (Term α K)) := h
        by_cases hw : w = 0
        · rw [if_pos hw] at h
          cases h
        · rw [if_neg hw] at h
          cases h
          refine ⟨.constant _, fun f t x y hx hy _ => ?_⟩
          rw [eval_constant] at *
          rw [hx, hy]
      | _ =>
        cases h
        exact quotient_pair (.constant v) hb
  | polynomial cs tr hne ht =>
    have ha : Plain d (.polynomial cs tr : Term α K) := .polynomial cs tr hne ht
    cases b with
    | constant w =>
      replace h : (if w = 0 then .error .zeroDivisionError else .ok (.polynomial (cs.map (· / w)) tr)) =
        (.ok r : Py (Term α K)) := h
      by_cases hw : w = 0
      · rw [if_pos hw] at h
        cases h
      · rw [if_neg hw] at h
        cases h
        refine ⟨.polynomial _ _ (by simpa using hne) ht, fun f t x y hx hy _ => ?_⟩
        obtain ⟨s, e1, rfl⟩ := (eval_polynomial ..).mp hx
        rw [eval_constant] at hy
        rw [eval_polynomial]
        refine ⟨s, e1, ?_⟩
        have e2 : cs.map (· / w) = cs.map (· * w⁻¹) := List.map_congr_left fun c _ => div_eq_mul_inv c w
        rw [e2, polyval_map_mul, hy, div_eq_mul_inv]
    | _ =>
      cases h
      exact quotient_pair ha hb
  | exp c tr ht =>
    cases h
    exact quotient_pair (.exp c tr ht) hb
  | bands xs ys i e hx hs hl hi he hne =>
    have ha : Plain d (.bands xs ys i e) := .bands xs ys i e hx hs hl hi he hne
    cases b with
    | bands xs' ys' i' e' =>
      replace h : (if xs = xs' ∧ i = i' ∧ e = e' then
          if 0 ∈ ys' then .error .zeroDivisionError else bandsOp (· / ·) xs ys i e ys'
        else .ok (.quotient (.bands xs ys i e) (.bands xs' ys' i' e') false)) = (.ok r : Py (Term α K)) := h
      by_cases hc : xs = xs' ∧ i = i' ∧ e = e'
      · rw [if_pos hc] at h
        obtain ⟨rfl, rfl, rfl⟩ := hc
        by_cases h0 : 0 ∈ ys'
        · rw [if_pos h0] at h
          cases h
        · rw [if_neg h0] at h
          obtain ⟨p, q⟩ := bandsOp_sound (E := E) (by simp) ha hb h
          exact ⟨p, fun f t x y hx hy _ => q f t x y hx hy⟩
      · rw [if_neg hc] at h
        cases h
        exact quotient_pair ha hb
    | _ =>
      cases h
      exact quotient_pair ha hb
  | absolute v tr hv ht =>
    cases h
    exact quotient_pair (.absolute v tr hv ht) hb
  | negative v tr hv ht =>
    cases h
    exact quotient_pair (.negative v tr hv ht) hb
  | sum l tr hl ht =>
    cases h
    exact quotient_pair (.sum l tr hl ht) hb
  | difference m s hm hs hd =>
    cases h
    exact quotient_pair (.difference m s hm hs hd) hb
  | product l tr hl ht =>
    cases h
    exact quotient_pair (.product l tr hl ht) hb
  | quotient m s tr hm hs ht =>
    cases h
    exact quotient_pair (.quotient m s tr hm hs ht) hb

theorem sound_invert {E : Env α K} (hE : E.Lawful) (d : Bool) (a r : Term α K) (ha : Plain d a)
    (h : a.invert = .ok r) :
    Plain d r ∧ ∀ f t x, eval E f t a = some x → x ≠ 0 → eval E f t r = some (1 / x) := by
  have raw : ∀ {b : Term α K}, Plain d b → Plain d (.quotient (.constant 1) b false) ∧
      ∀ f t x, eval E f t b = some x → x ≠ 0 → eval E f t (.quotient (.constant 1) b false) = some (1 / x) := by
    intro b hb
    obtain ⟨p, q⟩ := quotient_pair (E := E) (Plain.constant (d := d) 1) hb
    refine ⟨p, fun f t x hx h0 => q f t 1 x ?_ hx h0⟩
    rw [eval_constant]
  cases ha with
  | constant v =>
    replace h : (if v = 0 then .error .zeroDivisionError else .ok (.constant (1 / v))) = (.ok r : Py (Term α K)) := h
    by_cases hv : v = 0
    · rw [if_pos hv] at h
      cases h
    · rw [if_neg hv] at h
      cases h
      refine ⟨.constant _, fun f t x hx _ => ?_⟩
      rw [eval_constant] at *
      rw [hx]
  | exp c tr ht =>
    cases h
    refine ⟨.exp _ _ ht, fun f t x hx h0 => ?_⟩
    obtain ⟨s, e1, rfl⟩ := (eval_exp ..).mp hx
    rw [eval_exp]
    refine ⟨s, e1, ?_⟩
    have := hE.exp_neg (c * s)
    rw [neg_mul, eq_comm]
    exact eq_one_div_of_mul_eq_one_left this
  | bands xs ys i e hx hs hl hi he hne =>
    replace h : (if 0 ∈ ys then .error .zeroDivisionError else .ok (mkBands xs (ys.map fun y => 1 / y) i e)) =
      (.ok r : Py (Term α K)) := h
    by_cases h0 : 0 ∈ ys
    · rw [if_pos h0] at h
      cases h
    · rw [if_neg h0] at h
      cases h
      obtain ⟨p, q⟩ := bandsMap_sound (E := E) (g := fun y : K => 1 / y) (by simp)
        (Plain.bands (d := d) xs ys i e hx hs hl hi he hne)
      exact ⟨p, fun f t x hx _ => q f t x hx⟩
  | quotient m s tr hm hs ht =>
    cases h
    refine ⟨.quotient _ _ _ hs hm ht, fun f t x hx h0 => ?_⟩
    obtain ⟨u, v, e1, e2, e3, rfl⟩ := (eval_quotient ..).mp hx
    rw [eval_quotient]
    refine ⟨v, u, e2, e1, ?_, by rw [one_div_div]⟩
    rintro rfl
    exact h0 (zero_div v)
  | polynomial cs tr hne ht =>
    cases h
    exact raw (.polynomial cs tr hne ht)
  | absolute v tr hv ht =>
    cases h
    exact raw (.absolute v tr hv ht)
  | negative v tr hv ht =>
    cases h
    exact raw (.negative v tr hv ht)
  | sum l tr hl ht =>
    cases h
    exact raw (.sum l tr hl ht)
  | difference m s hm hs hd =>
    cases h
    exact raw (.difference m s hm hs hd)
  | product l tr hl ht =>
    cases h
    exact raw (.product l tr hl ht)

end Filter
end Verif
