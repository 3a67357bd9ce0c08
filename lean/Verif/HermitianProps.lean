import Verif.WeightingProps

/-
C127: the transfer functions of the filters at negative frequencies. A filter maps real signals to real signals, if and only if
the value of its transfer function at a negative frequency is the complex conjugate of the value at the positive frequency.
-/

namespace Verif
namespace Filter

open Complex (I)
open ComplexConjugate

/-- the number has no imaginary part -/
def IsReal (c : ℂ) : Prop := conj c = c

/-- a term, that has been built from real numbers only. `Bands` are not included, because they are not functions of the complex
frequency. -/
inductive RealTerm : Term ℝ ℂ → Prop where
  | constant {v : ℂ} : IsReal v → RealTerm (.constant v)
  | polynomial {cs : List ℂ} {tr : Bool} : (∀ c ∈ cs, IsReal c) → RealTerm (.polynomial cs tr)
  | exp {c : ℂ} {tr : Bool} : IsReal c → RealTerm (.exp c tr)
  | absolute {v : Term ℝ ℂ} {tr : Bool} : RealTerm v → RealTerm (.absolute v tr)
  | negative {v : Term ℝ ℂ} {tr : Bool} : RealTerm v → RealTerm (.negative v tr)
  | sum {l : List (Term ℝ ℂ)} {tr : Bool} : (∀ a ∈ l, RealTerm a) → RealTerm (.sum l tr)
  | difference {m s : Term ℝ ℂ} {tr : Bool} : RealTerm m → RealTerm s → RealTerm (.difference m s tr)
  | product {l : List (Term ℝ ℂ)} {tr : Bool} : (∀ a ∈ l, RealTerm a) → RealTerm (.product l tr)
  | quotient {m s : Term ℝ ℂ} {tr : Bool} : RealTerm m → RealTerm s → RealTerm (.quotient m s tr)

/-! ### real numbers -/

theorem isReal_ofReal (x : ℝ) : IsReal (x : ℂ) := Complex.conj_ofReal x
theorem isReal_zero : IsReal 0 := map_zero _
theorem isReal_one : IsReal 1 := map_one _

theorem IsReal.add {x y : ℂ} (hx : IsReal x) (hy : IsReal y) : IsReal (x + y) := by
  unfold IsReal at *
  rw [map_add, hx, hy]

theorem IsReal.sub {x y : ℂ} (hx : IsReal x) (hy : IsReal y) : IsReal (x - y) := by
  unfold IsReal at *
  rw [map_sub, hx, hy]

theorem IsReal.mul {x y : ℂ} (hx : IsReal x) (hy : IsReal y) : IsReal (x * y) := by
  unfold IsReal at *
  rw [map_mul, hx, hy]

theorem IsReal.div {x y : ℂ} (hx : IsReal x) (hy : IsReal y) : IsReal (x / y) := by
  unfold IsReal at *
  rw [map_div₀, hx, hy]

theorem IsReal.neg {x : ℂ} (hx : IsReal x) : IsReal (-x) := by
  unfold IsReal at *
  rw [map_neg, hx]

/-! ### the values at negative frequencies -/

theorem complexEnv_s_neg (f : ℝ) : complexEnv.s (-f) = conj (complexEnv.s f) := by
  have h : conj (2 : ℂ) = 2 := isReal_ofReal 2
  simp [complexEnv, h]

theorem sValue_neg (f : ℝ) (t : Bool) : sValue complexEnv (-f) t = (sValue complexEnv f t).map conj := by
  unfold sValue
  rw [complexEnv_s_neg]
  cases t with
  | false => rfl
  | true =>
    by_cases h : complexEnv.s f = 0
    · simp [h]
    · simp [h, map_inv₀]

theorem polyval_star {cs : List ℂ} (h : ∀ c ∈ cs, IsReal c) (x : ℂ) : polyval cs (conj x) = conj (polyval cs x) := by
  induction cs with
  | nil => simp [polyval]
  | cons c cs ih =>
    rw [polyval_cons, polyval_cons, map_add, map_mul, map_pow, ih fun c hc => h c (List.mem_cons_of_mem _ hc),
      h c List.mem_cons_self]

theorem evalList_neg (f : ℝ) (t : Bool) {l : List (Term ℝ ℂ)}
    (h : ∀ a ∈ l, ∀ t, eval complexEnv (-f) t a = (eval complexEnv f t a).map conj) :
    evalList complexEnv (-f) t l = (evalList complexEnv f t l).map (Option.map conj) := by
  induction l with
  | nil => rfl
  | cons a l ih =>
    rw [evalList, evalList, h a List.mem_cons_self, ih fun a ha => h a (List.mem_cons_of_mem _ ha)]
    rfl

theorem foldl_conj (g : ℂ → ℂ → ℂ) (hg : ∀ x y, g (conj x) (conj y) = conj (g x y)) (l : List (Option ℂ)) (r : Option ℂ) :
    (l.map (Option.map conj)).foldl (fun r v => r.bind fun x => v.map fun y => g x y) (r.map conj) =
      (l.foldl (fun r v => r.bind fun x => v.map fun y => g x y) r).map conj := by
  induction l generalizing r with
  | nil => rfl
  | cons v l ih =>
    rw [List.map_cons, List.foldl_cons, List.foldl_cons, ← ih]
    congr 1
    cases r with
    | none => rfl
    | some x =>
      cases v with
      | none => rfl
      | some y => exact congrArg some (hg x y)

theorem sumValues_conj (l : List (Option ℂ)) : sumValues (l.map (Option.map conj)) = (sumValues l).map conj := by
  cases l with
  | nil => simp [sumValues]
  | cons v l => exact foldl_conj (· + ·) (fun x y => (map_add conj x y).symm) l v

theorem productValues_conj (l : List (Option ℂ)) :
    productValues (l.map (Option.map conj)) = (productValues l).map conj := by
  cases l with
  | nil => simp [productValues]
  | cons v l => exact foldl_conj (· * ·) (fun x y => (map_mul conj x y).symm) l v

theorem divide_conj (x y : ℂ) : divide (conj x) (conj y) = (divide x y).map conj := by
  unfold divide
  by_cases h : y = 0
  · simp [h]
  · rw [if_neg h, if_neg (by simpa using h)]
    simp [map_div₀]

theorem eval_neg {a : Term ℝ ℂ} (h : RealTerm a) (f : ℝ) :
    ∀ t, eval complexEnv (-f) t a = (eval complexEnv f t a).map conj := by
  induction h with
  | constant h =>
    intro t
    rw [eval, eval, Option.map_some, h]
  | polynomial h =>
    intro t
    rw [eval, eval, sValue_neg, Option.map_map, Option.map_map]
    congr 1
    funext x
    exact polyval_star h x
  | exp h =>
    rename_i c tr
    intro t
    rw [eval, eval, sValue_neg, Option.map_map, Option.map_map]
    congr 1
    funext x
    show Complex.exp (c * conj x) = conj (Complex.exp (c * x))
    rw [← Complex.exp_conj, map_mul, h]
  | absolute h ih =>
    intro t
    rw [eval, eval, ih, Option.map_map, Option.map_map]
    congr 1
    funext x
    show ((‖conj x‖ : ℝ) : ℂ) = conj ((‖x‖ : ℝ) : ℂ)
    rw [Complex.conj_ofReal, Complex.norm_conj]
  | negative h ih =>
    intro t
    rw [eval, eval, ih, Option.map_map, Option.map_map]
    exact congrArg (fun g => Option.map g _) (funext fun x => (map_neg conj x).symm)
  | sum h ih =>
    intro t
    rw [eval, eval, evalList_neg f _ ih, sumValues_conj]
  | difference h1 h2 ih1 ih2 =>
    rename_i m s tr
    intro t
    rw [eval, eval, ih1, ih2]
    cases eval complexEnv f (t ^^ tr) m with
    | none => rfl
    | some x =>
      cases eval complexEnv f (t ^^ tr) s with
      | none => rfl
      | some y => exact congrArg some (map_sub conj x y).symm
  | product h ih =>
    intro t
    rw [eval, eval, evalList_neg f _ ih, productValues_conj]
  | quotient h1 h2 ih1 ih2 =>
    rename_i m s tr
    intro t
    rw [eval, eval, ih1, ih2]
    cases eval complexEnv f (t ^^ tr) m with
    | none => rfl
    | some x =>
      cases eval complexEnv f (t ^^ tr) s with
      | none => rfl
      | some y => exact divide_conj x y

/-! ### the operators -/

/-- the property holds for the result, if no exception is raised -/
def Result {β : Type} (P : β → Prop) : Py β → Prop
  | .ok r => P r
  | .error _ => True

theorem result_bind {β γ : Type} {P : β → Prop} {Q : γ → Prop} {p : Py β} {g : β → Py γ} (hp : Result P p)
    (hg : ∀ r, P r → Result Q (g r)) : Result Q (p >>= g) := by
  cases p with
  | error e => exact trivial
  | ok r => exact hg r hp

theorem result_any {β γ : Type} {Q : γ → Prop} {p : Py β} {g : β → Py γ} (hg : ∀ r, Result Q (g r)) :
    Result Q (p >>= g) := result_bind (P := fun _ => True) (by cases p <;> exact trivial) fun r _ => hg r

/-- all terms are real -/
def RealTerms (l : List (Term ℝ ℂ)) : Prop := ∀ a ∈ l, RealTerm a

theorem RealTerms.cons {a : Term ℝ ℂ} {l : List (Term ℝ ℂ)} (ha : RealTerm a) (hl : RealTerms l) : RealTerms (a :: l) := by
  intro b hb
  rcases List.mem_cons.1 hb with rfl | hb
  · exact ha
  · exact hl b hb

theorem RealTerms.nil : RealTerms [] := fun _ h => absurd h List.not_mem_nil

theorem RealTerms.append {l m : List (Term ℝ ℂ)} (hl : RealTerms l) (hm : RealTerms m) : RealTerms (l ++ m) := by
  intro b hb
  rcases List.mem_append.1 hb with hb | hb
  · exact hl b hb
  · exact hm b hb

theorem result_mapM {β : Type} {P : β → Prop} {g : β → Py (Term ℝ ℂ)} (hg : ∀ b, P b → Result RealTerm (g b))
    {l : List β} (hl : ∀ b ∈ l, P b) : Result RealTerms (l.mapM g) := by
  induction l with
  | nil => exact RealTerms.nil
  | cons b l ih =>
    rw [List.mapM_cons]
    refine result_bind (hg b (hl b List.mem_cons_self)) fun r hr => ?_
    exact result_bind (ih fun b hb => hl b (List.mem_cons_of_mem _ hb)) fun rs hrs => RealTerms.cons hr hrs

theorem polynomialFactory_real {cs : List ℂ} (h : ∀ c ∈ cs, IsReal c) (tr : Bool) :
    RealTerm (polynomialFactory cs tr : Term ℝ ℂ) := by
  have hd : ∀ c ∈ cs.dropWhile (· = 0), IsReal c := fun c hc => h c ((List.dropWhile_sublist _).subset hc)
  unfold polynomialFactory
  split
  · exact .constant isReal_zero
  · rename_i c e
    rw [e] at hd
    exact .constant (hd c List.mem_cons_self)
  · exact .polynomial hd

theorem expFactory_real {c : ℂ} (h : IsReal c) (tr : Bool) : RealTerm (expFactory c tr : Term ℝ ℂ) := by
  unfold expFactory
  split
  · exact .constant isReal_one
  · exact .exp h

theorem abs_real {a : Term ℝ ℂ} (h : RealTerm a) : RealTerm (a.abs complexEnv) := by
  cases h with
  | constant h => exact .constant (isReal_ofReal _)
  | absolute h => exact .absolute h
  | polynomial h => exact .absolute (.polynomial h)
  | exp h => exact .absolute (.exp h)
  | negative h => exact .absolute (.negative h)
  | sum h => exact .absolute (.sum h)
  | difference h h' => exact .absolute (.difference h h')
  | product h => exact .absolute (.product h)
  | quotient h h' => exact .absolute (.quotient h h')

theorem invert_real {a : Term ℝ ℂ} (h : RealTerm a) : Result RealTerm a.invert := by
  cases h with
  | constant h =>
    unfold Term.invert
    dsimp only
    split
    · exact trivial
    · exact .constant (isReal_one.div h)
  | absolute h => exact .quotient (.constant isReal_one) (.absolute h)
  | polynomial h => exact .quotient (.constant isReal_one) (.polynomial h)
  | exp h => exact .exp h.neg
  | negative h => exact .quotient (.constant isReal_one) (.negative h)
  | sum h => exact .quotient (.constant isReal_one) (.sum h)
  | difference h h' => exact .quotient (.constant isReal_one) (.difference h h')
  | product h => exact .quotient (.constant isReal_one) (.product h)
  | quotient h h' => exact .quotient h' h

theorem div_real {a b : Term ℝ ℂ} (ha : RealTerm a) (hb : RealTerm b) : Result RealTerm (div a b) := by
  cases ha with
  | constant h =>
    unfold div
    dsimp only
    split
    · exact .constant h
    · split
      · rename_i w
        cases hb with
        | constant hw =>
          split
          · exact trivial
          · exact .constant (h.div hw)
      · exact .quotient (.constant h) hb
  | polynomial h =>
    unfold div
    dsimp only
    split
    · rename_i w
      cases hb with
      | constant hw =>
        split
        · exact trivial
        · refine .polynomial fun c hc => ?_
          obtain ⟨d, hd, rfl⟩ := List.mem_map.1 hc
          exact (h d hd).div hw
    · exact .quotient (.polynomial h) hb
  | absolute h => exact .quotient (.absolute h) hb
  | exp h => exact .quotient (.exp h) hb
  | negative h => exact .quotient (.negative h) hb
  | sum h => exact .quotient (.sum h) hb
  | difference h h' => exact .quotient (.difference h h') hb
  | product h => exact .quotient (.product h) hb
  | quotient h h' => exact .quotient (.quotient h h') hb

theorem polyop_real {g : ℂ → ℂ → ℂ} (hg : ∀ x y, IsReal x → IsReal y → IsReal (g x y)) {a b : List ℂ}
    (ha : ∀ c ∈ a, IsReal c) (hb : ∀ c ∈ b, IsReal c) : ∀ c ∈ polyop g a b, IsReal c := by
  have hz : ∀ (n : Nat) (l : List ℂ), (∀ c ∈ l, IsReal c) → ∀ c ∈ List.replicate n 0 ++ l, IsReal c := by
    intro n l h c hc
    rcases List.mem_append.1 hc with hc | hc
    · rw [List.eq_of_mem_replicate hc]
      exact isReal_zero
    · exact h c hc
  have key : ∀ {l m : List ℂ}, (∀ c ∈ l, IsReal c) → (∀ c ∈ m, IsReal c) → ∀ c ∈ List.zipWith g l m, IsReal c := by
    intro l
    induction l with
    | nil => intro m _ _ c hc; simp at hc
    | cons x l ih =>
      intro m hl hm c hc
      cases m with
      | nil => simp at hc
      | cons y m =>
        rw [List.zipWith_cons_cons] at hc
        rcases List.mem_cons.1 hc with rfl | hc
        · exact hg _ _ (hl _ List.mem_cons_self) (hm _ List.mem_cons_self)
        · exact ih (fun c h => hl c (List.mem_cons_of_mem _ h)) (fun c h => hm c (List.mem_cons_of_mem _ h)) c hc
  exact key (hz _ _ ha) (hz _ _ hb)

theorem changeLast_real {g : ℂ → ℂ} (hg : ∀ x, IsReal x → IsReal (g x)) {cs : List ℂ} (h : ∀ c ∈ cs, IsReal c) :
    ∀ c ∈ changeLast g cs, IsReal c := by
  intro c hc
  by_cases hn : cs = []
  · subst hn
    exact absurd hc (by simp [changeLast])
  · unfold changeLast at hc
    rw [List.getLast?_eq_getLast_of_ne_nil hn] at hc
    rcases List.mem_append.1 hc with hc | hc
    · exact h c (List.mem_of_mem_dropLast hc)
    · rw [List.mem_singleton.1 hc]
      exact hg _ (h _ (List.getLast_mem hn))

theorem dropZeros_real (n : Nat) {l : List (Term ℝ ℂ)} (h : RealTerms l) : Result RealTerms (dropZeros n l) := by
  induction l with
  | nil => exact RealTerms.nil
  | cons a l ih =>
    unfold dropZeros
    refine result_any fun z => ?_
    refine result_bind (ih fun b hb => h b (List.mem_cons_of_mem _ hb)) fun r hr => ?_
    show RealTerms (if z then r else a :: r)
    split
    · exact hr
    · exact RealTerms.cons (h a List.mem_cons_self) hr

theorem quotientFactory_real (n : Nat) {a b : Term ℝ ℂ} (ha : RealTerm a) (hb : RealTerm b) (tr : Bool) :
    Result RealTerm (quotientFactory n a b tr) := by
  unfold quotientFactory
  refine result_any fun z => ?_
  split
  · exact .constant isReal_zero
  · refine result_any fun q => ?_
    show RealTerm (if q then .constant 1 else .quotient a b tr)
    split
    · exact .constant isReal_one
    · exact .quotient ha hb

/-- the functions, that create terms from terms, with a limited recursion depth -/
structure Closed (n : Nat) : Prop where
  invertTransform : ∀ {a}, RealTerm a → Result RealTerm (invertTransform complexEnv n a)
  absoluteFactory : ∀ {a} tr, RealTerm a → Result RealTerm (absoluteFactory complexEnv n a tr)
  negativeFactory : ∀ {a} tr, RealTerm a → Result RealTerm (negativeFactory complexEnv n a tr)
  sumFactory : ∀ {l} tr, RealTerms l → Result RealTerm (sumFactory complexEnv n l tr)
  differenceFactory : ∀ {a b} tr, RealTerm a → RealTerm b → Result RealTerm (differenceFactory complexEnv n a b tr)
  productFactory : ∀ {l} tr, RealTerms l → Result RealTerm (productFactory complexEnv n l tr)
  negate : ∀ {a}, RealTerm a → Result RealTerm (negate complexEnv n a)
  add : ∀ {a b}, RealTerm a → RealTerm b → Result RealTerm (add complexEnv n a b)
  mul : ∀ {a b}, RealTerm a → RealTerm b → Result RealTerm (mul complexEnv n a b)

theorem RealTerms.pair {a b : Term ℝ ℂ} (ha : RealTerm a) (hb : RealTerm b) : RealTerms [a, b] :=
  .cons ha (.cons hb .nil)

/-- `l` or the transformed elements of `l` -/
theorem Closed.transformed {n : Nat} (h : Closed n) {l : List (Term ℝ ℂ)} (hl : RealTerms l) (tr : Bool) :
    Result RealTerms (if tr then l.mapM (Filter.invertTransform complexEnv n) else .ok l) := by
  split
  · exact result_mapM (fun b hb => h.invertTransform hb) hl
  · exact hl

theorem closed_add {n : Nat} (ih : Closed n) {a b : Term ℝ ℂ} (ha : RealTerm a) (hb : RealTerm b) :
    Result RealTerm (add complexEnv (n + 1) a b) := by
  unfold add
  cases ha with
  | constant h =>
    dsimp only
    split
    · exact hb
    · split
      · cases hb with
        | constant hw => exact .constant (h.add hw)
      · exact .sum (RealTerms.pair (.constant h) hb)
  | polynomial h =>
    dsimp only
    split
    · cases hb with
      | polynomial h' =>
        split
        · exact .polynomial (polyop_real (fun x y hx hy => hx.add hy) h h')
        · exact .sum (RealTerms.pair (.polynomial h) (.polynomial h'))
    · cases hb with
      | constant hw =>
        split
        · exact .polynomial (changeLast_real (fun x hx => hx.add hw) h)
        · exact .constant hw.neg
    · exact .sum (RealTerms.pair (.polynomial h) hb)
  | sum h =>
    dsimp only
    split
    · exact hb
    · split
      · cases hb with
        | sum h' =>
          split
          · exact .sum (RealTerms.append h h')
          · exact result_bind (ih.transformed h _) fun l hl => .sum (RealTerms.append hl (.cons (.sum h') .nil))
      · exact result_bind (ih.transformed h _) fun l hl => .sum (RealTerms.append hl (.cons hb .nil))
  | difference h h' =>
    dsimp only
    refine result_bind (P := RealTerm) ?_ fun b hb => result_bind (ih.add h hb) fun m hm => .difference hm h'
    split
    · exact ih.invertTransform hb
    · exact hb
  | exp h => exact .sum (RealTerms.pair (.exp h) hb)
  | absolute h => exact .sum (RealTerms.pair (.absolute h) hb)
  | negative h => exact .sum (RealTerms.pair (.negative h) hb)
  | product h => exact .sum (RealTerms.pair (.product h) hb)
  | quotient h h' => exact .sum (RealTerms.pair (.quotient h h') hb)

theorem closed_mul {n : Nat} (ih : Closed n) {a b : Term ℝ ℂ} (ha : RealTerm a) (hb : RealTerm b) :
    Result RealTerm (mul complexEnv (n + 1) a b) := by
  unfold mul
  cases ha with
  | constant h =>
    dsimp only
    split
    · exact .constant h
    · split
      · exact hb
      · split
        · exact ih.negate hb
        · split
          · cases hb with
            | constant hw => exact .constant (h.mul hw)
          · exact .product (RealTerms.pair (.constant h) hb)
  | polynomial h =>
    dsimp only
    split
    · cases hb with
      | constant hw =>
        refine .polynomial fun c hc => ?_
        obtain ⟨d, hd, rfl⟩ := List.mem_map.1 hc
        exact (h d hd).mul hw
    · exact .product (RealTerms.pair (.polynomial h) hb)
  | product h =>
    dsimp only
    split
    · exact .constant isReal_zero
    · refine result_any fun z => ?_
      split
      · exact .constant isReal_zero
      · split
        · cases hb with
          | product h' =>
            split
            · exact .product (RealTerms.append h h')
            · exact result_bind (result_mapM (fun b hb => ih.invertTransform hb) h') fun l hl =>
                .product (RealTerms.append h hl)
        · exact result_bind (ih.transformed h _) fun l hl => .product (RealTerms.append hl (.cons hb .nil))
  | exp h => exact .product (RealTerms.pair (.exp h) hb)
  | absolute h => exact .product (RealTerms.pair (.absolute h) hb)
  | negative h => exact .product (RealTerms.pair (.negative h) hb)
  | sum h => exact .product (RealTerms.pair (.sum h) hb)
  | difference h h' => exact .product (RealTerms.pair (.difference h h') hb)
  | quotient h h' => exact .product (RealTerms.pair (.quotient h h') hb)

theorem closed (n : Nat) : Closed n := by
  induction n with
  | zero =>
    constructor <;> intros <;> exact trivial
  | succ n ih =>
    constructor
    · intro a ha
      unfold invertTransform
      cases ha with
      | constant h => exact .constant h
      | polynomial h => exact polynomialFactory_real h _
      | exp h => exact expFactory_real h _
      | absolute h => exact ih.absoluteFactory _ h
      | negative h => exact ih.negativeFactory _ h
      | sum h => exact ih.sumFactory _ h
      | difference h h' => exact ih.differenceFactory _ h h'
      | product h => exact ih.productFactory _ h
      | quotient h h' => exact quotientFactory_real n h h' _
    · intro a tr ha
      unfold absoluteFactory
      split
      · exact result_bind (ih.invertTransform ha) fun v hv => abs_real hv
      · exact abs_real ha
    · intro a tr ha
      unfold negativeFactory
      split
      · exact result_bind (ih.invertTransform ha) fun v hv => ih.negate hv
      · exact ih.negate ha
    · intro l tr hl
      unfold sumFactory
      refine result_bind (dropZeros_real n hl) fun l hl => ?_
      split
      · exact .constant isReal_zero
      · have h := hl _ List.mem_cons_self
        split
        · exact ih.invertTransform h
        · exact h
      · have h := hl _ List.mem_cons_self
        have h' := hl _ (List.mem_cons_of_mem _ List.mem_cons_self)
        split
        · exact result_bind (ih.invertTransform h) fun a ha => result_bind (ih.invertTransform h') fun b hb => ih.add ha hb
        · exact ih.add h h'
      · exact .sum hl
    · intro m s tr hm hs
      unfold differenceFactory
      refine result_any fun zs => ?_
      split
      · refine result_any fun zm => ?_
        split
        · exact .constant isReal_zero
        · split
          · exact ih.invertTransform hm
          · exact hm
      · refine result_any fun zm => ?_
        split
        · exact ih.negate hs
        · refine result_any fun q => ?_
          show RealTerm (if q then .constant 0 else .difference m s tr)
          split
          · exact .constant isReal_zero
          · exact .difference hm hs
    · intro l tr hl
      unfold productFactory
      refine result_any fun z => ?_
      split
      · exact .constant isReal_zero
      · split
        · have h := hl _ List.mem_cons_self
          split
          · exact ih.invertTransform h
          · exact h
        · have h := hl _ List.mem_cons_self
          have h' := hl _ (List.mem_cons_of_mem _ List.mem_cons_self)
          split
          · exact result_bind (ih.invertTransform h) fun a ha => result_bind (ih.invertTransform h') fun b hb => ih.mul ha hb
          · exact ih.mul h h'
        · exact .product hl
    · intro a ha
      unfold negate
      cases ha with
      | constant h => exact .constant h.neg
      | polynomial h => exact .negative (.polynomial h)
      | exp h => exact .negative (.exp h)
      | absolute h => exact .negative (.absolute h)
      | negative h =>
        dsimp only
        split
        · exact ih.invertTransform h
        · exact h
      | sum h => exact .negative (.sum h)
      | difference h h' => exact .difference h' h
      | product h => exact .negative (.product h)
      | quotient h h' => exact .negative (.quotient h h')
    · exact closed_add ih
    · exact closed_mul ih

theorem sub_real (n : Nat) {a b : Term ℝ ℂ} (ha : RealTerm a) (hb : RealTerm b) : Result RealTerm (sub complexEnv n a b) := by
  cases n with
  | zero => exact trivial
  | succ n =>
    unfold sub
    cases ha with
    | constant h =>
      dsimp only
      split
      · exact (closed n).negate hb
      · split
        · cases hb with
          | constant hw => exact .constant (h.sub hw)
        · exact .difference (.constant h) hb
    | polynomial h =>
      dsimp only
      split
      · cases hb with
        | polynomial h' =>
          split
          · exact .polynomial (polyop_real (fun x y hx hy => hx.sub hy) h h')
          · exact .difference (.polynomial h) (.polynomial h')
      · cases hb with
        | constant hw =>
          split
          · exact .polynomial (changeLast_real (fun x hx => hx.sub hw) h)
          · exact .constant hw.neg
      · exact .difference (.polynomial h) hb
    | difference h h' =>
      dsimp only
      refine result_bind (P := RealTerm) ?_ fun b hb => result_bind ((closed n).add h' hb) fun m hm => .difference h hm
      split
      · exact (closed n).invertTransform hb
      · exact hb
    | exp h => exact .difference (.exp h) hb
    | absolute h => exact .difference (.absolute h) hb
    | negative h => exact .difference (.negative h) hb
    | sum h => exact .difference (.sum h) hb
    | product h => exact .difference (.product h) hb
    | quotient h h' => exact .difference (.quotient h h') hb

/-! ### C127 -/

/-- C127: When all numbers in the transfer functions of a filter are real, the value at a negative frequency is the complex
conjugate of the value at the positive frequency. -/
theorem C127_hermitian (a : Channels ℝ ℂ) (ha : RealTerms a.transferFunctions) (mem : ℂ) (f : ℝ) (hf : f ≠ 0) :
    a.call complexEnv mem (-f) = (a.call complexEnv mem f).map (Option.map conj) := by
  have key : ∀ g : ℝ, g ≠ 0 → a.call complexEnv mem g = evalList complexEnv g false a.transferFunctions := by
    intro g hg
    have hs : complexEnv.s g ≠ 0 := by simp [complexEnv, hg, Real.pi_ne_zero]
    unfold Channels.call
    generalize a.transferFunctions = l
    induction l with
    | nil => rfl
    | cons t l ih =>
      rw [evalStateList, evalList]
      dsimp only
      rw [evalState_nonzero complexEnv mem g hs]
      dsimp only
      rw [ih]
  rw [key f hf, key (-f) (neg_ne_zero.2 hf)]
  exact evalList_neg f false fun t ht => eval_neg (ha t ht) f

/-- C127: When all numbers in the transfer function of a filter are real, its value at 0 Hz is real. -/
theorem C127_zero_hertz (t : Term ℝ ℂ) (label : String) (ht : RealTerm t) (mem : ℂ) (x : ℂ)
    (h : (Channels.new [t] [label]).call complexEnv mem 0 = [some x]) : x.im = 0 := by
  rw [call_single mem t label 0 le_rfl] at h
  have h := (List.cons.inj h).1
  split at h
  · cases h
    rfl
  · have e := eval_neg ht 0 false
    rw [neg_zero, h, Option.map_some] at e
    exact Complex.conj_eq_iff_im.1 (Option.some.inj e).symm

/-- C127: The filters, that are defined by formulas, have real numbers in their transfer functions only. -/
theorem C127_filters (n : Nat) (cutoff ripple delay : ℝ) (order : Nat) (highpass : Bool) :
    RealTerms (delayFilter delay).transferFunctions ∧ RealTerms derivativeFilter.transferFunctions ∧
      (∀ a, butterworthFilter complexEnv n cutoff order highpass = .ok a → RealTerms a.transferFunctions) ∧
      (∀ a, besselFilter cutoff order highpass = .ok a → RealTerms a.transferFunctions) ∧
      (∀ a, chebyshev1Filter complexEnv n cutoff ripple order highpass = .ok a → RealTerms a.transferFunctions) ∧
      ∀ a, chebyshev2Filter complexEnv n cutoff ripple order highpass = .ok a → RealTerms a.transferFunctions := by
  have roll : ∀ {t : Py (Term ℝ ℂ)} {label : String}, Result RealTerm t → ∀ a, rolloff t label = .ok a →
      RealTerms a.transferFunctions := by
    intro t label h a ha
    cases t with
    | error e => cases ha
    | ok t =>
      cases ha
      exact .cons h .nil
  have real : ∀ cs : List ℝ, RealTerm (realPolynomial cs) := by
    intro cs
    refine polynomialFactory_real (fun c hc => ?_) _
    obtain ⟨x, -, rfl⟩ := List.mem_map.1 hc
    exact isReal_ofReal x
  have maps : ∀ {l : List Int} {g : Int → List ℝ}, RealTerms (l.map fun i => realPolynomial (g i)) := by
    intro l g t ht
    obtain ⟨i, -, rfl⟩ := List.mem_map.1 ht
    exact real _
  have butter : Result RealTerm (butterworth complexEnv n cutoff order highpass) := by
    unfold butterworth
    refine result_any fun k => ?_
    dsimp only
    refine result_bind ((closed n).productFactory _ ?_) fun p hp => invert_real hp
    split
    · exact maps
    · exact .cons (real _) maps
  refine ⟨.cons (expFactory_real (isReal_ofReal _) _) .nil, .cons (polynomialFactory_real ?_ _) .nil, roll butter, roll ?_,
    roll ?_, roll ?_⟩
  · intro c hc
    simp only [List.mem_cons, List.not_mem_nil, or_false] at hc
    rcases hc with rfl | rfl
    · exact isReal_one
    · exact isReal_zero
  · unfold bessel
    refine result_any fun k => div_real (.constant isReal_one) (polynomialFactory_real (fun c hc => ?_) _)
    obtain ⟨x, -, rfl⟩ := List.mem_map.1 hc
    exact isReal_ofReal x
  · split
    · unfold chebyshev1
      refine result_any fun k => ?_
      dsimp only
      split
      · exact trivial
      · refine result_bind ((closed n).productFactory _ ?_) fun p hp => invert_real hp
        split
        · exact maps
        · exact .cons (real _) maps
    · exact butter
  · have factor : ∀ (k s c p : ℝ) (l : List Int), Result RealTerms (l.mapM (chebyshev2Factor k s c p)) := by
      intro k s c p l
      exact result_mapM (P := fun _ => True) (fun i _ => div_real (real _) (real _)) fun _ _ => trivial
    unfold chebyshev2
    refine result_any fun k => ?_
    dsimp only
    split
    · exact trivial
    · refine result_bind (P := RealTerms) ?_ fun l hl => (closed n).productFactory _ hl
      split
      · exact factor _ _ _ _ _
      · refine result_bind (div_real (.constant isReal_one) (real _)) fun a ha => ?_
        exact result_bind (factor _ _ _ _ _) fun l hl => RealTerms.cons ha hl

example (mem : ℂ) (f : ℝ) (hf : f ≠ 0) : ∃ a, butterworthFilter complexEnv 3 1000 4 true = .ok a ∧
    a.call complexEnv mem (-f) = (a.call complexEnv mem f).map (Option.map conj) := by
  obtain ⟨a, h, -⟩ := C37_magnitude mem 0 1000 (by norm_num) 4 (by norm_num) true
  exact ⟨a, h, C127_hermitian a ((C127_filters 3 1000 0 0 4 true).2.2.1 a h) mem f hf⟩

/-- C127: The operators do not introduce complex numbers: the results of arithmetics with filters, that have real numbers in
their transfer functions only, and with real numbers have real numbers in their transfer functions only. -/
theorem C127_operators (n : Nat) (a b : Channels ℝ ℂ) (v : ℂ) (ha : RealTerms a.transferFunctions)
    (hb : RealTerms b.transferFunctions) (hv : v.im = 0) (o : Channels.Operand ℝ ℂ) (ho : o = .filter b ∨ o = .number v) :
    (∀ r, a.add complexEnv n o = .ok r → RealTerms r.transferFunctions) ∧
      (∀ r, a.sub complexEnv n o = .ok r → RealTerms r.transferFunctions) ∧
      (∀ r, a.mul complexEnv n o = .ok r → RealTerms r.transferFunctions) ∧
      (∀ r, a.truediv o = .ok r → RealTerms r.transferFunctions) ∧
      (∀ r, a.rsub complexEnv n v = .ok r → RealTerms r.transferFunctions) ∧
      (∀ r, a.rtruediv v = .ok r → RealTerms r.transferFunctions) ∧
      RealTerms (a.abs complexEnv).transferFunctions ∧
      (∀ r, a.neg complexEnv n = .ok r → RealTerms r.transferFunctions) ∧
      ∀ r, a.invert = .ok r → RealTerms r.transferFunctions := by
  have hv : RealTerm (.constant v) := .constant (Complex.conj_eq_iff_im.2 hv)
  have out : ∀ {p : Py (Channels ℝ ℂ)}, Result (fun r => RealTerms r.transferFunctions) p →
      ∀ r, p = .ok r → RealTerms r.transferFunctions := by
    intro p h r e
    rw [e] at h
    exact h
  have single : ∀ {g : Term ℝ ℂ → Py (Term ℝ ℂ)} {labels : List String}, (∀ t, RealTerm t → Result RealTerm (g t)) →
      Result (fun r => RealTerms r.transferFunctions)
        (a.transferFunctions.mapM g >>= fun l => .ok (Channels.new l labels)) := by
    intro g labels hg
    exact result_bind (result_mapM hg ha) fun l hl => hl
  have both : ∀ {g : Term ℝ ℂ → Term ℝ ℂ → Py (Term ℝ ℂ)} {label : String},
      (∀ s t, RealTerm s → RealTerm t → Result RealTerm (g s t)) →
      Result (fun r => RealTerms r.transferFunctions) (a.algebraFunction b.transferFunctions g label) := by
    intro g label hg
    unfold Channels.algebraFunction
    split
    · rename_i t e
      have ht : RealTerm t := ha t (by rw [e]; exact List.mem_cons_self)
      exact result_bind (result_mapM (fun s hs => hg t s ht hs) hb) fun l hl => hl
    · split
      · rename_i t e
        have ht : RealTerm t := hb t (by rw [e]; exact List.mem_cons_self)
        exact result_bind (result_mapM (fun s hs => hg s t hs ht) ha) fun l hl => hl
      · split
        · refine result_bind (result_mapM (P := fun p : Term ℝ ℂ × Term ℝ ℂ => RealTerm p.1 ∧ RealTerm p.2)
            (fun p hp => hg p.1 p.2 hp.1 hp.2) fun p hp => ?_) fun l hl => hl
          exact ⟨ha _ (List.of_mem_zip hp).1, hb _ (List.of_mem_zip hp).2⟩
        · exact trivial
  refine ⟨out ?_, out ?_, out ?_, out ?_, out (single fun t ht => sub_real n hv ht), out (single fun t ht => div_real hv ht), ?_,
    out (single fun t ht => (closed n).negate ht), out (single fun t ht => invert_real ht)⟩
  · rcases ho with rfl | rfl
    · exact both fun s t hs ht => (closed n).add hs ht
    · unfold Channels.add
      dsimp only
      split
      · exact ha
      · exact single fun t ht => (closed n).add ht hv
  · rcases ho with rfl | rfl
    · exact both fun s t hs ht => sub_real n hs ht
    · unfold Channels.sub
      dsimp only
      split
      · exact ha
      · exact single fun t ht => sub_real n ht hv
  · rcases ho with rfl | rfl
    · exact both fun s t hs ht => (closed n).mul hs ht
    · unfold Channels.mul
      dsimp only
      split
      · exact ha
      · exact single fun t ht => (closed n).mul ht hv
  · rcases ho with rfl | rfl
    · exact both fun s t hs ht => div_real hs ht
    · unfold Channels.truediv
      dsimp only
      split
      · exact ha
      · exact single fun t ht => div_real ht hv
  · intro t ht
    obtain ⟨s, hs, rfl⟩ := List.mem_map.1 ht
    exact abs_real (ha s hs)

example : RealTerms (Channels.new [Term.exp (-1) false, .quotient (.constant 1) (.polynomial [1, 2] true) false]
    ["a", "b"] : Channels ℝ ℂ).transferFunctions := by
  refine RealTerms.pair (.exp isReal_one.neg) (.quotient (.constant isReal_one) (.polynomial fun c hc => ?_))
  simp only [List.mem_cons, List.not_mem_nil, or_false] at hc
  rcases hc with rfl | rfl
  · exact isReal_one
  · exact isReal_ofReal 2

/-! ### the weighting filters -/

theorem real_value (a f : ℝ) : conj (I * f / ((a : ℂ) + I * f)) = I * (-f : ℝ) / (a + I * (-f : ℝ)) ∧
    conj (1 / (2 * Real.pi * ((a : ℂ) + I * f))) = 1 / (2 * Real.pi * (a + I * (-f : ℝ))) := by
  have h : conj (2 : ℂ) = 2 := isReal_ofReal 2
  constructor
  · simp
  · simp [h]

theorem cValues_conj (f : ℝ) : (cValues (-f)).prod = conj (cValues f).prod := by
  simp only [cValues, List.prod_cons, List.prod_nil, mul_one, map_mul]
  rw [(real_value f1 f).1, (real_value f1 f).2, (real_value f4 f).1, (real_value f4 f).2]

/-- the terms of the weighting filters and their values -/
theorem weighting_terms (w : Weighting) : ∃ (l : List (Term ℝ ℂ)) (vs : ℝ → List ℂ), w.generator 1000 = .ok l ∧
    (∀ f, Values f l (vs f)) ∧ (vs 1000).prod ≠ 0 ∧ (∀ f, (vs (-f)).prod = conj (vs f).prod) ∧
    (w = .c → vs = cValues) ∧
    (w = .u → ∀ f, (vs f).prod = 1 / ((2 * Real.pi) ^ 6 * ((12200 + I * f) ^ 2 * ((7850 + I * f) ^ 2 + 8800 ^ 2) *
      ((2900 + I * f) ^ 2 + 12150 ^ 2)))) := by
  cases w with
  | c => exact ⟨cTerms, cValues, cFactors_ok, cValues_ok, cValues_ne, cValues_conj, fun _ => rfl, by simp⟩
  | b =>
    refine ⟨_ :: cTerms, fun f => I * f / ((158.5 : ℝ) + I * f) :: cValues f, ?_,
      fun f => .cons (quotient_value (a := 158.5) (by norm_num) f) (cValues_ok f), ?_, ?_, by simp, by simp⟩
    · show bFactors 1000 = _
      unfold bFactors
      rw [cFactors_ok]
      simp only [highpassFactor, div, Bind.bind, Except.bind]
      push_cast
      rfl
    · rw [List.prod_cons]
      exact mul_ne_zero (div_ne_zero thousand_ne (pole_ne (by norm_num))) cValues_ne
    · intro f
      rw [List.prod_cons, List.prod_cons, map_mul, cValues_conj, (real_value 158.5 f).1]
  | a =>
    have hr : (5 : ℝ) ^ (0.5 : ℝ) = Real.sqrt 5 := by
      rw [Real.sqrt_eq_rpow]
      norm_num
    have hr5 : Real.sqrt 5 < 3 := by
      rw [Real.sqrt_lt' (by norm_num)]
      norm_num
    have hf : (0 : ℝ) < (10 : ℝ) ^ (2.45 : ℝ) := Real.rpow_pos_of_pos (by norm_num) _
    have h2 : 0 < iecF2 := mul_pos (by linarith) hf
    have h3 : 0 < iecF3 := mul_pos (by have := Real.sqrt_nonneg 5; linarith) hf
    refine ⟨_ :: _ :: cTerms, fun f => I * f / (iecF2 + I * f) :: I * f / (iecF3 + I * f) :: cValues f, ?_,
      fun f => .cons (quotient_value h2 f) (.cons (quotient_value h3 f) (cValues_ok f)), ?_, ?_, by simp, by simp⟩
    · show aFactors 1000 = _
      unfold aFactors
      dsimp only
      rw [cFactors_ok, hr, show (1.5 - Real.sqrt 5 / 2) * (10 : ℝ) ^ (2.45 : ℝ) = iecF2 by unfold iecF2; ring,
        show (1.5 + Real.sqrt 5 / 2) * (10 : ℝ) ^ (2.45 : ℝ) = iecF3 by unfold iecF3; ring]
      simp only [highpassFactor, div, Bind.bind, Except.bind]
      push_cast
      rfl
    · rw [List.prod_cons, List.prod_cons]
      exact mul_ne_zero (div_ne_zero thousand_ne (pole_ne h2)) (mul_ne_zero (div_ne_zero thousand_ne (pole_ne h3))
        cValues_ne)
    · intro f
      rw [List.prod_cons, List.prod_cons, List.prod_cons, List.prod_cons, map_mul, map_mul, cValues_conj,
        (real_value iecF2 f).1, (real_value iecF3 f).1]
  | d =>
    have he : 0 < Real.sqrt 79919.29 := Real.sqrt_pos.mpr (by norm_num)
    have hf : 0 < Real.sqrt 1345600.0 := Real.sqrt_pos.mpr (by norm_num)
    have hb : 0 < Real.sqrt 1080768.16 := Real.sqrt_pos.mpr (by norm_num)
    have hd : 0 < Real.sqrt 11723776.0 := Real.sqrt_pos.mpr (by norm_num)
    have quad : ∀ a d : ℝ, 0 < a → 0 < d → ∀ f : ℝ, ((a - f ^ 2 : ℝ) : ℂ) + I * ((d * f : ℝ) : ℂ) ≠ 0 := by
      intro a d ha hd f h
      have hn := pole_norm (a - f ^ 2) (d * f)
      rw [h, norm_zero] at hn
      have h1 : (d * f) ^ 2 = 0 := by nlinarith [sq_nonneg (d * f), sq_nonneg (a - f ^ 2)]
      have h2 : (a - f ^ 2) ^ 2 = 0 := by nlinarith [sq_nonneg (d * f), sq_nonneg (a - f ^ 2)]
      have h3 := (mul_eq_zero.mp (pow_eq_zero_iff (two_ne_zero)|>.mp h1)).resolve_left hd.ne'
      have h4 := pow_eq_zero_iff (two_ne_zero)|>.mp h2
      rw [h3] at h4
      linarith
    refine ⟨[_, _, .quotient
        (.polynomial [1, 2 * Real.pi * (Real.sqrt 1080768.16 : ℝ), (2 * Real.pi * (Real.sqrt 1037918.48 : ℝ)) ^ 2] false)
        (.polynomial [1, 2 * Real.pi * (Real.sqrt 11723776.0 : ℝ), (2 * Real.pi * (Real.sqrt 9837328.0 : ℝ)) ^ 2] false)
        false],
      fun f => [I * f / ((Real.sqrt 79919.29 : ℝ) + I * f), 1 / (2 * Real.pi * ((Real.sqrt 1345600.0 : ℝ) + I * f)),
        (((1037918.48 - f ^ 2 : ℝ) : ℂ) + I * ((Real.sqrt 1080768.16 * f : ℝ) : ℂ)) /
          (((9837328.0 - f ^ 2 : ℝ) : ℂ) + I * ((Real.sqrt 11723776.0 * f : ℝ) : ℂ))], ?_,
      fun f => .cons (quotient_value he f) (.cons (inverse_value (pole_ne hf)) (.cons ?_ .nil)), ?_, ?_, by simp, by simp⟩
    · show dFactors 1000 = _
      unfold dFactors
      dsimp only
      simp only [highpassFactor, lowpassFactor, div, Term.invert]
      push_cast
      rfl
    · refine ⟨?_, by simp [usesTransform]⟩
      have pv : ∀ a d : ℝ, 0 ≤ a → eval complexEnv f (false ^^ false) (.polynomial [1, 2 * Real.pi * (d : ℂ),
          (2 * Real.pi * (Real.sqrt a : ℝ)) ^ 2] false) =
          some ((2 * Real.pi) ^ 2 * (((a - f ^ 2 : ℝ) : ℂ) + I * ((d * f : ℝ) : ℂ))) := by
        intro a d ha
        rw [eval_polynomial]
        refine ⟨_, rfl, ?_⟩
        have e : ((Real.sqrt a : ℝ) : ℂ) ^ 2 = (a : ℂ) := by exact_mod_cast Real.sq_sqrt ha
        simp only [polyval, complexEnv, List.foldl]
        push_cast
        have hI := Complex.I_sq
        linear_combination (-(4 * Real.pi ^ 2 * f ^ 2 : ℂ)) * hI - (2 * Real.pi : ℂ) ^ 2 * e
      rw [eval_quotient]
      refine ⟨_, _, pv _ _ (by norm_num), pv _ _ (by norm_num), mul_ne_zero (pow_ne_zero 2 s_ne)
        (quad _ _ (by norm_num) hd f), ?_⟩
      rw [mul_div_mul_left _ _ (pow_ne_zero 2 s_ne)]
    · simp only [List.prod_cons, List.prod_nil, mul_one]
      exact mul_ne_zero (div_ne_zero thousand_ne (pole_ne he)) (mul_ne_zero (div_ne_zero one_ne_zero (mul_ne_zero s_ne
        (pole_ne hf))) (div_ne_zero (quad _ _ (by norm_num) hb _) (quad _ _ (by norm_num) hd _)))
    · intro f
      have q : ∀ a d : ℝ, conj (((a - f ^ 2 : ℝ) : ℂ) + I * ((d * f : ℝ) : ℂ)) =
          ((a - (-f) ^ 2 : ℝ) : ℂ) + I * ((d * (-f) : ℝ) : ℂ) := by
        intro a d
        rw [map_add, map_mul, Complex.conj_ofReal, Complex.conj_ofReal, Complex.conj_I, neg_sq]
        push_cast
        ring
      simp only [List.prod_cons, List.prod_nil, mul_one, map_mul]
      rw [(real_value _ f).1, (real_value _ f).2, map_div₀, q, q]
  | u =>
    have pr : ∀ (a b : ℝ), 0 < a → ∀ f : ℝ, (a : ℂ) + b * I + I * f ≠ 0 := by
      intro a b h f e
      have := congrArg Complex.re e
      simp at this
      exact h.ne' this
    have pd : ∀ f : ℝ, ([1 / (2 * Real.pi * (((12200 : ℝ) : ℂ) + ((0 : ℝ) : ℂ) * I + I * f)),
        1 / (2 * Real.pi * (((12200 : ℝ) : ℂ) + ((0 : ℝ) : ℂ) * I + I * f)),
        1 / (2 * Real.pi * (((7850 : ℝ) : ℂ) + ((-8800 : ℝ) : ℂ) * I + I * f)),
        1 / (2 * Real.pi * (((7850 : ℝ) : ℂ) + ((8800 : ℝ) : ℂ) * I + I * f)),
        1 / (2 * Real.pi * (((2900 : ℝ) : ℂ) + ((-12150 : ℝ) : ℂ) * I + I * f)),
        1 / (2 * Real.pi * (((2900 : ℝ) : ℂ) + ((12150 : ℝ) : ℂ) * I + I * f))] : List ℂ).prod =
        1 / ((2 * Real.pi) ^ 6 * ((12200 + I * f) ^ 2 * ((7850 + I * f) ^ 2 + 8800 ^ 2) *
          ((2900 + I * f) ^ 2 + 12150 ^ 2))) := by
      intro f
      simp only [List.prod_cons, List.prod_nil, mul_one, one_div, ← mul_inv]
      congr 1
      push_cast
      have q : ∀ a b : ℂ, (a + -b * I + I * f) * (a + b * I + I * f) = (a + I * f) ^ 2 + b ^ 2 := by
        intro a b
        linear_combination (-b ^ 2) * Complex.I_sq
      rw [← q 7850 8800, ← q 2900 12150]
      ring
    refine ⟨[_, _, _, _, _, _], fun f => [1 / (2 * Real.pi * (((12200 : ℝ) : ℂ) + ((0 : ℝ) : ℂ) * I + I * f)),
        1 / (2 * Real.pi * (((12200 : ℝ) : ℂ) + ((0 : ℝ) : ℂ) * I + I * f)),
        1 / (2 * Real.pi * (((7850 : ℝ) : ℂ) + ((-8800 : ℝ) : ℂ) * I + I * f)),
        1 / (2 * Real.pi * (((7850 : ℝ) : ℂ) + ((8800 : ℝ) : ℂ) * I + I * f)),
        1 / (2 * Real.pi * (((2900 : ℝ) : ℂ) + ((-12150 : ℝ) : ℂ) * I + I * f)),
        1 / (2 * Real.pi * (((2900 : ℝ) : ℂ) + ((12150 : ℝ) : ℂ) * I + I * f))], ?_,
      fun f => .cons (inverse_value (pr _ _ (by norm_num) f)) (.cons (inverse_value (pr _ _ (by norm_num) f))
        (.cons (inverse_value (pr _ _ (by norm_num) f)) (.cons (inverse_value (pr _ _ (by norm_num) f))
        (.cons (inverse_value (pr _ _ (by norm_num) f)) (.cons (inverse_value (pr _ _ (by norm_num) f)) .nil))))),
      ?_, ?_, by simp, fun _ => pd⟩
    · show uFactors 1000 = _
      unfold uFactors
      dsimp only
      simp only [lowpassFactor, Term.invert]
      push_cast
      simp only [zero_mul, add_zero, neg_mul, ← sub_eq_add_neg]
      rfl
    · simp only [List.prod_cons, List.prod_nil, mul_one]
      have q : ∀ (a b : ℝ), 0 < a → 1 / (2 * Real.pi * ((a : ℂ) + b * I + I * (1000 : ℝ))) ≠ 0 :=
        fun a b h => div_ne_zero one_ne_zero (mul_ne_zero s_ne (pr a b h 1000))
      refine mul_ne_zero (q _ _ (by norm_num)) (mul_ne_zero (q _ _ (by norm_num)) (mul_ne_zero (q _ _ (by norm_num))
        (mul_ne_zero (q _ _ (by norm_num)) (mul_ne_zero (q _ _ (by norm_num)) (q _ _ (by norm_num))))))
    · intro f
      have n2 : ∀ n : ℝ, conj (n : ℂ) = n := isReal_ofReal
      rw [pd, pd, map_div₀, map_mul, map_mul, map_mul, map_pow, map_pow, map_add, map_add, map_add, map_pow, map_pow, map_pow,
        map_pow, map_add, map_add, map_mul, map_mul, Complex.conj_I, Complex.conj_ofReal, Complex.conj_ofReal]
      simp only [map_one, map_ofNat]
      push_cast
      ring_nf

/-- the values of the weighting filters, also at negative frequencies -/
theorem weighting_call (w : Weighting) : ∃ a vs, w.filter complexEnv = .ok a ∧
    (∀ mem f, 0 ≤ f ∨ f ≠ 0 → a.call complexEnv mem f = [some ((vs f) / (vs 1000))]) ∧ (vs 1000) ≠ 0 ∧
    (∀ f, vs (-f) = conj (vs f)) ∧ (w = .c → vs = fun f => (cValues f).prod) ∧
    (w = .u → ∀ f, vs f = 1 / ((2 * Real.pi) ^ 6 * ((12200 + I * f) ^ 2 * ((7850 + I * f) ^ 2 + 8800 ^ 2) *
      ((2900 + I * f) ^ 2 + 12150 ^ 2)))) := by
  obtain ⟨l, vs, hl, hv, h0, hc, h1, h2⟩ := weighting_terms w
  have e : weightingFunction w.generator complexEnv =
      .ok (.product (.constant (1 / (vs 1000).prod) :: l) false) := by
    unfold weightingFunction
    dsimp only
    rw [hl]
    show (match l.mapM fun tf => eval complexEnv 1000 false tf with | none => _ | some values => _) = _
    rw [values_mapM (hv 1000)]
    dsimp only
    rw [if_neg h0]
  refine ⟨Channels.new [.product (.constant (1 / (vs 1000).prod) :: l) false] [w.label], fun f => (vs f).prod, ?_, ?_, h0, hc,
    fun h => by rw [h1 h], h2⟩
  · unfold Weighting.filter
    rw [e]
    rfl
  · intro mem f hf
    have ht : usesTransform false (Term.product (.constant (1 / (vs 1000).prod) :: l) false) = false := by
      simp [usesTransform, usesTransformList, values_transform (hv f)]
    have hev : eval complexEnv f false (Term.product (.constant (1 / (vs 1000).prod) :: l) false) =
        some ((vs f).prod / (vs 1000).prod) := by
      rw [eval_product _ _ _ _ (by simp)]
      refine ⟨1 / (vs 1000).prod :: vs f, .cons rfl ?_, ?_⟩
      · exact (hv f).imp fun a x h => h.1
      · rw [List.prod_cons]
        ring
    by_cases hz : f = 0
    · rw [call_single mem _ _ f hz.ge, ht, if_neg (by simp), hev]
    · have hs : complexEnv.s f ≠ 0 := by simp [complexEnv, hz, Real.pi_ne_zero]
      show [(evalState complexEnv mem f false _ false).1] = _
      rw [evalState_nonzero complexEnv mem f hs, hev]

/-- C127: The weighting filters are normalized with the complex value at 1000 Hz, so their values at negative frequencies are the
complex conjugates of the values at positive frequencies only up to a constant phase.

This is partial, because the phase is not zero, see `C127_weighting_violated`. -/
theorem C127_weighting_partial (w : Weighting) : ∃ a c, w.filter complexEnv = .ok a ∧ ‖c‖ = 1 ∧
    ∀ mem f, ∃ x y, a.call complexEnv mem f = [some x] ∧ a.call complexEnv mem (-f) = [some y] ∧ y = c * conj x := by
  obtain ⟨a, vs, h1, h2, h3, h4, -⟩ := weighting_call w
  have h2 : ∀ mem f, a.call complexEnv mem f = [some (vs f / vs 1000)] := by
    intro mem f
    refine h2 mem f ?_
    by_cases h : f = 0
    · exact .inl h.ge
    · exact .inr h
  have h5 : conj (vs 1000) ≠ 0 := by simpa using h3
  refine ⟨a, conj (vs 1000) / vs 1000, h1, ?_, fun mem f => ⟨_, _, h2 mem f, h2 mem (-f), ?_⟩⟩
  · rw [norm_div, Complex.norm_conj, div_self (by simpa using h3)]
  · rw [h4, map_div₀]
    field_simp

/-- C127: The transfer functions of the C-weighting and of the U-weighting are not those of filters, that map real signals to
real signals: the value of the C-weighting at -1000 Hz is not the complex conjugate of its value at 1000 Hz and the value of the
U-weighting at 0 Hz has an imaginary part. When such a filter is applied to the spectrum of a signal, the inverse transform
discards the imaginary part at 0 Hz, so a constant signal is not scaled with the magnitude of the filter. -/
theorem C127_weighting_violated :
    (∃ a, Weighting.c.filter complexEnv = .ok a ∧ ∀ mem, ∃ x y, a.call complexEnv mem 1000 = [some x] ∧
      a.call complexEnv mem (-1000) = [some y] ∧ y ≠ conj x) ∧
    ∃ a, Weighting.u.filter complexEnv = .ok a ∧ ∀ mem, ∃ x, a.call complexEnv mem 0 = [some x] ∧ x.im ≠ 0 := by
  constructor
  · obtain ⟨a, vs, h1, h2, h3, h4, h5, -⟩ := weighting_call .c
    refine ⟨a, h1, fun mem => ⟨_, _, h2 mem 1000 (.inl (by norm_num)), h2 mem (-1000) (.inr (by norm_num)), ?_⟩⟩
    rw [h4, div_self h3, map_one]
    intro h
    rw [div_eq_one_iff_eq h3, Complex.conj_eq_iff_im] at h
    rw [h5 rfl] at h h3
    dsimp only at h h3
    obtain ⟨p1, p4, hs, hp⟩ := f_facts
    have n1 := pole_ne (f := 1000) p1
    have n4 := pole_ne (f := 1000) p4
    have np : (Real.pi : ℂ) ≠ 0 := Complex.ofReal_ne_zero.2 Real.pi_ne_zero
    have e : (cValues 1000).prod * (((f1 : ℂ) + I * (1000 : ℝ)) * (f4 + I * (1000 : ℝ))) ^ 2 * (4 * Real.pi ^ 2) = -1000 ^ 2 := by
      simp only [cValues, List.prod_cons, List.prod_nil, mul_one]
      field_simp
      push_cast
      linear_combination (4 * 1000 ^ 2 : ℂ) * Complex.I_sq
    obtain ⟨r, hr⟩ : ∃ r : ℝ, (cValues 1000).prod = r := ⟨_, (Complex.conj_eq_iff_re.1 (Complex.conj_eq_iff_im.2 h)).symm⟩
    rw [hr] at e h3
    have hr0 : r ≠ 0 := Complex.ofReal_ne_zero.1 h3
    have e : ((r * 4 * Real.pi ^ 2 : ℝ) : ℂ) * (((f1 * f4 - 1000 ^ 2 : ℝ) : ℂ) + ((1000 * (f1 + f4) : ℝ) : ℂ) * I) ^ 2 =
        ((-1000 ^ 2 : ℝ) : ℂ) := by
      push_cast at e ⊢
      rw [← e]
      have q : (f1 : ℂ) * f4 - 1000 ^ 2 + 1000 * (f1 + f4) * I = (f1 + I * 1000) * (f4 + I * 1000) := by
        linear_combination (-1000 ^ 2 : ℂ) * Complex.I_sq
      rw [q]
      ring
    have i := congrArg Complex.im e
    rw [Complex.im_ofReal_mul, Complex.ofReal_im, sq (_ + _ : ℂ), Complex.mul_im] at i
    simp only [Complex.add_re, Complex.add_im, Complex.ofReal_re, Complex.ofReal_im, Complex.mul_re, Complex.mul_im,
      Complex.I_re, Complex.I_im, mul_zero, mul_one, sub_zero, add_zero, zero_add] at i
    have hk : r * 4 * Real.pi ^ 2 ≠ 0 := by
      have := Real.pi_ne_zero
      positivity
    have i := (mul_eq_zero.1 i).resolve_left hk
    have i : (f1 * f4 - 1000 ^ 2) * (1000 * (f1 + f4)) = 0 := by linarith
    have i := (mul_eq_zero.1 i).resolve_right (by positivity)
    have hc : iecC = 1000 * fH ^ 2 := by
      unfold iecC
      rw [fL_sq]
    obtain ⟨b1, b2⟩ := fH_sq
    have i : f1 * f4 = 1000 ^ 2 := by linarith
    have : f1 ^ 2 * f4 ^ 2 = (1000 ^ 2) ^ 2 := by rw [← mul_pow, i]
    rw [hp, hc] at this
    norm_num at this b2
    linarith
  · obtain ⟨a, vs, h1, h2, h3, h4, -, h5⟩ := weighting_call .u
    refine ⟨a, h1, fun mem => ⟨_, h2 mem 0 (.inl le_rfl), ?_⟩⟩
    have np : (Real.pi : ℂ) ≠ 0 := Complex.ofReal_ne_zero.2 Real.pi_ne_zero
    have q0 : (2 * Real.pi : ℂ) ^ 6 * ((12200 + I * ((0 : ℝ) : ℂ)) ^ 2 * ((7850 + I * ((0 : ℝ) : ℂ)) ^ 2 + 8800 ^ 2) *
        ((2900 + I * ((0 : ℝ) : ℂ)) ^ 2 + 12150 ^ 2)) = (2 * Real.pi : ℂ) ^ 6 * ((3229570437031250000000000 : ℝ) : ℂ) := by
      push_cast
      ring
    have q1 : (2 * Real.pi : ℂ) ^ 6 * ((12200 + I * ((1000 : ℝ) : ℂ)) ^ 2 * ((7850 + I * ((1000 : ℝ) : ℂ)) ^ 2 + 8800 ^ 2) *
        ((2900 + I * ((1000 : ℝ) : ℂ)) ^ 2 + 12150 ^ 2)) =
        (2 * Real.pi : ℂ) ^ 6 * (((3072002397200000000000000 : ℝ) : ℂ) + ((998268797922500000000000 : ℝ) : ℂ) * I) := by
      congr 1
      apply Complex.ext <;> simp [pow_two, Complex.mul_re, Complex.mul_im] <;> norm_num
    rw [h5 rfl, h5 rfl, q0, q1]
    have p6 : (2 * Real.pi : ℂ) ^ 6 ≠ 0 := pow_ne_zero 6 s_ne
    rw [one_div, one_div, mul_inv, mul_inv, mul_div_mul_left _ _ (inv_ne_zero p6), div_inv_eq_mul, ← Complex.ofReal_inv,
      Complex.im_ofReal_mul]
    simp

end Filter
end Verif
