import Verif.Filter
import Verif.TermProps
import Verif.SignalProps

/-
C33: Channels of a filter are independent of each other
C34: Equality of filters
C36: Channel broadcasting in filter arithmetic
C60: Filters at 0 Hz
C61: Slicing filters
-/

namespace Verif
namespace Filter

open Interpolation (Mode Logs)

variable {α K : Type} [Field α] [LinearOrder α] [Field K] [DecidableEq K] [Module α K]

mutual

/-- Specification: a transformed frequency variable is needed for computing the term -/
def usesTransform (t : Bool) : Term α K → Bool
  | .constant _ => t
  | .polynomial _ tr => t ^^ tr
  | .exp _ tr => t ^^ tr
  | .bands _ _ _ _ => false
  | .absolute v tr => usesTransform (t ^^ tr) v
  | .negative v tr => usesTransform (t ^^ tr) v
  | .sum l tr => (l.length = 0 && (t ^^ tr)) || usesTransformList (t ^^ tr) l
  | .difference m s tr => usesTransform (t ^^ tr) m || usesTransform (t ^^ tr) s
  | .product l tr => (l.length = 0 && (t ^^ tr)) || usesTransformList (t ^^ tr) l
  | .quotient m s tr => usesTransform (t ^^ tr) m || usesTransform (t ^^ tr) s

/-- a transformed frequency variable is needed for one of the terms -/
def usesTransformList (t : Bool) : List (Term α K) → Bool
  | [] => false
  | a :: l => usesTransform t a || usesTransformList t l

end

theorem fix_false (x : Option K) : fix false x = x := rfl

theorem fix_true (x : Option K) : fix true x = some 0 := rfl

/-- the state is not changed and not used at frequencies, where `s` is not zero -/
theorem evalState_nonzero (E : Env α K) (mem : K) (f : α) (hf : E.s f ≠ 0) (a : Term α K) :
    ∀ t, evalState E mem f t a false = (eval E f t a, false) := by
  have ht : ∀ t, touch E f t false = false := by
    intro t
    simp [touch, hf]
  have hs : ∀ t, sValue E f t = some (sMemory E mem f t) := by
    intro t
    cases t <;> simp [sValue, sMemory, hf]
  refine Term.rec (motive_1 := fun a => ∀ t, evalState E mem f t a false = (eval E f t a, false))
    (motive_2 := fun l => ∀ t, evalStateList E mem f t l false = (evalList E f t l, false))
    ?_ ?_ ?_ ?_ ?_ ?_ ?_ ?_ ?_ ?_ ?_ ?_ a
  · intro v t
    simp only [evalState, eval, ht, fix_false]
  · intro cs tr t
    simp only [evalState, eval, ht, fix_false, hs, Option.map_some]
  · intro c tr t
    simp only [evalState, eval, ht, fix_false, hs, Option.map_some]
  · intro xs ys i e t
    simp only [evalState, eval, fix_false]
  · intro v tr ih t
    simp only [evalState, eval, ih, fix_false]
  · intro v tr ih t
    simp only [evalState, eval, ih, fix_false]
  · intro l tr ih t
    simp only [evalState, eval, ht, ite_self, ih, fix_false]
  · intro m s tr ihm ihs t
    simp only [evalState, eval, ihm, ihs, fix_false]
  · intro l tr ih t
    simp only [evalState, eval, ht, ite_self, ih, fix_false]
  · intro m s tr ihm ihs t
    simp only [evalState, eval, ihm, ihs, fix_false]
  · intro t
    simp only [evalStateList, evalList]
  · intro a l iha ihl t
    simp only [evalStateList, evalList, iha, ihl]

/-- where `s` is zero, the result is zero as soon as a transformed frequency variable has been used -/
theorem evalState_zero (E : Env α K) (mem : K) (f : α) (hf : E.s f = 0) (a : Term α K) :
    ∀ t b, evalState E mem f t a b =
      if b || usesTransform t a then (some 0, true) else (eval E f t a, false) := by
  have ht : ∀ t b, touch E f t b = (b || t) := by
    intro t b
    simp [touch, hf]
  refine Term.rec (motive_1 := fun a => ∀ t b, evalState E mem f t a b =
      if b || usesTransform t a then (some 0, true) else (eval E f t a, false))
    (motive_2 := fun l => ∀ t b, (evalStateList E mem f t l b).2 = (b || usesTransformList t l) ∧
      ((b || usesTransformList t l) = false → (evalStateList E mem f t l b).1 = evalList E f t l))
    ?_ ?_ ?_ ?_ ?_ ?_ ?_ ?_ ?_ ?_ ?_ ?_ a
  · intro v t b
    cases t <;> cases b <;> simp [evalState, eval, ht, fix, usesTransform]
  · intro cs tr t b
    simp only [evalState, eval, ht, usesTransform]
    cases t <;> cases tr <;> cases b <;> simp [fix, sMemory, sValue]
  · intro c tr t b
    simp only [evalState, eval, ht, usesTransform]
    cases t <;> cases tr <;> cases b <;> simp [fix, sMemory, sValue]
  · intro xs ys i e t b
    cases b <;> simp [evalState, eval, fix, usesTransform]
  · intro v tr ih t b
    rw [usesTransform]
    simp only [evalState, eval, ih]
    cases b || usesTransform (t ^^ tr) v <;> simp [fix]
  · intro v tr ih t b
    rw [usesTransform]
    simp only [evalState, eval, ih]
    cases b || usesTransform (t ^^ tr) v <;> simp [fix]
  · intro l tr ih t b
    simp only [evalState, eval, usesTransform]
    by_cases hl : l = []
    · subst hl
      simp only [List.length_nil, if_true, ht, evalStateList, usesTransformList, evalList]
      cases t <;> cases tr <;> cases b <;> simp [fix]
    · have h0 : l.length ≠ 0 := by simpa using hl
      rw [if_neg h0]
      simp only [decide_eq_false h0, Bool.false_and, Bool.false_or]
      obtain ⟨h1, h2⟩ := ih (t ^^ tr) b
      cases hu : b || usesTransformList (t ^^ tr) l with
      | true =>
        rw [hu] at h1
        simp only [h1, fix_true, if_true]
      | false =>
        rw [hu] at h1
        simp only [h1, h2 hu, fix_false]
        simp
  · intro m s tr ihm ihs t b
    rw [usesTransform]
    simp only [evalState, eval, ihm, ihs]
    cases hm : b || usesTransform (t ^^ tr) m with
    | true =>
      have e1 : (b || (usesTransform (t ^^ tr) m || usesTransform (t ^^ tr) s)) = true := by
        rw [← Bool.or_assoc, hm]
        rfl
      rw [e1]
      simp [fix]
    | false =>
      have e1 : (b || (usesTransform (t ^^ tr) m || usesTransform (t ^^ tr) s)) = usesTransform (t ^^ tr) s := by
        rw [← Bool.or_assoc, hm]
        rfl
      rw [e1]
      cases usesTransform (t ^^ tr) s <;> simp [fix]
  · intro l tr ih t b
    simp only [evalState, eval, usesTransform]
    by_cases hl : l = []
    · subst hl
      simp only [List.length_nil, if_true, ht, evalStateList, usesTransformList, evalList]
      cases t <;> cases tr <;> cases b <;> simp [fix]
    · have h0 : l.length ≠ 0 := by simpa using hl
      rw [if_neg h0]
      simp only [decide_eq_false h0, Bool.false_and, Bool.false_or]
      obtain ⟨h1, h2⟩ := ih (t ^^ tr) b
      cases hu : b || usesTransformList (t ^^ tr) l with
      | true =>
        rw [hu] at h1
        simp only [h1, fix_true, if_true]
      | false =>
        rw [hu] at h1
        simp only [h1, h2 hu, fix_false]
        simp
  · intro m s tr ihm ihs t b
    rw [usesTransform]
    simp only [evalState, eval, ihm, ihs]
    cases hm : b || usesTransform (t ^^ tr) m with
    | true =>
      have e1 : (b || (usesTransform (t ^^ tr) m || usesTransform (t ^^ tr) s)) = true := by
        rw [← Bool.or_assoc, hm]
        rfl
      rw [e1]
      simp [fix]
    | false =>
      have e1 : (b || (usesTransform (t ^^ tr) m || usesTransform (t ^^ tr) s)) = usesTransform (t ^^ tr) s := by
        rw [← Bool.or_assoc, hm]
        rfl
      rw [e1]
      cases usesTransform (t ^^ tr) s <;> simp [fix]
  · intro t b
    simp [evalStateList, usesTransformList, evalList]
  · intro a l iha ihl t b
    simp only [evalStateList, usesTransformList, evalList, iha]
    cases ha : b || usesTransform t a with
    | true =>
      have e1 : (b || (usesTransform t a || usesTransformList t l)) = true := by
        rw [← Bool.or_assoc, ha]
        rfl
      rw [e1]
      simp only [if_true]
      refine ⟨?_, fun h => absurd h (by simp)⟩
      rw [(ihl t true).1]
      rfl
    | false =>
      have e1 : (b || (usesTransform t a || usesTransformList t l)) = usesTransformList t l := by
        rw [← Bool.or_assoc, ha]
        rfl
      rw [e1]
      simp only [Bool.false_eq_true, if_false]
      refine ⟨by rw [(ihl t false).1]; rfl, fun h => ?_⟩
      rw [(ihl t false).2 (by simpa using h)]

/-! ### C33 -/

/-- C33: At frequencies, where `s` is not zero, the values of the channels are those of the transfer functions. -/
theorem C33_positive_frequencies (mem : ℂ) (a : Channels ℝ ℂ) (f : ℝ) (hf : 0 < f) :
    a.call complexEnv mem f = a.transferFunctions.map (eval complexEnv f false) := by
  unfold Channels.call
  induction a.transferFunctions with
  | nil => rfl
  | cons b l ih =>
    simp only [evalStateList, evalState_nonzero complexEnv mem f (complexEnv_s hf)]
    rw [ih]
    rfl

example : (⟨[.constant 1, .exp 1 true], ["", ""]⟩ : Channels ℝ ℂ).transferFunctions.length = 2 := rfl

theorem complexEnv_zero : complexEnv.s 0 = 0 := by simp [complexEnv]

theorem evalStateList_true (E : Env α K) (mem : K) (f : α) (hf : E.s f = 0) (t : Bool) (l : List (Term α K)) :
    (evalStateList E mem f t l true).1 = l.map fun _ => some 0 := by
  induction l with
  | nil => rfl
  | cons a l ih =>
    simp only [evalStateList, evalState_zero E mem f hf, Bool.true_or, if_true, ih, List.map_cons]

/-- C33: The value of a channel at 0 Hz is zero, if this channel or any channel before it uses the transform; otherwise
it is that of the transfer function. So it depends on the order of the channels. Missing: the property demands, that the
channels before it have no influence, see `C33_zero_hertz_violated`. -/
theorem C33_zero_hertz_partial (mem : ℂ) (a : Channels ℝ ℂ) (k : Nat) (h : k < a.transferFunctions.length) :
    (a.call complexEnv mem 0)[k]? = some (
      if ∃ i, ∃ hi : i < a.transferFunctions.length, i ≤ k ∧ usesTransform false a.transferFunctions[i] = true
      then some 0 else eval complexEnv 0 false a.transferFunctions[k]) := by
  unfold Channels.call
  generalize a.transferFunctions = l at h
  induction l generalizing k with
  | nil => simp at h
  | cons b l ih =>
    simp only [evalStateList, evalState_zero complexEnv mem 0 complexEnv_zero, Bool.false_or]
    cases hb : usesTransform false b with
    | true =>
      simp only [if_true]
      rw [evalStateList_true _ _ _ complexEnv_zero]
      rw [if_pos ⟨0, by simp, by omega, by simpa using hb⟩]
      cases k with
      | zero => rfl
      | succ k =>
        have hk : k < l.length := by simpa using h
        simp [hk]
    | false =>
      simp only [Bool.false_eq_true, if_false]
      cases k with
      | zero =>
        rw [if_neg]
        · rfl
        · rintro ⟨i, hi, h1, h2⟩
          have : i = 0 := by omega
          subst this
          rw [List.getElem_cons_zero, hb] at h2
          cases h2
      | succ k =>
        rw [List.getElem?_cons_succ, ih k (by simpa using h)]
        have hiff : (∃ i, ∃ hi : i < l.length, i ≤ k ∧ usesTransform false l[i] = true) ↔
            ∃ i, ∃ hi : i < (b :: l).length, i ≤ k + 1 ∧ usesTransform false (b :: l)[i] = true := by
          constructor
          · rintro ⟨i, hi, h1, h2⟩
            exact ⟨i + 1, by simpa using hi, by omega, by simpa using h2⟩
          · rintro ⟨i, hi, h1, h2⟩
            cases i with
            | zero =>
              rw [List.getElem_cons_zero, hb] at h2
              cases h2
            | succ i => exact ⟨i, by simpa using hi, by omega, by simpa using h2⟩
        congr 1
        exact if_congr hiff rfl rfl

/-- C33: Without transforms, the channels are independent at all frequencies. -/
theorem C33_untransformed_partial (mem : ℂ) (a : Channels ℝ ℂ) (f : ℝ)
    (ha : ∀ tf ∈ a.transferFunctions, usesTransform false tf = false) :
    a.call complexEnv mem f = a.transferFunctions.map (eval complexEnv f false) := by
  unfold Channels.call
  revert ha
  generalize a.transferFunctions = l
  intro ha
  by_cases hs : complexEnv.s f = 0
  · induction l with
    | nil => rfl
    | cons b l ih =>
      simp only [evalStateList, evalState_zero complexEnv mem f hs, ha b List.mem_cons_self, Bool.or_self]
      simp only [Bool.false_eq_true, if_false]
      rw [ih fun tf htf => ha tf (List.mem_cons_of_mem _ htf)]
      rfl
  · induction l with
    | nil => rfl
    | cons b l ih =>
      simp only [evalStateList, evalState_nonzero complexEnv mem f hs]
      rw [ih fun tf htf => ha tf (List.mem_cons_of_mem _ htf)]
      rfl

/-- The hypotheses can be satisfied with two channels. -/
example : ∀ tf ∈ (⟨[.quotient (.constant 1) (.polynomial [1, 2] false) false, .exp 1 false], ["", ""]⟩ :
    Channels ℝ ℂ).transferFunctions, usesTransform false tf = false := by
  simp [usesTransform]

/-- C33 is violated at 0 Hz: the value of the constant one depends on being before or after a channel with a
transform. -/
theorem C33_zero_hertz_violated (mem : ℂ) :
    (⟨[.constant 1, .polynomial [1, 0] true], ["", ""]⟩ : Channels ℝ ℂ).call complexEnv mem 0 = [some 1, some 0] ∧
    (⟨[.polynomial [1, 0] true, .constant 1], ["", ""]⟩ : Channels ℝ ℂ).call complexEnv mem 0 = [some 0, some 0] := by
  constructor <;> simp [Channels.call, evalStateList, evalState, touch, fix, complexEnv_zero]

/-- C33: The samples of the spectrum are the values of the transfer functions at the multiples of the resolution.
Missing: 0 Hz. -/
theorem C33_spectrum_partial (mem : ℂ) (a : Channels ℝ ℂ) (resolution : ℝ) (hr : 0 < resolution) (length c k : Nat)
    (hc : c < a.transferFunctions.length) (hk : 0 < k) :
    (a.spectrum complexEnv mem resolution length).get c k =
      eval complexEnv (k * resolution) false a.transferFunctions[c] := by
  show ((a.call complexEnv mem (k * resolution))[c]?).getD none = _
  rw [C33_positive_frequencies mem a _ (by positivity)]
  simp [hc]

example : (0 : ℝ) < 1 / 2 ∧ 0 < 3 := by norm_num

/-! ### C60 -/

/-- C60: A term, that uses the transformed frequency variable anywhere, has the value zero at 0 Hz, whatever is in the
uninitialised memory; a term, that does not use it, is evaluated as at other frequencies. -/
theorem C60_zero_hertz_partial (mem : ℂ) (a : Term ℝ ℂ) :
    (evalState complexEnv mem 0 false a false).1 =
      if usesTransform false a then some 0 else eval complexEnv 0 false a := by
  rw [evalState_zero complexEnv mem 0 complexEnv_zero]
  cases usesTransform false a <;> rfl

/-- Polynomials and exponential functions with the flag `transform` are zero at 0 Hz. -/
theorem C60_transformed_primitives (mem c : ℂ) (cs : List ℂ) :
    (evalState complexEnv mem 0 false (.polynomial cs true) false).1 = some 0 ∧
    (evalState complexEnv mem 0 false (.exp c true) false).1 = some 0 := by
  rw [C60_zero_hertz_partial, C60_zero_hertz_partial]
  exact ⟨rfl, rfl⟩

example : usesTransform false (.exp 1 true : Term ℝ ℂ) = true ∧
    usesTransform false (.exp 1 false : Term ℝ ℂ) = false := ⟨rfl, rfl⟩

/-- C60 is violated: the sum of a constant and a transformed term is zero at 0 Hz, although the value of the constant is
one and that of the transformed term is zero. -/
theorem C60_sum_violated (mem : ℂ) :
    (evalState complexEnv mem 0 false (.constant 1) false).1 = some 1 ∧
    (evalState complexEnv mem 0 false (.polynomial [1, 0] true) false).1 = some 0 ∧
    (evalState complexEnv mem 0 false (.sum [.constant 1, .polynomial [1, 0] true] false) false).1 = some 0 := by
  simp [C60_zero_hertz_partial, usesTransform, usesTransformList, eval]

/-! ### C36 -/

theorem mapM_getElem {β γ : Type} {g : β → Py γ} {l : List β} {r : List γ} (h : l.mapM g = .ok r) :
    r.length = l.length ∧ ∀ k (hk : k < l.length), ∃ z, r[k]? = some z ∧ g l[k] = .ok z := by
  replace h := mapM_forall2 h
  induction h with
  | nil => exact ⟨rfl, fun k hk => absurd hk (by simp)⟩
  | cons e1 _ ih =>
    refine ⟨by simp [ih.1], ?_⟩
    intro k hk
    cases k with
    | zero => exact ⟨_, rfl, e1⟩
    | succ k =>
      obtain ⟨z, h1, h2⟩ := ih.2 k (by simpa using hk)
      exact ⟨z, by simpa using h1, by simpa using h2⟩

/-- the label of each channel of a new filter -/
theorem new_labels (l : List (Term α K)) (label : String) (n : Nat) (hn : n = l.length) :
    (Channels.new l (List.replicate n label)).labels = List.replicate l.length label := by
  unfold Channels.new
  dsimp only
  rw [Signal.sanitize_self (by simp [hn]), hn]

/-- C36: Each channel of the result is computed from the channels of the operands with the same index, where the only
channel of an operand with one channel is used for all channels. -/
theorem C36_channels (a : Channels α K) (b : List (Term α K)) (g : Term α K → Term α K → Py (Term α K))
    (label : String) (r : Channels α K) (h : a.algebraFunction b g label = .ok r) :
    r.transferFunctions.length = (if a.transferFunctions.length = 1 then b.length else a.transferFunctions.length) ∧
    r.labels = List.replicate r.transferFunctions.length label ∧
    ∀ k, k < r.transferFunctions.length → ∃ x y z,
      a.transferFunctions[if a.transferFunctions.length = 1 then 0 else k]? = some x ∧
      b[if b.length = 1 then 0 else k]? = some y ∧ g x y = .ok z ∧ r.transferFunctions[k]? = some z := by
  unfold Channels.algebraFunction at h
  by_cases ha : a.transferFunctions.length = 1
  · obtain ⟨tf1, hl⟩ := List.length_eq_one_iff.mp ha
    rw [hl] at h ⊢
    obtain ⟨l, h1, h⟩ := bind_ok h
    cases h
    obtain ⟨e1, e2⟩ := mapM_getElem h1
    refine ⟨e1, new_labels _ _ _ e1.symm, ?_⟩
    intro k hk
    have hk : k < l.length := hk
    obtain ⟨z, e3, e4⟩ := e2 k (by omega)
    refine ⟨tf1, b[k], z, rfl, ?_, e4, e3⟩
    by_cases hb : b.length = 1
    · rw [if_pos hb]
      have : k = 0 := by omega
      subst this
      exact List.getElem?_eq_getElem _
    · rw [if_neg hb]
      exact List.getElem?_eq_getElem _
  · rw [if_neg ha]
    simp only [if_neg ha]
    by_cases hb : b.length = 1
    · obtain ⟨tf2, hl⟩ := List.length_eq_one_iff.mp hb
      rw [hl] at h ⊢
      have h : (a.transferFunctions.mapM (fun tf1 => g tf1 tf2) >>= fun l =>
          .ok (Channels.new l (List.replicate a.transferFunctions.length label))) = .ok r := by
        revert ha h
        generalize a.transferFunctions = tfs
        intro ha h
        match tfs, h, ha with
        | [], h, _ => exact h
        | [x], _, ha => simp at ha
        | x :: y :: l, h, _ => exact h
      obtain ⟨l, h1, h⟩ := bind_ok h
      cases h
      obtain ⟨e1, e2⟩ := mapM_getElem h1
      refine ⟨e1, new_labels _ _ _ e1.symm, ?_⟩
      intro k hk
      have hk : k < l.length := hk
      obtain ⟨z, e3, e4⟩ := e2 k (by omega)
      exact ⟨_, tf2, z, List.getElem?_eq_getElem (by omega), rfl, e4, e3⟩
    · simp only [if_neg hb]
      have h : (if a.transferFunctions.length = b.length then
          (a.transferFunctions.zip b).mapM (fun p => g p.1 p.2) >>= fun l =>
            .ok (Channels.new l (List.replicate b.length label)) else .error .valueError) = .ok r := by
        revert ha hb h
        generalize a.transferFunctions = tfs
        intro h ha hb
        match tfs, b, h, ha, hb with
        | [x], _, _, ha, _ => simp at ha
        | [], [], h, _, _ => exact h
        | [], [x], _, _, hb => simp at hb
        | [], x :: y :: b, h, _, _ => exact h
        | x :: y :: l, [], h, _, _ => exact h
        | x :: y :: l, [z], _, _, hb => simp at hb
        | x :: y :: l, z :: w :: b, h, _, _ => exact h
      by_cases hab : a.transferFunctions.length = b.length
      · rw [if_pos hab] at h
        obtain ⟨l, h1, h⟩ := bind_ok h
        cases h
        obtain ⟨e1, e2⟩ := mapM_getElem h1
        rw [List.length_zip, hab, Nat.min_self] at e1
        refine ⟨by rw [hab]; exact e1, new_labels _ _ _ e1.symm, ?_⟩
        intro k hk
        have hk : k < l.length := hk
        obtain ⟨z, e3, e4⟩ := e2 k (by rw [List.length_zip]; omega)
        rw [List.getElem_zip] at e4
        exact ⟨_, _, z, List.getElem?_eq_getElem (by omega), List.getElem?_eq_getElem (by omega), e4, e3⟩
      · rw [if_neg hab] at h
        cases h

theorem mapM_total {β γ : Type} {g : β → Py γ} (hg : ∀ x, ∃ z, g x = .ok z) (l : List β) : ∃ r, l.mapM g = .ok r := by
  induction l with
  | nil => exact ⟨[], rfl⟩
  | cons a l ih =>
    obtain ⟨z, hz⟩ := hg a
    obtain ⟨r, hr⟩ := ih
    refine ⟨z :: r, ?_⟩
    rw [List.mapM_cons, hz, hr]
    rfl

/-- C36: Filters with incompatible numbers of channels are rejected. -/
theorem C36_rejected (a : Channels α K) (b : List (Term α K)) (g : Term α K → Term α K → Py (Term α K))
    (label : String) (ha : a.transferFunctions.length ≠ 1) (hb : b.length ≠ 1)
    (hab : a.transferFunctions.length ≠ b.length) : a.algebraFunction b g label = .error .valueError := by
  unfold Channels.algebraFunction
  revert ha hb hab
  generalize a.transferFunctions = tfs
  intro ha hb hab
  match tfs, b, ha, hb, hab with
  | [x], _, ha, _, _ => simp at ha
  | [], [], _, _, hab => simp at hab
  | [], [x], _, hb, _ => simp at hb
  | [], x :: y :: b, _, _, _ => rfl
  | x :: y :: l, [], _, _, _ => rfl
  | x :: y :: l, [z], _, hb, _ => simp at hb
  | x :: y :: l, z :: w :: b, _, _, hab => exact if_neg hab

/-- C36: All other numbers of channels are accepted, if the operation on the terms succeeds. -/
theorem C36_accepted (a : Channels α K) (b : List (Term α K)) (g : Term α K → Term α K → Py (Term α K))
    (label : String) (hg : ∀ x y, ∃ z, g x y = .ok z)
    (h : a.transferFunctions.length = 1 ∨ b.length = 1 ∨ a.transferFunctions.length = b.length) :
    ∃ r, a.algebraFunction b g label = .ok r := by
  unfold Channels.algebraFunction
  revert h
  generalize a.transferFunctions = tfs
  intro h
  have bind : ∀ {β γ : Type} (x : Py β) (k : β → γ), (∃ l, x = .ok l) → ∃ r, (x >>= fun l => .ok (k l)) = .ok r := by
    rintro β γ x k ⟨l, rfl⟩
    exact ⟨k l, rfl⟩
  match tfs, b, h with
  | [x], b, _ => exact bind _ _ (mapM_total (hg x) b)
  | [], [], _ => exact bind _ _ (mapM_total (fun p : Term α K × Term α K => hg p.1 p.2) _)
  | [], [x], _ => exact bind _ _ (mapM_total (fun y => hg y x) _)
  | [], x :: y :: b, h => simp at h
  | x :: y :: l, [], h => simp at h
  | x :: y :: l, [z], _ => exact bind _ _ (mapM_total (fun y => hg y z) _)
  | x :: y :: l, z :: w :: b, h =>
    have hl : (x :: y :: l).length = (z :: w :: b).length := by
      rcases h with h | h | h
      · simp at h
      · simp at h
      · exact h
    dsimp only
    rw [if_pos hl]
    exact bind _ _ (mapM_total (fun p : Term α K × Term α K => hg p.1 p.2) _)

/-- The hypotheses can be satisfied: one channel and three channels. -/
example : ∃ r, (⟨[.exp 1 false], ["label"]⟩ : Channels ℝ ℂ).truediv (.filter ⟨[.exp 1 false, .exp 2 false, .exp 3 false],
    ["", "", ""]⟩) = .ok r ∧ r.transferFunctions.length = 3 ∧ r.labels = ["Quotient", "Quotient", "Quotient"] :=
  ⟨_, rfl, rfl, rfl⟩

/-- C36: Adding and subtracting zero, multiplying with one and dividing by one does not change the filter. -/
theorem C36_neutral (E : Env α K) (n : Nat) (a : Channels α K) :
    a.add E n (.number 0) = .ok a ∧ a.sub E n (.number 0) = .ok a ∧ a.mul E n (.number 1) = .ok a ∧
    a.truediv (.number 1) = .ok a :=
  ⟨if_pos rfl, if_pos rfl, if_pos rfl, if_pos rfl⟩

/-- C36: The result of an operator for filters has the values of the operation at every frequency greater than zero.
Missing: terms, that are not plain (see C31). -/
theorem C36_values_partial (mem : ℂ) (n : Nat) (d : Bool) (a b : Channels ℝ ℂ)
    (ha : ∀ tf ∈ a.transferFunctions, Plain d tf) (hb : ∀ tf ∈ b.transferFunctions, Plain d tf) (f : ℝ) (hf : 0 < f)
    (r : Channels ℝ ℂ) (k : Nat) (hk : k < r.transferFunctions.length) (x y : ℂ)
    (hx : (a.call complexEnv mem f)[if a.transferFunctions.length = 1 then 0 else k]? = some (some x))
    (hy : (b.call complexEnv mem f)[if b.transferFunctions.length = 1 then 0 else k]? = some (some y)) :
    (a.add complexEnv n (.filter b) = .ok r → (r.call complexEnv mem f)[k]? = some (some (x + y))) ∧
    (a.sub complexEnv n (.filter b) = .ok r → (r.call complexEnv mem f)[k]? = some (some (x - y))) ∧
    (a.mul complexEnv n (.filter b) = .ok r → (r.call complexEnv mem f)[k]? = some (some (x * y))) ∧
    (a.truediv (.filter b) = .ok r → y ≠ 0 → (r.call complexEnv mem f)[k]? = some (some (x / y))) := by
  rw [C33_positive_frequencies mem _ f hf] at hx hy ⊢
  have key : ∀ (g : Term ℝ ℂ → Term ℝ ℂ → Py (Term ℝ ℂ)) (label : String) (w : ℂ),
      (∀ p q s, Plain d p → Plain d q → eval complexEnv f false p = some x → eval complexEnv f false q = some y →
        g p q = .ok s → eval complexEnv f false s = some w) →
      a.algebraFunction b.transferFunctions g label = .ok r →
      (r.transferFunctions.map (eval complexEnv f false))[k]? = some (some w) := by
    intro g label w hg h
    obtain ⟨_, _, h3⟩ := C36_channels a b.transferFunctions g label r h
    obtain ⟨p, q, s, h4, h5, h6, h7⟩ := h3 k hk
    rw [List.getElem?_map, h4] at hx
    rw [List.getElem?_map, h5] at hy
    rw [List.getElem?_map, h7]
    have e1 : eval complexEnv f false p = some x := Option.some.inj hx
    have e2 : eval complexEnv f false q = some y := Option.some.inj hy
    rw [Option.map_some, hg p q s (ha p (List.mem_of_getElem? h4)) (hb q (List.mem_of_getElem? h5)) e1 e2 h6]
  refine ⟨?_, ?_, ?_, ?_⟩
  · exact key _ _ _ fun p q s hp hq e1 e2 h => (C31_operators_partial n d p q hp hq f false x y e1 e2).1 s h
  · exact key _ _ _ fun p q s hp hq e1 e2 h => (C31_operators_partial n d p q hp hq f false x y e1 e2).2.1 s h
  · exact key _ _ _ fun p q s hp hq e1 e2 h => (C31_operators_partial n d p q hp hq f false x y e1 e2).2.2.1 s h
  · intro h hy0
    exact key _ _ _ (fun p q s hp hq e1 e2 h =>
      (C31_operators_partial n d p q hp hq f false x y e1 e2).2.2.2.1 s h hy0) h

/-- The hypotheses can be satisfied. -/
example (mem : ℂ) : ((⟨[.constant 3], [""]⟩ : Channels ℝ ℂ).call complexEnv mem 1)[0]? = some (some 3) := by
  rw [C33_positive_frequencies mem _ _ one_pos]
  rfl

/-- C36 is violated by filters with bands: the values of the sum are not the sums of the values, see C31. -/
theorem C36_values_violated (mem : ℂ) (n : Nat) :
    ∃ a r : Channels ℝ ℂ, a.add complexEnv (n + 1) (.filter a) = .ok r ∧ a.call complexEnv mem 2 = [some 1] ∧
      r.call complexEnv mem 2 = [some 1] := by
  refine ⟨⟨[.bands [1, 3] [1, 1] .one .zero], [""]⟩, ⟨[.bands [1, 3] [1 + 1, 1 + 1] .one .zero], ["Sum"]⟩, ?_, ?_, ?_⟩
  · simp [Channels.add, Channels.algebraFunction, Filter.add, bandsOp, broadcast, mkBands, Bind.bind, Except.bind,
      Channels.new, Pure.pure, Except.pure]
    rfl
  · rw [C33_positive_frequencies mem _ _ two_pos]
    show [eval complexEnv 2 false (.bands [1, 3] [1, 1] .one .zero)] = _
    rw [eval_bands, bands_between]
  · rw [C33_positive_frequencies mem _ _ two_pos]
    show [eval complexEnv 2 false (.bands [1, 3] [1 + 1, 1 + 1] .one .zero)] = _
    rw [eval_bands, bands_between]

/-- C36: The operators with a number combine each channel with the number and keep the labels. -/
theorem C36_numbers (E : Env α K) (n : Nat) (a : Channels α K) (hl : a.labels.length = a.transferFunctions.length)
    (v : K) (r : Channels α K) :
    (v ≠ 0 → a.add E n (.number v) = .ok r → r.labels = a.labels ∧
      ∀ k (hk : k < a.transferFunctions.length), ∃ z, r.transferFunctions[k]? = some z ∧
        Filter.add E n a.transferFunctions[k] (.constant v) = .ok z) ∧
    (v ≠ 0 → a.sub E n (.number v) = .ok r → r.labels = a.labels ∧
      ∀ k (hk : k < a.transferFunctions.length), ∃ z, r.transferFunctions[k]? = some z ∧
        Filter.sub E n a.transferFunctions[k] (.constant v) = .ok z) ∧
    (v ≠ 1 → a.mul E n (.number v) = .ok r → r.labels = a.labels ∧
      ∀ k (hk : k < a.transferFunctions.length), ∃ z, r.transferFunctions[k]? = some z ∧
        Filter.mul E n a.transferFunctions[k] (.constant v) = .ok z) ∧
    (v ≠ 1 → a.truediv (.number v) = .ok r → r.labels = a.labels ∧
      ∀ k (hk : k < a.transferFunctions.length), ∃ z, r.transferFunctions[k]? = some z ∧
        Filter.div a.transferFunctions[k] (.constant v) = .ok z) ∧
    (a.rsub E n v = .ok r → r.labels = a.labels ∧
      ∀ k (hk : k < a.transferFunctions.length), ∃ z, r.transferFunctions[k]? = some z ∧
        Filter.sub E n (.constant v) a.transferFunctions[k] = .ok z) ∧
    (a.rtruediv v = .ok r → r.labels = a.labels ∧
      ∀ k (hk : k < a.transferFunctions.length), ∃ z, r.transferFunctions[k]? = some z ∧
        Filter.div (.constant v) a.transferFunctions[k] = .ok z) := by
  have key : ∀ g : Term α K → Py (Term α K),
      (a.transferFunctions.mapM g >>= fun l => .ok (Channels.new l a.labels)) = .ok r → r.labels = a.labels ∧
      ∀ k (hk : k < a.transferFunctions.length), ∃ z, r.transferFunctions[k]? = some z ∧
        g a.transferFunctions[k] = .ok z := by
    intro g h
    obtain ⟨l, h1, h⟩ := bind_ok h
    cases h
    obtain ⟨e1, e2⟩ := mapM_getElem h1
    refine ⟨?_, e2⟩
    unfold Channels.new
    dsimp only
    exact Signal.sanitize_self (by omega)
  refine ⟨?_, ?_, ?_, ?_, key _, key _⟩
  · intro hv h
    unfold Channels.add at h
    dsimp only at h
    rw [if_neg hv] at h
    exact key _ h
  · intro hv h
    unfold Channels.sub at h
    dsimp only at h
    rw [if_neg hv] at h
    exact key _ h
  · intro hv h
    unfold Channels.mul at h
    dsimp only at h
    rw [if_neg hv] at h
    exact key _ h
  · intro hv h
    unfold Channels.truediv at h
    dsimp only at h
    rw [if_neg hv] at h
    exact key _ h

/-- The hypotheses can be satisfied. -/
example : ∃ r, (⟨[.exp 1 false, .exp 2 false], ["a", "b"]⟩ : Channels ℝ ℂ).rtruediv 2 = .ok r ∧ r.labels = ["a", "b"] := by
  refine ⟨⟨[.quotient (.constant 2) (.exp 1 false) false, .quotient (.constant 2) (.exp 2 false) false], ["a", "b"]⟩,
    ?_, rfl⟩
  simp [Channels.rtruediv, Channels.new, Filter.div, sanitizeLabels, Bind.bind, Except.bind, Pure.pure, Except.pure]

/-! ### C61 -/

/-- C61: Slicing a filter selects the transfer functions and labels with the same indices: the channel `k` of the result
is the channel `lo + k` of the filter and the labels are taken along. -/
theorem C61_slicing (a r : Channels α K) (hl : a.labels.length = a.transferFunctions.length) (key : Indexing.Key)
    (h : a.getItem key = some r) :
    ∃ s, Indexing.keyToSlice a.transferFunctions.length key = some s ∧
      r.transferFunctions.length = s.count a.transferFunctions.length ∧ r.labels.length = r.transferFunctions.length ∧
      ∀ k, k < r.transferFunctions.length →
        r.transferFunctions[k]? = a.transferFunctions[s.lo a.transferFunctions.length + k]? ∧
        r.labels[k]? = a.labels[s.lo a.transferFunctions.length + k]? := by
  unfold Channels.getItem at h
  obtain ⟨s, hs, h⟩ := Option.map_eq_some_iff.mp h
  subst h
  have hle : s.lo a.transferFunctions.length + s.count a.transferFunctions.length ≤ a.transferFunctions.length ∨
      s.count a.transferFunctions.length = 0 := by
    have := s.hi_le a.transferFunctions.length
    unfold PySlice.count
    omega
  have e1 : (sliceList a.transferFunctions s).length = s.count a.transferFunctions.length := by
    unfold sliceList
    rw [List.length_take, List.length_drop]
    omega
  have e2 : (sliceList a.labels s).length = s.count a.transferFunctions.length := by
    unfold sliceList
    rw [List.length_take, List.length_drop, hl]
    omega
  have e3 : (Channels.new (sliceList a.transferFunctions s) (sliceList a.labels s)).labels = sliceList a.labels s := by
    unfold Channels.new
    dsimp only
    exact Signal.sanitize_self (by rw [e1, e2])
  refine ⟨s, hs, e1, ?_, ?_⟩
  · rw [e3]
    exact e2.trans e1.symm
  · intro k hk
    have hk : k < (sliceList a.transferFunctions s).length := hk
    rw [e1] at hk
    rw [e3]
    constructor
    · show (sliceList a.transferFunctions s)[k]? = _
      unfold sliceList
      rw [List.getElem?_take_of_lt hk, List.getElem?_drop]
    · unfold sliceList
      rw [hl, List.getElem?_take_of_lt hk, List.getElem?_drop]

/-- The hypotheses can be satisfied: the last of three channels -/
example : (⟨[.constant 1, .constant 2, .constant 3], ["a", "b", "c"]⟩ : Channels ℚ ℚ).getItem (.idx (.int 2)) =
    some ⟨[.constant 3], ["c"]⟩ := rfl

/-- C61: At frequencies greater than zero, the values of the sliced filter are the slice of the values. -/
theorem C61_values (mem : ℂ) (a r : Channels ℝ ℂ) (hl : a.labels.length = a.transferFunctions.length)
    (key : Indexing.Key) (h : a.getItem key = some r) (f : ℝ) (hf : 0 < f) :
    ∃ s, Indexing.keyToSlice a.transferFunctions.length key = some s ∧
      ∀ k, k < r.transferFunctions.length → (r.call complexEnv mem f)[k]? =
        (a.call complexEnv mem f)[s.lo a.transferFunctions.length + k]? := by
  obtain ⟨s, hs, _, _, h2⟩ := C61_slicing a r hl key h
  refine ⟨s, hs, ?_⟩
  intro k hk
  rw [C33_positive_frequencies mem _ f hf, C33_positive_frequencies mem _ f hf, List.getElem?_map, List.getElem?_map,
    (h2 k hk).1]

/-! ### C34 for filters -/

theorem anyM_false_iff {β : Type} {p : β → Py Bool} {l : List β} :
    anyM p l = .ok false ↔ ∀ a ∈ l, p a = .ok false := by
  induction l with
  | nil => simp [anyM]
  | cons a l ih =>
    constructor
    · intro h
      obtain ⟨b, h1, h2⟩ := bind_ok (show (p a >>= fun b => if b then .ok true else anyM p l) = .ok false from h)
      cases b with
      | true => cases h2
      | false =>
        intro c hc
        rcases List.mem_cons.1 hc with rfl | hc
        · exact h1
        · exact ih.1 h2 c hc
    · intro h
      show (p a >>= fun b => if b then .ok true else anyM p l) = _
      rw [h a List.mem_cons_self]
      exact ih.2 fun c hc => h c (List.mem_cons_of_mem _ hc)

/-- C34: Filters are equal, if and only if they have the same number of channels, all pairs of their transfer functions
are equal and they have the same labels. -/
theorem C34_filters (n : Nat) (a b : Channels α K) :
    Channels.eq n a b = .ok true ↔ a.transferFunctions.length = b.transferFunctions.length ∧
      (∀ p ∈ a.transferFunctions.zip b.transferFunctions, termEq n p.1 p.2 = .ok true) ∧ a.labels = b.labels := by
  unfold Channels.eq
  by_cases hl : a.transferFunctions.length = b.transferFunctions.length
  · rw [if_neg (not_not.2 hl)]
    have key : anyM (fun p : Term α K × Term α K => termEq n p.1 p.2 >>= fun q => .ok !q)
        (a.transferFunctions.zip b.transferFunctions) = .ok false ↔
        ∀ p ∈ a.transferFunctions.zip b.transferFunctions, termEq n p.1 p.2 = .ok true := by
      rw [anyM_false_iff]
      constructor
      · intro h p hp
        obtain ⟨q, h1, h2⟩ := bind_ok (h p hp)
        cases q with
        | true => exact h1
        | false => cases h2
      · intro h p hp
        rw [h p hp]; rfl
    constructor
    · intro h
      obtain ⟨d, h1, h2⟩ := bind_ok h
      cases d with
      | true => cases h2
      | false =>
        refine ⟨hl, key.1 h1, ?_⟩
        have h3 : decide (a.labels = b.labels) = true := by
          rw [if_neg (by decide)] at h2
          exact Except.ok.inj h2
        exact of_decide_eq_true h3
    · rintro ⟨-, h1, h2⟩
      rw [key.2 h1]
      show Except.ok (decide (a.labels = b.labels)) = _
      rw [decide_eq_true h2]
  · rw [if_pos hl]
    constructor
    · intro h; cases h
    · rintro ⟨h, -⟩; exact absurd h hl

/-- C34: Filters with plain transfer functions, that are equal, have the same values. Missing: as for
`C34_values_partial`. -/
theorem C34_filter_values_partial (n : Nat) (d : Bool) (a b : Channels ℝ ℂ) (ha : ∀ x ∈ a.transferFunctions, Plain d x)
    (hb : ∀ x ∈ b.transferFunctions, Plain d x) (h : Channels.eq n a b = .ok true) (f : ℝ) (t : Bool) (k : Nat)
    (u v : Term ℝ ℂ) (hu : a.transferFunctions[k]? = some u) (hv : b.transferFunctions[k]? = some v) (x y : ℂ)
    (hx : eval complexEnv f t u = some x) (hy : eval complexEnv f t v = some y) : x = y := by
  obtain ⟨-, h1, -⟩ := (C34_filters n a b).1 h
  refine C34_values_partial n d u v (ha u (List.mem_of_getElem? hu)) (hb v (List.mem_of_getElem? hv)) ?_ f t x y hx hy
  refine h1 (u, v) (List.mem_of_getElem? (i := k) ?_)
  rw [List.getElem?_zip_eq_some]
  exact ⟨hu, hv⟩

/-- The hypotheses can be satisfied, and the labels are compared. -/
example : Channels.eq 3 (⟨[.constant 1, .constant 2], ["a", "b"]⟩ : Channels ℚ ℚ) ⟨[.constant 1, .constant 2], ["a", "b"]⟩ =
      .ok true ∧
    Channels.eq 3 (⟨[.constant 1, .constant 2], ["a", "b"]⟩ : Channels ℚ ℚ) ⟨[.constant 1, .constant 2], ["a", "c"]⟩ =
      .ok false ∧
    Channels.eq 3 (⟨[.constant 1, .constant 2], ["a", "b"]⟩ : Channels ℚ ℚ) ⟨[.constant 1, .constant 3], ["a", "b"]⟩ =
      .ok false := by
  refine ⟨?_, ?_, ?_⟩ <;> decide +kernel

end Filter
end Verif
