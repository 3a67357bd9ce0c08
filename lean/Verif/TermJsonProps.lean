import Verif.TermJson
import Verif.FilterProps

/-
C35: Serialisation of filters
-/

namespace Verif
namespace Filter

open Interpolation (Mode Logs)

variable {α K : Type} [Field α] [LinearOrder α] [Field K] [DecidableEq K] [Module α K]

/-- Only numbers, which do not have the type `complex`, may be stored as real numbers. -/
structure Numbers.Lawful (N : Numbers α K) : Prop where
  real : ∀ z, N.isComplex z = false → N.ofReal (N.re z) = z
  array : ∀ l, N.isComplexArray l = false → ∀ z ∈ l, N.ofReal (N.re z) = z
  parts : ∀ z, N.ofReal (N.im z) * N.i + N.ofReal (N.re z) = z

theorem ok_bind {β γ : Type} (x : β) (g : β → Py γ) : ((.ok x : Py β) >>= g) = g x := rfl

theorem error_bind {β γ : Type} (e : PyExc) (g : β → Py γ) : ((.error e : Py β) >>= g) = .error e := rfl

theorem bind_bind {β γ δ : Type} (x : Py β) (g : β → Py γ) (h : γ → Py δ) :
    ((x >>= g) >>= h) = (x >>= fun y => g y >>= h) := by
  cases x <;> rfl

/-! ### JSON -/

/-- what is loaded is what has been stored -/
theorem json_eq (v : Value α K) : ∀ w, json v = .ok w → w = v := by
  refine Value.rec (motive_1 := fun v => ∀ w, json v = .ok w → w = v)
    (motive_2 := fun l => ∀ w, jsonList l = .ok w → w = l) (motive_3 := fun l => ∀ w, jsonItems l = .ok w → w = l)
    (motive_4 := fun p => ∀ w, jsonItem p = .ok w → w = p) ?_ ?_ ?_ ?_ ?_ ?_ ?_ ?_ ?_ ?_ ?_ ?_ v
  · intro x w h
    cases h
    rfl
  · intro x w h
    cases h
  · intro x w h
    cases h
    rfl
  · intro x w h
    cases h
    rfl
  · intro x w h
    cases h
    rfl
  · intro l ih w h
    rw [json] at h
    obtain ⟨z, hz, h⟩ := bind_ok h
    cases h
    rw [ih z hz]
  · intro l ih w h
    rw [json] at h
    obtain ⟨z, hz, h⟩ := bind_ok h
    cases h
    rw [ih z hz]
  · intro w h
    cases h
    rfl
  · intro v l ihv ihl w h
    rw [jsonList] at h
    obtain ⟨z, hz, h⟩ := bind_ok h
    obtain ⟨y, hy, h⟩ := bind_ok h
    cases h
    rw [ihv z hz, ihl y hy]
  · intro w h
    cases h
    rfl
  · intro v l ihv ihl w h
    rw [jsonItems] at h
    obtain ⟨z, hz, h⟩ := bind_ok h
    obtain ⟨y, hy, h⟩ := bind_ok h
    cases h
    rw [ihv z hz, ihl y hy]
  · intro k v ih w h
    rw [jsonItem] at h
    obtain ⟨z, hz, h⟩ := bind_ok h
    cases h
    rw [ih z hz]

/-! ### the dictionaries of the terms -/

theorem parameter_value (N : Numbers α K) (E : Env α K) (n : Nat) (z : K) :
    parameter N E n (N.value z) = .ok (.value (N.value z)) := by
  unfold Numbers.value
  cases N.isComplex z <;> simp [parameter]

theorem element_value (N : Numbers α K) (E : Env α K) (n : Nat) (z : K) :
    element N E n (N.value z) = .ok (.inr (N.value z)) := by
  unfold Numbers.value
  cases N.isComplex z <;> simp [element]

theorem toNumber_value {N : Numbers α K} (hN : N.Lawful) (z : K) : (N.value z).toNumber N = .ok z := by
  unfold Numbers.value
  cases h : N.isComplex z with
  | true => rfl
  | false => simp [Value.toNumber, hN.real z h]

theorem elements_map (N : Numbers α K) (E : Env α K) (n : Nat) {β : Type} (g : β → Value α K)
    (hg : ∀ x, element N E n (g x) = .ok (.inr (g x))) (l : List β) :
    elements N E n (l.map g) = .ok (l.map fun x => .inr (g x)) := by
  induction l with
  | nil => simp [elements]
  | cons x l ih =>
    rw [List.map_cons, elements, hg, ok_bind, ih]
    rfl

theorem toNumbers_map (N : Numbers α K) {β : Type} (g : β → Value α K) (z : β → K) (l : List β)
    (hg : ∀ x ∈ l, (g x).toNumber N = .ok (z x)) :
    (Param.values (l.map fun x => .inr (g x))).toNumbers N = .ok (l.map z) := by
  unfold Param.toNumbers
  dsimp only
  induction l with
  | nil => rfl
  | cons x l ih =>
    rw [List.map_cons, List.mapM_cons, ih fun y hy => hg y (List.mem_cons_of_mem _ hy)]
    dsimp only
    rw [hg x List.mem_cons_self]
    rfl

theorem toReals_map {β : Type} (g : β → α) (l : List β) :
    (Param.values (l.map fun x => .inr (.real (g x))) : Param α K).toReals = .ok (l.map g) := by
  unfold Param.toReals
  dsimp only
  induction l with
  | nil => rfl
  | cons x l ih =>
    rw [List.map_cons, List.mapM_cons, ih]
    rfl

theorem mapM_toReal {β : Type} (g : β → α) (l : List β) :
    (l.map fun x => (.real (g x) : Value α K)).mapM Value.toReal = .ok (l.map g) := by
  induction l with
  | nil => rfl
  | cons x l ih =>
    rw [List.map_cons, List.mapM_cons, ih]
    rfl

theorem toMode_modeNumber (m : Mode) : (Param.value (.int (modeNumber m)) : Param α K).toMode = .ok m := by
  cases m <;> rfl

/-- a term is stored as a dictionary with its type -/
theorem asDict_dict (N : Numbers α K) (t : Term α K) : ∃ l, asDict N t = .dict l ∧ hasType l = true := by
  cases t <;> exact ⟨_, by rw [asDict], by simp [hasType]⟩

theorem load_dict (N : Numbers α K) (E : Env α K) (n : Nat) (l : List (String × Value α K)) :
    termFromDict N E n (.dict l) = (items N E n l >>= fun r => finish N E n r) := rfl

theorem parameter_asDict (N : Numbers α K) (E : Env α K) (n : Nat) (t : Term α K) :
    parameter N E n (asDict N t) = (termFromDict N E n (asDict N t) >>= fun t => .ok (.term t)) := by
  obtain ⟨l, h1, h2⟩ := asDict_dict N t
  rw [h1, parameter, if_pos h2, termFromDict, bind_bind]

theorem element_asDict (N : Numbers α K) (E : Env α K) (n : Nat) (t : Term α K) :
    element N E n (asDict N t) = (termFromDict N E n (asDict N t) >>= fun t => .ok (.inl t)) := by
  obtain ⟨l, h1, h2⟩ := asDict_dict N t
  rw [h1, element, if_pos h2, termFromDict, bind_bind]

theorem elements_asDict (N : Numbers α K) (E : Env α K) (n : Nat) (l : List (Term α K)) :
    elements N E n (asDictList N l) =
      (l.mapM (fun t => termFromDict N E n (asDict N t)) >>= fun l => .ok (l.map .inl)) := by
  induction l with
  | nil => simp [elements, asDictList, ok_bind, Pure.pure, Except.pure]
  | cons a l ih =>
    rw [asDictList, elements, element_asDict, ih, List.mapM_cons]
    cases termFromDict N E n (asDict N a) with
    | error e => rfl
    | ok t =>
      simp only [ok_bind]
      cases l.mapM (fun t => termFromDict N E n (asDict N t)) <;> rfl

theorem toTerms_inl (l : List (Term α K)) : (Param.values (l.map .inl)).toTerms = .ok l := by
  unfold Param.toTerms
  dsimp only
  induction l with
  | nil => rfl
  | cons x l ih =>
    rw [List.map_cons, List.mapM_cons, ih]
    rfl

variable {N : Numbers α K} {E : Env α K} {n : Nat}

theorem load_constant (hN : N.Lawful) (v : K) : termFromDict N E n (asDict N (.constant v)) = .ok (.constant v) := by
  simp [asDict, termFromDict, items, item, parameter_value, ok_bind, finish, construct, argument, Param.toNumber,
    toNumber_value hN]

theorem load_polynomial (hN : N.Lawful) (cs : List K) (tr : Bool) :
    termFromDict N E n (asDict N (.polynomial cs tr)) = .ok (polynomialFactory cs tr) := by
  have h1 := elements_map N E n N.value (element_value N E n) cs
  have h2 := toNumbers_map N N.value id cs fun x _ => toNumber_value hN x
  simp [asDict, termFromDict, items, item, parameter, h1, ok_bind, finish, construct, argument, keywords, h2,
    flagArgument]

theorem load_exp (hN : N.Lawful) (c : K) (tr : Bool) :
    termFromDict N E n (asDict N (.exp c tr)) = .ok (expFactory c tr) := by
  simp [asDict, termFromDict, items, item, parameter, parameter_value, ok_bind, finish, construct, argument, keywords,
    flagArgument, Param.toNumber, toNumber_value hN]

theorem load_bands (hN : N.Lawful) (xs : List α) (ys : List K) (i e : Mode) :
    termFromDict N E n (asDict N (.bands xs ys i e)) = .ok (mkBands xs ys i e) := by
  have h1 := elements_map N E n (Value.real (K := K)) (fun x => by simp [element]) xs
  have h2 := toReals_map (K := K) id xs
  simp only [id, List.map_id] at h2
  have hm := fun m => toMode_modeNumber (α := α) (K := K) m
  cases hc : N.isComplexArray ys with
  | false =>
    have h3 := elements_map N E n (fun y => Value.real (K := K) (N.re y)) (fun x => by simp [element]) ys
    have h4 := toNumbers_map N (fun y => Value.real (K := K) (N.re y)) id ys
      (fun y hy => by simp [Value.toNumber, hN.array ys hc y hy])
    simp only [List.map_id] at h4
    simp [asDict, termFromDict, items, item, parameter, h1, h3, hc, ok_bind, finish, construct, argument, hm, h2, h4]
  | true =>
    have h3 := mapM_toReal (K := K) N.re ys
    have h4 := mapM_toReal (K := K) N.im ys
    have h5 : complexArray N [("real", .list (ys.map fun y => .real (N.re y))),
        ("imaginary", .list (ys.map fun y => .real (N.im y)))] = .ok ys := by
      simp only [complexArray, lookup, if_true, ok_bind, h3, h4]
      have hne : ¬("real" = "imaginary") := by decide
      rw [if_neg hne, ok_bind]
      dsimp only
      rw [h3, ok_bind, h4, ok_bind, if_pos (by simp), List.zipWith_map_left, List.zipWith_map_right, List.zipWith_self]
      simp [hN.parts]
    have h6 : parameter N E n (.dict [("real", .list (ys.map fun y => .real (N.re y))),
        ("imaginary", .list (ys.map fun y => .real (N.im y)))]) = .ok (.array ys) := by
      rw [parameter, if_neg (by simp [hasType]), if_pos (Or.inl (by simp)), h5]
      rfl
    have h7 : (Param.array ys : Param α K).toNumbers N = .ok ys := rfl
    simp only [asDict, hc, if_true, termFromDict, items, item, h6, ok_bind]
    simp [parameter, h1, ok_bind, finish, construct, argument, hm, h2, h7]

theorem load_absolute (v : Term α K) (tr : Bool) :
    termFromDict N E n (asDict N (.absolute v tr)) =
      (termFromDict N E n (asDict N v) >>= fun v => absoluteFactory E n v tr) := by
  rw [asDict]
  simp only [load_dict, items, item, parameter_asDict]
  cases termFromDict N E n (asDict N v) with
  | error e => simp [ok_bind, error_bind]
  | ok t => simp [ok_bind, parameter, finish, construct, argument, keywords, flagArgument, Param.toTerm]

theorem load_negative (v : Term α K) (tr : Bool) :
    termFromDict N E n (asDict N (.negative v tr)) =
      (termFromDict N E n (asDict N v) >>= fun v => negativeFactory E n v tr) := by
  rw [asDict]
  simp only [load_dict, items, item, parameter_asDict]
  cases termFromDict N E n (asDict N v) with
  | error e => simp [ok_bind, error_bind]
  | ok t => simp [ok_bind, parameter, finish, construct, argument, keywords, flagArgument, Param.toTerm]

theorem load_difference (m s : Term α K) (tr : Bool) :
    termFromDict N E n (asDict N (.difference m s tr)) =
      (termFromDict N E n (asDict N m) >>= fun m => termFromDict N E n (asDict N s) >>= fun s =>
        differenceFactory E n m s tr) := by
  rw [asDict]
  simp only [load_dict, items, item, parameter_asDict]
  cases termFromDict N E n (asDict N m) with
  | error e => simp [ok_bind, error_bind]
  | ok t =>
    cases termFromDict N E n (asDict N s) with
    | error e => simp [ok_bind, error_bind]
    | ok t => simp [ok_bind, parameter, finish, construct, argument, keywords, flagArgument, Param.toTerm]

theorem load_quotient (m s : Term α K) (tr : Bool) :
    termFromDict N E n (asDict N (.quotient m s tr)) =
      (termFromDict N E n (asDict N m) >>= fun m => termFromDict N E n (asDict N s) >>= fun s =>
        quotientFactory n m s tr) := by
  rw [asDict]
  simp only [load_dict, items, item, parameter_asDict]
  cases termFromDict N E n (asDict N m) with
  | error e => simp [ok_bind, error_bind]
  | ok t =>
    cases termFromDict N E n (asDict N s) with
    | error e => simp [ok_bind, error_bind]
    | ok t => simp [ok_bind, parameter, finish, construct, argument, keywords, flagArgument, Param.toTerm]

theorem load_sum (l : List (Term α K)) (tr : Bool) :
    termFromDict N E n (asDict N (.sum l tr)) =
      (l.mapM (fun t => termFromDict N E n (asDict N t)) >>= fun l => sumFactory E n l tr) := by
  rw [asDict]
  simp only [load_dict, items, item, parameter, elements_asDict]
  cases l.mapM (fun t => termFromDict N E n (asDict N t)) with
  | error e => simp [ok_bind, error_bind]
  | ok l => simp [ok_bind, finish, construct, argument, keywords, flagArgument, toTerms_inl]

theorem load_product (l : List (Term α K)) (tr : Bool) :
    termFromDict N E n (asDict N (.product l tr)) =
      (l.mapM (fun t => termFromDict N E n (asDict N t)) >>= fun l => productFactory E n l tr) := by
  rw [asDict]
  simp only [load_dict, items, item, parameter, elements_asDict]
  cases l.mapM (fun t => termFromDict N E n (asDict N t)) with
  | error e => simp [ok_bind, error_bind]
  | ok l => simp [ok_bind, finish, construct, argument, keywords, flagArgument, toTerms_inl]

/-! ### the property -/

/-- loading a plain term does not change its values -/
theorem load_sound (hN : N.Lawful) (hE : E.Lawful) {d : Bool} {t : Term α K} (ht : Plain d t) :
    ∀ r, termFromDict N E n (asDict N t) = .ok r → Plain d r ∧
      ∀ f, E.s f ≠ 0 → ∀ b x, eval E f b t = some x → eval E f b r = some x := by
  have list : ∀ l : List (Term α K), (∀ a ∈ l, ∀ r, termFromDict N E n (asDict N a) = .ok r → Plain d r ∧
      ∀ f, E.s f ≠ 0 → ∀ b x, eval E f b a = some x → eval E f b r = some x) →
      ∀ rs, l.mapM (fun t => termFromDict N E n (asDict N t)) = .ok rs → rs.length = l.length ∧ (∀ a ∈ rs, Plain d a) ∧
        ∀ f, E.s f ≠ 0 → ∀ b xs, List.Forall₂ (fun a x => eval E f b a = some x) l xs →
          List.Forall₂ (fun a x => eval E f b a = some x) rs xs := by
    intro l hl rs h
    replace h := mapM_forall2 h
    induction h with
    | nil => exact ⟨rfl, by simp, fun f _ b xs h => h⟩
    | cons e1 _ ih =>
      obtain ⟨p0, p1, p2⟩ := ih fun a ha => hl a (List.mem_cons_of_mem _ ha)
      obtain ⟨q1, q2⟩ := hl _ List.mem_cons_self _ e1
      refine ⟨by simp [p0], ?_, fun f hf b xs hx => ?_⟩
      · intro c hc
        rcases List.mem_cons.mp hc with rfl | hc
        · exact q1
        · exact p1 c hc
      · cases hx with
        | cons c1 c2 => exact .cons (q2 f hf b _ c1) (p2 f hf b _ c2)
  have S := sound hE n
  induction ht with
  | constant v =>
    intro r h
    rw [load_constant hN] at h
    cases h
    exact ⟨.constant v, fun f _ b x hx => hx⟩
  | polynomial cs tr h0 ht =>
    intro r h
    rw [load_polynomial hN] at h
    cases h
    obtain ⟨p, q⟩ := polynomialFactory_sound (E := E) cs tr ht
    refine ⟨p, fun f hf b x hx => ?_⟩
    rw [q f hf b]
    obtain ⟨s, h1, h2⟩ := (eval_polynomial ..).mp hx
    rw [sValue_sOf hf] at h1
    rw [h2, ← Option.some.inj h1]
  | exp c tr ht =>
    intro r h
    rw [load_exp hN] at h
    have h : expFactory c tr = r := ok_inj h
    unfold expFactory at h
    by_cases hc : c = 0
    · rw [if_pos hc] at h
      subst h
      refine ⟨.constant 1, fun f _ b x hx => ?_⟩
      obtain ⟨s, _, h2⟩ := (eval_exp ..).mp hx
      rw [eval_constant, h2, hc, zero_mul, hE.exp_zero]
    · rw [if_neg hc] at h
      subst h
      exact ⟨.exp c tr ht, fun f hf b x hx => hx⟩
  | bands xs ys i e hx hs hl hi he hne =>
    intro r h
    rw [load_bands hN] at h
    have h : mkBands xs ys i e = r := ok_inj h
    unfold mkBands at h
    rw [if_neg hne] at h
    subst h
    exact ⟨.bands _ _ _ _ hx hs hl hi he hne, fun f _ b x hx => hx⟩
  | absolute v tr _ ht ih =>
    intro r h
    rw [load_absolute] at h
    obtain ⟨w, h1, h⟩ := bind_ok h
    obtain ⟨p1, q1⟩ := ih w h1
    obtain ⟨p2, q2⟩ := S.absF d w tr r p1 ht h
    refine ⟨p2, fun f hf b x hx => q2 f b x ?_⟩
    obtain ⟨y, hy, rfl⟩ := (eval_absolute ..).mp hx
    rw [eval_absolute]
    exact ⟨y, q1 f hf _ y hy, rfl⟩
  | negative v tr _ ht ih =>
    intro r h
    rw [load_negative] at h
    obtain ⟨w, h1, h⟩ := bind_ok h
    obtain ⟨p1, q1⟩ := ih w h1
    obtain ⟨p2, q2⟩ := S.negF d w tr r p1 ht h
    refine ⟨p2, fun f hf b x hx => q2 f b x ?_⟩
    rw [eval_negative] at hx ⊢
    exact q1 f hf _ _ hx
  | sum l tr hl ht ih =>
    intro r h
    rw [load_sum] at h
    obtain ⟨w, h1, h⟩ := bind_ok h
    obtain ⟨_, p1, q1⟩ := list l ih w h1
    obtain ⟨p2, q2⟩ := S.sumF d w tr r p1 ht h
    refine ⟨p2, fun f hf b x hx => q2 f b x ?_⟩
    obtain ⟨xs, hy, rfl⟩ := (eval_sum ..).mp hx
    rw [eval_sum]
    exact ⟨xs, q1 f hf _ xs hy, rfl⟩
  | difference m s _ _ hd ihm ihs =>
    intro r h
    subst hd
    rw [load_difference] at h
    obtain ⟨w, h1, h⟩ := bind_ok h
    obtain ⟨z, h2, h⟩ := bind_ok h
    obtain ⟨p1, q1⟩ := ihm w h1
    obtain ⟨p2, q2⟩ := ihs z h2
    obtain ⟨p3, q3⟩ := S.diffF w z r p1 p2 h
    refine ⟨p3, fun f hf b x hx => q3 f b x ?_⟩
    obtain ⟨y, y', e1, e2, rfl⟩ := (eval_difference ..).mp hx
    rw [eval_difference]
    exact ⟨y, y', q1 f hf _ y e1, q2 f hf _ y' e2, rfl⟩
  | product l tr hl ht ih =>
    intro r h
    rw [load_product] at h
    obtain ⟨w, h1, h⟩ := bind_ok h
    obtain ⟨p0, p1, q1⟩ := list l ih w h1
    obtain ⟨p2, q2⟩ := S.prodF d w tr r p1 ht h
    refine ⟨p2, fun f hf b x hx => q2 f b x ?_⟩
    by_cases hl0 : l = []
    · subst hl0
      have : w = [] := List.length_eq_zero_iff.mp p0
      subst this
      exact hx
    · have hw : w ≠ [] := by
        intro hw
        rw [hw] at p0
        exact hl0 (List.length_eq_zero_iff.mp p0.symm)
      obtain ⟨xs, hy, rfl⟩ := (eval_product _ _ _ _ hl0 _).mp hx
      rw [eval_product _ _ _ _ hw]
      exact ⟨xs, q1 f hf _ xs hy, rfl⟩
  | quotient m s tr _ _ ht ihm ihs =>
    intro r h
    rw [load_quotient] at h
    obtain ⟨w, h1, h⟩ := bind_ok h
    obtain ⟨z, h2, h⟩ := bind_ok h
    obtain ⟨p1, q1⟩ := ihm w h1
    obtain ⟨p2, q2⟩ := ihs z h2
    obtain ⟨p3, q3⟩ := quotientFactory_sound hE p1 p2 ht h
    refine ⟨p3, fun f hf b x hx => q3 f b x ?_⟩
    obtain ⟨y, y', e1, e2, e3, rfl⟩ := (eval_quotient ..).mp hx
    rw [eval_quotient]
    exact ⟨y, y', q1 f hf _ y e1, q2 f hf _ y' e2, e3, rfl⟩

theorem toStrings_map (l : List String) : (Value.list (l.map .str) : Value α K).toStrings = .ok l := by
  unfold Value.toStrings
  dsimp only
  induction l with
  | nil => rfl
  | cons x l ih =>
    rw [List.map_cons, List.mapM_cons, ih]
    rfl

theorem asDictList_map (N : Numbers α K) (l : List (Term α K)) : asDictList N l = l.map (asDict N) := by
  induction l with
  | nil => rfl
  | cons a l ih => rw [asDictList, ih, List.map_cons]

theorem mapM_map' {β γ δ : Type} (g : β → γ) (k : γ → Py δ) (l : List β) :
    (l.map g).mapM k = l.mapM fun x => k (g x) := by
  induction l with
  | nil => rfl
  | cons a l ih => rw [List.map_cons, List.mapM_cons, List.mapM_cons, ih]

/-- the reader, applied to what the writer has stored -/
theorem jsonRead_write {a : Channels α K} {v : Value α K} (hv : jsonWrite N a = .ok v) :
    jsonRead N E n v = (a.transferFunctions.mapM (fun t => termFromDict N E n (asDict N t)) >>= fun l =>
      .ok (Channels.new l a.labels)) := by
  have h := json_eq _ _ hv
  subst h
  simp only [jsonRead, lookup, if_true, ok_bind]
  rw [asDictList_map, mapM_map']
  have hne : ¬("transfer_functions" = "labels") := by decide
  simp only [hne, if_false, ok_bind, toStrings_map]

/-- C35: A filter, that has been saved as JSON and loaded again, has the same labels and the same values at every
frequency greater than zero. Missing: the terms, that are not plain, and the filters, that cannot be saved
(`C35_complex_violated`). -/
theorem C35_values_partial (N : Numbers ℝ ℂ) (hN : N.Lawful) (mem : ℂ) (n : Nat) (a r : Channels ℝ ℂ)
    (hl : a.labels.length = a.transferFunctions.length) (ha : ∀ t ∈ a.transferFunctions, ∃ d, Plain d t)
    (v : Value ℝ ℂ) (hv : jsonWrite N a = .ok v) (hr : jsonRead N complexEnv n v = .ok r) :
    r.labels = a.labels ∧ r.transferFunctions.length = a.transferFunctions.length ∧
    ∀ f, 0 < f → ∀ (k : Nat) (x : ℂ), (a.call complexEnv mem f)[k]? = some (some x) →
      (r.call complexEnv mem f)[k]? = some (some x) := by
  rw [jsonRead_write hv] at hr
  obtain ⟨l, h1, h⟩ := bind_ok hr
  cases h
  obtain ⟨e1, e2⟩ := mapM_getElem h1
  refine ⟨?_, e1, fun f hf k x hx => ?_⟩
  · unfold Channels.new
    dsimp only
    exact Signal.sanitize_self (by omega)
  · rw [C33_positive_frequencies mem _ f hf] at hx ⊢
    rw [List.getElem?_map] at hx ⊢
    obtain ⟨t, ht, hx⟩ := map_some hx
    obtain ⟨hk, rfl⟩ := List.getElem?_eq_some_iff.mp ht
    obtain ⟨z, hz, e3⟩ := e2 k hk
    obtain ⟨d, hd⟩ := ha _ (List.getElem_mem hk)
    show Option.map _ (l[k]?) = _
    rw [hz, Option.map_some, (load_sound hN complexEnv_lawful hd z e3).2 f (complexEnv_s hf) false x hx]

/-- The hypotheses can be satisfied: numbers, which have the type `complex` exactly if their imaginary part is not zero -/
example : ∃ N : Numbers ℝ ℂ, N.Lawful := by
  classical
  refine ⟨⟨fun z => decide (z.im ≠ 0), fun l => decide (∃ z ∈ l, z.im ≠ 0), Complex.re, Complex.im, fun x => (x : ℂ),
    Complex.I⟩, ?_, ?_, ?_⟩
  · intro z hz
    have hz : z.im = 0 := by simpa using hz
    exact Complex.ext rfl hz.symm
  · intro l hl z hz
    have hl : ∀ z ∈ l, z.im = 0 := by simpa using hl
    exact Complex.ext rfl (hl z hz).symm
  · intro z
    rw [add_comm]
    exact Complex.re_add_im z

mutual

/-- Specification: the numbers in a term can be stored, i.e. there are no complex numbers other than in bands. -/
def storable (N : Numbers α K) : Term α K → Bool
  | .constant v => !N.isComplex v
  | .polynomial cs _ => cs.all fun c => !N.isComplex c
  | .exp c _ => !N.isComplex c
  | .bands _ _ _ _ => true
  | .absolute v _ => storable N v
  | .negative v _ => storable N v
  | .sum l _ => storableList N l
  | .difference m s _ => storable N m && storable N s
  | .product l _ => storableList N l
  | .quotient m s _ => storable N m && storable N s

/-- all terms can be stored -/
def storableList (N : Numbers α K) : List (Term α K) → Bool
  | [] => true
  | a :: l => storable N a && storableList N l

end

theorem jsonList_ok {β : Type} (g : β → Value α K) (b : β → Bool) (hg : ∀ x, json (g x) =
    if b x then .ok (g x) else .error .typeError) (l : List β) :
    jsonList (l.map g) = if l.all b then .ok (l.map g) else .error .typeError := by
  induction l with
  | nil => rfl
  | cons x l ih =>
    rw [List.map_cons, jsonList, ih, hg, List.all_cons]
    cases b x <;> cases l.all b <;> rfl

theorem json_value (N : Numbers α K) (z : K) :
    json (N.value z) = if !N.isComplex z then .ok (N.value z) else .error .typeError := by
  unfold Numbers.value
  cases N.isComplex z <;> simp [json]

theorem jsonList_reals {β : Type} (g : β → α) (l : List β) :
    jsonList (l.map fun x => (.real (g x) : Value α K)) = .ok (l.map fun x => .real (g x)) := by
  rw [jsonList_ok (fun x => (.real (g x) : Value α K)) (fun _ => true) (fun x => by simp [json]) l]
  simp

/-- a term can be stored, if there are no complex numbers in it -/
theorem json_asDict (N : Numbers α K) (t : Term α K) :
    json (asDict N t) = if storable N t then .ok (asDict N t) else .error .typeError := by
  refine Term.rec (motive_1 := fun t => json (asDict N t) =
      if storable N t then .ok (asDict N t) else .error .typeError)
    (motive_2 := fun l => jsonList (asDictList N l) =
      if storableList N l then .ok (asDictList N l) else .error .typeError)
    ?_ ?_ ?_ ?_ ?_ ?_ ?_ ?_ ?_ ?_ ?_ ?_ t
  · intro v
    rw [storable, asDict]
    simp only [json, jsonItems, jsonItem, json_value, ok_bind]
    cases N.isComplex v <;> rfl
  · intro cs tr
    rw [storable, asDict]
    simp only [json, jsonItems, jsonItem, jsonList_ok _ _ (json_value N), ok_bind]
    cases cs.all fun c => !N.isComplex c <;> rfl
  · intro c tr
    rw [storable, asDict]
    simp only [json, jsonItems, jsonItem, json_value, ok_bind]
    cases N.isComplex c <;> rfl
  · intro xs ys i e
    rw [storable, asDict]
    have h := jsonList_reals (K := K) (fun x : α => x) xs
    cases hc : N.isComplexArray ys with
    | true =>
      simp only [json, jsonItems, jsonItem, jsonList_reals, h, if_true, ok_bind]
    | false =>
      simp only [json, jsonItems, jsonItem, jsonList_reals, h, if_true, ok_bind, Bool.false_eq_true, if_false]
  · intro v tr ih
    rw [storable, asDict]
    simp only [json, jsonItems, jsonItem, ih, ok_bind]
    cases storable N v <;> rfl
  · intro v tr ih
    rw [storable, asDict]
    simp only [json, jsonItems, jsonItem, ih, ok_bind]
    cases storable N v <;> rfl
  · intro l tr ih
    rw [storable, asDict]
    simp only [json, jsonItems, jsonItem, ih, ok_bind]
    cases storableList N l <;> rfl
  · intro m s tr ihm ihs
    rw [storable, asDict]
    simp only [json, jsonItems, jsonItem, ihm, ihs, ok_bind]
    cases storable N m <;> cases storable N s <;> rfl
  · intro l tr ih
    rw [storable, asDict]
    simp only [json, jsonItems, jsonItem, ih, ok_bind]
    cases storableList N l <;> rfl
  · intro m s tr ihm ihs
    rw [storable, asDict]
    simp only [json, jsonItems, jsonItem, ihm, ihs, ok_bind]
    cases storable N m <;> cases storable N s <;> rfl
  · rfl
  · intro a l iha ihl
    rw [storableList, asDictList, jsonList, iha, ihl]
    cases storable N a <;> cases storableList N l <;> rfl

theorem jsonList_asDict (N : Numbers α K) (l : List (Term α K)) :
    jsonList (asDictList N l) = if l.all (storable N) then .ok (asDictList N l) else .error .typeError := by
  rw [asDictList_map]
  exact jsonList_ok _ _ (json_asDict N) l

/-- C35: Exactly those filters can be saved, in which there are no complex numbers other than in bands. Saving the other
ones raises a `TypeError`. -/
theorem C35_saving (N : Numbers α K) (a : Channels α K) :
    ((∃ v, jsonWrite N a = .ok v) ↔ ∀ t ∈ a.transferFunctions, storable N t = true) ∧
    ((∃ t ∈ a.transferFunctions, storable N t = false) → jsonWrite N a = .error .typeError) := by
  have h1 : jsonWrite N a = if a.transferFunctions.all (storable N) then
      .ok (.dict [("transfer_functions", .list (asDictList N a.transferFunctions)),
        ("labels", .list (a.labels.map .str))]) else .error .typeError := by
    have h2 := jsonList_ok (α := α) (K := K) (Value.str : String → Value α K) (fun _ => true)
      (fun x => by simp [json]) a.labels
    have h3 : (a.labels.all fun _ => true) = true := by simp
    rw [h3] at h2
    simp only [jsonWrite, json, jsonItems, jsonItem, jsonList_asDict, h2, ok_bind, if_true]
    cases a.transferFunctions.all (storable N) <;> rfl
  constructor
  · rw [h1, ← List.all_eq_true]
    cases a.transferFunctions.all (storable N) <;> simp
  · rintro ⟨t, ht, h2⟩
    rw [h1, if_neg]
    intro h
    rw [List.all_eq_true] at h
    rw [h t ht] at h2
    cases h2

/-- The hypotheses can be satisfied: a Butterworth-like quotient and bands with complex values can be saved. -/
example (N : Numbers ℝ ℂ) (h : ∀ x : ℝ, N.isComplex x = false) : ∀ t ∈ (⟨[.quotient (.constant ((1 : ℝ) : ℂ))
    (.polynomial [((1 : ℝ) : ℂ), ((2 : ℝ) : ℂ)] false) false, .bands [1, 2] [Complex.I, 1] .linear .zero], ["a", "b"]⟩ :
    Channels ℝ ℂ).transferFunctions, storable N t = true := by
  intro t ht
  simp only [List.mem_cons, List.not_mem_nil, or_false] at ht
  rcases ht with rfl | rfl
  · simp only [storable, h, List.all_cons, List.all_nil]
    rfl
  · rfl

/-- C35: Bands filters with any interpolation and real or complex values are restored exactly. -/
theorem C35_bands (N : Numbers α K) (hN : N.Lawful) (E : Env α K) (n : Nat) (xs : List α) (ys : List K) (i e : Mode)
    (label : String) : ∃ v, jsonWrite N (Channels.new [mkBands xs ys i e] [label]) = .ok v ∧
      jsonRead N E n v = .ok (Channels.new [mkBands xs ys i e] [label]) := by
  obtain ⟨v, hv⟩ := (C35_saving N (Channels.new [mkBands xs ys i e] [label])).1.mpr (by
    intro t ht
    rcases List.mem_singleton.mp ht with rfl
    unfold mkBands
    rw [storable])
  refine ⟨v, hv, ?_⟩
  rw [jsonRead_write hv]
  show ([mkBands xs ys i e].mapM (fun t => termFromDict N E n (asDict N t)) >>= fun l =>
    .ok (Channels.new l [label])) = _
  rw [List.mapM_cons]
  unfold mkBands
  rw [load_bands hN, ok_bind, List.mapM_nil]
  unfold mkBands
  by_cases he : e = .stairsLog
  · subst he
    rfl
  · simp only [if_neg he]
    rfl

/-- C35 is violated: filters with complex coefficients cannot be saved. -/
theorem C35_complex_violated (N : Numbers α K) (z : K) (hz : N.isComplex z = true) (label : String) :
    jsonWrite N (Channels.new [.constant z] [label]) = .error .typeError ∧
    jsonWrite N (Channels.new [.exp z false] [label]) = .error .typeError ∧
    jsonWrite N (Channels.new [.polynomial [z, 1] false] [label]) = .error .typeError := by
  refine ⟨?_, ?_, ?_⟩ <;>
    simp [jsonWrite, Channels.new, asDictList, asDict, json, jsonItems, jsonItem, jsonList, Numbers.value, hz, ok_bind,
      error_bind]

end Filter
end Verif
