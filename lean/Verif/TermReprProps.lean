import Verif.TermReprText
import Verif.BandsProps

/-
C100: The text representation of filters
-/

namespace Verif
namespace Filter

open Interpolation (Mode Logs)
open PyExpr
open BandsText (IsUnsigned)

variable {α K : Type} [Field α] [LinearOrder α] [Field K] [DecidableEq K]

/-! ### the specification -/

mutual

/-- Specification: all numbers in a term can be represented as floats. -/
def Representable (F : α → Prop) (N : Numbers α K) : Term α K → Prop
  | .constant v => Rep F N v
  | .polynomial cs _ => ∀ c ∈ cs, Rep F N c
  | .exp c _ => Rep F N c
  | .bands xs ys _ _ => (∀ x ∈ xs, F x) ∧ ∀ y ∈ ys, Rep F N y
  | .absolute v _ => Representable F N v
  | .negative v _ => Representable F N v
  | .sum l _ => RepresentableList F N l
  | .difference m s _ => Representable F N m ∧ Representable F N s
  | .product l _ => RepresentableList F N l
  | .quotient m s _ => Representable F N m ∧ Representable F N s

/-- Specification: see `Representable` -/
def RepresentableList (F : α → Prop) (N : Numbers α K) : List (Term α K) → Prop
  | [] => True
  | t :: l => Representable F N t ∧ RepresentableList F N l

end

variable {T : Texts α} {N : Numbers α K} {E : Env α K} {n : Nat} {F : α → Prop}

/-! ### the terms -/

theorem lift_bind {β γ : Type} (x : Py β) (g : β → Py γ) : lift (x >>= g) = (lift x >>= fun y => lift (g y)) := by
  cases x <;> rfl

theorem ev_bind_bind {β γ δ : Type} (x : Ev β) (g : β → Ev γ) (h : γ → Ev δ) :
    ((x >>= g) >>= h) = (x >>= fun y => g y >>= h) := by
  cases x <;> rfl

/-- the value of the text of a term -/
def termValue (N : Numbers α K) (E : Env α K) (n : Nat) (t : Term α K) : Ev (Obj α K) :=
  lift (termFromDict N E n (asDict N t)) >>= fun t => .ok (.term t)

omit [Field α] [LinearOrder α] [Field K] [DecidableEq K] in
theorem mapM_elements {β : Type} (g : β → Obj α K) (e : β → Term α K ⊕ Value α K) (l : List β)
    (h : ∀ x, (g x).toElement = .ok (e x)) : (l.map g).mapM Obj.toElement = .ok (l.map e) := by
  induction l with
  | nil => rfl
  | cons x l ih => rw [List.map_cons, List.mapM_cons, h, ih]; rfl

omit [Field α] [LinearOrder α] [Field K] [DecidableEq K] in
theorem toParam_number (z : K) : (numberObj N z).toParam = .ok (.value (N.value z)) := by
  unfold numberObj Numbers.value
  cases N.isComplex z <;> rfl

omit [Field α] [LinearOrder α] [Field K] [DecidableEq K] in
theorem toParam_numbers (l : List K) :
    (Obj.seq (l.map (numberObj N))).toParam = .ok (.values (l.map fun z => .inr (N.value z))) := by
  rw [Obj.toParam, mapM_elements _ (fun z => .inr (N.value z))]
  · rfl
  · intro z
    unfold numberObj Numbers.value
    cases N.isComplex z <;> rfl

omit [Field α] [LinearOrder α] [Field K] [DecidableEq K] in
theorem toParam_reals {β : Type} (g : β → α) (l : List β) :
    (Obj.seq (l.map fun x => (.real (g x) : Obj α K))).toParam = .ok (.values (l.map fun x => .inr (.real (g x)))) := by
  rw [Obj.toParam, mapM_elements _ (fun x => .inr (.real (g x)))]
  · rfl
  · intro z
    rfl

omit [Field α] [LinearOrder α] [Field K] [DecidableEq K] in
theorem toParam_complexes (l : List K) :
    (Obj.seq (l.map fun x => (.complex x : Obj α K))).toParam = .ok (.values (l.map fun x => .inr (.complex x))) := by
  rw [Obj.toParam, mapM_elements _ (fun x => .inr (.complex x))]
  · rfl
  · intro z
    rfl

omit [Field α] [LinearOrder α] [Field K] [DecidableEq K] in
theorem toParam_terms (l : List (Term α K)) :
    (Obj.seq (l.map .term)).toParam = .ok (.values (l.map .inl)) := by
  rw [Obj.toParam, mapM_elements _ .inl]
  · rfl
  · intro z
    rfl

omit [Field α] [LinearOrder α] [Field K] [DecidableEq K] in
/-- the keyword arguments of a factory -/
theorem keywords_ok (l : List (String × Obj α K × Param α K)) (h : ∀ p ∈ l, p.2.1.toParam = .ok p.2.2) :
    (l.map fun p => (some p.1.toList, p.2.1)).mapM toKeyword = .ok (l.map fun p => (p.1, p.2.2)) := by
  induction l with
  | nil => rfl
  | cons p l ih =>
    rw [List.map_cons, List.mapM_cons, ih fun q hq => h q (List.mem_cons_of_mem _ hq), toKeyword, h p List.mem_cons_self,
      ev_ok, String.ofList_toList]
    rfl

/-- the call of a factory with values -/
theorem apply_factory (cls : String) (l : List (String × Obj α K × Param α K)) (h : ∀ p ∈ l, p.2.1.toParam = .ok p.2.2) :
    (keywordValues (l.map fun p => (p.1, .ok p.2.1)) >>= fun args => apply N E n (.factory cls.toList) args) =
      (lift (construct N E n cls (l.map fun p => (p.1, p.2.2))) >>= fun t => .ok (.term t)) := by
  have e : keywordValues (l.map fun p => (p.1, (.ok p.2.1 : Ev (Obj α K)))) =
      .ok (l.map fun p => (some p.1.toList, p.2.1)) := by
    rw [keywordValues, List.map_map]
    exact sequence_ok _ l
  rw [e, ev_ok, apply, keywords_ok l h, ev_ok, String.ofList_toList]

omit [Field α] in
theorem sequence_terms (l : List (Term α K)) :
    (sequence (l.map (termValue N E n))) =
      (lift (l.mapM fun t => termFromDict N E n (asDict N t)) >>= fun l => .ok (l.map .term)) := by
  induction l with
  | nil => rfl
  | cons t l ih =>
    rw [List.map_cons, sequence, ih, List.mapM_cons, termValue]
    cases termFromDict N E n (asDict N t) with
    | error e => rfl
    | ok r =>
      cases l.mapM fun t => termFromDict N E n (asDict N t) <;> rfl

variable [Module α K]

theorem toNumbers_value (hL : N.Lawful) (cs : List K) :
    (Param.values (cs.map fun z => .inr (N.value z))).toNumbers N = .ok cs := by
  have h := toNumbers_map N N.value id cs fun x _ => toNumber_value hL x
  rwa [List.map_id] at h

variable [IsStrictOrderedRing α]

omit [IsStrictOrderedRing α] [Module α K] in
theorem Denotes.congr {s : List Char} {v w : Ev (Obj α K)} (h : Denotes T N E n s v) (e : v = w) :
    Denotes T N E n s w := e ▸ h

/-- checks, if a text is a name -/
def isName : List Char → Bool
  | [] => false
  | c :: s => nameStart c && s.all nameChar

theorem isName_spec {x : List Char} (h : isName x = true) : IsName x := by
  cases x with
  | nil => cases h
  | cons c s =>
    simp only [isName, Bool.and_eq_true, List.all_eq_true] at h
    exact ⟨c, s, rfl, h.1, h.2⟩

omit [IsStrictOrderedRing α] [Module α K] in
theorem denotes_arg {k : String} (hk : isName k.toList = true) {s : List Char} {v : Ev (Obj α K)}
    (h : Denotes T N E n s v) : DenotesArg T N E n (k, s) (k, v) := ⟨rfl, isName_spec hk, h⟩

theorem denotes_term (hT : T.Ok F) (hN : N.Hom) (hL : N.Lawful) (S : Storage α K) (t : Term α K) :
    Representable F N t → Denotes T N E n (reprTerm T N S t) (termValue N E n t) := by
  have hm := fun m => toMode_modeNumber (α := α) (K := K) m
  have one : ∀ (v : Term α K) (tr : Bool), (keywordValues [("value", termValue N E n v), ("transform", .ok (.bool tr))]) =
      (lift (termFromDict N E n (asDict N v)) >>= fun v =>
        .ok [(some "value".toList, .term v), (some "transform".toList, .bool tr)]) := by
    intro v tr
    rw [termValue]
    cases termFromDict N E n (asDict N v) <;> rfl
  have two : ∀ (k1 k2 : String) (v w : Term α K) (tr : Bool),
      (keywordValues [(k1, termValue N E n v), (k2, termValue N E n w), ("transform", .ok (.bool tr))]) =
      (lift (termFromDict N E n (asDict N v)) >>= fun v => lift (termFromDict N E n (asDict N w)) >>= fun w =>
        .ok [(some k1.toList, .term v), (some k2.toList, .term w), (some "transform".toList, .bool tr)]) := by
    intro k1 k2 v w tr
    rw [termValue, termValue]
    cases termFromDict N E n (asDict N v) with
    | error e => rfl
    | ok v => cases termFromDict N E n (asDict N w) <;> rfl
  have many : ∀ (k : String) (l : List (Term α K)) (tr : Bool),
      (keywordValues [(k, sequence (l.map (termValue N E n)) >>= fun l => .ok (.seq l)), ("transform", .ok (.bool tr))]) =
      (lift (l.mapM fun t => termFromDict N E n (asDict N t)) >>= fun l =>
        .ok [(some k.toList, .seq (l.map .term)), (some "transform".toList, .bool tr)]) := by
    intro k l tr
    rw [sequence_terms]
    cases (l.mapM fun t => termFromDict N E n (asDict N t)) <;> rfl
  refine Term.rec (motive_1 := fun t => Representable F N t → Denotes T N E n (reprTerm T N S t) (termValue N E n t))
    (motive_2 := fun l => RepresentableList F N l →
      List.Forall₂ (Denotes T N E n) (reprTerms T N S l) (l.map (termValue N E n)))
    ?_ ?_ ?_ ?_ ?_ ?_ ?_ ?_ ?_ ?_ ?_ ?_ t
  · intro v h
    rw [Representable] at h
    rw [reprTerm, termValue, load_constant hL]
    refine (denotes_call (vs := [("value", .ok (numberObj N v))]) (isName_spec (by decide)) (by decide)
      (.cons (denotes_arg (by decide) (denotes_number hT hN hL h)) .nil)).congr ?_
    have a := apply_factory (N := N) (E := E) (n := n) "Constant" [("value", numberObj N v, .value (N.value v))]
      (by simp [toParam_number])
    rw [List.map_cons, List.map_nil] at a
    rw [a]
    simp [construct, argument, ok_bind, Param.toNumber, toNumber_value hL]
  · intro cs tr h
    rw [Representable] at h
    rw [reprTerm, termValue, load_polynomial hL]
    have e1 : List.Forall₂ (Denotes T N E n) (cs.map (reprNumber T N)) (cs.map fun z => .ok (numberObj N z)) := by
      rw [List.forall₂_map_left_iff, List.forall₂_map_right_iff, List.forall₂_same]
      exact fun z hz => denotes_number hT hN hL (h z hz)
    have e2 := denotes_seq (S.coefficients cs) e1
    rw [sequence_ok, ev_ok] at e2
    refine (denotes_call (vs := [("coefficients", .ok (.seq (cs.map (numberObj N)))), ("transform", .ok (.bool tr))])
      (isName_spec (by decide)) (by decide)
      (.cons (denotes_arg (by decide) e2) (.cons (denotes_arg (by decide) (denotes_bool tr)) .nil))).congr ?_
    have a := apply_factory (N := N) (E := E) (n := n) "Polynomial"
      [("coefficients", .seq (cs.map (numberObj N)), .values (cs.map fun z => .inr (N.value z))),
        ("transform", .bool tr, .value (.bool tr))]
      (by simp only [List.forall_mem_cons]; exact ⟨toParam_numbers cs, rfl, by simp⟩)
    rw [List.map_cons, List.map_cons, List.map_nil] at a
    rw [a]
    simp [construct, argument, ok_bind, keywords, flagArgument, toNumbers_value hL]
  · intro c tr h
    rw [Representable] at h
    rw [reprTerm, termValue, load_exp hL]
    refine (denotes_call (vs := [("coefficient", .ok (numberObj N c)), ("transform", .ok (.bool tr))])
      (isName_spec (by decide)) (by decide)
      (.cons (denotes_arg (by decide) (denotes_number hT hN hL h))
        (.cons (denotes_arg (by decide) (denotes_bool tr)) .nil))).congr ?_
    have a := apply_factory (N := N) (E := E) (n := n) "Exp"
      [("coefficient", numberObj N c, .value (N.value c)), ("transform", .bool tr, .value (.bool tr))]
      (by simp only [List.forall_mem_cons]; exact ⟨toParam_number c, rfl, by simp⟩)
    rw [List.map_cons, List.map_cons, List.map_nil] at a
    rw [a]
    simp [construct, argument, ok_bind, keywords, flagArgument, Param.toNumber, toNumber_value hL]
  · intro xs ys i e h
    rw [Representable] at h
    rw [reprTerm, termValue, load_bands hL]
    have e1 : List.Forall₂ (Denotes T N E n) (xs.map T.repr) (xs.map fun x => .ok (.real x)) := by
      rw [List.forall₂_map_left_iff, List.forall₂_map_right_iff, List.forall₂_same]
      exact fun z hz => denotes_float hT (h.1 z hz)
    have e2 := denotes_array e1
    rw [sequence_ok, ev_ok] at e2
    have hx := toReals_map (K := K) id xs
    simp only [id, List.map_id] at hx
    obtain ⟨o, p, e4, h1, h2⟩ : ∃ (o : Obj α K) (p : Param α K), Denotes T N E n (reprArray T (if N.isComplexArray ys = true then
        ys.map fun y => reprComplex T (N.re y) (N.im y) else ys.map fun y => T.repr (N.re y))) (.ok o) ∧
          o.toParam = .ok p ∧ p.toNumbers N = .ok ys := by
      cases hc : N.isComplexArray ys with
      | true =>
        have e3 : List.Forall₂ (Denotes T N E n) (ys.map fun y => reprComplex T (N.re y) (N.im y))
            (ys.map fun y => .ok (.complex y)) := by
          rw [List.forall₂_map_left_iff, List.forall₂_map_right_iff, List.forall₂_same]
          exact fun z hz => denotes_parts hT hN hL (h.2 z hz)
        have e4 := denotes_array e3
        rw [sequence_ok, ev_ok] at e4
        refine ⟨_, _, e4, toParam_complexes ys, ?_⟩
        have h4 := toNumbers_map N (fun y => Value.complex (α := α) y) id ys (fun y hy => rfl)
        rwa [List.map_id] at h4
      | false =>
        have e3 : List.Forall₂ (Denotes T N E n) (ys.map fun y => T.repr (N.re y))
            (ys.map fun y => .ok (.real (N.re y))) := by
          rw [List.forall₂_map_left_iff, List.forall₂_map_right_iff, List.forall₂_same]
          exact fun z hz => denotes_float hT (h.2 z hz).1
        have e4 := denotes_array e3
        rw [sequence_ok, ev_ok] at e4
        refine ⟨_, _, e4, toParam_reals N.re ys, ?_⟩
        have h4 := toNumbers_map N (fun y => Value.real (K := K) (N.re y)) id ys
          (fun y hy => by simp [Value.toNumber, hL.array ys hc y hy])
        rwa [List.map_id] at h4
    refine (denotes_call (vs := [("xs", .ok (.seq (xs.map .real))), ("ys", .ok o),
        ("interpolation", .ok (.int (modeNumber i))), ("extrapolation", .ok (.int (modeNumber e)))])
      (isName_spec (by decide)) (by decide)
      (.cons (denotes_arg (by decide) e2) (.cons (denotes_arg (by decide) e4)
        (.cons (denotes_arg (by decide) (denotes_mode i)) (.cons (denotes_arg (by decide) (denotes_mode e)) .nil))))).congr ?_
    have a := apply_factory (N := N) (E := E) (n := n) "Bands"
      [("xs", .seq (xs.map .real), .values (xs.map fun x => .inr (.real x))), ("ys", o, p),
        ("interpolation", .int (modeNumber i), .value (.int (modeNumber i))),
        ("extrapolation", .int (modeNumber e), .value (.int (modeNumber e)))]
      (by simp only [List.forall_mem_cons]; exact ⟨toParam_reals id xs, h1, rfl, rfl, by simp⟩)
    rw [List.map_cons, List.map_cons, List.map_cons, List.map_cons, List.map_nil] at a
    rw [a]
    simp [construct, argument, ok_bind, hx, h2, hm]
  · intro v tr ih h
    rw [Representable] at h
    rw [reprTerm]
    refine (denotes_call (vs := [("value", termValue N E n v), ("transform", .ok (.bool tr))]) (isName_spec (by decide))
      (by decide) (.cons (denotes_arg (by decide) (ih h))
        (.cons (denotes_arg (by decide) (denotes_bool tr)) .nil))).congr ?_
    rw [one, termValue, load_absolute]
    cases termFromDict N E n (asDict N v) with
    | error e => rfl
    | ok w =>
      have a := apply_factory (N := N) (E := E) (n := n) "Absolute"
        [("value", .term w, .term w), ("transform", .bool tr, .value (.bool tr))]
        (by simp only [List.forall_mem_cons]; exact ⟨rfl, rfl, by simp⟩)
      refine a.trans ?_
      simp [construct, argument, ok_bind, keywords, flagArgument, Param.toTerm]
  · intro v tr ih h
    rw [Representable] at h
    rw [reprTerm]
    refine (denotes_call (vs := [("value", termValue N E n v), ("transform", .ok (.bool tr))]) (isName_spec (by decide))
      (by decide) (.cons (denotes_arg (by decide) (ih h))
        (.cons (denotes_arg (by decide) (denotes_bool tr)) .nil))).congr ?_
    rw [one, termValue, load_negative]
    cases termFromDict N E n (asDict N v) with
    | error e => rfl
    | ok w =>
      have a := apply_factory (N := N) (E := E) (n := n) "Negative"
        [("value", .term w, .term w), ("transform", .bool tr, .value (.bool tr))]
        (by simp only [List.forall_mem_cons]; exact ⟨rfl, rfl, by simp⟩)
      refine a.trans ?_
      simp [construct, argument, ok_bind, keywords, flagArgument, Param.toTerm]
  · intro l tr ih h
    rw [Representable] at h
    rw [reprTerm]
    refine (denotes_call (vs := [("summands", sequence (l.map (termValue N E n)) >>= fun l => .ok (.seq l)),
      ("transform", .ok (.bool tr))]) (isName_spec (by decide)) (by decide) (.cons (denotes_arg (by decide)
        (denotes_seq _ (ih h))) (.cons (denotes_arg (by decide) (denotes_bool tr)) .nil))).congr ?_
    rw [many, termValue, load_sum]
    cases l.mapM (fun t => termFromDict N E n (asDict N t)) with
    | error e => rfl
    | ok m =>
      have a := apply_factory (N := N) (E := E) (n := n) "Sum"
        [("summands", .seq (m.map .term), .values (m.map .inl)), ("transform", .bool tr, .value (.bool tr))]
        (by simp only [List.forall_mem_cons]; exact ⟨toParam_terms m, rfl, by simp⟩)
      refine a.trans ?_
      simp [construct, argument, ok_bind, keywords, flagArgument, toTerms_inl]
  · intro v w tr ihv ihw h
    rw [Representable] at h
    rw [reprTerm]
    refine (denotes_call (vs := [("minuend", termValue N E n v), ("subtrahend", termValue N E n w),
      ("transform", .ok (.bool tr))]) (isName_spec (by decide)) (by decide) (.cons (denotes_arg (by decide) (ihv h.1))
        (.cons (denotes_arg (by decide) (ihw h.2)) (.cons (denotes_arg (by decide) (denotes_bool tr)) .nil)))).congr ?_
    rw [two, termValue, load_difference]
    cases termFromDict N E n (asDict N v) with
    | error e => rfl
    | ok x =>
      cases termFromDict N E n (asDict N w) with
      | error e => rfl
      | ok y =>
        have a := apply_factory (N := N) (E := E) (n := n) "Difference"
          [("minuend", .term x, .term x), ("subtrahend", .term y, .term y), ("transform", .bool tr, .value (.bool tr))]
          (by simp only [List.forall_mem_cons]; exact ⟨rfl, rfl, rfl, by simp⟩)
        refine a.trans ?_
        simp [construct, argument, ok_bind, keywords, flagArgument, Param.toTerm]
  · intro l tr ih h
    rw [Representable] at h
    rw [reprTerm]
    refine (denotes_call (vs := [("factors", sequence (l.map (termValue N E n)) >>= fun l => .ok (.seq l)),
      ("transform", .ok (.bool tr))]) (isName_spec (by decide)) (by decide) (.cons (denotes_arg (by decide)
        (denotes_seq _ (ih h))) (.cons (denotes_arg (by decide) (denotes_bool tr)) .nil))).congr ?_
    rw [many, termValue, load_product]
    cases l.mapM (fun t => termFromDict N E n (asDict N t)) with
    | error e => rfl
    | ok m =>
      have a := apply_factory (N := N) (E := E) (n := n) "Product"
        [("factors", .seq (m.map .term), .values (m.map .inl)), ("transform", .bool tr, .value (.bool tr))]
        (by simp only [List.forall_mem_cons]; exact ⟨toParam_terms m, rfl, by simp⟩)
      refine a.trans ?_
      simp [construct, argument, ok_bind, keywords, flagArgument, toTerms_inl]
  · intro v w tr ihv ihw h
    rw [Representable] at h
    rw [reprTerm]
    refine (denotes_call (vs := [("numerator", termValue N E n v), ("denominator", termValue N E n w),
      ("transform", .ok (.bool tr))]) (isName_spec (by decide)) (by decide) (.cons (denotes_arg (by decide) (ihv h.1))
        (.cons (denotes_arg (by decide) (ihw h.2)) (.cons (denotes_arg (by decide) (denotes_bool tr)) .nil)))).congr ?_
    rw [two, termValue, load_quotient]
    cases termFromDict N E n (asDict N v) with
    | error e => rfl
    | ok x =>
      cases termFromDict N E n (asDict N w) with
      | error e => rfl
      | ok y =>
        have a := apply_factory (N := N) (E := E) (n := n) "Quotient"
          [("numerator", .term x, .term x), ("denominator", .term y, .term y), ("transform", .bool tr, .value (.bool tr))]
          (by simp only [List.forall_mem_cons]; exact ⟨rfl, rfl, rfl, by simp⟩)
        refine a.trans ?_
        simp [construct, argument, ok_bind, keywords, flagArgument, Param.toTerm]
  · intro _
    rw [reprTerms]
    exact .nil
  · intro v l ihv ihl h
    rw [RepresentableList] at h
    rw [reprTerms]
    exact .cons (ihv h.1) (ihl h.2)

/-! ### the filters -/

omit [Field K] [DecidableEq K] [Module α K] [IsStrictOrderedRing α] in
theorem reprTerms_map (S : Storage α K) (l : List (Term α K)) : reprTerms T N S l = l.map (reprTerm T N S) := by
  induction l with
  | nil => rw [reprTerms, List.map_nil]
  | cons t l ih => rw [reprTerms, ih, List.map_cons]

theorem denotes_terms (hT : T.Ok F) (hN : N.Hom) (hL : N.Lawful) (S : Storage α K) (l : List (Term α K))
    (h : ∀ t ∈ l, Representable F N t) :
    List.Forall₂ (Denotes T N E n) (reprTerms T N S l) (l.map (termValue N E n)) := by
  rw [reprTerms_map, List.forall₂_map_left_iff, List.forall₂_map_right_iff, List.forall₂_same]
  exact fun t ht => denotes_term hT hN hL S t (h t ht)

omit [Module α K] [IsStrictOrderedRing α] in
theorem denotes_labels (l : List String) :
    Denotes T N E n (reprLabels T l) (.ok (.seq (l.map .str))) := by
  have e1 : List.Forall₂ (Denotes T N E n) (l.map fun s => reprStr T.printable s.toList) (l.map fun s => .ok (.str s)) := by
    rw [List.forall₂_map_left_iff, List.forall₂_map_right_iff, List.forall₂_same]
    exact fun s _ => denotes_str s
  have e2 := denotes_tuple e1
  rwa [sequence_ok, ev_ok] at e2

omit [Field α] [LinearOrder α] [Field K] [DecidableEq K] [Module α K] [IsStrictOrderedRing α] in
theorem mapM_obj {β : Type} (g : β → Obj α K) (k : Obj α K → Ev β) (h : ∀ x, k (g x) = .ok x) (l : List β) :
    (l.map g).mapM k = .ok l := by
  induction l with
  | nil => rfl
  | cons x l ih => rw [List.map_cons, List.mapM_cons, h, ih]; rfl

omit [Module α K] [IsStrictOrderedRing α] in
theorem denotes_function {cls : String} {c : Callee} (hc : isName cls.toList = true)
    (hf : callee (.name cls.toList) = .ok c) {l : List (String × List Char)} {vs : List (String × Ev (Obj α K))}
    (h : List.Forall₂ (DenotesArg T N E n) l vs) :
    Denotes T N E n (cls.toList ++ '(' :: (join [',', ' '] (l.map reprArg) ++ [')']))
      (keywordValues vs >>= fun args => apply N E n c args) := by
  obtain ⟨as, h1, h2⟩ := denotes_args h
  refine ⟨_, prints_function (isName_spec hc) h1, ?_⟩
  rw [evalAst, h2, hf, ev_ok]

/-- the value of the text of a filter -/
theorem read_filter (hT : T.Ok F) (hN : N.Hom) (hL : N.Lawful) (S : Storage α K) (a : Channels α K)
    (ha : ∀ t ∈ a.transferFunctions, Representable F N t) :
    reprRead T N E n (reprFilter T N S "Filter" a) =
      (lift (a.transferFunctions.mapM fun t => termFromDict N E n (asDict N t)) >>= fun l =>
        .ok (.filter (Channels.new l a.labels))) := by
  have e := denotes_function (cls := "Filter") (c := .filter) (by decide) (by simp [callee])
    (.cons (denotes_arg (k := "transfer_functions") (by decide)
      (denotes_tuple (denotes_terms (E := E) (n := n) hT hN hL S a.transferFunctions ha)))
      (.cons (denotes_arg (k := "labels") (by decide) (denotes_labels a.labels)) .nil))
  have r := denotes_eval e
  rw [reprRead, reprFilter, r, sequence_terms]
  cases a.transferFunctions.mapM fun t => termFromDict N E n (asDict N t) with
  | error e => rfl
  | ok l =>
    have h1 := mapM_obj (α := α) (K := K) .term Obj.toTerm (fun x => rfl) l
    have h2 := mapM_obj (α := α) (K := K) .str Obj.toStr (fun x => rfl) a.labels
    simp [lift, keywordValues, sequence, ev_ok, apply, keyword, Obj.toList, h1, h2]

/-! ### the property -/

/-- C100: Evaluating the text of a term calls the same factories with the same parameters as creating the term from its
dictionary, no matter in which kind of sequences the coefficients and the terms are stored and where NumPy inserts line
breaks. -/
theorem C100_term (hT : T.Ok F) (hN : N.Hom) (hL : N.Lawful) (S : Storage α K) (t : Term α K)
    (ht : Representable F N t) (r : Term α K) :
    evalText T N E n (reprTerm T N S t) = .ok (.term r) ↔ termFromDict N E n (asDict N t) = .ok r := by
  rw [denotes_eval (denotes_term hT hN hL S t ht), termValue]
  cases termFromDict N E n (asDict N t) with
  | error e => exact ⟨fun h => (by cases h), fun h => (by cases h)⟩
  | ok x => exact ⟨fun h => (by cases h; rfl), fun h => (by cases h; rfl)⟩

/-- C100: A filter, that has been saved as text and loaded again, has the same labels and the same values at every
frequency greater than zero. Unlike for JSON, the numbers may be complex. Missing: the terms, that are not plain, and the
filters, that cannot be loaded (`C100_derived_violated`). -/
theorem C100_values_partial (T : Texts ℝ) (F : ℝ → Prop) (hT : T.Ok F) (N : Numbers ℝ ℂ) (hN : N.Hom) (hL : N.Lawful)
    (S : Storage ℝ ℂ) (mem : ℂ) (n : Nat) (a r : Channels ℝ ℂ) (hl : a.labels.length = a.transferFunctions.length)
    (ha : ∀ t ∈ a.transferFunctions, Representable F N t ∧ ∃ d, Plain d t)
    (hr : reprRead T N complexEnv n (reprFilter T N S "Filter" a) = .ok (.filter r)) :
    r.labels = a.labels ∧ r.transferFunctions.length = a.transferFunctions.length ∧
    ∀ f, 0 < f → ∀ (k : Nat) (x : ℂ), (a.call complexEnv mem f)[k]? = some (some x) →
      (r.call complexEnv mem f)[k]? = some (some x) := by
  rw [read_filter hT hN hL S a fun t ht => (ha t ht).1] at hr
  cases h1 : a.transferFunctions.mapM fun t => termFromDict N complexEnv n (asDict N t) with
  | error e =>
    rw [h1] at hr
    cases hr
  | ok l =>
    rw [h1] at hr
    cases hr
    obtain ⟨e1, e2⟩ := mapM_getElem h1
    refine ⟨?_, e1, fun f hf k x hx => ?_⟩
    · unfold Channels.new
      dsimp only
      exact Signal.sanitize_self (by omega)
    · rw [C33_positive_frequencies mem _ f hf] at hx ⊢
      rw [List.getElem?_map] at hx ⊢
      obtain ⟨t, ht, hx⟩ := map_some hx
      obtain ⟨hk, rfl⟩ := List.getElem?_eq_some_iff.mp ht
      obtain ⟨z, hz, e3⟩ := e2 k hk
      obtain ⟨d, hd⟩ := (ha _ (List.getElem_mem hk)).2
      show Option.map _ (l[k]?) = _
      rw [hz, Option.map_some, (load_sound hL complexEnv_lawful hd z e3).2 f (complexEnv_s hf) false x hx]

/-- Specification: terms without other terms, for which the factories do not find a simpler term -/
def Primitive : Term α K → Prop
  | .constant _ => True
  | .polynomial cs _ => 2 ≤ cs.length ∧ cs.head? ≠ some 0
  | .exp c _ => c ≠ 0
  | .bands _ _ _ e => e ≠ .stairsLog
  | _ => False

omit [IsStrictOrderedRing α] in
theorem load_primitive (hL : N.Lawful) (t : Term α K) (ht : Primitive t) : termFromDict N E n (asDict N t) = .ok t := by
  cases t with
  | constant v => exact load_constant hL v
  | polynomial cs tr =>
    rw [load_polynomial hL]
    obtain ⟨h1, h2⟩ := ht
    match cs with
    | [] => simp at h1
    | [c] => simp at h1
    | c :: d :: cs =>
      have hc : c ≠ 0 := by simpa using h2
      have e : (c :: d :: cs).dropWhile (· = 0) = c :: d :: cs := by simp [hc]
      unfold polynomialFactory
      rw [e]
  | exp c tr =>
    rw [load_exp hL, expFactory, if_neg ht]
  | bands xs ys i e =>
    rw [load_bands hL, mkBands, if_neg ht]
  | absolute _ _ | negative _ _ | sum _ _ | difference _ _ _ | product _ _ | quotient _ _ _ => exact absurd ht id

/-- C100: A filter, whose transfer functions are primitive terms, is restored exactly. The labels can contain arbitrary
characters. -/
theorem C100_primitive (hT : T.Ok F) (hN : N.Hom) (hL : N.Lawful) (S : Storage α K) (a : Channels α K)
    (hl : a.labels.length = a.transferFunctions.length)
    (ha : ∀ t ∈ a.transferFunctions, Representable F N t ∧ Primitive t) :
    reprRead T N E n (reprFilter T N S "Filter" a) = .ok (.filter a) := by
  rw [read_filter hT hN hL S a fun t ht => (ha t ht).1]
  have e : a.transferFunctions.mapM (fun t => termFromDict N E n (asDict N t)) = .ok a.transferFunctions := by
    have h2 : ∀ t ∈ a.transferFunctions, termFromDict N E n (asDict N t) = .ok t :=
      fun t ht => load_primitive hL t (ha t ht).2
    generalize a.transferFunctions = l at h2
    induction l with
    | nil => rfl
    | cons t l ih =>
      rw [List.mapM_cons, h2 t List.mem_cons_self, ih fun u hu => h2 u (List.mem_cons_of_mem _ hu)]
      rfl
  rw [e]
  show Except.ok _ = Except.ok _
  rw [Channels.new, Signal.sanitize_self hl]

omit [IsStrictOrderedRing α] [Module α K] in
omit [DecidableEq K] in
theorem toDict_items (hL : N.Lawful) (l : Dict α K) : ∀ d : Dict α K, (d ++ l).Ok →
    toDict N d (l.map fun p => (.real p.1, numberObj N p.2)) = .ok (d ++ l) := by
  induction l with
  | nil =>
    intro d _
    rw [List.append_nil]
    rfl
  | cons p l ih =>
    intro d hd
    have hv : (numberObj N p.2).toComplex N = .ok p.2 := by
      unfold numberObj
      cases h : N.isComplex p.2 with
      | true => rfl
      | false =>
        show Except.ok (N.ofReal (N.re p.2)) = _
        rw [hL.real _ h]
    have hs : ∀ d : Dict α K, p.1 ∉ d.keys → d.set p.1 p.2 = d ++ [p] := by
      intro d hd
      induction d with
      | nil => rfl
      | cons q d ihd =>
        have h1 : q.1 ≠ p.1 := by
          rintro h
          exact hd (by rw [Dict.keys, List.map_cons, h]; exact List.mem_cons_self)
        rw [Dict.set, if_neg h1, ihd fun h => hd (List.mem_cons_of_mem _ h)]
        rfl
    have hk : p.1 ∉ d.keys := by
      intro h
      have hn : ((d.keys ++ (p.1 :: Dict.keys l))).Nodup := by
        have : (d ++ p :: l).keys = d.keys ++ (p.1 :: Dict.keys l) := by simp [Dict.keys]
        rw [← this]
        exact hd
      exact (List.nodup_append.mp hn).2.2 _ h _ List.mem_cons_self rfl
    rw [List.map_cons, toDict, Obj.toReal, ev_ok, hv, ev_ok, hs d hk, ih (d ++ [p]) (by rwa [List.append_assoc])]
    rw [List.append_assoc]
    rfl

omit [IsStrictOrderedRing α] [Module α K] in
theorem denotes_dict {l : List (List Char × List Char)} {vs : List (Obj α K × Obj α K)}
    (h : List.Forall₂ (fun p q => Denotes T N E n p.1 (.ok q.1) ∧ Denotes T N E n p.2 (.ok q.2)) l vs) :
    Denotes T N E n (reprDict l) (.ok (.dict vs)) := by
  have : ∃ as, List.Forall₂ (fun p q => Prints p.1 q.1 ∧ Prints p.2 q.2) l as ∧ evalItems T N E n as = .ok vs := by
    induction h with
    | nil => exact ⟨[], .nil, by rw [evalItems]⟩
    | @cons p q l vs h1 _ ih =>
      obtain ⟨⟨a, p1, e1⟩, b, p2, e2⟩ := h1
      obtain ⟨as, p3, e3⟩ := ih
      exact ⟨(a, b) :: as, .cons ⟨p1, p2⟩ p3, by rw [evalItems, evalItem, e1, ev_ok, e2, ev_ok, ev_ok, e3, ev_ok]⟩
  obtain ⟨as, h1, h2⟩ := this
  exact ⟨_, prints_dict h1, by rw [evalAst, h2, ev_ok]⟩

omit [Module α K] in
/-- C100: A bands filter, that has been created with the constructor, is restored exactly. -/
theorem C100_bands (hT : T.Ok F) (hN : N.Hom) (hL : N.Lawful) (kind : SeqKind) (a : BandsFilter α K) (ha : a.Built)
    (hk : ∀ d ∈ a.bands, d.Ok) (hr : ∀ d ∈ a.bands, ∀ p ∈ d, F p.1 ∧ Rep F N p.2) :
    reprRead T N E n (reprBands T N kind a) = .ok (.bands a) := by
  have e1 : List.Forall₂ (Denotes T N E n)
      (a.bands.map fun d => reprDict (d.map fun p => (T.repr p.1, reprNumber T N p.2)))
      (a.bands.map fun d => .ok (.dict (d.map fun p => (.real p.1, numberObj N p.2)))) := by
    rw [List.forall₂_map_left_iff, List.forall₂_map_right_iff, List.forall₂_same]
    intro d hd
    apply denotes_dict
    rw [List.forall₂_map_left_iff, List.forall₂_map_right_iff, List.forall₂_same]
    exact fun p hp => ⟨denotes_float hT (hr d hd p hp).1, denotes_number hT hN hL (hr d hd p hp).2⟩
  have e2 := denotes_seq kind e1
  rw [sequence_ok, ev_ok] at e2
  have modes : ∀ l : List Mode, Denotes T N E n (reprList (l.map fun m => reprInt (modeNumber m)))
      (.ok (.seq (l.map fun m => .int (modeNumber m)))) := by
    intro l
    have e3 : List.Forall₂ (Denotes T N E n) (l.map fun m => reprInt (modeNumber m))
        (l.map fun m => .ok (.int (modeNumber m))) := by
      rw [List.forall₂_map_left_iff, List.forall₂_map_right_iff, List.forall₂_same]
      exact fun m _ => denotes_mode m
    have e4 := denotes_list e3
    rwa [sequence_ok, ev_ok] at e4
  have labels : Denotes T N E n (reprLabels T a.filter.labels) (.ok (.seq (a.filter.labels.map .str))) := by
    have e3 : List.Forall₂ (Denotes T N E n) (a.filter.labels.map fun s => reprStr T.printable s.toList)
        (a.filter.labels.map fun s => .ok (.str s)) := by
      rw [List.forall₂_map_left_iff, List.forall₂_map_right_iff, List.forall₂_same]
      exact fun s _ => denotes_str s
    have e4 := denotes_tuple e3
    rwa [sequence_ok, ev_ok] at e4
  obtain ⟨as, p1, p2⟩ := denotes_args (.cons (denotes_arg (k := "bands") (by decide) e2)
    (.cons (denotes_arg (k := "interpolations") (by decide) (modes a.interpolations))
      (.cons (denotes_arg (k := "extrapolations") (by decide) (modes a.extrapolations))
        (.cons (denotes_arg (k := "labels") (by decide) labels) .nil))))
  have e : Denotes T N E n (reprBands T N kind a) _ := ⟨_, prints_function (cls := "Bands") (isName_spec (by decide)) p1, rfl⟩
  have r := denotes_eval e
  rw [reprRead, r, evalAst, p2]
  have hc : callee (.name "Bands".toList) = .ok .bands := by simp [callee]
  rw [hc]
  have h0 : (a.bands.map fun d => (.dict (d.map fun p => (.real p.1, numberObj N p.2)) : Obj α K)).mapM (Obj.toDict N) =
      .ok a.bands := by
    have : ∀ l : List (Dict α K), (∀ d ∈ l, d.Ok) →
        (l.map fun d => (.dict (d.map fun p => (.real p.1, numberObj N p.2)) : Obj α K)).mapM (Obj.toDict N) = .ok l := by
      intro l hl
      induction l with
      | nil => rfl
      | cons d l ih =>
        rw [List.map_cons, List.mapM_cons, ih fun x hx => hl x (List.mem_cons_of_mem _ hx), Obj.toDict,
          toDict_items hL d [] (hl d List.mem_cons_self)]
        rfl
    exact this _ hk
  have hm : ∀ m : Mode, (Obj.int (modeNumber m) : Obj α K).toMode = .ok m := by
    intro m
    cases m <;> rfl
  have m1 := fun l => mapM_obj (α := α) (K := K) (fun m => .int (modeNumber m)) Obj.toMode hm l
  have m2 := mapM_obj (α := α) (K := K) .str Obj.toStr (fun x => rfl) a.filter.labels
  obtain ⟨b1, b2, b3, b4⟩ := built_spec ha
  have hn := new_sequences a.bands a.interpolations a.extrapolations a.filter.labels b1 b2 b3
  have ea : (⟨⟨bandsTerms a.bands a.interpolations a.extrapolations, a.filter.labels⟩, a.bands, a.interpolations,
      a.extrapolations⟩ : BandsFilter α K) = a := by rw [← b4]
  rw [ea] at hn
  simp [keywordValues, sequence, ev_ok, apply, keyword, Obj.toList, h0, m1, m2, hn, lift]

omit [IsStrictOrderedRing α] [Module α K] in
/-- C100: A text, that can be evaluated, but does not describe a filter, is refused with an `AssertionError`. -/
theorem C100_type (s : List Char) (o : Obj α K) (ho : evalText T N E n s = .ok o) (h1 : ∀ a, o ≠ .filter a)
    (h2 : ∀ a, o ≠ .bands a) : reprRead T N E n s = .error .assertionError := by
  rw [reprRead, ho]
  cases o with
  | filter a => exact absurd rfl (h1 a)
  | bands a => exact absurd rfl (h2 a)
  | _ => rfl

/-- The hypotheses of `C100_type` are fulfilled by the text of a term. -/
example (hT : T.Ok F) (hN : N.Hom) (hL : N.Lawful) (S : Storage α K) (t r : Term α K) (ht : Representable F N t)
    (hr : termFromDict N E n (asDict N t) = .ok r) : reprRead T N E n (reprTerm T N S t) = .error .assertionError :=
  C100_type _ (.term r) ((C100_term hT hN hL S t ht r).mpr hr) (fun _ h => by cases h) fun _ h => by cases h

/-- C100 is violated: A filter of a class, that is derived from `Filter`, has a text with the name of its class, e.g.
`ButterworthFilter(transfer_functions=..., labels=...)`. This name is not known, when the text is evaluated, so saving such a
filter as text succeeds, but loading it raises a `NameError`. (With this name, the evaluation would still fail, because the
constructors of the derived classes do not have these parameters.) -/
theorem C100_derived_violated (hT : T.Ok F) (hN : N.Hom) (hL : N.Lawful) (S : Storage α K) (a : Channels α K)
    (ha : ∀ t ∈ a.transferFunctions, Representable F N t)
    (cls : String) (hc : cls ∈ ["BesselFilter", "ButterworthFilter", "Chebyshev1Filter", "Chebyshev2Filter", "DelayFilter",
      "DerivativeFilter", "AWeighting", "BWeighting", "CWeighting", "DWeighting", "UWeighting"]) :
    reprRead T N E n (reprFilter T N S cls a) = .error .nameError := by
  obtain ⟨as, h1, -⟩ := denotes_args
    (.cons (denotes_arg (k := "transfer_functions") (by decide)
      (denotes_tuple (denotes_terms (E := E) (n := n) hT hN hL S a.transferFunctions ha)))
      (.cons (denotes_arg (k := "labels") (by decide) (denotes_labels a.labels)) .nil))
  have hn : isName cls.toList = true ∧ callee (.name cls.toList) = .error .nameError := by
    simp only [List.mem_cons, List.not_mem_nil, or_false] at hc
    rcases hc with rfl | rfl | rfl | rfl | rfl | rfl | rfl | rfl | rfl | rfl | rfl <;>
      exact ⟨by decide, by simp [callee]⟩
  have e : Denotes T N E n (reprFilter T N S cls a) _ := ⟨_, prints_function (isName_spec hn.1) h1, rfl⟩
  rw [reprRead, denotes_eval e, evalAst, hn.2, ev_error, ev_error]

/-! ### examples for the hypotheses -/

/-- the texts of the numbers 0, 1 and -1 -/
noncomputable def exampleTexts : Texts ℝ where
  repr x := if x = 0 then "0.0".toList else if x = 1 then "1.0".toList else "-1.0".toList
  parse s := if s = "0.0".toList then some 0 else if s = "1.0".toList then some 1 else none
  part x := if x = 0 then "0".toList else if x = 1 then "1".toList else "-1".toList
  printable c := decide (32 ≤ c.toNat ∧ c.toNat < 127)
  breaks _ i := decide (i % 10 = 9)

/-- the numbers with a text in `exampleTexts` -/
def exampleFloats (x : ℝ) : Prop := x = 0 ∨ x = 1 ∨ x = -1

open Classical in
/-- numbers, that are complex, if their imaginary part is not zero -/
noncomputable def exampleNumbers : Numbers ℝ ℂ where
  isComplex z := decide (z.im ≠ 0)
  isComplexArray l := decide (∃ z ∈ l, z.im ≠ 0)
  re := Complex.re
  im := Complex.im
  ofReal x := x
  i := Complex.I

theorem exampleTexts_ok : exampleTexts.Ok exampleFloats where
  neg x h := by
    rcases h with rfl | rfl | rfl
    · exact .inl neg_zero
    · exact .inr (.inr rfl)
    · exact .inr (.inl (neg_neg 1))
  parse x h h0 := by
    rcases h with rfl | rfl | rfl
    · simp [exampleTexts]
    · simp [exampleTexts]
    · linarith
  unsigned x h h0 := by
    rcases h with rfl | rfl | rfl
    · have e : exampleTexts.repr 0 = ['0'] ++ '.' :: ['0'] := by simp [exampleTexts]
      rw [e]
      exact .fixed _ _ (by decide) (by decide) (by decide) (by decide)
    · have e : exampleTexts.repr 1 = ['1'] ++ '.' :: ['0'] := by simp [exampleTexts]
      rw [e]
      exact .fixed _ _ (by decide) (by decide) (by decide) (by decide)
    · linarith
  negative x h h0 := by
    rcases h with rfl | rfl | rfl
    · exact absurd h0 (lt_irrefl _)
    · linarith
    · have e : (-1 : ℝ) ≠ 1 := by norm_num
      simp [exampleTexts, e]
  part x h h0 := by
    rcases h with rfl | rfl | rfl
    · have e : exampleTexts.part 0 = ['0'] := by simp [exampleTexts]
      rw [e]
      exact .inr ⟨by decide, by decide, by simp [digitsValue]⟩
    · have e : exampleTexts.part 1 = ['1'] := by simp [exampleTexts]
      rw [e]
      exact .inr ⟨by decide, by decide, by simp [digitsValue]⟩
    · linarith
  negativePart x h h0 := by
    rcases h with rfl | rfl | rfl
    · exact absurd h0 (lt_irrefl _)
    · linarith
    · have e : (-1 : ℝ) ≠ 1 := by norm_num
      simp [exampleTexts, e]

theorem exampleNumbers_hom : exampleNumbers.Hom := ⟨Complex.ofRealHom, fun _ => rfl⟩

theorem exampleNumbers_lawful : exampleNumbers.Lawful := by
  refine ⟨?_, ?_, ?_⟩
  · intro z hz
    have hz : z.im = 0 := by simpa [exampleNumbers] using hz
    exact Complex.ext rfl hz.symm
  · intro l hl z hz
    have hl : ∀ z ∈ l, z.im = 0 := by simpa [exampleNumbers] using hl
    exact Complex.ext rfl (hl z hz).symm
  · intro z
    rw [add_comm]
    exact Complex.re_add_im z

/-- a filter with complex numbers -/
noncomputable def exampleFilter : Channels ℝ ℂ :=
  ⟨[.polynomial [Complex.I, -1] false, .bands [0, 1] [1, -Complex.I] .stairsLin .zero], ["it's", "\"two\"\n"]⟩

theorem exampleFilter_representable : ∀ t ∈ exampleFilter.transferFunctions,
    Representable exampleFloats exampleNumbers t ∧ Primitive t ∧ ∃ d, Plain d t := by
  intro t ht
  simp only [exampleFilter, List.mem_cons, List.not_mem_nil, or_false] at ht
  rcases ht with rfl | rfl
  · refine ⟨?_, ?_, ?_⟩
    · simp [Representable, Rep, exampleFloats, exampleNumbers]
    · simp [Primitive]
    · exact ⟨false, .polynomial _ _ (by simp) (by simp)⟩
  · refine ⟨?_, ?_, ?_⟩
    · simp [Representable, Rep, exampleFloats, exampleNumbers]
    · simp [Primitive]
    · exact ⟨false, .bands _ _ _ _ (by simp) (by simp) rfl (by simp [pointwise]) (by simp [pointwise]) (by simp)⟩

/-- The hypotheses of `C100_primitive` are fulfilled by the filter `exampleFilter`. -/
example (S : Storage ℝ ℂ) (n : Nat) : reprRead exampleTexts exampleNumbers complexEnv n
    (reprFilter exampleTexts exampleNumbers S "Filter" exampleFilter) = .ok (.filter exampleFilter) :=
  C100_primitive exampleTexts_ok exampleNumbers_hom exampleNumbers_lawful S exampleFilter rfl fun t ht =>
    ⟨(exampleFilter_representable t ht).1, (exampleFilter_representable t ht).2.1⟩

/-- The hypotheses of `C100_values_partial` are fulfilled by the filter `exampleFilter`. -/
example (S : Storage ℝ ℂ) (n : Nat) : (∀ t ∈ exampleFilter.transferFunctions,
    Representable exampleFloats exampleNumbers t ∧ ∃ d, Plain d t) ∧ ∃ r, reprRead exampleTexts exampleNumbers complexEnv n
      (reprFilter exampleTexts exampleNumbers S "Filter" exampleFilter) = .ok (.filter r) :=
  ⟨fun t ht => ⟨(exampleFilter_representable t ht).1, (exampleFilter_representable t ht).2.2⟩, _,
    C100_primitive exampleTexts_ok exampleNumbers_hom exampleNumbers_lawful S exampleFilter rfl fun t ht =>
      ⟨(exampleFilter_representable t ht).1, (exampleFilter_representable t ht).2.1⟩⟩

/-- The hypotheses of `C100_bands` are fulfilled by a filter with complex values. -/
example (kind : SeqKind) (n : Nat) : ∃ a : BandsFilter ℝ ℂ, a.bands = [[(1, Complex.I), (0, -1)]] ∧
    reprRead exampleTexts exampleNumbers complexEnv n (reprBands exampleTexts exampleNumbers kind a) = .ok (.bands a) := by
  have e := new_sequences (α := ℝ) (K := ℂ) [[(1, Complex.I), (0, -1)]] [.linear] [.zero] ["it's"] rfl rfl rfl
  refine ⟨_, rfl, C100_bands exampleTexts_ok exampleNumbers_hom exampleNumbers_lawful kind _ ⟨_, _, _, _, e⟩ ?_ ?_⟩
  · intro d hd
    rw [List.mem_singleton] at hd
    subst hd
    simp [Dict.Ok, Dict.keys]
  · intro d hd
    rw [List.mem_singleton] at hd
    subst hd
    simp [Rep, exampleFloats, exampleNumbers]

end Filter
end Verif
