import Verif.TermSound

/-
The proof, that the operators, factories and `invert_transform` preserve the meaning of plain terms, by an induction on
the recursion depth.
-/

namespace Verif
namespace Filter

open Interpolation (Mode Logs)

variable {α K : Type} [Field α] [LinearOrder α] [Field K] [DecidableEq K] [Module α K]

/-- the laws of the exponential function and the magnitude, that are needed here. They hold for complex numbers. -/
structure Env.Lawful (E : Env α K) : Prop where
  abs_abs : ∀ x, E.abs (E.abs x) = E.abs x
  abs_zero : E.abs 0 = 0
  exp_zero : E.exp 0 = 1
  exp_neg : ∀ x, E.exp (-x) * E.exp x = 1

/-- Terms, for which the arithmetic is correct: polynomials have coefficients, bands have increasing supporting points,
are interpolated with zeros or stairs and extrapolated with zeros or the linear stairs. With `d = true`, there may be
differences, but no transforms; with `d = false`, there may be transforms, but no differences. -/
inductive Plain (d : Bool) : Term α K → Prop where
  | constant (v : K) : Plain d (.constant v)
  | polynomial (cs : List K) (tr : Bool) (h : cs ≠ []) (ht : d = true → tr = false) : Plain d (.polynomial cs tr)
  | exp (c : K) (tr : Bool) (ht : d = true → tr = false) : Plain d (.exp c tr)
  | bands (xs : List α) (ys : List K) (i e : Mode) (hx : xs ≠ []) (hs : xs.Pairwise (· < ·))
      (hl : xs.length = ys.length) (hi : pointwise i) (he : pointwise e) (hne : e ≠ .stairsLog) :
      Plain d (.bands xs ys i e)
  | absolute (v : Term α K) (tr : Bool) (hv : Plain d v) (ht : d = true → tr = false) : Plain d (.absolute v tr)
  | negative (v : Term α K) (tr : Bool) (hv : Plain d v) (ht : d = true → tr = false) : Plain d (.negative v tr)
  | sum (l : List (Term α K)) (tr : Bool) (hl : ∀ a ∈ l, Plain d a) (ht : d = true → tr = false) : Plain d (.sum l tr)
  | difference (m s : Term α K) (hm : Plain d m) (hs : Plain d s) (hd : d = true) : Plain d (.difference m s false)
  | product (l : List (Term α K)) (tr : Bool) (hl : ∀ a ∈ l, Plain d a) (ht : d = true → tr = false) :
      Plain d (.product l tr)
  | quotient (m s : Term α K) (tr : Bool) (hm : Plain d m) (hs : Plain d s) (ht : d = true → tr = false) :
      Plain d (.quotient m s tr)

/-! ### the checks -/

theorem notEqualAny_false {β : Type} [DecidableEq β] {a b : List β} (ha : a ≠ []) (hb : b ≠ []) (hna : a.Nodup)
    (hnb : b.Nodup) (h : notEqualAny a b = .ok false) : a = b := by
  unfold notEqualAny at h
  by_cases hl : a.length = b.length
  · rw [if_pos hl] at h
    have := ok_inj h
    simpa using this
  · rw [if_neg hl] at h
    match a, b, ha, hb with
    | [x], y :: [], _, _ => simp at hl
    | [x], y :: z :: b, _, _ =>
      have h2 : ((y :: z :: b).any fun w => decide (x ≠ w)) = false := ok_inj h
      rw [List.any_eq_false] at h2
      have e1 : x = y := by simpa using h2 y (by simp)
      have e2 : x = z := by simpa using h2 z (by simp)
      rw [← e1, ← e2] at hnb
      simp at hnb
    | x :: w :: a, [y], _, _ =>
      have h2 : ((x :: w :: a).any fun v => decide (v ≠ y)) = false := ok_inj h
      rw [List.any_eq_false] at h2
      have e1 : x = y := by simpa using h2 x (by simp)
      have e2 : w = y := by simpa using h2 w (by simp)
      rw [e1, e2] at hna
      simp at hna
    | x :: w :: a, y :: z :: b, _, _ => cases h

theorem notEqualAny_false_length {β : Type} [DecidableEq β] {a b : List β} (hl : a.length = b.length)
    (h : notEqualAny a b = .ok false) : a = b := by
  unfold notEqualAny at h
  rw [if_pos hl] at h
  have := ok_inj h
  simpa using this

theorem forall2_zip_eq {β γ δ : Type} {R : β → γ → Prop} {S : δ → γ → Prop} {Q : β → δ → Prop}
    (hq : ∀ a b, Q a b → ∀ x y, R a x → S b y → x = y) :
    ∀ {l : List β} {l' : List δ} {xs ys : List γ}, l.length = l'.length → (∀ p ∈ l.zip l', Q p.1 p.2) →
      List.Forall₂ R l xs → List.Forall₂ S l' ys → xs = ys := by
  intro l
  induction l with
  | nil =>
    intro l' xs ys hl _ h1 h2
    cases l' with
    | nil =>
      cases h1
      cases h2
      rfl
    | cons b l' => simp at hl
  | cons a l ih =>
    intro l' xs ys hl hp h1 h2
    cases l' with
    | nil => simp at hl
    | cons b l' =>
      cases h1 with
      | cons r1 r2 =>
        cases h2 with
        | cons s1 s2 =>
          have e1 := hq a b (hp (a, b) (by simp)) _ _ r1 s1
          have e2 := ih (by simpa using hl) (fun p hp' => hp p (by simp [hp'])) r2 s2
          rw [e1, e2]

theorem sum_zero_of_forall2 {β : Type} {R : β → K → Prop} {l : List β} {xs : List K} (h : List.Forall₂ R l xs)
    (hz : ∀ a ∈ l, ∀ x, R a x → x = 0) : xs.sum = 0 := by
  induction h with
  | nil => rfl
  | cons r _ ih =>
    rw [List.sum_cons, hz _ List.mem_cons_self _ r, ih fun a ha => hz a (List.mem_cons_of_mem _ ha), add_zero]

theorem prod_zero_of_forall2 {β : Type} {R : β → K → Prop} {l : List β} {xs : List K} (h : List.Forall₂ R l xs)
    (hz : ∃ a ∈ l, ∀ x, R a x → x = 0) : xs.prod = 0 := by
  induction h with
  | nil =>
    obtain ⟨a, ha, _⟩ := hz
    simp at ha
  | cons r _ ih =>
    obtain ⟨a, ha, hx⟩ := hz
    rw [List.prod_cons]
    rcases List.mem_cons.mp ha with rfl | ha
    · rw [hx _ r, zero_mul]
    · rw [ih ⟨a, ha, hx⟩, mul_zero]

/-- `is_zero` is only true for terms, that are zero, and equal plain terms have equal values -/
theorem checks_sound {E : Env α K} (hE : E.Lawful) (n : Nat) :
    (∀ d (a : Term α K), Plain d a → isZero n a = .ok true → ∀ f t x, eval E f t a = some x → x = 0) ∧
      ∀ d (a b : Term α K), Plain d a → Plain d b → termEq n a b = .ok true →
        ∀ f t x y, eval E f t a = some x → eval E f t b = some y → x = y := by
  induction n with
  | zero =>
    constructor
    · intro d a _ h
      simp [isZero] at h
    · intro d a b _ _ h
      simp [termEq] at h
  | succ n ih =>
    obtain ⟨ihz, ihq⟩ := ih
    constructor
    · intro d a ha h f t x hx
      cases ha with
      | constant v =>
        have h : v = 0 := by simpa [isZero] using h
        rw [eval_constant] at hx
        rw [hx, h]
      | polynomial cs tr =>
        have h : cs.all (· = 0) = true := by simpa [isZero] using h
        obtain ⟨s, _, rfl⟩ := (eval_polynomial ..).mp hx
        exact polyval_all_zero cs h s
      | exp c tr => simp [isZero] at h
      | bands xs ys i e hne hs hl hi he =>
        have h : xs.length = 0 ∨ ys.all (· = 0) = true := by simpa [isZero] using h
        rw [eval_bands] at hx
        refine bandsAt_zeros E f xs ys i e hne hl hi he ?_ x hx
        rcases h with h | h
        · exact absurd (List.length_eq_zero_iff.mp h) hne
        · intro y hy
          simpa using List.all_eq_true.mp h y hy
      | absolute v tr hv =>
        obtain ⟨y, hy, rfl⟩ := (eval_absolute ..).mp hx
        rw [ihz d v hv h f _ y hy, hE.abs_zero]
      | negative v tr hv =>
        have := ihz d v hv h f _ _ ((eval_negative ..).mp hx)
        simpa using this
      | sum l tr hl =>
        obtain ⟨xs, h1, rfl⟩ := (eval_sum ..).mp hx
        have h2 := allM_true h
        exact sum_zero_of_forall2 h1 fun a ha y hy => ihz d a (hl a ha) (h2 a ha) f _ y hy
      | difference m s hm hs =>
        obtain ⟨y, z, h1, h2, rfl⟩ := (eval_difference ..).mp hx
        have h : (termEq n m s >>= fun b => if b then .ok true else
          isZero n m >>= fun b => if b then isZero n s else .ok false) = .ok true := h
        obtain ⟨b, hb, h3⟩ := bind_ok h
        cases b with
        | true => rw [ihq d m s hm hs hb f _ y z h1 h2, sub_self]
        | false =>
          obtain ⟨c, hc, h4⟩ := bind_ok h3
          cases c with
          | false => cases h4
          | true => rw [ihz d m hm hc f _ y h1, ihz d s hs h4 f _ z h2, sub_self]
      | product l tr hl =>
        by_cases h0 : l = []
        · subst h0
          rw [eval_product_nil] at hx
          exact (Option.some.inj hx).symm
        · obtain ⟨xs, h1, rfl⟩ := (eval_product _ _ _ _ h0 _).mp hx
          have h : (if l.length = 0 then .ok true else anyM (isZero n) l) = .ok true := h
          rw [if_neg (by simpa using h0)] at h
          obtain ⟨a, ha, h2⟩ := anyM_true h
          exact prod_zero_of_forall2 h1 ⟨a, ha, fun y hy => ihz d a (hl a ha) h2 f _ y hy⟩
      | quotient m s tr hm hs =>
        obtain ⟨y, z, h1, h2, h3, rfl⟩ := (eval_quotient ..).mp hx
        rw [ihz d m hm h f _ y h1, zero_div]
    · intro d a b ha hb h f t x y hx hy
      cases ha with
      | constant v =>
        have hc : ∀ b : Term α K, constantEq v b = .ok true → eval E f t b = some y → x = y := by
          intro b hb hy
          cases b with
          | constant w =>
            have e : v = w := by simpa [constantEq] using hb
            rw [eval_constant] at hx hy
            rw [hx, hy, e]
          | _ => simp [constantEq] at hb
        have h : (if v = 0 then isZero n b >>= fun z => if z then .ok true else constantEq v b
          else constantEq v b) = .ok true := h
        by_cases hv : v = 0
        · rw [if_pos hv] at h
          obtain ⟨z, hz, h2⟩ := bind_ok h
          cases z with
          | true =>
            rw [eval_constant] at hx
            rw [hx, hv, ihz d b hb hz f t y hy]
          | false => exact hc b h2 hy
        · rw [if_neg hv] at h
          exact hc b h hy
      | polynomial cs tr =>
        cases hb with
        | polynomial cs' tr' =>
          have h : cs.length = cs'.length ∧ cs = cs' ∧ tr = tr' := by simpa [termEq] using h
          obtain ⟨_, rfl, rfl⟩ := h
          exact Option.some.inj (hx.symm.trans hy)
        | _ => simp [termEq] at h
      | exp c tr =>
        cases hb with
        | exp c' tr' =>
          have h : c = c' ∧ tr = tr' := by simpa [termEq] using h
          obtain ⟨rfl, rfl⟩ := h
          exact Option.some.inj (hx.symm.trans hy)
        | _ => simp [termEq] at h
      | bands xs ys i e hne hs hl =>
        cases hb with
        | bands xs' ys' i' e' hne' hs' hl' =>
          have h : bandsEq xs ys i e xs' ys' i' e' = .ok true := h
          unfold bandsEq at h
          by_cases hc : i ≠ i' ∨ e ≠ e'
          · rw [if_pos hc] at h
            cases h
          · rw [if_neg hc] at h
            obtain ⟨b1, e1, h⟩ := bind_ok h
            cases b1 with
            | true => cases h
            | false =>
              obtain ⟨b2, e2, h⟩ := bind_ok h
              cases b2 with
              | true => cases h
              | false =>
                have nd : ∀ {l : List α}, l.Pairwise (· < ·) → l.Nodup :=
                  fun h => h.imp fun hab => ne_of_lt hab
                have ex := notEqualAny_false hne hne' (nd hs) (nd hs') e1
                subst ex
                have ey := notEqualAny_false_length (hl.symm.trans hl') e2
                subst ey
                have : i = i' ∧ e = e' := by
                  constructor
                  · by_contra hcon
                    exact hc (Or.inl hcon)
                  · by_contra hcon
                    exact hc (Or.inr hcon)
                obtain ⟨rfl, rfl⟩ := this
                exact Option.some.inj (hx.symm.trans hy)
        | _ => simp [termEq] at h
      | absolute v tr hv =>
        cases hb with
        | absolute v' tr' hv' =>
          obtain ⟨b, e1, h⟩ := bind_ok h
          cases b with
          | false => cases h
          | true =>
            have : tr = tr' := by simpa using ok_inj h
            subst this
            obtain ⟨u, hu, rfl⟩ := (eval_absolute ..).mp hx
            obtain ⟨w, hw, rfl⟩ := (eval_absolute ..).mp hy
            rw [ihq d v v' hv hv' e1 f _ u w hu hw]
        | _ => simp [termEq] at h
      | negative v tr hv =>
        cases hb with
        | negative v' tr' hv' =>
          obtain ⟨b, e1, h⟩ := bind_ok h
          cases b with
          | false => cases h
          | true =>
            have : tr = tr' := by simpa using ok_inj h
            subst this
            have := ihq d v v' hv hv' e1 f _ _ _ ((eval_negative ..).mp hx) ((eval_negative ..).mp hy)
            simpa using this
        | _ => simp [termEq] at h
      | sum l tr hl =>
        cases hb with
        | sum l' tr' hl' =>
          have h : (if l.length ≠ l'.length then .ok false
            else allM (fun p : Term α K × Term α K => termEq n p.1 p.2) (l.zip l') >>= fun b =>
              if b then .ok (decide (tr = tr')) else .ok false) = (.ok true : Py Bool) := h
          by_cases hlen : l.length ≠ l'.length
          · rw [if_pos hlen] at h
            cases h
          · rw [if_neg hlen] at h
            obtain ⟨b, e1, h⟩ := bind_ok h
            cases b with
            | false => cases h
            | true =>
              have : tr = tr' := by simpa using ok_inj h
              subst this
              obtain ⟨xs, h1, rfl⟩ := (eval_sum ..).mp hx
              obtain ⟨ys, h2, rfl⟩ := (eval_sum ..).mp hy
              have e2 := allM_true e1
              rw [forall2_zip_eq (Q := fun a b => Plain d a ∧ Plain d b ∧ termEq n a b = .ok true)
                (fun a b hq x y hx hy => ihq d a b hq.1 hq.2.1 hq.2.2 f _ x y hx hy) (not_not.mp hlen)
                (fun p hp => ⟨hl _ (List.of_mem_zip hp).1, hl' _ (List.of_mem_zip hp).2, e2 p hp⟩) h1 h2]
        | _ => simp [termEq] at h
      | difference m s hm hs =>
        cases hb with
        | difference m' s' hm' hs' =>
          obtain ⟨b, e1, h⟩ := bind_ok h
          cases b with
          | false => cases h
          | true =>
            obtain ⟨b, e2, h⟩ := bind_ok h
            cases b with
            | false => cases h
            | true =>
              obtain ⟨u, v, h1, h2, rfl⟩ := (eval_difference ..).mp hx
              obtain ⟨u', v', h1', h2', rfl⟩ := (eval_difference ..).mp hy
              rw [ihq d m m' hm hm' e1 f _ u u' h1 h1', ihq d s s' hs hs' e2 f _ v v' h2 h2']
        | _ => simp [termEq] at h
      | product l tr hl =>
        cases hb with
        | product l' tr' hl' =>
          have h : (if l.length ≠ l'.length then .ok false
            else allM (fun p : Term α K × Term α K => termEq n p.1 p.2) (l.zip l') >>= fun b =>
              if b then .ok (decide (tr = tr')) else .ok false) = (.ok true : Py Bool) := h
          by_cases hlen : l.length ≠ l'.length
          · rw [if_pos hlen] at h
            cases h
          · rw [if_neg hlen] at h
            obtain ⟨b, e1, h⟩ := bind_ok h
            cases b with
            | false => cases h
            | true =>
              have : tr = tr' := by simpa using ok_inj h
              subst this
              have hlen' := not_not.mp hlen
              by_cases h0 : l = []
              · subst h0
                have h0' : l' = [] := by simpa using hlen'.symm
                subst h0'
                exact Option.some.inj (hx.symm.trans hy)
              · have h0' : l' ≠ [] := by
                  rintro rfl
                  exact h0 (by simpa using hlen')
                obtain ⟨xs, h1, rfl⟩ := (eval_product _ _ _ _ h0 _).mp hx
                obtain ⟨ys, h2, rfl⟩ := (eval_product _ _ _ _ h0' _).mp hy
                have e2 := allM_true e1
                rw [forall2_zip_eq (Q := fun a b => Plain d a ∧ Plain d b ∧ termEq n a b = .ok true)
                  (fun a b hq x y hx hy => ihq d a b hq.1 hq.2.1 hq.2.2 f _ x y hx hy) hlen'
                  (fun p hp => ⟨hl _ (List.of_mem_zip hp).1, hl' _ (List.of_mem_zip hp).2, e2 p hp⟩) h1 h2]
        | _ => simp [termEq] at h
      | quotient m s tr hm hs =>
        cases hb with
        | quotient m' s' tr' hm' hs' =>
          obtain ⟨b, e1, h⟩ := bind_ok h
          cases b with
          | false => cases h
          | true =>
            obtain ⟨b, e2, h⟩ := bind_ok h
            cases b with
            | false => cases h
            | true =>
              have : tr = tr' := by simpa using ok_inj h
              subst this
              obtain ⟨u, v, h1, h2, _, rfl⟩ := (eval_quotient ..).mp hx
              obtain ⟨u', v', h1', h2', _, rfl⟩ := (eval_quotient ..).mp hy
              rw [ihq d m m' hm hm' e1 f _ u u' h1 h1', ihq d s s' hs hs' e2 f _ v v' h2 h2']
        | _ => simp [termEq] at h

end Filter
end Verif
