import Verif.SpectrogramMixed
import Verif.SpectrogramProps

/-
Properties C73 and C74: arithmetic of spectrograms with signals and spectrums.
-/

namespace Verif
namespace Spectrogram

open Cube

variable {α R : Type}

/-! ### Views -/

theorem upd_unique {A C D : Cube α} {P Q : Nat → Nat → Nat → Prop} {v w : Nat → Nat → Nat → α} (h : Upd A C P v)
    (g : Upd A D Q w) (hP : ∀ i j k, P i j k ↔ Q i j k) (hv : ∀ i j k, P i j k → v i j k = w i j k) : C = D := by
  have e : C.get = D.get := by
    funext i j k
    by_cases p : P i j k
    · rw [h.inside i j k p, g.inside i j k ((hP i j k).mp p), hv i j k p]
    · rw [h.outside i j k p, g.outside i j k (fun q => p ((hP i j k).mpr q))]
  have e0 := h.e0.trans g.e0.symm
  have e1 := h.e1.trans g.e1.symm
  have e2 := h.e2.trans g.e2.symm
  cases C; cases D
  simp only at e e0 e1 e2
  subst e e0 e1 e2
  rfl

theorem ufunc2_error {β γ : Type} {f : α → β → γ} {A : Cube α} {B : Cube β} {out : Cube γ} {r s t : PySlice}
    (h : ¬ (A.Fits (r.count out.d0) (s.count out.d1) (t.count out.d2) ∧
      B.Fits (r.count out.d0) (s.count out.d1) (t.count out.d2))) :
    ufunc2 f A B out r s t = .error .valueError := by
  unfold ufunc2
  by_cases hA : A.Fits (r.count out.d0) (s.count out.d1) (t.count out.d2)
  · rw [broadcastTo_ok hA, broadcastTo_error (fun hB => h ⟨hA, hB⟩)]
  · rw [broadcastTo_error hA]

theorem assign_error {A S : Cube α} {r s t : PySlice}
    (h : ¬ S.Fits (r.count A.d0) (s.count A.d1) (t.count A.d2)) : A.assign r s t S = .error .valueError := by
  unfold assign
  rw [broadcastTo_error h]

/-- a two-dimensional array, that is repeated for each frequency or for each time -/
def Axes.lift (tr : Axes) (B : Mat α) (F T : Nat) : Cube α :=
  match tr with
  | .signal => ⟨B.rows, F, B.cols, fun c _ t => B.get c t⟩
  | .spectrum => ⟨B.rows, B.cols, T, fun c k _ => B.get c k⟩

theorem write_signal_upd {out v : Cube α} {P : Nat → Nat → Nat → Prop} {w : Nat → Nat → Nat → α}
    (h : Upd out.transpose102 v P w) : Upd out v.transpose102 (fun i j k => P j i k) (fun i j k => w j i k) :=
  ⟨h.e1, h.e0, h.e2, fun i j k p => h.inside j i k p, fun i j k p => h.outside j i k p⟩

theorem write_spectrum_upd {out v : Cube α} {P : Nat → Nat → Nat → Prop} {w : Nat → Nat → Nat → α}
    (h : Upd out.transpose201 v P w) : Upd out v.transpose120 (fun i j k => P k i j) (fun i j k => w k i j) :=
  ⟨h.e1, h.e2, h.e0, fun i j k p => h.inside k i j p, fun i j k p => h.outside k i j p⟩

theorem slice_bounds {s : PySlice} {n : Nat} : s.hi n - s.lo n = s.count n := rfl

/-- writing to the view for signals -/
theorem write_signal_ufunc2 (f : α → α → α) (A B out : Cube α) (r t : PySlice) :
    Axes.signal.write out (fun v => ufunc2 f A B v .all r t) =
      ufunc2 f A.transpose102 B.transpose102 out r .all t := by
  unfold Axes.write
  by_cases h : A.Fits out.d1 (r.count out.d0) (t.count out.d2) ∧ B.Fits out.d1 (r.count out.d0) (t.count out.d2)
  · obtain ⟨⟨a0, a1, a2⟩, b0, b1, b2⟩ := h
    obtain ⟨C, hC, u⟩ := ufunc2_ok (f := f) (A := A) (B := B) (out := out.transpose102) (r := .all) (s := r) (t := t)
      0 out.d1 (r.lo out.d0) (r.hi out.d0) (t.lo out.d2) (t.hi out.d2) ⟨rfl, rfl⟩ ⟨rfl, rfl⟩ ⟨rfl, rfl⟩
      ⟨a0, a1, a2⟩ ⟨b0, b1, b2⟩
    obtain ⟨D, hD, w⟩ := ufunc2_ok (f := f) (A := A.transpose102) (B := B.transpose102) (out := out) (r := r) (s := .all)
      (t := t) (r.lo out.d0) (r.hi out.d0) 0 out.d1 (t.lo out.d2) (t.hi out.d2) ⟨rfl, rfl⟩ ⟨rfl, rfl⟩ ⟨rfl, rfl⟩
      ⟨a1, a0, a2⟩ ⟨b1, b0, b2⟩
    rw [hD]
    show (ufunc2 f A B out.transpose102 .all r t >>= fun v => pure (v.transpose102)) = _
    rw [hC]
    show Except.ok C.transpose102 = _
    rw [upd_unique (write_signal_upd u) w]
    · intro i j k
      unfold Box
      constructor
      · rintro ⟨x, y, z⟩; exact ⟨y, x, z⟩
      · rintro ⟨x, y, z⟩; exact ⟨y, x, z⟩
    · intro i j k _
      rfl
  · show (ufunc2 f A B out.transpose102 .all r t >>= fun v => pure (v.transpose102)) = _
    rw [ufunc2_error (by exact h), ufunc2_error]
    · rfl
    · rintro ⟨⟨a0, a1, a2⟩, b0, b1, b2⟩
      exact h ⟨⟨a1, a0, a2⟩, b1, b0, b2⟩

/-- writing to the view for spectrums -/
theorem write_spectrum_ufunc2 (f : α → α → α) (A B out : Cube α) (r : PySlice) :
    Axes.spectrum.write out (fun v => ufunc2 f A B v .all r .all) =
      ufunc2 f A.transpose120 B.transpose120 out r .all .all := by
  unfold Axes.write
  by_cases h : A.Fits out.d2 (r.count out.d0) out.d1 ∧ B.Fits out.d2 (r.count out.d0) out.d1
  · obtain ⟨⟨a0, a1, a2⟩, b0, b1, b2⟩ := h
    obtain ⟨C, hC, u⟩ := ufunc2_ok (f := f) (A := A) (B := B) (out := out.transpose201) (r := .all) (s := r) (t := .all)
      0 out.d2 (r.lo out.d0) (r.hi out.d0) 0 out.d1 ⟨rfl, rfl⟩ ⟨rfl, rfl⟩ ⟨rfl, rfl⟩
      ⟨a0, a1, a2⟩ ⟨b0, b1, b2⟩
    obtain ⟨D, hD, w⟩ := ufunc2_ok (f := f) (A := A.transpose120) (B := B.transpose120) (out := out) (r := r) (s := .all)
      (t := .all) (r.lo out.d0) (r.hi out.d0) 0 out.d1 0 out.d2 ⟨rfl, rfl⟩ ⟨rfl, rfl⟩ ⟨rfl, rfl⟩
      ⟨a1, a2, a0⟩ ⟨b1, b2, b0⟩
    rw [hD]
    show (ufunc2 f A B out.transpose201 .all r .all >>= fun v => pure (v.transpose120)) = _
    rw [hC]
    show Except.ok C.transpose120 = _
    rw [upd_unique (write_spectrum_upd u) w]
    · intro i j k
      unfold Box
      constructor
      · rintro ⟨x, y, z⟩; exact ⟨y, z, x⟩
      · rintro ⟨x, y, z⟩; exact ⟨z, x, y⟩
    · intro i j k _
      rfl
  · show (ufunc2 f A B out.transpose201 .all r .all >>= fun v => pure (v.transpose120)) = _
    rw [ufunc2_error (by exact h), ufunc2_error]
    · rfl
    · rintro ⟨⟨a0, a1, a2⟩, b0, b1, b2⟩
      exact h ⟨⟨a2, a0, a1⟩, b2, b0, b1⟩

theorem write_signal_assign (S out : Cube α) (r t : PySlice) :
    Axes.signal.write out (fun v => v.assign .all r t S) = out.assign r .all t S.transpose102 := by
  unfold Axes.write
  by_cases h : S.Fits out.d1 (r.count out.d0) (t.count out.d2)
  · obtain ⟨a0, a1, a2⟩ := h
    obtain ⟨C, hC, u⟩ := assign_ok (S := S) (A := out.transpose102) (r := .all) (s := r) (t := t)
      0 out.d1 (r.lo out.d0) (r.hi out.d0) (t.lo out.d2) (t.hi out.d2) ⟨rfl, rfl⟩ ⟨rfl, rfl⟩ ⟨rfl, rfl⟩
      ⟨a0, a1, a2⟩
    obtain ⟨D, hD, w⟩ := assign_ok (S := S.transpose102) (A := out) (r := r) (s := .all)
      (t := t) (r.lo out.d0) (r.hi out.d0) 0 out.d1 (t.lo out.d2) (t.hi out.d2) ⟨rfl, rfl⟩ ⟨rfl, rfl⟩ ⟨rfl, rfl⟩
      ⟨a1, a0, a2⟩
    rw [hD]
    show (out.transpose102.assign .all r t S >>= fun v => pure (v.transpose102)) = _
    rw [hC]
    show Except.ok C.transpose102 = _
    rw [upd_unique (write_signal_upd u) w]
    · intro i j k
      unfold Box
      constructor
      · rintro ⟨x, y, z⟩; exact ⟨y, x, z⟩
      · rintro ⟨x, y, z⟩; exact ⟨y, x, z⟩
    · intro i j k _
      rfl
  · show (out.transpose102.assign .all r t S >>= fun v => pure (v.transpose102)) = _
    rw [assign_error (by exact h), assign_error]
    · rfl
    · rintro ⟨a0, a1, a2⟩
      exact h ⟨a1, a0, a2⟩

theorem write_spectrum_assign (S out : Cube α) (r : PySlice) :
    Axes.spectrum.write out (fun v => v.assign .all r .all S) = out.assign r .all .all S.transpose120 := by
  unfold Axes.write
  by_cases h : S.Fits out.d2 (r.count out.d0) out.d1
  · obtain ⟨a0, a1, a2⟩ := h
    obtain ⟨C, hC, u⟩ := assign_ok (S := S) (A := out.transpose201) (r := .all) (s := r) (t := .all)
      0 out.d2 (r.lo out.d0) (r.hi out.d0) 0 out.d1 ⟨rfl, rfl⟩ ⟨rfl, rfl⟩ ⟨rfl, rfl⟩
      ⟨a0, a1, a2⟩
    obtain ⟨D, hD, w⟩ := assign_ok (S := S.transpose120) (A := out) (r := r) (s := .all)
      (t := .all) (r.lo out.d0) (r.hi out.d0) 0 out.d1 0 out.d2 ⟨rfl, rfl⟩ ⟨rfl, rfl⟩ ⟨rfl, rfl⟩
      ⟨a1, a2, a0⟩
    rw [hD]
    show (out.transpose201.assign .all r .all S >>= fun v => pure (v.transpose120)) = _
    rw [hC]
    show Except.ok C.transpose120 = _
    rw [upd_unique (write_spectrum_upd u) w]
    · intro i j k
      unfold Box
      constructor
      · rintro ⟨x, y, z⟩; exact ⟨y, z, x⟩
      · rintro ⟨x, y, z⟩; exact ⟨z, x, y⟩
    · intro i j k _
      rfl
  · show (out.transpose201.assign .all r .all S >>= fun v => pure (v.transpose120)) = _
    rw [assign_error (by exact h), assign_error]
    · rfl
    · rintro ⟨a0, a1, a2⟩
      exact h ⟨a2, a0, a1⟩

/-! ### Repeated arrays -/

/-- the array, to which `B` is broadcast, has the same elements as the repeated array -/
theorem lift_signal_broadcast (B : Mat α) (n0 F T n2 : Nat) :
    (Cube.ofMat B).transpose102.broadcastTo n0 F n2 = (Axes.signal.lift B F T).broadcastTo n0 F n2 := by
  by_cases h : (B.rows = n0 ∨ B.rows = 1) ∧ (B.cols = n2 ∨ B.cols = 1)
  · rw [broadcastTo_ok (S := (Cube.ofMat B).transpose102) ⟨h.1, Or.inr rfl, h.2⟩,
      broadcastTo_ok (S := Axes.signal.lift B F T) (n1 := F) ⟨h.1, Or.inl rfl, h.2⟩]
    rfl
  · rw [broadcastTo_error, broadcastTo_error]
    · exact fun g => h ⟨g.1, g.2.2⟩
    · exact fun g => h ⟨g.1, g.2.2⟩

theorem lift_spectrum_broadcast (B : Mat α) (n0 F T n1 : Nat) :
    (Cube.ofMat B).transpose120.broadcastTo n0 n1 T = (Axes.spectrum.lift B F T).broadcastTo n0 n1 T := by
  by_cases h : (B.rows = n0 ∨ B.rows = 1) ∧ (B.cols = n1 ∨ B.cols = 1)
  · rw [broadcastTo_ok (S := (Cube.ofMat B).transpose120) ⟨h.1, h.2, Or.inr rfl⟩,
      broadcastTo_ok (S := Axes.spectrum.lift B F T) (n2 := T) ⟨h.1, h.2, Or.inl rfl⟩]
    rfl
  · rw [broadcastTo_error, broadcastTo_error]
    · exact fun g => h ⟨g.1, g.2.1⟩
    · exact fun g => h ⟨g.1, g.2.1⟩

theorem ufunc2_congr {f : α → α → α} {A A' B B' out : Cube α} {r s t : PySlice}
    (hA : A.broadcastTo (r.count out.d0) (s.count out.d1) (t.count out.d2) =
      A'.broadcastTo (r.count out.d0) (s.count out.d1) (t.count out.d2))
    (hB : B.broadcastTo (r.count out.d0) (s.count out.d1) (t.count out.d2) =
      B'.broadcastTo (r.count out.d0) (s.count out.d1) (t.count out.d2)) :
    ufunc2 f A B out r s t = ufunc2 f A' B' out r s t := by
  unfold ufunc2
  rw [hA, hB]

theorem assign_congr {A S S' : Cube α} {r s t : PySlice}
    (h : S.broadcastTo (r.count A.d0) (s.count A.d1) (t.count A.d2) =
      S'.broadcastTo (r.count A.d0) (s.count A.d1) (t.count A.d2)) : A.assign r s t S = A.assign r s t S' := by
  unfold assign
  rw [h]

/-- an operation with the view, where the first operand has the same axes -/
theorem write_left (tr : Axes) (f : α → α → α) (A out : Cube α) (B : Mat α) (r : PySlice) :
    tr.write out (fun v => ufunc2 f (tr.view A) (.ofMat B) v .all r .all) =
      ufunc2 f A (tr.lift B out.d1 out.d2) out r .all .all := by
  cases tr with
  | signal =>
    rw [write_signal_ufunc2]
    exact ufunc2_congr rfl (lift_signal_broadcast B _ _ _ _)
  | spectrum =>
    rw [write_spectrum_ufunc2]
    exact ufunc2_congr rfl (lift_spectrum_broadcast B _ _ _ _)

/-- the same for the second operand -/
theorem write_right (tr : Axes) (f : α → α → α) (A out : Cube α) (B : Mat α) (r : PySlice) :
    tr.write out (fun v => ufunc2 f (.ofMat B) (tr.view A) v .all r .all) =
      ufunc2 f (tr.lift B out.d1 out.d2) A out r .all .all := by
  cases tr with
  | signal =>
    rw [write_signal_ufunc2]
    exact ufunc2_congr (lift_signal_broadcast B _ _ _ _) rfl
  | spectrum =>
    rw [write_spectrum_ufunc2]
    exact ufunc2_congr (lift_spectrum_broadcast B _ _ _ _) rfl

theorem scalar_transposed (p : α) : (Cube.scalar p).transpose102 = .scalar p ∧ (Cube.scalar p).transpose120 = .scalar p :=
  ⟨rfl, rfl⟩

theorem write_pivot (tr : Axes) (f : α → α → α) (p : α) (out : Cube α) (B : Mat α) (r : PySlice) :
    tr.write out (fun v => ufunc2 f (.scalar p) (.ofMat B) v .all r .all) =
      ufunc2 f (.scalar p) (tr.lift B out.d1 out.d2) out r .all .all := by
  cases tr with
  | signal =>
    rw [write_signal_ufunc2]
    exact ufunc2_congr rfl (lift_signal_broadcast B _ _ _ _)
  | spectrum =>
    rw [write_spectrum_ufunc2]
    exact ufunc2_congr rfl (lift_spectrum_broadcast B _ _ _ _)

theorem write_pivot_right (tr : Axes) (f : α → α → α) (p : α) (out : Cube α) (B : Mat α) (r : PySlice) :
    tr.write out (fun v => ufunc2 f (.ofMat B) (.scalar p) v .all r .all) =
      ufunc2 f (tr.lift B out.d1 out.d2) (.scalar p) out r .all .all := by
  cases tr with
  | signal =>
    rw [write_signal_ufunc2]
    exact ufunc2_congr (lift_signal_broadcast B _ _ _ _) rfl
  | spectrum =>
    rw [write_spectrum_ufunc2]
    exact ufunc2_congr (lift_spectrum_broadcast B _ _ _ _) rfl

theorem write_assign (tr : Axes) (out : Cube α) (B : Mat α) (r : PySlice) :
    tr.write out (fun v => v.assign .all r .all (.ofMat B)) = out.assign r .all .all (tr.lift B out.d1 out.d2) := by
  cases tr with
  | signal =>
    rw [write_signal_assign]
    exact assign_congr (lift_signal_broadcast B _ _ _ _)
  | spectrum =>
    rw [write_spectrum_assign]
    exact assign_congr (lift_spectrum_broadcast B _ _ _ _)

theorem lift_row (tr : Axes) (B : Mat α) (c F T : Nat) : tr.lift (B.row c) F T = (tr.lift B F T).row c := by
  cases tr <;> rfl

theorem lift_slice (tr : Axes) (B : Mat α) (r : PySlice) (F T : Nat) :
    tr.lift (B.slice r .all) F T = (tr.lift B F T).slice r .all .all := by
  cases tr <;> simp [Axes.lift, Mat.slice, Cube.slice, PySlice.count, PySlice.lo_all, PySlice.hi_all]

/-! ### Loops over the rows -/

theorem forRows_ok (n : Nat) (op : Nat → Cube α → Py (Cube α)) (out : Cube α) (P : Nat → Nat → Prop)
    (v : Nat → Nat → Nat → α)
    (hop : ∀ M c, M.d0 = out.d0 → M.d1 = out.d1 → M.d2 = out.d2 → c < n →
      ∃ C, op c M = .ok C ∧ Upd M C (fun i j k => i = c ∧ P j k) v) :
    ∃ C, forRows n op out = .ok C ∧ Upd out C (fun i j k => i < n ∧ P j k) v := by
  unfold forRows
  induction n with
  | zero => exact ⟨out, rfl, rfl, rfl, rfl, by intro i j k h; omega, by intros; rfl⟩
  | succ n ih =>
    obtain ⟨C, h1, u⟩ := ih (fun M c e0 e1 e2 h => hop M c e0 e1 e2 (by omega))
    obtain ⟨D, g1, w⟩ := hop C n u.e0 u.e1 u.e2 (by omega)
    refine ⟨D, ?_, w.e0.trans u.e0, w.e1.trans u.e1, w.e2.trans u.e2, ?_, ?_⟩
    · rw [List.range_succ, List.foldlM_append, h1]
      simp only [bind, Except.bind, List.foldlM_cons, List.foldlM_nil, g1]
      rfl
    · rintro i j k ⟨h, hP⟩
      by_cases hi : i = n
      · exact w.inside i j k ⟨hi, hP⟩
      · rw [w.outside i j k (fun h' => hi h'.1)]
        exact u.inside i j k ⟨by omega, hP⟩
    · intro i j k h
      rw [w.outside i j k (fun h' => h ⟨by omega, h'.2⟩)]
      exact u.outside i j k (fun h' => h ⟨by omega, h'.2⟩)

/-- A loop over the rows is the operation with the whole arrays. -/
theorem forRows_ufunc2 (f : α → α → α) (A B : Nat → Cube α) (A' B' out : Cube α) (t : PySlice) (n : Nat)
    (hn : out.d0 = n)
    (hA : ∀ c, c < n → (A c).Fits 1 out.d1 (t.count out.d2)) (hB : ∀ c, c < n → (B c).Fits 1 out.d1 (t.count out.d2))
    (hA' : A'.Fits n out.d1 (t.count out.d2)) (hB' : B'.Fits n out.d1 (t.count out.d2))
    (eA : ∀ c j k, c < n → (A c).get (ix (A c).d0 0) (ix (A c).d1 j) (ix (A c).d2 k) =
      A'.get (ix A'.d0 c) (ix A'.d1 j) (ix A'.d2 k))
    (eB : ∀ c j k, c < n → (B c).get (ix (B c).d0 0) (ix (B c).d1 j) (ix (B c).d2 k) =
      B'.get (ix B'.d0 c) (ix B'.d1 j) (ix B'.d2 k)) :
    forRows n (fun c out => ufunc2 f (A c) (B c) out (.range c (c + 1)) .all t) out =
      ufunc2 f A' B' out .all .all t := by
  obtain ⟨D, hD, w⟩ := ufunc2_ok (f := f) (A := A') (B := B') (out := out) (r := .all) (s := .all) (t := t)
    0 n 0 out.d1 (t.lo out.d2) (t.hi out.d2) ⟨rfl, hn⟩ ⟨rfl, rfl⟩ ⟨rfl, rfl⟩ hA' hB'
  obtain ⟨C, hC, u⟩ := forRows_ok n (fun c out => ufunc2 f (A c) (B c) out (.range c (c + 1)) .all t) out
    (fun j k => j < out.d1 ∧ t.lo out.d2 ≤ k ∧ k < t.hi out.d2)
    (fun i j k => f (A'.get (ix A'.d0 i) (ix A'.d1 j) (ix A'.d2 (k - t.lo out.d2)))
      (B'.get (ix B'.d0 i) (ix B'.d1 j) (ix B'.d2 (k - t.lo out.d2)))) (by
      intro M c e0 e1 e2 hc
      obtain ⟨E, hE, x⟩ := ufunc2_ok (f := f) (A := A c) (B := B c) (out := M) (r := .range c (c + 1)) (s := .all) (t := t)
        c (c + 1) 0 out.d1 (t.lo out.d2) (t.hi out.d2) (lo_range_one (by omega)) ⟨rfl, e1⟩ (by rw [e2]; exact ⟨rfl, rfl⟩)
        (by rw [Nat.add_sub_cancel_left]; exact hA c hc) (by rw [Nat.add_sub_cancel_left]; exact hB c hc)
      refine ⟨E, hE, x.e0, x.e1, x.e2, ?_, ?_⟩
      · rintro i j k ⟨hi, hj, hk⟩
        rw [x.inside i j k ⟨by omega, by omega, hk⟩, hi, Nat.sub_self, Nat.sub_zero, eA c _ _ hc, eB c _ _ hc]
      · intro i j k h
        refine x.outside i j k (fun h' => h ?_)
        obtain ⟨p1, p2, p3⟩ := h'
        exact ⟨by omega, p2.2, p3⟩)
  rw [hC, hD, upd_unique u w]
  · intro i j k
    unfold Box
    constructor
    · rintro ⟨x, y, z⟩; exact ⟨⟨by omega, x⟩, ⟨by omega, y⟩, z⟩
    · rintro ⟨x, y, z⟩; exact ⟨x.2, y.2, z⟩
  · intro i j k _
    simp only [Nat.sub_zero]

/-- The same for the view `out.transpose((0, 2, 1))`. -/
theorem ufunc2_transpose021 (f : α → α → α) (A B out : Cube α) :
    (ufunc2 f A B out.transpose021 .all .all .all >>= fun v => pure v.transpose021) =
      ufunc2 f A.transpose021 B.transpose021 out .all .all .all := by
  by_cases h : A.Fits out.d0 out.d2 out.d1 ∧ B.Fits out.d0 out.d2 out.d1
  · obtain ⟨⟨a0, a1, a2⟩, b0, b1, b2⟩ := h
    obtain ⟨C, hC, u⟩ := ufunc2_ok (f := f) (A := A) (B := B) (out := out.transpose021) (r := .all) (s := .all) (t := .all)
      0 out.d0 0 out.d2 0 out.d1 ⟨rfl, rfl⟩ ⟨rfl, rfl⟩ ⟨rfl, rfl⟩ ⟨a0, a1, a2⟩ ⟨b0, b1, b2⟩
    obtain ⟨D, hD, w⟩ := ufunc2_ok (f := f) (A := A.transpose021) (B := B.transpose021) (out := out) (r := .all) (s := .all)
      (t := .all) 0 out.d0 0 out.d1 0 out.d2 ⟨rfl, rfl⟩ ⟨rfl, rfl⟩ ⟨rfl, rfl⟩ ⟨a0, a2, a1⟩ ⟨b0, b2, b1⟩
    rw [hD, hC]
    show Except.ok C.transpose021 = _
    have u' : Upd out C.transpose021 (fun i j k => Box 0 out.d0 0 out.d2 0 out.d1 i k j)
        (fun i j k => f (A.get (ix A.d0 (i - 0)) (ix A.d1 (k - 0)) (ix A.d2 (j - 0)))
          (B.get (ix B.d0 (i - 0)) (ix B.d1 (k - 0)) (ix B.d2 (j - 0)))) :=
      ⟨u.e0, u.e2, u.e1, fun i j k p => u.inside i k j p, fun i j k p => u.outside i k j p⟩
    rw [upd_unique u' w]
    · intro i j k
      unfold Box
      constructor
      · rintro ⟨x, y, z⟩; exact ⟨x, z, y⟩
      · rintro ⟨x, y, z⟩; exact ⟨x, z, y⟩
    · intro i j k _
      rfl
  · rw [ufunc2_error (by exact h), ufunc2_error]
    · rfl
    · rintro ⟨⟨a0, a1, a2⟩, b0, b1, b2⟩
      exact h ⟨⟨a0, a2, a1⟩, b0, b2, b1⟩

/-! ### Specification -/

/-- the sample of channel `c` at time `t`, where the channel of a one-channel signal stands in for every channel -/
def signalSample (o : Signal α R) (c : Nat) (t : Int) : Option α :=
  if (o.count = 1 ∨ c < o.count) ∧ o.offset ≤ t ∧ t < o.offset + o.length then
    some (o.channels.get (if o.count = 1 then 0 else c) (t - o.offset).toNat)
  else none

/-- the value of channel `c` for the frequency bin `k`, where the channel of a one-channel spectrum stands in for every
channel -/
def spectrumSample (o : Spectrum α R) (c k : Nat) : Option α :=
  if (o.count = 1 ∨ c < o.count) ∧ k < o.length then some (o.channels.get (if o.count = 1 then 0 else c) k) else none

/-- The spectrogram, in which a signal is repeated for every frequency of the spectrogram `s`. -/
def ofSignal (s : Spectrogram α R) (o : Signal α R) : Spectrogram α R :=
  ⟨Axes.signal.lift o.channels s.freqs s.length, s.resolution, s.rate, o.offset, o.labels⟩

/-- The spectrogram, in which a spectrum is repeated for every time of the spectrogram `s`. -/
def ofSpectrum (s : Spectrogram α R) (o : Spectrum α R) : Spectrogram α R :=
  ⟨Axes.spectrum.lift o.channels s.freqs s.length, s.resolution, s.rate, s.offset, o.labels⟩

theorem bcast_ofSignal (s : Spectrogram α R) (o : Signal α R) (c k : Nat) (t : Int) (hk : k < s.freqs) :
    (ofSignal s o).bcast c k t = signalSample o c t := by
  by_cases h : (o.count = 1 ∨ c < o.count) ∧ o.offset ≤ t ∧ t < o.offset + o.length
  · exact (if_pos ⟨h.1, hk, h.2⟩).trans (if_pos h).symm
  · exact (if_neg (fun g => h ⟨g.1, g.2.2⟩)).trans (if_neg h).symm

theorem bcast_ofSpectrum (s : Spectrogram α R) (o : Spectrum α R) (c k : Nat) (t : Int) (ht : s.offset ≤ t)
    (ht' : t < s.offset + s.length) : (ofSpectrum s o).bcast c k t = spectrumSample o c k := by
  by_cases h : (o.count = 1 ∨ c < o.count) ∧ k < o.length
  · exact (if_pos ⟨h.1, h.2, ht, ht'⟩).trans (if_pos h).symm
  · exact (if_neg (fun g => h ⟨g.1, g.2.1⟩)).trans (if_neg h).symm

/-! ### Views with several operations -/

theorem bind_congr_ok {β γ : Type} {x : Py β} {f g : β → Py γ} (h : ∀ v, x = .ok v → f v = g v) :
    (x >>= f) = (x >>= g) := by
  cases x with
  | error e => rfl
  | ok v => exact h v rfl

theorem write_bind (tr : Axes) (out : Cube α) (g h : Cube α → Py (Cube α)) :
    tr.write out (fun v => g v >>= h) = tr.write out g >>= fun c => tr.write c h := by
  unfold Axes.write
  cases e : g (tr.view out) with
  | error x => simp [e, bind, Except.bind]
  | ok v =>
    have r : tr.view (tr.restore v) = v := by cases tr <;> rfl
    simp [e, bind, Except.bind, pure, Except.pure, r]

theorem write_pure (tr : Axes) (out : Cube α) : tr.write out pure = .ok out := by
  cases tr <;> rfl

theorem write_foldlM (tr : Axes) (l : List Nat) (g : Cube α → Nat → Py (Cube α)) (out : Cube α) :
    tr.write out (fun v => l.foldlM g v) = l.foldlM (fun c x => tr.write c (fun v => g v x)) out := by
  induction l generalizing out with
  | nil => exact write_pure tr out
  | cons x l ih =>
    simp only [List.foldlM_cons]
    rw [write_bind]
    exact bind_congr_ok fun v _ => ih v

theorem assign_shape {A S C : Cube α} {r s t : PySlice} (h : A.assign r s t S = .ok C) :
    C.d0 = A.d0 ∧ C.d1 = A.d1 ∧ C.d2 = A.d2 := by
  unfold assign at h
  split at h
  · cases h
  · cases h; exact ⟨rfl, rfl, rfl⟩

theorem ufunc2_shape {f : α → α → α} {A B out C : Cube α} {r s t : PySlice} (h : ufunc2 f A B out r s t = .ok C) :
    C.d0 = out.d0 ∧ C.d1 = out.d1 ∧ C.d2 = out.d2 := by
  unfold ufunc2 at h
  split at h
  · cases h
  · cases h
  · exact assign_shape h

theorem foldlM_congr_inv (I : Cube α → Prop) (g g' : Cube α → Nat → Py (Cube α)) (h : ∀ M c, I M → g M c = g' M c)
    (hI : ∀ M c M', I M → g M c = .ok M' → I M') (l : List Nat) (M : Cube α) (hM : I M) :
    l.foldlM g M = l.foldlM g' M := by
  induction l generalizing M with
  | nil => rfl
  | cons x l ih =>
    simp only [List.foldlM_cons]
    rw [← h M x hM]
    exact bind_congr_ok fun v hv => ih v (hI M x v hM hv)

theorem foldlM_inv (I : Cube α → Prop) (g : Cube α → Nat → Py (Cube α))
    (hI : ∀ M c M', I M → g M c = .ok M' → I M') (l : List Nat) (M C : Cube α) (hM : I M) (h : l.foldlM g M = .ok C) :
    I C := by
  induction l generalizing M with
  | nil => cases h; exact hM
  | cons x l ih =>
    simp only [List.foldlM_cons] at h
    cases e : g M x with
    | error y => rw [e] at h; cases h
    | ok v => rw [e] at h; exact ih v (hI M x v hM e) h

/-- slices with the same bounds -/
theorem assign_slice {A S : Cube α} {r s s' t : PySlice} (h : s.lo A.d1 = s'.lo A.d1) (h' : s.hi A.d1 = s'.hi A.d1) :
    A.assign r s t S = A.assign r s' t S := by
  unfold assign
  simp only [PySlice.count, h, h']

theorem ufunc2_slice {f : α → α → α} {A B out : Cube α} {r s s' t : PySlice} (h : s.lo out.d1 = s'.lo out.d1)
    (h' : s.hi out.d1 = s'.hi out.d1) : ufunc2 f A B out r s t = ufunc2 f A B out r s' t := by
  unfold ufunc2
  simp only [PySlice.count, h, h', assign_slice (t := t) h h']

theorem slice_slice {A : Cube α} {r s s' t : PySlice} (h : s.lo A.d1 = s'.lo A.d1)
    (h' : s.hi A.d1 = s'.hi A.d1) : A.slice r s t = A.slice r s' t := by
  unfold Cube.slice
  simp only [PySlice.count, h, h']

theorem all_bounds (n : Nat) : (PySlice.range 0 n).lo n = PySlice.all.lo n ∧ (PySlice.range 0 n).hi n = PySlice.all.hi n :=
  range_zero (Nat.le_refl n)

theorem copyRows_congr {fs fs' ts : PySlice} {row row' M : Cube α} {F : Nat} (hM : M.d1 = F)
    (h : ∀ (A : Cube α) (c : Nat), A.d1 = F →
      A.assign (.range c (c + 1)) fs ts row = A.assign (.range c (c + 1)) fs' ts row') :
    copyRows fs ts row M = copyRows fs' ts row' M :=
  foldlM_congr_inv (fun A => A.d1 = F) _ _ (fun A c hA => h A c hA)
    (fun _ _ _ hA e => (assign_shape e).2.1.trans hA) _ M hM

theorem copyFirstRow_congr {fs fs' ts : PySlice} {M : Cube α} (h : fs.lo M.d1 = fs'.lo M.d1)
    (h' : fs.hi M.d1 = fs'.hi M.d1) : copyFirstRow fs ts M = copyFirstRow fs' ts M := by
  refine foldlM_congr_inv (fun A => A.d1 = M.d1) _ _ ?_ (fun _ _ _ hA e => (assign_shape e).2.1.trans hA) _ M rfl
  intro A c hA
  rw [slice_slice (s' := fs') (by rw [hA]; exact h) (by rw [hA]; exact h'),
    assign_slice (s' := fs') (by rw [hA]; exact h) (by rw [hA]; exact h')]

theorem write_signal_lift_assign (out : Cube α) (B : Mat α) (r t : PySlice) (T : Nat) :
    Axes.signal.write out (fun v => v.assign .all r t (.ofMat B)) =
      out.assign r .all t (Axes.signal.lift B out.d1 T) := by
  rw [write_signal_assign]
  exact assign_congr (lift_signal_broadcast B _ _ _ _)

theorem copySignalRows_eq (ts : PySlice) (row : Mat α) (M : Cube α) (F T : Nat) (hM : M.d1 = F) :
    Axes.signal.write M (copySignalRows ts row) = copyRows .all ts (Axes.signal.lift row F T) M := by
  unfold copySignalRows
  show Axes.signal.write M (fun v => (List.range' 1 (M.d0 - 1)).foldlM _ v) = _
  rw [write_foldlM]
  refine foldlM_congr_inv (fun A => A.d1 = F) _ _ ?_ ?_ _ M hM
  · intro A c hA
    rw [write_signal_lift_assign _ _ _ _ T, hA]
  · intro A c A' hA e
    rw [write_signal_lift_assign _ _ _ _ T] at e
    exact (assign_shape e).2.1.trans hA

/-- copying of a signal -/
theorem copySignal_eq (start : Int) (s : Spectrogram α R) (o : Signal α R) (M : Cube α) (hM : M.d1 = s.freqs) :
    copySignal start o M = (do
      let channels ← M.assign (.range 0 o.count) .all (.range (o.offset - start) (o.offset - start + o.length))
        (ofSignal s o).channels
      if o.count = 1 then
        copyRows .all (.range (o.offset - start) (o.offset - start + o.length)) ((ofSignal s o).channels.row 0) channels
      else pure channels) := by
  unfold copySignal
  dsimp only
  rw [write_bind, write_signal_lift_assign _ _ _ _ s.length, hM]
  refine bind_congr_ok fun v hv => ?_
  by_cases h : o.count = 1
  · simp only [if_pos h]
    exact copySignalRows_eq _ _ _ s.freqs s.length ((assign_shape hv).2.1.trans hM)
  · simp only [if_neg h]
    exact write_pure _ _

theorem copySelf_eq [Zero α] (mem : Nat → Nat → Nat → α) (s : Spectrogram α R) (o : Signal α R) :
    signalCopySelf mem s o = copySelf mem s (ofSignal s o) := by
  unfold signalCopySelf copySelf
  have e : max s.freqs (ofSignal s o).freqs = s.freqs := Nat.max_self _
  dsimp only
  rw [e]
  refine bind_congr_ok fun v hv => ?_
  have d : v.d1 = s.freqs := (assign_shape hv).2.1
  obtain ⟨b1, b2⟩ := all_bounds s.freqs
  rw [← d] at b1 b2
  rw [← d, ← assign_slice b1 b2]
  refine bind_congr_ok fun w hw => ?_
  have d' : w.d1 = s.freqs := (assign_shape hw).2.1.trans d
  by_cases h : s.count = 1
  · simp only [if_pos h]
    refine copyRows_congr (F := s.freqs) d' ?_
    intro A c hA
    rw [d, ← hA] at b1 b2
    rw [d, ← hA, assign_slice b1 b2]
  · simp only [if_neg h]

theorem copyOther_eq (f : α → α → α) (pivot : Option α) (s : Spectrogram α R) (o : Signal α R) (M : Cube α)
    (hM : M.d1 = s.freqs) : signalCopyOther f pivot s o M = copyOther f pivot s (ofSignal s o) M := by
  have b : ∀ A : Cube α, A.d1 = s.freqs → (PySlice.range 0 s.freqs).lo A.d1 = PySlice.all.lo A.d1 ∧
      (PySlice.range 0 s.freqs).hi A.d1 = PySlice.all.hi A.d1 := by
    intro A hA
    rw [hA]
    exact all_bounds _
  have c1 : (ofSignal s o).count = o.count := rfl
  have c2 : (ofSignal s o).freqs = s.freqs := rfl
  have c3 : (ofSignal s o).length = o.length := rfl
  have c4 : (ofSignal s o).offset = o.offset := rfl
  unfold signalCopyOther copyOther
  dsimp only
  rw [c1, c2, c3, c4]
  cases pivot with
  | none =>
    dsimp only
    rw [copySignal_eq _ s o M hM, assign_slice (b M hM).1 (b M hM).2]
    refine bind_congr_ok fun v hv => ?_
    have d : v.d1 = s.freqs := (assign_shape hv).2.1.trans hM
    by_cases h : o.count = 1
    · simp only [if_pos h]
      refine copyRows_congr (F := s.freqs) d ?_
      intro A c hA
      rw [assign_slice (b A hA).1 (b A hA).2]
    · simp only [if_neg h]
  | some p =>
    dsimp only
    rw [write_signal_ufunc2, ufunc2_slice (b M hM).1 (b M hM).2]
    rw [ufunc2_congr (A := (Cube.scalar p).transpose102) (A' := .scalar p) (B' := (ofSignal s o).channels) rfl (by
      rw [hM]; exact lift_signal_broadcast _ _ _ s.length _)]
    refine bind_congr_ok fun v hv => ?_
    have d : v.d1 = s.freqs := (ufunc2_shape hv).2.1.trans hM
    by_cases h : o.count = 1
    · simp only [if_pos h]
      rw [copyFirstRow_congr (b v d).1 (b v d).2]
    · simp only [if_neg h]

theorem rightCopyOther_eq [Zero α] (mem : Nat → Nat → Nat → α) (s : Spectrogram α R) (o : Signal α R) :
    signalRightCopyOther mem s o = copySelf mem (ofSignal s o) s := by
  have b : ∀ A : Cube α, A.d1 = s.freqs → (PySlice.range 0 s.freqs).lo A.d1 = PySlice.all.lo A.d1 ∧
      (PySlice.range 0 s.freqs).hi A.d1 = PySlice.all.hi A.d1 := by
    intro A hA
    rw [hA]
    exact all_bounds _
  have c1 : (ofSignal s o).count = o.count := rfl
  have c2 : (ofSignal s o).freqs = s.freqs := rfl
  have c3 : (ofSignal s o).length = o.length := rfl
  have c4 : (ofSignal s o).offset = o.offset := rfl
  unfold signalRightCopyOther copySelf
  dsimp only
  rw [c1, c2, c3, c4, Nat.max_self, Nat.max_comm o.count, Int.min_comm o.offset, Int.max_comm (o.offset + _)]
  refine bind_congr_ok fun v hv => ?_
  have d : v.d1 = s.freqs := (assign_shape hv).2.1
  rw [copySignal_eq _ s o v d, assign_slice (b v d).1 (b v d).2]
  refine bind_congr_ok fun w hw => ?_
  have d' : w.d1 = s.freqs := (assign_shape hw).2.1.trans d
  by_cases h : o.count = 1
  · simp only [if_pos h]
    refine copyRows_congr (F := s.freqs) d' ?_
    intro A c hA
    rw [assign_slice (b A hA).1 (b A hA).2]
  · simp only [if_neg h]

theorem rightCopySelf_eq (f : α → α → α) (pivot : Option α) (s : Spectrogram α R) (o : Signal α R) (M : Cube α)
    (hM : M.d1 = s.freqs) : signalRightCopySelf f pivot s o M = copyOther f pivot (ofSignal s o) s M := by
  have b : ∀ A : Cube α, A.d1 = s.freqs → (PySlice.range 0 s.freqs).lo A.d1 = PySlice.all.lo A.d1 ∧
      (PySlice.range 0 s.freqs).hi A.d1 = PySlice.all.hi A.d1 := by
    intro A hA
    rw [hA]
    exact all_bounds _
  have c4 : (ofSignal s o).offset = o.offset := rfl
  unfold signalRightCopySelf copyOther
  dsimp only
  rw [c4, Int.min_comm o.offset]
  cases pivot with
  | none =>
    dsimp only
    rw [assign_slice (b M hM).1 (b M hM).2]
    refine bind_congr_ok fun v hv => ?_
    have d : v.d1 = s.freqs := (assign_shape hv).2.1.trans hM
    by_cases h : s.count = 1
    · simp only [if_pos h]
      refine copyRows_congr (F := s.freqs) d ?_
      intro A c hA
      rw [assign_slice (b A hA).1 (b A hA).2]
    · simp only [if_neg h]
  | some p =>
    dsimp only
    rw [ufunc2_slice (b M hM).1 (b M hM).2]
    refine bind_congr_ok fun v hv => ?_
    have d : v.d1 = s.freqs := (ufunc2_shape hv).2.1.trans hM
    by_cases h : s.count = 1
    · simp only [if_pos h]
      rw [copyFirstRow_congr (b v d).1 (b v d).2]
    · simp only [if_neg h]

/-! ### The overlapping part -/

theorem ufunc2_empty {f : α → α → α} {A B M : Cube α} {r t : PySlice} (h : M.d1 = 0)
    (hA : A.Fits (r.count M.d0) M.d1 (t.count M.d2)) (hB : B.Fits (r.count M.d0) M.d1 (t.count M.d2)) :
    ufunc2 f A B M r .all t = .ok M := by
  obtain ⟨C, hC, u⟩ := ufunc2_ok (f := f) (A := A) (B := B) (out := M) (r := r) (s := .all) (t := t)
    (r.lo M.d0) (r.hi M.d0) 0 M.d1 (t.lo M.d2) (t.hi M.d2) ⟨rfl, rfl⟩ ⟨rfl, rfl⟩ ⟨rfl, rfl⟩ hA hB
  have v : Upd M M (fun _ _ _ => False) M.get := ⟨rfl, rfl, rfl, fun _ _ _ h => h.elim, fun _ _ _ _ => rfl⟩
  rw [hC, upd_unique u v]
  · intro i j k
    unfold Box
    constructor
    · rintro ⟨_, h', _⟩; omega
    · exact fun h => h.elim
  · intro i j k p
    unfold Box at p
    omega

theorem write_signal_left (f : α → α → α) (A M : Cube α) (B : Mat α) (r t : PySlice) (T : Nat) :
    Axes.signal.write M (fun v => ufunc2 f A.transpose102 (.ofMat B) v .all r t) =
      ufunc2 f A (Axes.signal.lift B M.d1 T) M r .all t := by
  rw [write_signal_ufunc2]
  exact ufunc2_congr rfl (lift_signal_broadcast B _ _ _ _)

theorem write_signal_right (f : α → α → α) (A M : Cube α) (B : Mat α) (r t : PySlice) (T : Nat) :
    Axes.signal.write M (fun v => ufunc2 f (.ofMat B) A.transpose102 v .all r t) =
      ufunc2 f (Axes.signal.lift B M.d1 T) A M r .all t := by
  rw [write_signal_ufunc2]
  exact ufunc2_congr (lift_signal_broadcast B _ _ _ _) rfl

theorem lift_signal_slice (B : Mat α) (r t : PySlice) (F T : Nat) :
    Axes.signal.lift (B.slice r t) F T = (Axes.signal.lift B F T).slice r .all t := by
  simp [Axes.lift, Mat.slice, Cube.slice, PySlice.count, PySlice.lo_all, PySlice.hi_all]

theorem overlap_counts (x y : Int) (n m d : Nat) (ba bb : Int) (hba : ba = max x y - min x y)
    (hbb : bb = min (x + n) (y + m) - min x y) (hov : ba < bb) (hd : d = (max (x + n) (y + m) - min x y).toNat) :
    (PySlice.range (ba + min x y - x) (bb + min x y - x)).count n = (PySlice.range ba bb).count d ∧
    (PySlice.range (ba + min x y - y) (bb + min x y - y)).count m = (PySlice.range ba bb).count d := by
  have ss := range_int (n := n) (x := ba + min x y - x) (y := bb + min x y - x) (by omega) (by omega) (by omega)
  have os := range_int (n := m) (x := ba + min x y - y) (y := bb + min x y - y) (by omega) (by omega) (by omega)
  have ms := range_int (n := d) (x := ba) (y := bb) (by omega) (by omega) (by omega)
  unfold PySlice.count
  rw [ss.1, ss.2, os.1, os.2, ms.1, ms.2]
  omega

theorem slice_full {A : Cube α} {n : Nat} (h : A.d1 = n) (r t : PySlice) :
    A.slice r (.range 0 n) t = A.slice r .all t := by
  subst h
  exact slice_slice (all_bounds _).1 (all_bounds _).2

/-- The computation for the overlap of a signal, with arbitrary slices of the same length. -/
theorem overlap_branches (f : α → α → α) (S M : Cube α) (B : Mat α) (ss os ms : PySlice) (T : Nat) (ok : Prop)
    [Decidable ok] (hok : ok ↔ S.d1 ≠ 0) (m0 : M.d0 = max S.d0 B.rows) (m1 : M.d1 = S.d1)
    (ns : ss.count S.d2 = ms.count M.d2) (no : os.count B.cols = ms.count M.d2) (hc : ¬ (S.d0 = 1 ∧ B.rows = 0))
    (hc' : ¬ (S.d0 = 0 ∧ B.rows = 1)) :
    (if S.d0 = 1 then
      forRows (min B.rows M.d0) (fun c out =>
        Cube.ufunc2 f ((S.row 0).slice .all .all ss) (.ofMat ((B.row c).slice .all os)) out
          (.range c (c + 1)) .all ms) M
    else if B.rows = 1 then
      Axes.signal.write M fun v =>
        Cube.ufunc2 f (S.slice .all .all ss).transpose102 (.ofMat ((B.row 0).slice .all os)) v .all .all ms
    else
      Axes.signal.write M fun v =>
        Cube.ufunc2 f (S.slice (.range 0 (min S.d0 B.rows : Nat)) .all ss).transpose102
          (.ofMat (B.slice (.range 0 (min S.d0 B.rows : Nat)) os)) v .all (.range 0 (min S.d0 B.rows : Nat)) ms) =
    if ok then
      if S.d0 = 1 then
        Cube.ufunc2 f ((S.row 0).slice .all (.range 0 S.d1) ss) ((Axes.signal.lift B S.d1 T).slice .all (.range 0 S.d1) os) M
          .all (.range 0 S.d1) ms
      else if B.rows = 1 then
        Cube.ufunc2 f (S.slice .all (.range 0 S.d1) ss) (((Axes.signal.lift B S.d1 T).row 0).slice .all (.range 0 S.d1) os) M
          .all (.range 0 S.d1) ms
      else
        Cube.ufunc2 f (S.slice (.range 0 (min S.d0 B.rows : Nat)) (.range 0 S.d1) ss)
          ((Axes.signal.lift B S.d1 T).slice (.range 0 (min S.d0 B.rows : Nat)) (.range 0 S.d1) os) M
          (.range 0 (min S.d0 B.rows : Nat)) (.range 0 S.d1) ms
    else .ok M := by
  obtain ⟨b1, b2⟩ := all_bounds M.d1
  have key : ∀ (X Y : Cube α) (r : PySlice) (lhs : Py (Cube α)), lhs = ufunc2 f X Y M r .all ms →
      X.Fits (r.count M.d0) M.d1 (ms.count M.d2) → Y.Fits (r.count M.d0) M.d1 (ms.count M.d2) →
      lhs = if ok then ufunc2 f X Y M r (.range 0 S.d1) ms else .ok M := by
    intro X Y r lhs h hX hY
    rw [h]
    by_cases h0 : S.d1 = 0
    · rw [if_neg (fun h => (hok.mp h) h0), ufunc2_empty (m1.trans h0) hX hY]
    · rw [if_pos (hok.mpr h0), ← m1, ufunc2_slice b1 b2]
  by_cases hs1 : S.d0 = 1
  · have hn : min B.rows M.d0 = B.rows := by omega
    have hn' : M.d0 = B.rows := by omega
    simp only [if_pos hs1]
    rw [hn, slice_full (A := S.row 0) (n := S.d1) rfl, slice_full (A := Axes.signal.lift B S.d1 T) (n := S.d1) rfl]
    refine key _ _ _ _ ?_ ?_ ?_
    · refine forRows_ufunc2 f (fun _ => (S.row 0).slice .all .all ss)
        (fun c => .ofMat ((B.row c).slice .all os)) _ _ M ms B.rows hn' ?_ ?_ ?_ ?_ ?_ ?_
      · intro c _; exact ⟨Or.inr rfl, Or.inl m1.symm, Or.inl ns⟩
      · intro c _; exact ⟨Or.inr rfl, Or.inr rfl, Or.inl no⟩
      · exact ⟨Or.inr rfl, Or.inl m1.symm, Or.inl ns⟩
      · exact ⟨Or.inl rfl, Or.inl m1.symm, Or.inl no⟩
      · intro c j k hc; rfl
      · intro c j k hc
        show B.get c (os.lo B.cols + _) = B.get (0 + ix B.rows c) (os.lo B.cols + _)
        rw [ix_lt hc, Nat.zero_add]
        rfl
    · exact ⟨Or.inr rfl, Or.inl m1.symm, Or.inl ns⟩
    · exact ⟨Or.inl hn'.symm, Or.inl m1.symm, Or.inl no⟩
  · simp only [if_neg hs1]
    by_cases ho1 : B.rows = 1
    · have hn' : S.d0 = M.d0 := by omega
      simp only [if_pos ho1]
      rw [slice_full (A := S) rfl, slice_full (A := (Axes.signal.lift B S.d1 T).row 0) (n := S.d1) rfl]
      refine key _ _ _ _ ?_ ?_ ?_
      · rw [write_signal_left _ _ _ _ _ _ T, lift_signal_slice, lift_row, m1]
      · exact ⟨Or.inl hn', Or.inl m1.symm, Or.inl ns⟩
      · exact ⟨Or.inr rfl, Or.inl m1.symm, Or.inl no⟩
    · simp only [if_neg ho1]
      rw [slice_full (A := S) rfl, slice_full (A := Axes.signal.lift B S.d1 T) (n := S.d1) rfl]
      have cnt : ∀ n, min S.d0 B.rows ≤ n → (PySlice.range 0 (min S.d0 B.rows : Nat)).count n = min S.d0 B.rows := by
        intro n h
        unfold PySlice.count
        rw [(range_zero h).1, (range_zero h).2]
        rfl
      have cm := cnt M.d0 (by omega)
      refine key _ _ _ _ ?_ ?_ ?_
      · rw [write_signal_left _ _ _ _ _ _ T, lift_signal_slice, m1]
      · exact ⟨Or.inl ((cnt S.d0 (by omega)).trans cm.symm), Or.inl m1.symm, Or.inl ns⟩
      · exact ⟨Or.inl ((cnt B.rows (by omega)).trans cm.symm), Or.inl m1.symm, Or.inl no⟩

theorem overlap_eq (f : α → α → α) (s : Spectrogram α R) (o : Signal α R) (M : Cube α)
    (hM : HullShape s (ofSignal s o) M) (hc : Compatible s (ofSignal s o)) :
    signalComputeOverlap f s o M = computeOverlap f s (ofSignal s o) M := by
  obtain ⟨m0, m1, m2⟩ := hM
  have c1 : (ofSignal s o).count = o.count := rfl
  have c2 : (ofSignal s o).freqs = s.freqs := rfl
  have c3 : (ofSignal s o).length = o.length := rfl
  have c4 : (ofSignal s o).offset = o.offset := rfl
  rw [c2, Nat.max_self] at m1
  unfold signalComputeOverlap computeOverlap
  dsimp only
  rw [c1, c2, c3, c4, Nat.min_self]
  generalize hba : max s.offset o.offset - min s.offset o.offset = ba
  generalize hbb : min (s.offset + s.length) (o.offset + o.length) - min s.offset o.offset = bb
  by_cases hov : ba < bb
  · rw [if_pos hov]
    obtain ⟨ns, no⟩ := overlap_counts s.offset o.offset s.length o.length M.d2 ba bb hba.symm hbb.symm hov m2
    exact overlap_branches f s.channels M o.channels _ _ _ s.length (s.freqs ≠ 0 ∧ ba < bb)
      ⟨fun h => h.1, fun h => ⟨h, hov⟩⟩ m0 m1 ns no hc.1 hc.2
  · rw [if_neg hov, if_neg (fun h => hov h.2)]

theorem ufunc2_flip (f : α → α → α) (A B out : Cube α) (r s t : PySlice) :
    ufunc2 f A B out r s t = ufunc2 (fun x y => f y x) B A out r s t := by
  by_cases h : A.Fits (r.count out.d0) (s.count out.d1) (t.count out.d2) ∧
      B.Fits (r.count out.d0) (s.count out.d1) (t.count out.d2)
  · unfold ufunc2
    rw [broadcastTo_ok h.1, broadcastTo_ok h.2]
  · rw [ufunc2_error h, ufunc2_error (fun g => h ⟨g.2, g.1⟩)]

theorem rightOverlap_eq (f : α → α → α) (s : Spectrogram α R) (o : Signal α R) (M : Cube α) :
    signalRightComputeOverlap f s o M = signalComputeOverlap (fun x y => f y x) s o M := by
  unfold signalRightComputeOverlap signalComputeOverlap
  simp only [ufunc2_flip f]

/-! ### The same time range -/

theorem row_broadcast {A : Cube α} (h : A.d0 = 1) (n0 n1 n2 : Nat) :
    (A.row 0).broadcastTo n0 n1 n2 = A.broadcastTo n0 n1 n2 := by
  unfold broadcastTo
  simp only [h, Cube.row]
  rfl

/-- The cube, which a two-dimensional array is repeated to, as a spectrogram with the parameters of `s`. -/
def ofArray (tr : Axes) (s : Spectrogram α R) (B : Mat α) (labels : List String) : Spectrogram α R :=
  ⟨tr.lift B s.freqs s.length, s.resolution, s.rate, s.offset, labels⟩

theorem different_left (tr : Axes) (mem : Nat → Nat → Nat → α) (f : α → α → α) (pivot : Option α) (label : String)
    (s : Spectrogram α R) (B : Mat α) (labels : List String) (hF : (tr.lift B s.freqs s.length).d1 = s.freqs)
    (hL : (tr.lift B s.freqs s.length).d2 = s.length) :
    (mixedDifferentChannels mem f pivot tr s B >>= fun c => pure (mixed s label c)) =
      differentChannels mem f pivot label s (ofArray tr s B labels) := by
  have hrows : (ofArray tr s B labels).count = B.rows := by cases tr <;> rfl
  have hF' : (ofArray tr s B labels).freqs = s.freqs := hF
  have hL' : (ofArray tr s B labels).length = s.length := hL
  unfold mixedDifferentChannels differentChannels
  rw [hrows, hF', hL']
  by_cases h : s.count > B.rows
  · simp only [if_pos h]
    rw [write_left, bind_assoc]
    refine bind_congr_ok fun v hv => ?_
    have d := (ufunc2_shape hv).1
    unfold fillSelf
    cases pivot with
    | none =>
      refine bind_congr_ok fun w hw => ?_
      have e : w.d0 = s.count := (assign_shape hw).1.trans d
      unfold mixed
      rw [e]
    | some p =>
      refine bind_congr_ok fun w hw => ?_
      have e : w.d0 = s.count := (ufunc2_shape hw).1.trans d
      unfold mixed
      rw [e]
  · simp only [if_neg h]
    rw [write_left, bind_assoc, lift_slice]
    refine bind_congr_ok fun v hv => ?_
    obtain ⟨d, d1, d2⟩ := ufunc2_shape hv
    have d1' : v.d1 = s.freqs := d1
    have d2' : v.d2 = s.length := d2
    unfold fillOther
    cases pivot with
    | none =>
      dsimp only
      rw [write_assign, lift_slice, d1', d2']
      refine bind_congr_ok fun w hw => ?_
      have e : w.d0 = B.rows := (assign_shape hw).1.trans d
      unfold mixed
      rw [e]
    | some p =>
      dsimp only
      rw [write_pivot, lift_slice, d1', d2']
      refine bind_congr_ok fun w hw => ?_
      have e : w.d0 = B.rows := (ufunc2_shape hw).1.trans d
      unfold mixed
      rw [e]

theorem different_right (tr : Axes) (mem : Nat → Nat → Nat → α) (f : α → α → α) (pivot : Option α) (label : String)
    (s : Spectrogram α R) (B : Mat α) (labels : List String) (hF : (tr.lift B s.freqs s.length).d1 = s.freqs)
    (hL : (tr.lift B s.freqs s.length).d2 = s.length) (hne : s.count ≠ B.rows) :
    (mixedDifferentChannelsRight mem f pivot tr s B >>= fun c => pure (mixed s label c)) =
      differentChannels mem f pivot label (ofArray tr s B labels) s := by
  have hrows : (ofArray tr s B labels).count = B.rows := by cases tr <;> rfl
  have hF' : (ofArray tr s B labels).freqs = s.freqs := hF
  have hL' : (ofArray tr s B labels).length = s.length := hL
  unfold mixedDifferentChannelsRight differentChannels
  rw [hrows, hF', hL']
  by_cases h : s.count > B.rows
  · simp only [if_pos h, if_neg (show ¬ B.rows > s.count by omega)]
    rw [write_right, bind_assoc]
    refine bind_congr_ok fun v hv => ?_
    have d := (ufunc2_shape hv).1
    unfold fillOther
    cases pivot with
    | none =>
      refine bind_congr_ok fun w hw => ?_
      have e : w.d0 = s.count := (assign_shape hw).1.trans d
      unfold mixed
      rw [e]
      rfl
    | some p =>
      refine bind_congr_ok fun w hw => ?_
      have e : w.d0 = s.count := (ufunc2_shape hw).1.trans d
      unfold mixed
      rw [e]
      rfl
  · simp only [if_neg h, if_pos (show B.rows > s.count by omega)]
    rw [write_right, bind_assoc, lift_slice]
    refine bind_congr_ok fun v hv => ?_
    obtain ⟨d, d1, d2⟩ := ufunc2_shape hv
    have d1' : v.d1 = s.freqs := d1
    have d2' : v.d2 = s.length := d2
    unfold fillSelf
    cases pivot with
    | none =>
      dsimp only
      rw [write_assign, lift_slice, d1', d2']
      refine bind_congr_ok fun w hw => ?_
      have e : w.d0 = B.rows := (assign_shape hw).1.trans d
      unfold mixed
      rw [e]
      rfl
    | some p =>
      dsimp only
      rw [write_pivot_right, lift_slice, d1', d2']
      refine bind_congr_ok fun w hw => ?_
      have e : w.d0 = B.rows := (ufunc2_shape hw).1.trans d
      unfold mixed
      rw [e]
      rfl

/-- the loop over the channels, if the spectrogram has one channel -/
def mixedLoop (tr : Axes) (mem : Nat → Nat → Nat → α) (f : α → α → α) (s : Spectrogram α R) (B : Mat α) : Py (Cube α) :=
  match tr with
  | .signal => forRows B.rows (fun c out => Cube.ufunc2 f (s.channels.row 0) (.ofMat (B.row c)) out
      (.range c (c + 1)) .all .all) (allocCube mem B.rows s.freqs s.length)
  | .spectrum => do
    let v ← forRows B.rows (fun c out => Cube.ufunc2 f (s.channels.row 0).transpose021 (.ofMat (B.row c)) out
      (.range c (c + 1)) .all .all) (allocCube mem B.rows s.freqs s.length).transpose021
    pure v.transpose021

theorem mixedLoop_eq (tr : Axes) (mem : Nat → Nat → Nat → α) (f : α → α → α) (s : Spectrogram α R) (B : Mat α)
    (hF : (tr.lift B s.freqs s.length).d1 = s.freqs) (hL : (tr.lift B s.freqs s.length).d2 = s.length) :
    mixedLoop tr mem f s B = ufunc2 f (s.channels.row 0) (tr.lift B s.freqs s.length)
      (allocCube mem B.rows s.freqs s.length) .all .all .all := by
  cases tr with
  | signal =>
    refine forRows_ufunc2 f (fun _ => s.channels.row 0) (fun c => .ofMat (B.row c)) _ _ _ .all B.rows rfl ?_ ?_ ?_ ?_ ?_ ?_
    · intro c _; exact ⟨Or.inr rfl, Or.inl rfl, Or.inl rfl⟩
    · intro c _; exact ⟨Or.inr rfl, Or.inr rfl, Or.inl hL⟩
    · exact ⟨Or.inr rfl, Or.inl rfl, Or.inl rfl⟩
    · exact ⟨Or.inl rfl, Or.inl rfl, Or.inl hL⟩
    · intro c j k _; rfl
    · intro c j k hc
      show B.get c _ = B.get (ix B.rows c) _
      rw [ix_lt hc]
      rfl
  | spectrum =>
    have e := forRows_ufunc2 f (fun _ => (s.channels.row 0).transpose021) (fun c => .ofMat (B.row c))
      (s.channels.row 0).transpose021 (Axes.spectrum.lift B s.freqs s.length).transpose021
      (allocCube mem B.rows s.freqs s.length).transpose021 .all B.rows rfl
      (by intro c _; exact ⟨Or.inr rfl, Or.inl rfl, Or.inl rfl⟩)
      (by intro c _; exact ⟨Or.inr rfl, Or.inr rfl, Or.inl hF⟩)
      ⟨Or.inr rfl, Or.inl rfl, Or.inl rfl⟩ ⟨Or.inl rfl, Or.inl rfl, Or.inl hF⟩
      (by intro c j k _; rfl)
      (by
        intro c j k hc
        show B.get c _ = B.get (ix B.rows c) _
        rw [ix_lt hc]
        rfl)
    unfold mixedLoop
    dsimp only
    rw [e, ufunc2_transpose021]
    rfl

/-- the operation for data sets with the same time and frequency range -/
def mixedSame (tr : Axes) (mem : Nat → Nat → Nat → α) (f : α → α → α) (pivot : Option α) (s : Spectrogram α R) (B : Mat α) :
    Py (Cube α) :=
  if s.count = 1 then mixedLoop tr mem f s B
  else if B.rows = 1 then
    tr.write (allocCube mem s.count s.freqs s.length) fun v =>
      Cube.ufunc2 f (tr.view s.channels) (.ofMat (B.row 0)) v .all .all .all
  else if s.count = B.rows then
    tr.write (allocCube mem s.count s.freqs s.length) fun v =>
      Cube.ufunc2 f (tr.view s.channels) (.ofMat B) v .all .all .all
  else mixedDifferentChannels mem f pivot tr s B

/-- the same with exchanged operands -/
def mixedSameRight (tr : Axes) (mem : Nat → Nat → Nat → α) (f : α → α → α) (pivot : Option α) (s : Spectrogram α R)
    (B : Mat α) : Py (Cube α) :=
  if s.count = 1 then mixedLoop tr mem (fun x y => f y x) s B
  else if B.rows = 1 then
    tr.write (allocCube mem s.count s.freqs s.length) fun v =>
      Cube.ufunc2 f (.ofMat (B.row 0)) (tr.view s.channels) v .all .all .all
  else if s.count = B.rows then
    tr.write (allocCube mem s.count s.freqs s.length) fun v =>
      Cube.ufunc2 f (.ofMat B) (tr.view s.channels) v .all .all .all
  else mixedDifferentChannelsRight mem f pivot tr s B

theorem mixedSame_eq [Zero α] (tr : Axes) (mem : Nat → Nat → Nat → α) (f : α → α → α) (pivot : Option α) (label : String)
    (s : Spectrogram α R) (B : Mat α) (labels : List String) (hF : (tr.lift B s.freqs s.length).d1 = s.freqs)
    (hL : (tr.lift B s.freqs s.length).d2 = s.length) :
    (mixedSame tr mem f pivot s B >>= fun c => pure (mixed s label c)) =
      algebra mem f pivot label s (ofArray tr s B labels) := by
  have hrows : (ofArray tr s B labels).count = B.rows := by cases tr <;> rfl
  have hF' : (ofArray tr s B labels).freqs = s.freqs := hF
  have hL' : (ofArray tr s B labels).length = s.length := hL
  unfold mixedSame algebra
  rw [if_pos (show s.freqs = (ofArray tr s B labels).freqs ∧ s.length = (ofArray tr s B labels).length ∧
    s.offset = (ofArray tr s B labels).offset from ⟨hF'.symm, hL'.symm, rfl⟩), hrows, hF', hL']
  unfold overlaps
  by_cases h1 : s.count = 1
  · simp only [if_pos h1]
    rw [mixedLoop_eq tr mem f s B hF hL]
    rfl
  · simp only [if_neg h1]
    by_cases h2 : B.rows = 1
    · simp only [if_pos h2]
      rw [write_left, lift_row]
      rfl
    · simp only [if_neg h2]
      by_cases h3 : s.count = B.rows
      · simp only [if_pos h3]
        rw [write_left]
        rfl
      · simp only [if_neg h3]
        exact different_left tr mem f pivot label s B labels hF hL

theorem mixedSameRight_eq [Zero α] (tr : Axes) (mem : Nat → Nat → Nat → α) (f : α → α → α) (pivot : Option α)
    (label : String) (s : Spectrogram α R) (B : Mat α) (labels : List String)
    (hF : (tr.lift B s.freqs s.length).d1 = s.freqs) (hL : (tr.lift B s.freqs s.length).d2 = s.length) :
    (mixedSameRight tr mem f pivot s B >>= fun c => pure (mixed s label c)) =
      algebra mem f pivot label (ofArray tr s B labels) s := by
  have hrows : (ofArray tr s B labels).count = B.rows := by cases tr <;> rfl
  have hrows' : (tr.lift B s.freqs s.length).d0 = B.rows := by cases tr <;> rfl
  have hF' : (ofArray tr s B labels).freqs = s.freqs := hF
  have hL' : (ofArray tr s B labels).length = s.length := hL
  unfold mixedSameRight algebra
  rw [if_pos (show (ofArray tr s B labels).freqs = s.freqs ∧ (ofArray tr s B labels).length = s.length ∧
    (ofArray tr s B labels).offset = s.offset from ⟨hF', hL', rfl⟩), hrows, hF', hL']
  unfold overlaps
  by_cases h1 : s.count = 1
  · simp only [if_pos h1]
    rw [mixedLoop_eq tr mem _ s B hF hL, ← ufunc2_flip f]
    by_cases h2 : B.rows = 1
    · simp only [if_pos h2]
      rw [h1, h2, ufunc2_congr (A := (ofArray tr s B labels).channels.row 0) (A' := (ofArray tr s B labels).channels)
        (B := s.channels) (B' := s.channels.row 0) (row_broadcast (hrows'.trans h2) _ _ _) (row_broadcast h1 _ _ _).symm]
      rfl
    · simp only [if_neg h2]
      rfl
  · simp only [if_neg h1]
    by_cases h2 : B.rows = 1
    · simp only [if_pos h2]
      rw [write_right, lift_row]
      rfl
    · simp only [if_neg h2]
      by_cases h3 : s.count = B.rows
      · simp only [if_pos h3, if_pos h3.symm]
        rw [write_right, h3]
        rfl
      · simp only [if_neg h3, if_neg (fun h => h3 (Eq.symm h))]
        exact different_right tr mem f pivot label s B labels hF hL h3

/-! ### C73: signals -/

/-- What C73 demands of the result of an operator with a spectrogram and a signal: `g` is applied to the sample of the
spectrogram and the sample of the signal, which belong to the same channel and time. -/
structure SignalSpec (g : Option α → Option α → α) (s : Spectrogram α R) (o : Signal α R) (label : String)
    (r : Spectrogram α R) : Prop where
  count : r.count = max s.count o.count
  freqs : r.freqs = s.freqs
  offset : r.offset = min s.offset o.offset
  stop : r.offset + r.length = max (s.offset + s.length) (o.offset + o.length)
  resolution : r.resolution = s.resolution
  rate : r.rate = s.rate
  labels : r.labels = List.replicate r.count label
  value : ∀ c k t, c < r.count → k < r.freqs → t < r.length →
    r.channels.get c k t = g (s.bcast c k (r.offset + t)) (signalSample o c (r.offset + t))

theorem signalSpec_of_left [Zero α] {f : α → α → α} {pivot : Option α} {s : Spectrogram α R} {o : Signal α R}
    {label : String} {r : Spectrogram α R} (h : AlgebraSpec f pivot s (ofSignal s o) label r) :
    SignalSpec (Signal.combine f pivot) s o label r := by
  have hf : r.freqs = s.freqs := h.freqs.trans (Nat.max_self _)
  refine ⟨h.count, hf, h.offset, h.stop, h.resolution, h.rate, h.labels, ?_⟩
  intro c k t hc hk ht
  rw [h.value c k t hc hk ht, bcast_ofSignal _ _ _ _ _ (by omega)]

theorem signalSpec_of_right [Zero α] {f : α → α → α} {pivot : Option α} {s : Spectrogram α R} {o : Signal α R}
    {label : String} {r : Spectrogram α R} (h : AlgebraSpec f pivot (ofSignal s o) s label r) :
    SignalSpec (fun x y => Signal.combine f pivot y x) s o label r := by
  have hf : r.freqs = s.freqs := h.freqs.trans (Nat.max_self _)
  refine ⟨h.count.trans (Nat.max_comm _ _), hf, h.offset.trans (Int.min_comm _ _), h.stop.trans (Int.max_comm _ _),
    h.resolution, h.rate, h.labels, ?_⟩
  intro c k t hc hk ht
  rw [h.value c k t hc hk ht, bcast_ofSignal _ _ _ _ _ (by omega)]

theorem ofArray_signal (s : Spectrogram α R) (o : Signal α R) (h : s.offset = o.offset) :
    ofArray .signal s o.channels o.labels = ofSignal s o := by
  unfold ofArray ofSignal
  rw [h]

/-- C73 for the operators with the spectrogram on the left side: the signal is applied to all frequencies, its single
channel is applied to all channels of the spectrogram, and samples without counterpart are combined with nothing. This is
true for arbitrary numbers of channels and frequencies, lengths, offsets, operators and contents of the allocated memory.
The pivot has to be neutral as second operand. `_partial`: data with one channel cannot be combined with data without
channels. -/
theorem C73_signal_partial [Zero α] (mem : Nat → Nat → Nat → α) (f : α → α → α) (pivot : Option α) (label : String)
    (s : Spectrogram α R) (o : Signal α R) (h1 : ¬ (s.count = 1 ∧ o.count = 0)) (h2 : ¬ (s.count = 0 ∧ o.count = 1))
    (hp : ∀ p ∈ pivot, ∀ x, f x p = x) :
    ∃ r, algebraSignal mem f pivot label s o = .ok r ∧ SignalSpec (Signal.combine f pivot) s o label r := by
  have hc : Compatible s (ofSignal s o) := ⟨h1, h2⟩
  obtain ⟨r, hr, hs⟩ := C16_pointwise_partial mem f pivot label s (ofSignal s o) hc hp
  refine ⟨r, ?_, signalSpec_of_left hs⟩
  rw [← hr]
  unfold algebraSignal
  by_cases hsame : s.length = o.length ∧ s.offset = o.offset
  · rw [if_pos hsame, ← ofArray_signal s o hsame.2]
    refine Eq.trans ?_ (mixedSame_eq .signal mem f pivot label s o.channels o.labels rfl hsame.1.symm)
    unfold mixedSame mixedLoop
    by_cases k1 : s.count = 1
    · simp only [if_pos k1]
      rfl
    · simp only [if_neg k1]
      by_cases k2 : o.count = 1
      · have k2' : o.channels.rows = 1 := k2
        simp only [if_pos k2, if_pos k2']
        rfl
      · have k2' : ¬ o.channels.rows = 1 := k2
        simp only [if_neg k2, if_neg k2']
        by_cases k3 : s.count = o.count
        · have k3' : s.count = o.channels.rows := k3
          simp only [if_pos k3, if_pos k3']
          rfl
        · have k3' : ¬ s.count = o.channels.rows := k3
          simp only [if_neg k3, if_neg k3']
  · rw [if_neg hsame]
    unfold algebra
    rw [if_neg (fun h => hsame h.2)]
    unfold differentShapes
    rw [copySelf_eq]
    obtain ⟨A, hA, a1, _⟩ := copySelf_ok mem s (ofSignal s o)
    obtain ⟨B, hB, b1, _⟩ := copyOther_ok f pivot s (ofSignal s o) A a1
    simp only [bind, Except.bind, hA]
    rw [copyOther_eq f pivot s o A (a1.d1.trans (Nat.max_self _))]
    simp only [hB]
    rw [overlap_eq f s o B b1 hc]
    rfl

/-- C73 for the operators with the spectrogram on the right side. `_partial`: as for `C73_signal_partial`. -/
theorem C73_signal_right_partial [Zero α] (mem : Nat → Nat → Nat → α) (f : α → α → α) (pivot : Option α) (label : String)
    (s : Spectrogram α R) (o : Signal α R) (h1 : ¬ (s.count = 1 ∧ o.count = 0)) (h2 : ¬ (s.count = 0 ∧ o.count = 1))
    (hp : ∀ p ∈ pivot, ∀ x, f x p = x) :
    ∃ r, algebraSignalRight mem f pivot label s o = .ok r ∧
      SignalSpec (fun x y => Signal.combine f pivot y x) s o label r := by
  have hc : Compatible (ofSignal s o) s := ⟨fun h => h2 ⟨h.2, h.1⟩, fun h => h1 ⟨h.2, h.1⟩⟩
  have hc' : Compatible s (ofSignal s o) := ⟨h1, h2⟩
  by_cases hsame : s.length = o.length ∧ s.offset = o.offset
  · obtain ⟨r, hr, hs⟩ := C16_pointwise_partial mem f pivot label (ofSignal s o) s hc hp
    refine ⟨r, ?_, signalSpec_of_right hs⟩
    rw [← hr]
    unfold algebraSignalRight
    rw [if_pos hsame, ← ofArray_signal s o hsame.2]
    refine Eq.trans ?_ (mixedSameRight_eq .signal mem f pivot label s o.channels o.labels rfl hsame.1.symm)
    unfold mixedSameRight mixedLoop
    by_cases k1 : s.count = 1
    · simp only [if_pos k1]
      simp only [ufunc2_flip (fun x y => f y x)]
      rfl
    · simp only [if_neg k1]
      by_cases k2 : o.count = 1
      · have k2' : o.channels.rows = 1 := k2
        simp only [if_pos k2, if_pos k2']
        rfl
      · have k2' : ¬ o.channels.rows = 1 := k2
        simp only [if_neg k2, if_neg k2']
        by_cases k3 : s.count = o.count
        · have k3' : s.count = o.channels.rows := k3
          simp only [if_pos k3, if_pos k3']
          rfl
        · have k3' : ¬ s.count = o.channels.rows := k3
          simp only [if_neg k3, if_neg k3']
  · unfold algebraSignalRight
    rw [if_neg hsame, rightCopyOther_eq]
    obtain ⟨A, hA, a1, a2⟩ := copySelf_ok mem (ofSignal s o) s
    obtain ⟨B, hB, b1, b2⟩ := copyOther_ok f pivot (ofSignal s o) s A a1
    have b1' : HullShape s (ofSignal s o) B :=
      ⟨b1.d0.trans (Nat.max_comm _ _), b1.d1.trans (Nat.max_comm _ _), by
        rw [b1.d2, Int.max_comm, Int.min_comm]⟩
    obtain ⟨C, hC, c1, c2⟩ := computeOverlap_ok (fun x y => f y x) s (ofSignal s o) B b1' hc'
    simp only [bind, Except.bind, hA]
    rw [rightCopySelf_eq f pivot s o A (a1.d1.trans (Nat.max_self _))]
    simp only [hB]
    rw [rightOverlap_eq, overlap_eq _ s o B b1' hc', hC]
    have g0 := c1.d0.trans b1'.d0.symm
    have g1 := c1.d1.trans b1'.d1.symm
    have g2 := c1.d2.trans b1'.d2.symm
    have g3 := g0.trans (b1.d0.trans a1.d0.symm)
    have g4 := g1.trans (b1.d1.trans a1.d1.symm)
    have g5 := g2.trans (b1.d2.trans a1.d2.symm)
    have e : min (ofSignal s o).offset s.offset = min s.offset o.offset := Int.min_comm _ _
    have e' : min s.offset (ofSignal s o).offset = min s.offset o.offset := rfl
    have fin := finish f pivot (ofSignal s o) s label C (max s.count o.count) (min s.offset o.offset)
      (Nat.max_comm _ _) e.symm (c1.d0.trans (Nat.max_comm _ _)) (c1.d1.trans (Nat.max_comm _ _))
      (by
        rw [c1.d2]
        have : (ofSignal s o).offset = o.offset := rfl
        have : (ofSignal s o).length = o.length := rfl
        omega)
      (by
        intro c k t k1 k2 k3
        rw [c2 c k t k1 k2 k3, b2 c k t (g0 ▸ k1) (g1 ▸ k2) (g2 ▸ k3), a2 c k t (g3 ▸ k1) (g4 ▸ k2) (g5 ▸ k3), e, e']
        cases s.bcast c k (min s.offset o.offset + t) <;> cases (ofSignal s o).bcast c k (min s.offset o.offset + t) <;>
          rfl)
    exact ⟨_, rfl, signalSpec_of_right fin⟩

/-! ### C74: spectrums -/

/-- What C74 demands of the result of an operator with a spectrogram and a spectrum: `g` is applied to the sample of the
spectrogram and the value of the spectrum, which belong to the same channel and frequency. -/
structure SpectrumSpec (g : Option α → Option α → α) (s : Spectrogram α R) (o : Spectrum α R) (label : String)
    (r : Spectrogram α R) : Prop where
  count : r.count = max s.count o.count
  freqs : r.freqs = s.freqs
  offset : r.offset = s.offset
  length : r.length = s.length
  resolution : r.resolution = s.resolution
  rate : r.rate = s.rate
  labels : r.labels = List.replicate r.count label
  value : ∀ c k t, c < r.count → k < r.freqs → t < r.length →
    r.channels.get c k t = g (s.bcast c k (r.offset + t)) (spectrumSample o c k)

/-- C74 for the operators with the spectrogram on the left side: the spectrum is applied at all times, its single channel
is applied to all channels of the spectrogram, and channels without counterpart are combined with nothing. `_partial`: data
with one channel cannot be combined with data without channels. -/
theorem C74_spectrum_partial [Zero α] (mem : Nat → Nat → Nat → α) (f : α → α → α) (pivot : Option α) (label : String)
    (s : Spectrogram α R) (o : Spectrum α R) (hl : o.length = s.freqs) (h1 : ¬ (s.count = 1 ∧ o.count = 0))
    (h2 : ¬ (s.count = 0 ∧ o.count = 1)) (hp : ∀ p ∈ pivot, ∀ x, f x p = x) :
    ∃ r, algebraSpectrum mem f pivot label s o = .ok r ∧ SpectrumSpec (Signal.combine f pivot) s o label r := by
  have hc : Compatible s (ofSpectrum s o) := ⟨h1, h2⟩
  obtain ⟨r, hr, hs⟩ := C16_pointwise_partial mem f pivot label s (ofSpectrum s o) hc hp
  have e1 : (ofSpectrum s o).freqs = o.length := rfl
  have e2 : (ofSpectrum s o).length = s.length := rfl
  have e3 : (ofSpectrum s o).offset = s.offset := rfl
  have f1 := hs.freqs
  have f2 := hs.offset
  have f3 := hs.stop
  refine ⟨r, ?_, hs.count, by omega, by omega, by omega, hs.resolution, hs.rate, hs.labels, ?_⟩
  · rw [← hr]
    unfold algebraSpectrum
    rw [if_neg (fun h => h hl)]
    refine Eq.trans ?_ (mixedSame_eq .spectrum mem f pivot label s o.channels o.labels hl rfl)
    unfold mixedSame mixedLoop
    by_cases k1 : s.count = 1
    · simp only [if_pos k1, bind_assoc, pure_bind]
      rfl
    · simp only [if_neg k1]
      by_cases k2 : o.count = 1
      · have k2' : o.channels.rows = 1 := k2
        simp only [if_pos k2, if_pos k2']
        rfl
      · have k2' : ¬ o.channels.rows = 1 := k2
        simp only [if_neg k2, if_neg k2']
        by_cases k3 : s.count = o.count
        · have k3' : s.count = o.channels.rows := k3
          simp only [if_pos k3, if_pos k3']
          rfl
        · have k3' : ¬ s.count = o.channels.rows := k3
          simp only [if_neg k3, if_neg k3']
  · intro c k t k1 k2 k3
    rw [hs.value c k t k1 k2 k3, bcast_ofSpectrum _ _ _ _ _ (by omega) (by omega)]

/-- C74 for the operators with the spectrogram on the right side. `_partial`: as for `C74_spectrum_partial`. -/
theorem C74_spectrum_right_partial [Zero α] (mem : Nat → Nat → Nat → α) (f : α → α → α) (pivot : Option α)
    (label : String) (s : Spectrogram α R) (o : Spectrum α R) (hl : o.length = s.freqs)
    (h1 : ¬ (s.count = 1 ∧ o.count = 0)) (h2 : ¬ (s.count = 0 ∧ o.count = 1)) (hp : ∀ p ∈ pivot, ∀ x, f x p = x) :
    ∃ r, algebraSpectrumRight mem f pivot label s o = .ok r ∧
      SpectrumSpec (fun x y => Signal.combine f pivot y x) s o label r := by
  have hc : Compatible (ofSpectrum s o) s := ⟨fun h => h2 ⟨h.2, h.1⟩, fun h => h1 ⟨h.2, h.1⟩⟩
  obtain ⟨r, hr, hs⟩ := C16_pointwise_partial mem f pivot label (ofSpectrum s o) s hc hp
  have e1 : (ofSpectrum s o).freqs = o.length := rfl
  have e2 : (ofSpectrum s o).length = s.length := rfl
  have e3 : (ofSpectrum s o).offset = s.offset := rfl
  have f1 := hs.freqs
  have f2 := hs.offset
  have f3 := hs.stop
  refine ⟨r, ?_, hs.count.trans (Nat.max_comm _ _), by omega, by omega, by omega, hs.resolution, hs.rate, hs.labels, ?_⟩
  · rw [← hr]
    unfold algebraSpectrumRight
    rw [if_neg (fun h => h hl)]
    refine Eq.trans ?_ (mixedSameRight_eq .spectrum mem f pivot label s o.channels o.labels hl rfl)
    unfold mixedSameRight mixedLoop
    by_cases k1 : s.count = 1
    · simp only [if_pos k1, bind_assoc, pure_bind]
      simp only [ufunc2_flip (fun x y => f y x)]
      rfl
    · simp only [if_neg k1]
      by_cases k2 : o.count = 1
      · have k2' : o.channels.rows = 1 := k2
        simp only [if_pos k2, if_pos k2']
        rfl
      · have k2' : ¬ o.channels.rows = 1 := k2
        simp only [if_neg k2, if_neg k2']
        by_cases k3 : s.count = o.count
        · have k3' : s.count = o.channels.rows := k3
          simp only [if_pos k3, if_pos k3']
          rfl
        · have k3' : ¬ s.count = o.channels.rows := k3
          simp only [if_neg k3, if_neg k3']
  · intro c k t k1 k2 k3
    rw [hs.value c k t k1 k2 k3, bcast_ofSpectrum _ _ _ _ _ (by omega) (by omega)]

/-- C74: a spectrum with another number of frequencies is rejected. -/
theorem C74_other_frequencies (mem : Nat → Nat → Nat → α) (f : α → α → α) (pivot : Option α) (label : String)
    (s : Spectrogram α R) (o : Spectrum α R) (hl : o.length ≠ s.freqs) :
    algebraSpectrum mem f pivot label s o = .error .valueError ∧
      algebraSpectrumRight mem f pivot label s o = .error .valueError :=
  ⟨if_pos hl, if_pos hl⟩

/-! ### Examples -/

/-- a signal for examples -/
def demoSignal (offset : Int) (length : Nat) (l : List (List Nat)) : Signal Nat Nat :=
  Signal.new (Mat.ofRows length l) 1 offset none

/-- a spectrum for examples -/
def demoSpectrum (length : Nat) (l : List (List Nat)) : Spectrum Nat Nat :=
  Spectrum.new (Mat.ofRows length l) 1 none

-- two channels of the spectrogram, one channel of the signal, different time ranges
example : ¬ ((demo 0 2 2 [[[1, 2], [3, 4]], [[5, 6], [7, 8]]]).count = 1 ∧ (demoSignal 1 2 [[10, 20]]).count = 0) ∧
    ∃ r, algebraSignal (fun _ _ _ => 99) (· + ·) none "Sum" (demo 0 2 2 [[[1, 2], [3, 4]], [[5, 6], [7, 8]]])
      (demoSignal 1 2 [[10, 20]]) = .ok r ∧ r.offset = 0 ∧
      r.channels.flat = [1, 12, 20, 3, 14, 20, 5, 16, 20, 7, 18, 20] :=
  ⟨fun h => absurd h.1 (by decide), _, rfl, rfl, rfl⟩

-- the operands of the subtraction are exchanged; the spectrogram has one channel, the signal two channels
example : ¬ ((demo 0 2 2 [[[1, 2], [3, 4]]]).count = 0 ∧ (demoSignal 0 2 [[10, 20], [30, 40]]).count = 1) ∧
    ∃ r, algebraSignalRight (fun _ _ _ => 99) (· - ·) (some 0) "Difference" (demo 0 2 2 [[[1, 2], [3, 4]]])
      (demoSignal 0 2 [[10, 20], [30, 40]]) = .ok r ∧
      r.channels.flat = [9, 18, 7, 16, 29, 38, 27, 36] :=
  ⟨fun h => absurd h.1 (by decide), _, rfl, rfl⟩

-- the spectrogram has one channel, the spectrum two channels
example : (demoSpectrum 2 [[10, 20], [30, 40]]).length = (demo 0 2 3 [[[1, 2, 3], [4, 5, 6]]]).freqs ∧
    ∃ r, algebraSpectrum (fun _ _ _ => 99) (· + ·) none "Sum" (demo 0 2 3 [[[1, 2, 3], [4, 5, 6]]])
      (demoSpectrum 2 [[10, 20], [30, 40]]) = .ok r ∧
      r.channels.flat = [11, 12, 13, 24, 25, 26, 31, 32, 33, 44, 45, 46] :=
  ⟨rfl, _, rfl, rfl⟩

-- three channels of the spectrum and two channels of the spectrogram
example : ∃ r, algebraSpectrumRight (fun _ _ _ => 99) (· - ·) (some 0) "Difference"
      (demo 0 2 1 [[[1], [2]], [[3], [4]]]) (demoSpectrum 2 [[10, 20], [30, 40], [50, 60]]) = .ok r ∧
      r.channels.flat = [9, 18, 27, 36, 50, 60] :=
  ⟨_, rfl, rfl⟩

-- a spectrum with another number of frequencies
example : (demoSpectrum 1 [[10]]).length ≠ (demo 0 2 1 [[[1], [2]]]).freqs := by decide

/-- C73 is violated for one channel and zero channels with the same time range: the channel of the spectrogram is lost. -/
theorem C73_zero_channels_violated : ∃ (s : Spectrogram Nat Nat) (o : Signal Nat Nat), s.count = 1 ∧ o.count = 0 ∧
    ∀ mem, ∃ r, algebraSignal mem (· + ·) none "Sum" s o = .ok r ∧ ¬ r.count = max s.count o.count :=
  ⟨demo 0 1 2 [[[1, 2]]], demoSignal 0 2 [], rfl, rfl, fun _ => ⟨_, rfl, fun h => Nat.noConfusion (show 0 = 1 from h)⟩⟩

/-- C74 is violated for one channel and zero channels: the channel of the spectrogram is lost. -/
theorem C74_zero_channels_violated : ∃ (s : Spectrogram Nat Nat) (o : Spectrum Nat Nat), s.count = 1 ∧ o.count = 0 ∧
    o.length = s.freqs ∧
    ∀ mem, ∃ r, algebraSpectrum mem (· + ·) none "Sum" s o = .ok r ∧ ¬ r.count = max s.count o.count :=
  ⟨demo 0 1 2 [[[1, 2]]], demoSpectrum 1 [], rfl, rfl, rfl, fun _ => ⟨_, rfl, fun h => Nat.noConfusion (show 0 = 1 from h)⟩⟩

end Spectrogram
end Verif
