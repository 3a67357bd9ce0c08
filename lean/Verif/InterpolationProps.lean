import Verif.Interpolation
import Mathlib.Analysis.SpecialFunctions.Log.Base
import Mathlib.Tactic.LinearCombination
import Mathlib.Tactic.Module
import Mathlib.Tactic.FieldSimp
import Mathlib.Tactic.Linarith

/-
C29: the interpolations pass through their supporting points.
-/

namespace Verif
namespace Interpolation

variable {α β : Type}

/-! ### Helpers -/

theorem item_nat (l : List β) (k : Nat) (h : k < l.length) : item l (k : Int) = .ok l[k] := by
  unfold item
  rw [if_neg (show ¬ (k : Int) < 0 by omega), if_pos (by omega)]
  rw [show (k : Int).toNat = k by omega, List.getElem?_eq_getElem h]

theorem item_zero (l : List β) (h : 0 < l.length) : item l 0 = .ok l[0] := item_nat l 0 h

theorem item_one (l : List β) (h : 1 < l.length) : item l 1 = .ok l[1] := item_nat l 1 h

theorem item_neg (l : List β) (k : Nat) (h0 : 0 < k) (h : k ≤ l.length) :
    item l (-(k : Int)) = .ok (l[l.length - k]'(by omega)) := by
  unfold item
  rw [if_pos (show -(k : Int) < 0 by omega), if_pos (by omega)]
  rw [show (-(k : Int) + l.length).toNat = l.length - k by omega, List.getElem?_eq_getElem (by omega)]

theorem takeWhile_length_le (p : α → Bool) (l : List α) : (l.takeWhile p).length ≤ l.length := by
  induction l with
  | nil => simp
  | cons a l ih =>
    rw [List.takeWhile_cons]
    split
    · simpa using ih
    · simp

theorem takeWhile_lt (p : α → Bool) (l : List α) (k : Nat) (h : k < (l.takeWhile p).length) :
    p (l[k]'(Nat.lt_of_lt_of_le h (takeWhile_length_le p l))) = true := by
  induction l generalizing k with
  | nil => simp at h
  | cons a l ih =>
    rw [List.takeWhile_cons] at h
    by_cases ha : p a = true
    · rw [if_pos ha] at h
      cases k with
      | zero => exact ha
      | succ k => exact ih k (by simpa using h)
    · rw [if_neg ha] at h
      simp at h

theorem takeWhile_stop (p : α → Bool) (l : List α) (h : (l.takeWhile p).length < l.length) :
    ¬ p (l[(l.takeWhile p).length]'h) = true := by
  induction l with
  | nil => simp at h
  | cons a l ih =>
    by_cases ha : p a = true
    · have : ((a :: l).takeWhile p).length = (l.takeWhile p).length + 1 := by
        rw [List.takeWhile_cons, if_pos ha]
        rfl
      have h' : (l.takeWhile p).length < l.length := by
        rw [this] at h
        simpa using h
      have e : (a :: l)[((a :: l).takeWhile p).length] = l[(l.takeWhile p).length] := by
        simp only [this]
        rfl
      rw [e]
      exact ih h'
    · have : ((a :: l).takeWhile p).length = 0 := by
        rw [List.takeWhile_cons, if_neg ha]
        rfl
      have e : (a :: l)[((a :: l).takeWhile p).length] = a := by
        simp only [this]
        rfl
      rw [e]
      exact ha

theorem pairwise_get [Preorder α] {l : List α} (h : l.Pairwise (· < ·)) {i j : Nat} (hij : i < j) (hj : j < l.length) :
    l[i]'(by omega) < l[j] := List.pairwise_iff_getElem.mp h i j (by omega) hj hij

theorem mapM_ok {f : α → Py β} {g : α → β} (l : List α) (h : ∀ x ∈ l, f x = .ok (g x)) :
    l.mapM f = .ok (l.map g) := by
  induction l with
  | nil => rfl
  | cons a l ih =>
    rw [List.mapM_cons, h a List.mem_cons_self, ih fun x hx => h x (List.mem_cons_of_mem _ hx)]
    rfl

theorem zip_map_self {γ : Type} (g : α → β) (h : α × β → γ) (l : List α) :
    (l.zip (l.map g)).map h = l.map fun x => h (x, g x) := by
  induction l with
  | nil => rfl
  | cons a l ih => simp [ih]

theorem mem_zip_map {g : α → β} {l : List α} {p : α × β} (h : p ∈ l.zip (l.map g)) : p.2 = g p.1 := by
  induction l with
  | nil => simp at h
  | cons a l ih =>
    rcases List.mem_cons.mp h with rfl | h
    · rfl
    · exact ih h

section Lookup

variable [DecidableEq α]

theorem lookup_first (x : α) (xs : List α) (ys : List β) (h : xs.length = ys.length) (i : Nat) (y : β)
    (hx : xs[i]? = some x) (hy : ys[i]? = some y) (hf : ∀ j, j < i → xs[j]? ≠ some x) : lookup x xs ys = .ok y := by
  unfold lookup
  rw [if_neg (by simpa using h)]
  have : ((xs.zip ys).filter fun p => p.1 = x).head? = some (x, y) := by
    induction xs generalizing ys i with
    | nil => simp at hx
    | cons a xs ih =>
      cases ys with
      | nil => simp at h
      | cons b ys =>
        cases i with
        | zero =>
          simp at hx hy
          simp [hx, hy]
        | succ i =>
          have ha : a ≠ x := by
            have := hf 0 (by omega)
            simpa using this
          rw [List.zip_cons_cons, List.filter_cons_of_neg (by simpa using ha)]
          exact ih ys (by simpa using h) i (by simpa using hx) (by simpa using hy) fun j hj => by
            simpa using hf (j + 1) (by omega)
  rw [this]

theorem exists_first (x : α) (xs : List α) (h : x ∈ xs) :
    ∃ i, i < xs.length ∧ xs[i]? = some x ∧ ∀ j, j < i → xs[j]? ≠ some x := by
  induction xs with
  | nil => simp at h
  | cons a xs ih =>
    by_cases ha : a = x
    · exact ⟨0, by simp, by simp [ha], by simp⟩
    · rcases List.mem_cons.mp h with h | h
      · exact absurd h.symm ha
      · obtain ⟨i, h1, h2, h3⟩ := ih h
        refine ⟨i + 1, by simpa using h1, by simpa using h2, ?_⟩
        intro j hj
        cases j with
        | zero => simpa using ha
        | succ j => simpa using h3 j (by omega)

theorem lookup_mem (x : α) (xs : List α) (ys : List β) (h : xs.length = ys.length) (hx : x ∈ xs) :
    ∃ y, lookup x xs ys = .ok y := by
  obtain ⟨i, h1, h2, h3⟩ := exists_first x xs hx
  exact ⟨ys[i]'(by omega), lookup_first x xs ys h i _ h2 (List.getElem?_eq_getElem (by omega)) h3⟩

end Lookup

section Total

variable [Field α] [LinearOrder α] [AddCommGroup β] [Module α β]

theorem interp_total (x : α) (xs : List α) (ys : List β) (h : xs.length = ys.length) (h0 : 0 < xs.length) :
    ∃ y, interp x xs ys = .ok y := by
  unfold interp
  obtain ⟨j, hj⟩ : ∃ j, (xs.takeWhile (· ≤ x)).length = j := ⟨_, rfl⟩
  have hle := takeWhile_length_le (· ≤ x) xs
  rw [hj] at hle ⊢
  rw [if_neg (by omega), if_neg (by omega)]
  by_cases h1 : j = 0
  · rw [if_pos h1, item_zero ys (by omega)]
    exact ⟨_, rfl⟩
  · rw [if_neg h1]
    by_cases h2 : j = xs.length
    · rw [if_pos h2]
      exact ⟨_, item_neg ys 1 (by omega) (by omega)⟩
    · rw [if_neg h2]
      rw [show (j : Int) - 1 = (j - 1 : Nat) by omega]
      rw [item_nat xs (j - 1) (by omega), item_nat xs j (by omega), item_nat ys (j - 1) (by omega),
        item_nat ys j (by omega)]
      exact ⟨_, rfl⟩

theorem below_total (x : α) (xs : List α) (ys : List β) (h : xs.length = ys.length) (h0 : 1 < xs.length) :
    below x xs ys = .ok (line x (xs[0]'(by omega)) xs[1] (ys[0]'(by omega)) (ys[1]'(by omega))) := by
  unfold below
  rw [item_one ys (by omega), item_zero ys (by omega), item_one xs h0, item_zero xs (by omega)]
  rfl

theorem above_total (x : α) (xs : List α) (ys : List β) (h : xs.length = ys.length) (h0 : 1 < xs.length) :
    ∃ y, above x xs ys = .ok y := by
  unfold above
  have e1 := item_neg ys 1 (by omega) (by omega)
  have e2 := item_neg ys 2 (by omega) (by omega)
  have e3 := item_neg xs 1 (by omega) (by omega)
  have e4 := item_neg xs 2 (by omega) (by omega)
  change item ys (-1) = _ at e1
  change item ys (-2) = _ at e2
  change item xs (-1) = _ at e3
  change item xs (-2) = _ at e4
  rw [e1, e2, e3, e4]
  exact ⟨_, rfl⟩

theorem linear_total (xs : List α) (ys : List β) (h : xs.length = ys.length) (h0 : 0 < xs.length)
    (hs : xs.Pairwise (· < ·)) :
    ∃ g : α → β, (∀ x, linearScalar x xs ys = .ok (g x)) ∧ ∀ x, linearArray x xs ys = .ok (x.map g) := by
  unfold linearScalar linearArray
  by_cases h1 : xs.length = 1
  · refine ⟨fun _ => ys[0]'(by omega), ?_, ?_⟩
    · intro x
      rw [if_pos h1, item_zero ys (by omega)]
    · intro x
      rw [if_pos h1, item_zero ys (by omega)]
      rfl
  · have h2 : 1 < xs.length := by omega
    obtain ⟨last, hlast⟩ : ∃ last, xs[xs.length - 1]'(by omega) = last := ⟨_, rfl⟩
    have e3 : item xs (-1) = .ok last := by rw [← hlast]; exact item_neg xs 1 (by omega) (by omega)
    obtain ⟨gb, hgb⟩ : ∃ gb : α → β, ∀ x, below x xs ys = .ok (gb x) := ⟨_, fun x => below_total x xs ys h h2⟩
    obtain ⟨ga, hga⟩ : ∃ ga : α → β, ∀ x, above x xs ys = .ok (ga x) :=
      ⟨fun x => (above_total x xs ys h h2).choose, fun x => (above_total x xs ys h h2).choose_spec⟩
    obtain ⟨gi, hgi⟩ : ∃ gi : α → β, ∀ x, interp x xs ys = .ok (gi x) :=
      ⟨fun x => (interp_total x xs ys h h0).choose, fun x => (interp_total x xs ys h h0).choose_spec⟩
    have hord : xs[0]'h0 < last := by
      rw [← hlast]
      exact pairwise_get hs (by omega) (by omega)
    refine ⟨fun x => if x < xs[0]'h0 then gb x else if last < x then ga x else gi x, ?_, ?_⟩
    · intro x
      rw [if_neg h1, item_zero xs h0, e3]
      show (if x < xs[0]'h0 then below x xs ys else if last < x then above x xs ys else interp x xs ys) = _
      beta_reduce
      by_cases hx : x < xs[0]'h0
      · rw [if_pos hx, hgb, if_pos hx]
      · rw [if_neg hx, if_neg hx]
        by_cases hx' : last < x
        · rw [if_pos hx', hga, if_pos hx']
        · rw [if_neg hx', hgi, if_neg hx']
    · intro x
      rw [if_neg h1, item_zero xs h0, e3, mapM_ok x fun t _ => hgi t]
      have s1 : maskBelow x xs ys (xs[0]'h0) (x.map gi) =
          .ok (x.map fun t => if t < xs[0]'h0 then gb t else gi t) := by
        unfold maskBelow
        by_cases ha : x.any (· < xs[0]'h0) = true
        · rw [if_pos ha, mapM_ok (g := fun p => if p.1 < xs[0]'h0 then gb p.1 else p.2), zip_map_self]
          intro p _
          by_cases hp : p.1 < xs[0]'h0
          · rw [if_pos hp, if_pos hp, hgb]
          · rw [if_neg hp, if_neg hp]
        · rw [if_neg ha]
          congr 1
          apply List.map_congr_left
          intro t ht
          rw [if_neg]
          intro hlt
          exact ha (List.any_eq_true.mpr ⟨t, ht, by simpa using hlt⟩)
      show (maskBelow x xs ys (xs[0]'h0) (x.map gi) >>= fun r => _) = _
      rw [s1]
      show maskAbove x xs ys last _ = _
      unfold maskAbove
      by_cases ha : x.any (last < ·) = true
      · rw [if_pos ha, mapM_ok (g := fun p => if last < p.1 then ga p.1 else p.2), zip_map_self]
        · congr 1
          apply List.map_congr_left
          intro t _
          dsimp only
          by_cases ht : last < t
          · rw [if_pos ht, if_neg (not_lt.mpr (hord.trans ht).le), if_pos ht]
          · rw [if_neg ht, if_neg ht]
        · intro p _
          by_cases hp : last < p.1
          · rw [if_pos hp, if_pos hp, hga]
          · rw [if_neg hp, if_neg hp]
      · rw [if_neg ha]
        congr 1
        apply List.map_congr_left
        intro t ht
        have : ¬ last < t := fun hlt => ha (List.any_eq_true.mpr ⟨t, ht, by simpa using hlt⟩)
        rw [if_neg this]

omit [AddCommGroup β] [Module α β] in
theorem stairsIndex_lt (x : α) (xs : List α) (ys : List β) (h : xs.length = ys.length) (h0 : 0 < xs.length) :
    stairsIndex x xs ys < xs.length := by
  unfold stairsIndex
  have := takeWhile_length_le (· < x) xs
  split <;> omega

omit [AddCommGroup β] [Module α β] in
theorem stairs_total (x : α) (xs : List α) (ys : List β) (h : xs.length = ys.length) (h0 : 0 < xs.length) :
    ∃ y, stairs x xs ys = .ok y := by
  have hi := stairsIndex_lt x xs ys h h0
  unfold stairs
  obtain ⟨i, hi'⟩ : ∃ i, stairsIndex x xs ys = i := ⟨_, rfl⟩
  rw [hi'] at hi ⊢
  rw [item_nat xs (i - 1) (by omega), item_nat xs i hi]
  show ∃ y, (if |x - xs[i - 1]'(by omega)| < |x - xs[i]| then _ else _) = _
  by_cases hi0 : i = 0
  · subst hi0
    rw [if_neg (by simp), item_nat ys _ (by omega)]
    exact ⟨_, rfl⟩
  · split
    · rw [show (i : Int) - 1 = (i - 1 : Nat) by omega, item_nat ys _ (by omega)]
      exact ⟨_, rfl⟩
    · rw [item_nat ys _ (by omega)]
      exact ⟨_, rfl⟩

theorem minimum_spec (xs : List α) (h0 : 0 < xs.length) :
    ∃ m, minimum xs = .ok m ∧ m ∈ xs ∧ ∀ x ∈ xs, m ≤ x := by
  cases xs with
  | nil => simp at h0
  | cons x l =>
    refine ⟨_, rfl, ?_⟩
    have : ∀ (l : List α) (x : α), l.foldl min x ∈ x :: l ∧ ∀ y ∈ x :: l, l.foldl min x ≤ y := by
      intro l
      induction l with
      | nil => simp
      | cons a l ih =>
        intro x
        obtain ⟨h1, h2⟩ := ih (min x a)
        rw [List.foldl_cons]
        constructor
        · rcases List.mem_cons.mp h1 with h | h
          · rw [h]
            rcases min_choice x a with h' | h' <;> simp [h']
          · simp [h]
        · intro y hy
          rcases List.mem_cons.mp hy with rfl | hy
          · exact (h2 _ List.mem_cons_self).trans (min_le_left _ _)
          · rcases List.mem_cons.mp hy with rfl | hy
            · exact (h2 _ List.mem_cons_self).trans (min_le_right _ _)
            · exact h2 y (List.mem_cons_of_mem _ hy)
    exact this l x

theorem maximum_spec (xs : List α) (h0 : 0 < xs.length) :
    ∃ m, maximum xs = .ok m ∧ m ∈ xs ∧ ∀ x ∈ xs, x ≤ m := by
  cases xs with
  | nil => simp at h0
  | cons x l =>
    refine ⟨_, rfl, ?_⟩
    have : ∀ (l : List α) (x : α), l.foldl max x ∈ x :: l ∧ ∀ y ∈ x :: l, y ≤ l.foldl max x := by
      intro l
      induction l with
      | nil => simp
      | cons a l ih =>
        intro x
        obtain ⟨h1, h2⟩ := ih (max x a)
        rw [List.foldl_cons]
        constructor
        · rcases List.mem_cons.mp h1 with h | h
          · rw [h]
            rcases max_choice x a with h' | h' <;> simp [h']
          · simp [h]
        · intro y hy
          rcases List.mem_cons.mp hy with rfl | hy
          · exact (le_max_left _ _).trans (h2 _ List.mem_cons_self)
          · rcases List.mem_cons.mp hy with rfl | hy
            · exact (le_max_right _ _).trans (h2 _ List.mem_cons_self)
            · exact h2 y (List.mem_cons_of_mem _ hy)
    exact this l x

theorem stairsLog_total (log2 : α → α) (xs : List α) (ys : List β) (h : xs.length = ys.length) (h0 : 0 < xs.length) :
    ∃ g : α → β, (∀ x, stairsLogScalar log2 x xs ys = .ok (g x)) ∧ ∀ x, stairsLogArray log2 x xs ys = .ok (x.map g) := by
  obtain ⟨lo, l1, l2, l3⟩ := minimum_spec xs h0
  obtain ⟨hi, m1, m2, m3⟩ := maximum_spec xs h0
  obtain ⟨yl, hyl⟩ := lookup_mem lo xs ys h l2
  obtain ⟨yh, hyh⟩ := lookup_mem hi xs ys h m2
  obtain ⟨gs, hgs⟩ : ∃ gs : α → β, ∀ x, stairs (log2 x) (xs.map log2) ys = .ok (gs x) :=
    ⟨fun x => (stairs_total (log2 x) (xs.map log2) ys (by simpa using h) (by simpa using h0)).choose,
      fun x => (stairs_total (log2 x) (xs.map log2) ys (by simpa using h) (by simpa using h0)).choose_spec⟩
  have hlh : lo ≤ hi := l3 hi m2
  refine ⟨fun x => if x < lo then yl else if hi < x then yh else gs x, ?_, ?_⟩
  · intro x
    unfold stairsLogScalar
    rw [l1, m1]
    show (if x < lo then lookup lo xs ys else if hi < x then lookup hi xs ys else stairs (log2 x) (xs.map log2) ys) = _
    rw [hyl, hyh, hgs]
    dsimp only
    split
    · rfl
    · split <;> rfl
  · intro x
    unfold stairsLogArray
    rw [l1, m1]
    show (x.mapM (fun t => stairs (log2 t) (xs.map log2) ys) >>= fun r => _) = _
    rw [mapM_ok x fun t _ => hgs t]
    show (lookup lo xs ys >>= fun r => _) = _
    rw [hyl]
    show (lookup hi xs ys >>= fun r => _) = _
    rw [hyh]
    show Except.ok ((x.zip ((x.zip (x.map gs)).map _)).map _) = _
    rw [zip_map_self, zip_map_self]
    congr 1
    apply List.map_congr_left
    intro t _
    dsimp only
    by_cases ht : t < lo
    · rw [if_pos ht, if_pos ht, if_neg (not_lt.mpr (ht.le.trans hlh))]
    · rw [if_neg ht, if_neg ht]

/-- the array functions and the scalar functions compute the same values and never raise an exception -/
theorem func_total [One β] (log : Logs α β) (mode : Mode) (xs : List α) (ys : List β) (h : xs.length = ys.length)
    (h0 : 0 < xs.length) (hs : xs.Pairwise (· < ·)) (hl : (xs.map log.x).Pairwise (· < ·)) :
    ∃ g : α → β, (∀ x, funcScalar log mode x xs ys = .ok (g x)) ∧
      ∀ x, funcArray log mode x xs ys = .ok (x.map g) := by
  cases mode with
  | zero => exact ⟨fun _ => 0, fun _ => rfl, fun _ => rfl⟩
  | one => exact ⟨fun _ => 1, fun _ => rfl, fun _ => rfl⟩
  | linear => exact linear_total xs ys h h0 hs
  | logarithmic =>
    obtain ⟨g, g1, g2⟩ := linear_total (xs.map log.x) (ys.map log.y) (by simpa using h) (by simpa using h0) hl
    refine ⟨fun x => log.exp (g (log.x x)), ?_, ?_⟩
    · intro x
      show (linearScalar (log.x x) (xs.map log.x) (ys.map log.y) >>= _) = _
      rw [g1]
      rfl
    · intro x
      show (linearArray (x.map log.x) (xs.map log.x) (ys.map log.y) >>= _) = _
      rw [g2]
      show Except.ok (((x.map log.x).map g).map log.exp) = _
      rw [List.map_map, List.map_map]
      rfl
  | logX =>
    obtain ⟨g, g1, g2⟩ := linear_total (xs.map log.x) ys (by simpa using h) (by simpa using h0) hl
    refine ⟨fun x => g (log.x x), fun x => g1 _, ?_⟩
    intro x
    show linearArray (x.map log.x) (xs.map log.x) ys = _
    rw [g2, List.map_map]
    rfl
  | logY =>
    obtain ⟨g, g1, g2⟩ := linear_total xs (ys.map log.y) (by simpa using h) h0 hs
    refine ⟨fun x => log.exp (g x), ?_, ?_⟩
    · intro x
      show (linearScalar x xs (ys.map log.y) >>= _) = _
      rw [g1]
      rfl
    · intro x
      show (linearArray x xs (ys.map log.y) >>= _) = _
      rw [g2]
      show Except.ok ((x.map g).map log.exp) = _
      rw [List.map_map]
      rfl
  | stairsLin =>
    refine ⟨fun x => (stairs_total x xs ys h h0).choose, fun x => (stairs_total x xs ys h h0).choose_spec, ?_⟩
    intro x
    exact mapM_ok x fun t _ => (stairs_total t xs ys h h0).choose_spec
  | stairsLog => exact stairsLog_total log.x xs ys h h0

/-! ### C29: supporting points and arrays -/

/-- C29: Every mode yields the given value at each supporting point (the first one, if it is given twice). -/
theorem C29_supporting_points [One β] (log : Logs α β) (mode : Mode) (xs : List α) (ys : List β)
    (h : xs.length = ys.length) (i : Nat) (x : α) (y : β) (hx : xs[i]? = some x) (hy : ys[i]? = some y)
    (hf : ∀ j, j < i → xs[j]? ≠ some x) : scalar log mode x xs ys = .ok y := by
  unfold scalar decorateScalar
  rw [if_pos (List.mem_of_getElem? hx)]
  exact lookup_first x xs ys h i y hx hy hf

/-- C29: The evaluation never fails and the evaluation for an array yields the values of the evaluations for its
elements. -/
theorem C29_array [One β] (log : Logs α β) (mode : Mode) (xs : List α) (ys : List β) (h : xs.length = ys.length)
    (h0 : 0 < xs.length) (hs : xs.Pairwise (· < ·)) (hl : (xs.map log.x).Pairwise (· < ·)) :
    ∃ g : α → β, (∀ x, scalar log mode x xs ys = .ok (g x)) ∧ ∀ x, array log mode x xs ys = .ok (x.map g) := by
  obtain ⟨g, g1, g2⟩ := func_total log mode xs ys h h0 hs hl
  have hlook : ∀ x, x ∈ xs → ∃ y, lookup x xs ys = .ok y := fun x hx => lookup_mem x xs ys h hx
  refine ⟨fun x => if hx : x ∈ xs then (hlook x hx).choose else g x, ?_, ?_⟩
  · intro x
    unfold scalar decorateScalar
    beta_reduce
    by_cases hx : x ∈ xs
    · rw [if_pos hx, dif_pos hx]
      exact (hlook x hx).choose_spec
    · rw [if_neg hx, dif_neg hx, g1]
  · intro x
    unfold array decorateArray
    split
    · next hx =>
      rw [List.length_eq_zero_iff.mp hx]
      rfl
    · rw [g2]
      show (x.zip (x.map g)).mapM _ = _
      rw [mapM_ok (g := fun p => if hx : p.1 ∈ xs then (hlook p.1 hx).choose else p.2), zip_map_self]
      intro p _
      by_cases hx : p.1 ∈ xs
      · rw [if_pos hx, dif_pos hx]
        exact (hlook p.1 hx).choose_spec
      · rw [if_neg hx, dif_neg hx]

/-- C29: The modes `ZERO` and `ONE` yield zero and one everywhere else. -/
theorem C29_zero_one [One β] (log : Logs α β) (xs : List α) (ys : List β) (x : α) (hx : x ∉ xs) :
    scalar log .zero x xs ys = .ok 0 ∧ scalar log .one x xs ys = .ok 1 := by
  unfold scalar decorateScalar
  rw [if_neg hx, if_neg hx]
  exact ⟨rfl, rfl⟩

end Total

/-! ### C29: stairs -/

section Stairs

variable [Field α] [LinearOrder α] [IsStrictOrderedRing α]

/-- the undecorated stairs interpolation -/
theorem stairs_nearest (x : α) (xs : List α) (ys : List β) (h : xs.length = ys.length) (h0 : 0 < xs.length)
    (hs : xs.Pairwise (· < ·)) :
    ∃ (i : Nat) (hi : i < xs.length), stairs x xs ys = .ok (ys[i]'(h ▸ hi)) ∧
      (∀ (j : Nat) (hj : j < xs.length), |x - xs[i]| ≤ |x - xs[j]|) ∧
      ∀ (j : Nat) (hj : j < xs.length), |x - xs[j]| = |x - xs[i]| → j ≤ i := by
  have hi := stairsIndex_lt x xs ys h h0
  obtain ⟨n, hn⟩ : ∃ n, (xs.takeWhile (· < x)).length = n := ⟨_, rfl⟩
  have hnle : n ≤ xs.length := hn ▸ takeWhile_length_le (· < x) xs
  have hlt : ∀ (k : Nat) (hk : k < n), xs[k]'(by omega) < x := by
    intro k hk
    have := takeWhile_lt (· < x) xs k (by omega)
    simpa using this
  have hge : ∀ (k : Nat) (hk : k < xs.length), n ≤ k → x ≤ xs[k] := by
    intro k hk hnk
    have hn' : n < xs.length := by omega
    have h1 : x ≤ xs[n] := by
      have := takeWhile_stop (· < x) xs (by omega)
      simpa [hn] using this
    rcases Nat.lt_or_ge n k with h2 | h2
    · exact h1.trans (pairwise_get hs h2 hk).le
    · have : k = n := by omega
      subst this
      exact h1
  have mono : ∀ (a b : Nat) (hb : b < xs.length) (hab : a ≤ b), xs[a]'(by omega) ≤ xs[b] := by
    intro a b hb hab
    rcases Nat.lt_or_ge a b with h2 | h2
    · exact (pairwise_get hs h2 hb).le
    · have : a = b := by omega
      subst this
      exact le_refl _
  obtain ⟨i, hii⟩ : ∃ i, stairsIndex x xs ys = i := ⟨_, rfl⟩
  have hin : (n < xs.length ∧ i = n) ∨ (n = xs.length ∧ i = n - 1) := by
    rw [← hii]
    unfold stairsIndex
    rw [hn]
    split <;> omega
  rw [hii] at hi
  have step : stairs x xs ys = if |x - xs[i - 1]'(by omega)| < |x - xs[i]| then item ys ((i : Int) - 1)
      else item ys i := by
    unfold stairs
    rw [hii, item_nat xs (i - 1) (by omega), item_nat xs i hi]
    rfl
  rw [step]
  by_cases hc : |x - xs[i - 1]'(by omega)| < |x - xs[i]|
  · rw [if_pos hc]
    have hi0 : 0 < i := by
      by_contra hcon
      have : i = 0 := by omega
      subst this
      simp at hc
    rcases hin with ⟨h1, rfl⟩ | ⟨h1, rfl⟩
    · refine ⟨i - 1, by omega, ?_, ?_, ?_⟩
      · rw [show (i : Int) - 1 = (i - 1 : Nat) by omega, item_nat ys _ (by omega)]
      · intro j hj
        rcases Nat.lt_or_ge j i with h2 | h2
        · rw [abs_of_nonneg (sub_nonneg.mpr (hlt _ (by omega)).le), abs_of_nonneg (sub_nonneg.mpr (hlt _ h2).le)]
          have := mono j (i - 1) (by omega) (by omega)
          linarith
        · refine hc.le.trans ?_
          rw [abs_of_nonpos (sub_nonpos.mpr (hge i hi (le_refl _))), abs_of_nonpos (sub_nonpos.mpr (hge j hj h2))]
          have := mono i j hj h2
          linarith
      · intro j hj he
        by_contra hcon
        have h2 : i ≤ j := by omega
        have : |x - xs[i]| ≤ |x - xs[j]| := by
          rw [abs_of_nonpos (sub_nonpos.mpr (hge i hi (le_refl _))), abs_of_nonpos (sub_nonpos.mpr (hge j hj h2))]
          have := mono i j hj h2
          linarith
        rw [he] at this
        exact absurd hc (not_lt.mpr this)
    · exfalso
      have h2 := hlt (n - 1) (by omega)
      have h3 := hlt (n - 1 - 1) (by omega)
      rw [abs_of_nonneg (sub_nonneg.mpr h2.le), abs_of_nonneg (sub_nonneg.mpr h3.le)] at hc
      have := mono (n - 1 - 1) (n - 1) (by omega) (by omega)
      linarith
  · rw [if_neg hc]
    have hc := not_lt.mp hc
    refine ⟨i, hi, item_nat ys _ (by omega), ?_, ?_⟩
    · intro j hj
      rcases hin with ⟨h1, rfl⟩ | ⟨h1, rfl⟩
      · rcases Nat.lt_or_ge j i with h2 | h2
        · refine hc.trans ?_
          rw [abs_of_nonneg (sub_nonneg.mpr (hlt _ (by omega)).le), abs_of_nonneg (sub_nonneg.mpr (hlt _ h2).le)]
          have := mono j (i - 1) (by omega) (by omega)
          linarith
        · rw [abs_of_nonpos (sub_nonpos.mpr (hge i hi (le_refl _))), abs_of_nonpos (sub_nonpos.mpr (hge j hj h2))]
          have := mono i j hj h2
          linarith
      · rw [abs_of_nonneg (sub_nonneg.mpr (hlt _ (by omega)).le), abs_of_nonneg (sub_nonneg.mpr (hlt j (by omega)).le)]
        have := mono j (n - 1) (by omega) (by omega)
        linarith
    · intro j hj he
      by_contra hcon
      have h2 : i < j := by omega
      rcases hin with ⟨h1, rfl⟩ | ⟨h1, rfl⟩
      · rw [abs_of_nonpos (sub_nonpos.mpr (hge i hi (le_refl _))), abs_of_nonpos (sub_nonpos.mpr (hge j hj h2.le))] at he
        have := pairwise_get hs h2 hj
        linarith
      · omega

variable [AddCommGroup β] [Module α β] [One β]

/-- C29: The linear stairs interpolation yields the value of the nearest supporting point. In the middle of two
supporting points, it is the one with the larger x value. -/
theorem C29_stairs_lin (log : Logs α β) (x : α) (xs : List α) (ys : List β) (h : xs.length = ys.length)
    (h0 : 0 < xs.length) (hs : xs.Pairwise (· < ·)) :
    ∃ (i : Nat) (hi : i < xs.length), scalar log .stairsLin x xs ys = .ok (ys[i]'(h ▸ hi)) ∧
      (∀ (j : Nat) (hj : j < xs.length), |x - xs[i]| ≤ |x - xs[j]|) ∧
      ∀ (j : Nat) (hj : j < xs.length), |x - xs[j]| = |x - xs[i]| → j ≤ i := by
  by_cases hx : x ∈ xs
  · obtain ⟨i, hi, h2, h3⟩ := exists_first x xs hx
    have hxi : xs[i] = x := by
      rw [List.getElem?_eq_getElem hi] at h2
      exact Option.some.inj h2
    refine ⟨i, hi, C29_supporting_points log _ xs ys h i x _ h2 (List.getElem?_eq_getElem (by omega)) h3, ?_, ?_⟩
    · intro j hj
      rw [hxi, sub_self, abs_zero]
      exact abs_nonneg _
    · intro j hj he
      rw [hxi, sub_self, abs_zero, abs_eq_zero, sub_eq_zero] at he
      by_contra hcon
      have := pairwise_get hs (show i < j by omega) hj
      rw [← he, hxi] at this
      exact lt_irrefl _ this
  · unfold scalar decorateScalar
    rw [if_neg hx]
    exact stairs_nearest x xs ys h h0 hs

/-- C29: The logarithmic stairs interpolation yields the value of the supporting point, that is the nearest one on a
logarithmic scale. -/
theorem C29_stairs_log (log : Logs α β) (hlog : ∀ a b, 0 < a → a < b → log.x a < log.x b) (x : α) (hx0 : 0 < x)
    (xs : List α) (hpos : ∀ t ∈ xs, 0 < t) (ys : List β) (h : xs.length = ys.length)
    (h0 : 0 < xs.length) (hs : xs.Pairwise (· < ·)) :
    ∃ (i : Nat) (hi : i < xs.length), scalar log .stairsLog x xs ys = .ok (ys[i]'(h ▸ hi)) ∧
      ∀ (j : Nat) (hj : j < xs.length), |log.x x - log.x xs[i]| ≤ |log.x x - log.x xs[j]| := by
  have hle : ∀ a b, 0 < a → a ≤ b → log.x a ≤ log.x b := by
    intro a b ha hab
    rcases lt_or_eq_of_le hab with h | rfl
    · exact (hlog a b ha h).le
    · exact le_refl _
  by_cases hx : x ∈ xs
  · obtain ⟨i, hi, h2, h3⟩ := exists_first x xs hx
    have hxi : xs[i] = x := by
      rw [List.getElem?_eq_getElem hi] at h2
      exact Option.some.inj h2
    refine ⟨i, hi, C29_supporting_points log _ xs ys h i x _ h2 (List.getElem?_eq_getElem (by omega)) h3, ?_⟩
    intro j hj
    rw [hxi, sub_self, abs_zero]
    exact abs_nonneg _
  · unfold scalar decorateScalar
    rw [if_neg hx]
    show ∃ (i : Nat) (hi : i < xs.length), stairsLogScalar log.x x xs ys = _ ∧ _
    obtain ⟨lo, l1, l2, l3⟩ := minimum_spec xs h0
    obtain ⟨hi, m1, m2, m3⟩ := maximum_spec xs h0
    unfold stairsLogScalar
    rw [l1, m1]
    show ∃ (i : Nat) (hi' : i < xs.length), (if x < lo then lookup lo xs ys else if hi < x then lookup hi xs ys
      else stairs (log.x x) (xs.map log.x) ys) = _ ∧ _
    by_cases hxlo : x < lo
    · rw [if_pos hxlo]
      obtain ⟨i, hi, h2, h3⟩ := exists_first lo xs l2
      have hxi : xs[i] = lo := by
        rw [List.getElem?_eq_getElem hi] at h2
        exact Option.some.inj h2
      refine ⟨i, hi, lookup_first lo xs ys h i _ h2 (List.getElem?_eq_getElem (by omega)) h3, ?_⟩
      intro j hj
      have a1 := hlog x lo hx0 hxlo
      have a2 := hle lo xs[j] (hx0.trans hxlo) (l3 _ (List.getElem_mem hj))
      rw [hxi, abs_of_nonpos (by linarith), abs_of_nonpos (by linarith)]
      linarith
    · rw [if_neg hxlo]
      by_cases hxhi : hi < x
      · rw [if_pos hxhi]
        obtain ⟨i, hi', h2, h3⟩ := exists_first hi xs m2
        have hxi : xs[i] = hi := by
          rw [List.getElem?_eq_getElem hi'] at h2
          exact Option.some.inj h2
        refine ⟨i, hi', lookup_first hi xs ys h i _ h2 (List.getElem?_eq_getElem (by omega)) h3, ?_⟩
        intro j hj
        have a1 := hlog hi x (hpos _ m2) hxhi
        have a2 := hle xs[j] hi (hpos _ (List.getElem_mem hj)) (m3 _ (List.getElem_mem hj))
        rw [hxi, abs_of_nonneg (by linarith), abs_of_nonneg (by linarith)]
        linarith
      · rw [if_neg hxhi]
        have hsl : (xs.map log.x).Pairwise (· < ·) := by
          rw [List.pairwise_map]
          refine List.Pairwise.imp_of_mem ?_ hs
          intro a b ha _ hab
          exact hlog a b (hpos a ha) hab
        obtain ⟨i, hi, h1, h2, _⟩ := stairs_nearest (log.x x) (xs.map log.x) ys (by simpa using h) (by simpa using h0) hsl
        refine ⟨i, by simpa using hi, h1, ?_⟩
        intro j hj
        have := h2 j (by simpa using hj)
        simpa using this

end Stairs

/-! ### C29: linear -/

section Linear

variable [Field α] [LinearOrder α] [IsStrictOrderedRing α] [AddCommGroup β] [Module α β]

/-- between two neighbouring supporting points -/
theorem interp_between (x : α) (xs : List α) (ys : List β) (h : xs.length = ys.length) (hs : xs.Pairwise (· < ·))
    (i : Nat) (hi : i + 1 < xs.length) (hx0 : xs[i] ≤ x) (hx1 : x < xs[i + 1]) :
    interp x xs ys = .ok ((x - xs[i]) • ((xs[i + 1] - xs[i])⁻¹ • (ys[i + 1]'(by omega) - ys[i]'(by omega)))
      + ys[i]'(by omega)) := by
  obtain ⟨j, hj⟩ : ∃ j, (xs.takeWhile (· ≤ x)).length = j := ⟨_, rfl⟩
  have hjle : j ≤ xs.length := hj ▸ takeWhile_length_le (· ≤ x) xs
  have hlt : ∀ (k : Nat) (hk : k < j), xs[k]'(by omega) ≤ x := by
    intro k hk
    have := takeWhile_lt (· ≤ x) xs k (by omega)
    simpa using this
  have hij : j = i + 1 := by
    have h1 : ¬ i + 1 < j := fun hcon => absurd (hlt (i + 1) hcon) (not_le.mpr hx1)
    have h2 : ¬ j < i + 1 := by
      intro hcon
      have h3 : ¬ xs[j]'(by omega) ≤ x := by
        have := takeWhile_stop (· ≤ x) xs (by omega)
        simpa [hj] using this
      apply h3
      rcases Nat.lt_or_ge j i with h4 | h4
      · exact (pairwise_get hs h4 (by omega)).le.trans hx0
      · have : j = i := by omega
        subst this
        exact hx0
    omega
  unfold interp
  rw [hj, if_neg (by omega), if_neg (by omega), if_neg (by omega), if_neg (by omega)]
  rw [show (j : Int) - 1 = (i : Nat) by omega, hij]
  rw [item_nat xs i (by omega), item_nat xs (i + 1) (by omega), item_nat ys i (by omega), item_nat ys (i + 1) (by omega)]
  rfl

theorem exists_segment (x : α) (xs : List α) (h2 : 1 < xs.length) (h0 : xs[0] ≤ x)
    (h1 : x < xs[xs.length - 1]) : ∃ (i : Nat) (hi : i + 1 < xs.length), xs[i] ≤ x ∧ x < xs[i + 1] := by
  obtain ⟨j, hj⟩ : ∃ j, (xs.takeWhile (· ≤ x)).length = j := ⟨_, rfl⟩
  have hjle : j ≤ xs.length := hj ▸ takeWhile_length_le (· ≤ x) xs
  have hlt : ∀ (k : Nat) (hk : k < j), xs[k]'(by omega) ≤ x := by
    intro k hk
    have := takeWhile_lt (· ≤ x) xs k (by omega)
    simpa using this
  have hjl : j < xs.length := by
    by_contra hcon
    exact absurd (hlt (xs.length - 1) (by omega)) (not_le.mpr h1)
  have hstop : x < xs[j] := by
    have := takeWhile_stop (· ≤ x) xs (by omega)
    simpa [hj] using this
  have hj0 : 0 < j := by
    by_contra hcon
    have : j = 0 := by omega
    subst this
    exact absurd h0 (not_le.mpr hstop)
  refine ⟨j - 1, by omega, hlt _ (by omega), ?_⟩
  simpa only [show j - 1 + 1 = j by omega] using hstop

/-- the undecorated linear interpolation in all cases -/
theorem linear_cases (x : α) (xs : List α) (ys : List β) (h : xs.length = ys.length) (h2 : 1 < xs.length)
    (hs : xs.Pairwise (· < ·)) (hx : x ∉ xs) :
    ∃ (i : Nat) (hi : i + 1 < xs.length), ((xs[i] < x ∧ x < xs[i + 1]) ∨ (i = 0 ∧ x < xs[i]) ∨
      (i + 2 = xs.length ∧ xs[i + 1] < x)) ∧ linearScalar x xs ys = .ok
        ((ys[i]'(by omega)) + ((x - xs[i]) / (xs[i + 1] - xs[i])) • (ys[i + 1]'(by omega) - ys[i]'(by omega))) := by
  have step : linearScalar x xs ys = if x < xs[0] then below x xs ys
      else if xs[xs.length - 1] < x then above x xs ys else interp x xs ys := by
    unfold linearScalar
    have e3 : item xs (-1) = .ok (xs[xs.length - 1]'(by omega)) := item_neg xs 1 (by omega) (by omega)
    rw [if_neg (by omega), item_zero xs (by omega), e3]
    rfl
  rw [step]
  by_cases hb : x < xs[0]
  · rw [if_pos hb]
    refine ⟨0, h2, .inr (.inl ⟨rfl, hb⟩), ?_⟩
    rw [below_total x xs ys h h2]
    congr 1
    unfold line
    have hd : xs[1] - xs[0] ≠ 0 := sub_ne_zero.mpr (pairwise_get hs (by omega) h2).ne'
    rw [div_eq_mul_inv]
    simp only [Nat.zero_add]
    module
  · rw [if_neg hb]
    by_cases ha : xs[xs.length - 1] < x
    · rw [if_pos ha]
      obtain ⟨n, hn⟩ : ∃ n, xs.length = n + 2 := ⟨xs.length - 2, by omega⟩
      refine ⟨n, by omega, .inr (.inr ⟨hn.symm, ?_⟩), ?_⟩
      · simpa only [show xs.length - 1 = n + 1 by omega] using ha
      unfold above
      have e1 : item ys (-1) = .ok (ys[n + 1]'(by omega)) := by
        have := item_neg ys 1 (by omega) (by omega)
        simp only [show ys.length - 1 = n + 1 by omega] at this
        exact this
      have e2 : item ys (-2) = .ok (ys[n]'(by omega)) := by
        have := item_neg ys 2 (by omega) (by omega)
        simp only [show ys.length - 2 = n by omega] at this
        exact this
      have e4 : item xs (-1) = .ok (xs[n + 1]'(by omega)) := by
        have := item_neg xs 1 (by omega) (by omega)
        simp only [show xs.length - 1 = n + 1 by omega] at this
        exact this
      have e5 : item xs (-2) = .ok (xs[n]'(by omega)) := by
        have := item_neg xs 2 (by omega) (by omega)
        simp only [show xs.length - 2 = n by omega] at this
        exact this
      rw [e1, e2, e4, e5]
      show Except.ok _ = _
      congr 1
      obtain ⟨x0, hx0⟩ : ∃ x0, xs[n] = x0 := ⟨_, rfl⟩
      obtain ⟨x1, hx1⟩ : ∃ x1, xs[n + 1] = x1 := ⟨_, rfl⟩
      have hd : x1 - x0 ≠ 0 := by
        rw [← hx0, ← hx1]
        exact sub_ne_zero.mpr (pairwise_get hs (by omega) (by omega)).ne'
      rw [hx0, hx1]
      obtain ⟨y0, hy0⟩ : ∃ y0, ys[n]'(by omega) = y0 := ⟨_, rfl⟩
      obtain ⟨y1, hy1⟩ : ∃ y1, ys[n + 1]'(by omega) = y1 := ⟨_, rfl⟩
      rw [hy0, hy1]
      have hone : (x1 - x0) • ((x1 - x0)⁻¹ • (y1 - y0)) = y1 - y0 := smul_inv_smul₀ hd _
      obtain ⟨d, hdd⟩ : ∃ d, (x1 - x0)⁻¹ • (y1 - y0) = d := ⟨_, rfl⟩
      rw [div_eq_mul_inv, mul_smul, hdd]
      rw [hdd] at hone
      have : y1 = y0 + (x1 - x0) • d := by rw [hone]; abel
      rw [this]
      module
    · rw [if_neg ha]
      have hb := not_lt.mp hb
      have ha : x < xs[xs.length - 1] := lt_of_le_of_ne (not_lt.mp ha) fun hcon => hx (hcon ▸ List.getElem_mem _)
      obtain ⟨i, hi, s1, s2⟩ := exists_segment x xs h2 hb ha
      refine ⟨i, hi, .inl ⟨lt_of_le_of_ne s1 fun hcon => hx (hcon ▸ List.getElem_mem _), s2⟩, ?_⟩
      rw [interp_between x xs ys h hs i hi s1 s2]
      congr 1
      rw [div_eq_mul_inv, mul_smul, add_comm]

/-- C29: The linear interpolation is located on the straight line between the two neighbouring supporting points; it is
extrapolated with the line through the first or last two of them. -/
theorem C29_linear [One β] (log : Logs α β) (x : α) (xs : List α) (ys : List β) (h : xs.length = ys.length)
    (h2 : 1 < xs.length) (hs : xs.Pairwise (· < ·)) :
    ∃ (i : Nat) (hi : i + 1 < xs.length), ((xs[i] ≤ x ∧ x ≤ xs[i + 1]) ∨ (i = 0 ∧ x < xs[i]) ∨
      (i + 2 = xs.length ∧ xs[i + 1] < x)) ∧ scalar log .linear x xs ys = .ok
        ((ys[i]'(by omega)) + ((x - xs[i]) / (xs[i + 1] - xs[i])) • (ys[i + 1]'(by omega) - ys[i]'(by omega))) := by
  by_cases hx : x ∈ xs
  · obtain ⟨i, hi, p2, p3⟩ := exists_first x xs hx
    have hxi : xs[i] = x := by
      rw [List.getElem?_eq_getElem hi] at p2
      exact Option.some.inj p2
    rw [C29_supporting_points log _ xs ys h i x _ p2 (List.getElem?_eq_getElem (by omega)) p3]
    by_cases hl : i + 1 < xs.length
    · refine ⟨i, hl, .inl ⟨hxi.le, ?_⟩, ?_⟩
      · rw [← hxi]
        exact (pairwise_get hs (by omega) hl).le
      · rw [hxi, sub_self, zero_div, zero_smul, add_zero]
    · obtain ⟨k, rfl⟩ : ∃ k, i = k + 1 := ⟨i - 1, by omega⟩
      refine ⟨k, by omega, .inl ⟨?_, hxi.ge⟩, ?_⟩
      · rw [← hxi]
        exact (pairwise_get hs (by omega) hi).le
      · have hd : xs[k + 1] - xs[k] ≠ 0 := sub_ne_zero.mpr (pairwise_get hs (by omega) hi).ne'
        rw [← hxi, div_self hd, one_smul]
        congr 1
        abel
  · obtain ⟨i, hi, c, e⟩ := linear_cases x xs ys h h2 hs hx
    refine ⟨i, hi, ?_, ?_⟩
    · rcases c with c | c | c
      · exact .inl ⟨c.1.le, c.2.le⟩
      · exact .inr (.inl c)
      · exact .inr (.inr c)
    · unfold scalar decorateScalar
      rw [if_neg hx]
      exact e

theorem linearScalar_affine (x : α) (xs : List α) (ys : List β) (h2 : 1 < xs.length) (hs : xs.Pairwise (· < ·))
    (hx : x ∉ xs) (a b : β) (hy : ys = xs.map fun t => t • a + b) : linearScalar x xs ys = .ok (x • a + b) := by
  have h : xs.length = ys.length := by rw [hy]; simp
  obtain ⟨i, hi, _, e⟩ := linear_cases x xs ys h h2 hs hx
  rw [e]
  congr 1
  subst hy
  simp only [List.getElem_map]
  have hd : xs[i + 1] - xs[i] ≠ 0 := sub_ne_zero.mpr (pairwise_get hs (by omega) hi).ne'
  rw [show xs[i + 1] • a + b - (xs[i] • a + b) = (xs[i + 1] - xs[i]) • a by module, smul_smul, div_mul_cancel₀ _ hd]
  module

/-- C29: The linear interpolation and extrapolation reproduces all straight lines. -/
theorem C29_linear_reproduces [One β] (log : Logs α β) (x : α) (xs : List α) (h2 : 1 < xs.length)
    (hs : xs.Pairwise (· < ·)) (a b : β) :
    scalar log .linear x xs (xs.map fun t => t • a + b) = .ok (x • a + b) := by
  by_cases hx : x ∈ xs
  · obtain ⟨i, hi, p2, p3⟩ := exists_first x xs hx
    exact C29_supporting_points log _ xs _ (by simp) i x _ p2 (by rw [List.getElem?_map, p2]; rfl) p3
  · unfold scalar decorateScalar
    rw [if_neg hx]
    exact linearScalar_affine x xs _ h2 hs hx a b rfl

/-- C29: With only one supporting point, the linear interpolation is constant. -/
theorem C29_single [One β] (log : Logs α β) (x x0 : α) (y0 : β) : scalar log .linear x [x0] [y0] = .ok y0 := by
  by_cases hx : x = x0
  · subst hx
    exact C29_supporting_points log _ [x] [y0] rfl 0 x y0 rfl rfl (by simp)
  · unfold scalar decorateScalar
    rw [if_neg (by simpa using hx)]
    rfl

end Linear

/-! ### C29: logarithmic interpolations of real numbers -/

section Log

/-- `numpy.log2` and `numpy.exp2` for real numbers -/
noncomputable def realLogs : Logs ℝ ℝ := ⟨Real.logb 2, Real.logb 2, fun y => 2 ^ y⟩

theorem realLogs_lt (a b : ℝ) (ha : 0 < a) (h : a < b) : realLogs.x a < realLogs.x b :=
  Real.logb_lt_logb (by norm_num) ha h

theorem sorted_log {xs : List ℝ} (hpos : ∀ t ∈ xs, 0 < t) (hs : xs.Pairwise (· < ·)) :
    (xs.map realLogs.x).Pairwise (· < ·) := by
  rw [List.pairwise_map]
  refine List.Pairwise.imp_of_mem ?_ hs
  intro a b ha _ hab
  exact realLogs_lt a b (hpos a ha) hab

theorem log_notMem {xs : List ℝ} (hpos : ∀ t ∈ xs, 0 < t) {x : ℝ} (hx0 : 0 < x) (hx : x ∉ xs) :
    realLogs.x x ∉ xs.map realLogs.x := by
  intro hcon
  obtain ⟨t, ht, he⟩ := List.mem_map.mp hcon
  have : t = x := Real.logb_injOn_pos (by norm_num) (hpos t ht) hx0 he
  exact hx (this ▸ ht)

/-- C29: The logarithmic interpolation reproduces power laws. -/
theorem C29_logarithmic_reproduces (x : ℝ) (hx0 : 0 < x) (xs : List ℝ) (hpos : ∀ t ∈ xs, 0 < t) (h2 : 1 < xs.length)
    (hs : xs.Pairwise (· < ·)) (c p : ℝ) (hc : 0 < c) :
    scalar realLogs .logarithmic x xs (xs.map fun t => c * t ^ p) = .ok (c * x ^ p) := by
  by_cases hx : x ∈ xs
  · obtain ⟨i, hi, p2, p3⟩ := exists_first x xs hx
    exact C29_supporting_points _ _ xs _ (by simp) i x _ p2 (by rw [List.getElem?_map, p2]; rfl) p3
  · unfold scalar decorateScalar
    rw [if_neg hx]
    show (linearScalar (realLogs.x x) (xs.map realLogs.x) ((xs.map fun t => c * t ^ p).map realLogs.y) >>= _) = _
    have hval : ∀ t : ℝ, 0 < t → Real.logb 2 (c * t ^ p) = Real.logb 2 t * p + Real.logb 2 c := by
      intro t ht
      rw [Real.logb_mul hc.ne' (Real.rpow_pos_of_pos ht p).ne', Real.logb_rpow_eq_mul_logb_of_pos ht]
      ring
    rw [linearScalar_affine (realLogs.x x) (xs.map realLogs.x) _ (by simpa using h2) (sorted_log hpos hs)
      (log_notMem hpos hx0 hx) p (Real.logb 2 c)]
    · show Except.ok ((2 : ℝ) ^ (Real.logb 2 x * p + Real.logb 2 c)) = _
      rw [← hval x hx0, Real.rpow_logb (by norm_num) (by norm_num) (mul_pos hc (Real.rpow_pos_of_pos hx0 p))]
    · rw [List.map_map, List.map_map]
      apply List.map_congr_left
      intro t ht
      exact hval t (hpos t ht)

/-- C29: The interpolation with a logarithmic x axis reproduces logarithms. -/
theorem C29_log_x_reproduces (x : ℝ) (hx0 : 0 < x) (xs : List ℝ) (hpos : ∀ t ∈ xs, 0 < t) (h2 : 1 < xs.length)
    (hs : xs.Pairwise (· < ·)) (a b : ℝ) :
    scalar realLogs .logX x xs (xs.map fun t => a * Real.log t + b) = .ok (a * Real.log x + b) := by
  by_cases hx : x ∈ xs
  · obtain ⟨i, hi, p2, p3⟩ := exists_first x xs hx
    exact C29_supporting_points _ _ xs _ (by simp) i x _ p2 (by rw [List.getElem?_map, p2]; rfl) p3
  · unfold scalar decorateScalar
    rw [if_neg hx]
    show linearScalar (realLogs.x x) (xs.map realLogs.x) (xs.map fun t => a * Real.log t + b) = _
    have hlog2 : Real.log 2 ≠ 0 := (Real.log_pos (by norm_num)).ne'
    have hval : ∀ t : ℝ, a * Real.log t + b = Real.logb 2 t * (a * Real.log 2) + b := by
      intro t
      unfold Real.logb
      field_simp
    rw [linearScalar_affine (realLogs.x x) (xs.map realLogs.x) _ (by simpa using h2) (sorted_log hpos hs)
      (log_notMem hpos hx0 hx) (a * Real.log 2) b]
    · rw [hval x]
      rfl
    · rw [List.map_map]
      apply List.map_congr_left
      intro t ht
      exact hval t

/-- C29: The interpolation with a logarithmic y axis reproduces exponential functions. -/
theorem C29_log_y_reproduces (x : ℝ) (xs : List ℝ) (h2 : 1 < xs.length) (hs : xs.Pairwise (· < ·)) (c k : ℝ)
    (hc : 0 < c) :
    scalar realLogs .logY x xs (xs.map fun t => c * Real.exp (k * t)) = .ok (c * Real.exp (k * x)) := by
  by_cases hx : x ∈ xs
  · obtain ⟨i, hi, p2, p3⟩ := exists_first x xs hx
    exact C29_supporting_points _ _ xs _ (by simp) i x _ p2 (by rw [List.getElem?_map, p2]; rfl) p3
  · unfold scalar decorateScalar
    rw [if_neg hx]
    show (linearScalar x xs ((xs.map fun t => c * Real.exp (k * t)).map realLogs.y) >>= _) = _
    have hval : ∀ t : ℝ, Real.logb 2 (c * Real.exp (k * t)) = t * (k / Real.log 2) + Real.logb 2 c := by
      intro t
      rw [Real.logb_mul hc.ne' (Real.exp_pos _).ne']
      unfold Real.logb
      rw [Real.log_exp]
      ring
    rw [linearScalar_affine x xs _ h2 hs hx (k / Real.log 2) (Real.logb 2 c)]
    · show Except.ok ((2 : ℝ) ^ (x * (k / Real.log 2) + Real.logb 2 c)) = _
      rw [← hval x, Real.rpow_logb (by norm_num) (by norm_num) (mul_pos hc (Real.exp_pos _))]
    · rw [List.map_map]
      apply List.map_congr_left
      intro t ht
      exact hval t

end Log

example : ([1, 2, 4] : List ℚ).Pairwise (· < ·) ∧ 1 < ([1, 2, 4] : List ℚ).length ∧ ∀ t ∈ ([1, 2, 4] : List ℚ), 0 < t := by
  decide +kernel

example : scalar (⟨id, id, id⟩ : Logs ℚ ℚ) .linear 3 [1, 2, 4] [5, 6, 0] = .ok 3 := by decide +kernel
example : scalar (⟨id, id, id⟩ : Logs ℚ ℚ) .stairsLin 3 [1, 2, 4] [5, 6, 0] = .ok 0 := by decide +kernel

end Interpolation
end Verif
