import Verif.TermArrays
import Verif.FilterProps

/-
C144: Evaluating transfer functions in place
-/

namespace Verif
namespace Filter
namespace Arrays

open Interpolation (Mode Logs)

variable {α K : Type} [Field α] [LinearOrder α] [Field K] [DecidableEq K] [Module α K]

/-! ### specification -/

/-- the array is one of the arrays, which the `S` instance and its `TransformedS` instance have stored -/
def Cached (σ : State K) (a : Nat) : Prop := σ.s = some a ∨ ∃ x, σ.transformed = some x ∧ x.s = some a

/-- the element `j` is replaced by zero, when a result is fixed -/
def flag (σ : State K) (j : Nat) : Bool :=
  match σ.transformed with
  | some ⟨_, some mask⟩ => mask j
  | _ => false

/-- the stored arrays have been allocated and contain the values of `s` and `1 / s` for the frequencies. The flags are
those of the elements with `s = 0`, if the array for `1 / s` has been computed. -/
structure Valid (E : Env α K) (n : Nat) (freqs : Nat → α) (σ : State K) : Prop where
  s : ∀ a, σ.s = some a → a < σ.next ∧ ∀ j < n, σ.cells a j = some (E.s (freqs j))
  inverse : ∀ x a, σ.transformed = some x → x.s = some a →
    a < σ.next ∧ ∀ j < n, E.s (freqs j) ≠ 0 → σ.cells a j = some (E.s (freqs j))⁻¹
  computed : ∀ x, σ.transformed = some x → x.s ≠ none → ∀ j < n, flag σ j = decide (E.s (freqs j) = 0)
  uncomputed : ∀ x, σ.transformed = some x → x.s = none → x.invalid = none

/-- the array, in which a result shall be stored, exists and is not used for something else -/
def Usable (σ : State K) (out : Option Nat) : Prop := ∀ o, out = some o → o < σ.next ∧ ¬Cached σ o

/-- from one state to the other, no array has been changed except for `out`, and the newly stored arrays are new -/
structure Extends (σ : State K) (out : Option Nat) (σ' : State K) : Prop where
  next : σ.next ≤ σ'.next
  cells : ∀ a < σ.next, some a ≠ out → σ'.cells a = σ.cells a
  cached : ∀ a < σ.next, Cached σ' a → Cached σ a

/-- an array with the elements `g` has been computed and stored in `out` or in a new array, the flags are `b` -/
structure Computed (E : Env α K) (n : Nat) (freqs : Nat → α) (σ : State K) (out : Option Nat) (p : Nat × State K)
    (g : Nat → Option K) (b : Nat → Bool) : Prop where
  valid : Valid E n freqs p.2
  ext : Extends σ out p.2
  address : out = some p.1 ∨ (out = none ∧ σ.next ≤ p.1)
  bound : p.1 < p.2.next
  free : ¬Cached p.2 p.1
  value : ∀ j < n, p.2.cells p.1 j = g j
  flags : ∀ j < n, flag p.2 j = b j

/-! ### lemmas -/

omit [Field K] [DecidableEq K] in
theorem Extends.refl (σ : State K) (out : Option Nat) : Extends σ out σ := ⟨le_rfl, fun _ _ _ => rfl, fun _ _ h => h⟩

omit [Field K] [DecidableEq K] in
theorem Extends.trans {σ₁ σ₂ σ₃ : State K} {out : Option Nat} (h : Extends σ₁ out σ₂) (k : Extends σ₂ out σ₃) :
    Extends σ₁ out σ₃ :=
  ⟨h.next.trans k.next, fun a ha ho => (k.cells a (ha.trans_le h.next) ho).trans (h.cells a ha ho),
    fun a ha hc => h.cached a ha (k.cached a (ha.trans_le h.next) hc)⟩

omit [Field K] [DecidableEq K] in
theorem Extends.weaken {σ₁ σ₂ : State K} (h : Extends σ₁ none σ₂) (out : Option Nat) : Extends σ₁ out σ₂ :=
  ⟨h.next, fun a ha _ => h.cells a ha (by simp), h.cached⟩

omit [Field K] [DecidableEq K] in
theorem Usable.mono {σ σ' : State K} {out out' : Option Nat} (h : Usable σ out) (e : Extends σ out' σ') :
    Usable σ' out := by
  intro o ho
  obtain ⟨h1, h2⟩ := h o ho
  exact ⟨h1.trans_le e.next, fun hc => h2 (e.cached o h1 hc)⟩

omit [Field K] [DecidableEq K] in
theorem usable_none (σ : State K) : Usable σ none := by
  intro o ho
  cases ho

omit [Field α] [LinearOrder α] [Module α K] in
/-- changing an array, that is not stored, keeps the state valid -/
theorem Valid.write {E : Env α K} {n : Nat} {freqs : Nat → α} {σ : State K} (h : Valid E n freqs σ) (a : Nat)
    (ha : ¬Cached σ a) (c : Nat → Option K) : Valid E n freqs (Arrays.write a c σ) := by
  refine ⟨?_, ?_, h.computed, h.uncomputed⟩
  · intro b hb
    have : b ≠ a := fun e => ha (Or.inl (e ▸ hb))
    simpa [Arrays.write, Function.update_of_ne this] using h.s b hb
  · intro x b hx hb
    have : b ≠ a := fun e => ha (Or.inr ⟨x, hx, e ▸ hb⟩)
    simpa [Arrays.write, Function.update_of_ne this] using h.inverse x b hx hb

omit [Field α] [LinearOrder α] [Module α K] in
theorem Valid.cached_lt {E : Env α K} {n : Nat} {freqs : Nat → α} {σ : State K} (h : Valid E n freqs σ) {a : Nat}
    (ha : Cached σ a) : a < σ.next := by
  rcases ha with ha | ⟨x, hx, ha⟩
  · exact (h.s a ha).1
  · exact (h.inverse x a hx ha).1

omit [Field α] [LinearOrder α] [Module α K] in
theorem Valid.alloc {E : Env α K} {n : Nat} {freqs : Nat → α} {σ : State K} (h : Valid E n freqs σ)
    (c : Nat → Option K) : Valid E n freqs (Arrays.alloc c σ).2 := by
  refine ⟨?_, ?_, h.computed, h.uncomputed⟩
  · intro b hb
    have hl := (h.s b hb).1
    have : b ≠ σ.next := by omega
    refine ⟨Nat.lt_succ_of_lt hl, ?_⟩
    simpa [Arrays.alloc, Function.update_of_ne this] using (h.s b hb).2
  · intro x b hx hb
    have hl := (h.inverse x b hx hb).1
    have : b ≠ σ.next := by omega
    refine ⟨Nat.lt_succ_of_lt hl, ?_⟩
    simpa [Arrays.alloc, Function.update_of_ne this] using (h.inverse x b hx hb).2

omit [Field K] [DecidableEq K] in
theorem extends_alloc (σ : State K) (c : Nat → Option K) (out : Option Nat) : Extends σ out (alloc c σ).2 := by
  refine ⟨Nat.le_succ _, ?_, fun _ _ h => h⟩
  intro a ha _
  have : a ≠ σ.next := by omega
  simp [alloc, Function.update_of_ne this]

omit [Field α] [LinearOrder α] [Module α K] in
/-- writing to the array of the result -/
theorem Computed.write {E : Env α K} {n : Nat} {freqs : Nat → α} {σ : State K} {out : Option Nat} {p : Nat × State K}
    {g : Nat → Option K} {b : Nat → Bool} (h : Computed E n freqs σ out p g b) (c : Nat → Option K) :
    Computed E n freqs σ out (p.1, Arrays.write p.1 c p.2) c b := by
  refine ⟨h.valid.write p.1 h.free c, ⟨h.ext.next, ?_, h.ext.cached⟩, h.address, h.bound, h.free, ?_, h.flags⟩
  · intro a ha ho
    have : a ≠ p.1 := by
      rcases h.address with e | ⟨_, e⟩
      · intro he
        exact ho (he ▸ e.symm)
      · omega
    simpa [Arrays.write, Function.update_of_ne this] using h.ext.cells a ha ho
  · intro j _
    simp [Arrays.write]

omit [Field α] [LinearOrder α] [Module α K] in
theorem Computed.congr {E : Env α K} {n : Nat} {freqs : Nat → α} {σ : State K} {out : Option Nat} {p : Nat × State K}
    {g g' : Nat → Option K} {b b' : Nat → Bool} (h : Computed E n freqs σ out p g b) (hg : ∀ j < n, g j = g' j)
    (hb : ∀ j < n, b j = b' j) : Computed E n freqs σ out p g' b' :=
  ⟨h.valid, h.ext, h.address, h.bound, h.free, fun j hj => (h.value j hj).trans (hg j hj),
    fun j hj => (h.flags j hj).trans (hb j hj)⟩

omit [Field α] [LinearOrder α] [Module α K] in
theorem Computed.before {E : Env α K} {n : Nat} {freqs : Nat → α} {σ₀ σ : State K} {out : Option Nat}
    {p : Nat × State K} {g : Nat → Option K} {b : Nat → Bool} (e : Extends σ₀ none σ)
    (h : Computed E n freqs σ out p g b) : Computed E n freqs σ₀ out p g b :=
  ⟨h.valid, (e.weaken out).trans h.ext, h.address.imp id fun k => ⟨k.1, e.next.trans k.2⟩, h.bound, h.free, h.value,
    h.flags⟩

omit [Field α] [LinearOrder α] [Module α K] in
theorem computed_alloc {E : Env α K} {n : Nat} {freqs : Nat → α} {σ : State K} (h : Valid E n freqs σ)
    (c : Nat → Option K) : Computed E n freqs σ none (alloc c σ) c (flag σ) := by
  refine ⟨h.alloc c, extends_alloc σ c none, Or.inr ⟨rfl, le_rfl⟩, Nat.lt_succ_self _, ?_, ?_, fun _ _ => rfl⟩
  · intro hc
    have : σ.next < σ.next := h.cached_lt (a := σ.next) hc
    omega
  · intro j _
    simp [alloc]

omit [Field α] [LinearOrder α] [Module α K] in
/-- the array `out` with its present contents -/
theorem computed_out {E : Env α K} {n : Nat} {freqs : Nat → α} {σ : State K} (h : Valid E n freqs σ) {o : Nat}
    (ho : Usable σ (some o)) : Computed E n freqs σ (some o) (o, σ) (σ.cells o) (flag σ) :=
  ⟨h, Extends.refl _ _, Or.inl rfl, (ho o rfl).1, (ho o rfl).2, fun _ _ => rfl, fun _ _ => rfl⟩

theorem computed_store {E : Env α K} {n : Nat} {freqs : Nat → α} {σ : State K} (h : Valid E n freqs σ)
    {out : Option Nat} (ho : Usable σ out) (c : Nat → Option K) :
    Computed E n freqs σ out (store out c σ) c (flag σ) := by
  cases out with
  | none => exact computed_alloc h c
  | some o => exact (computed_out h ho).write c

theorem computed_fresh {E : Env α K} {n : Nat} {freqs : Nat → α} {σ : State K} (h : Valid E n freqs σ)
    {out : Option Nat} (ho : Usable σ out) (c : Nat → Option K) :
    Computed E n freqs σ out (fresh c out σ) c (flag σ) := by
  cases out with
  | none => exact computed_alloc h c
  | some o =>
    have e := extends_alloc σ c none
    have k := (computed_out (h.alloc c) (ho.mono e)).write ((alloc c σ).2.cells (alloc c σ).1)
    refine (k.before e).congr ?_ fun _ _ => rfl
    intro j _
    simp [alloc]

/-- an universal function with a computed operand -/
theorem Computed.ufunc1 {E : Env α K} {n : Nat} {freqs : Nat → α} {σ : State K} {out : Option Nat} {p : Nat × State K}
    {g : Nat → Option K} {b : Nat → Bool} (h : Computed E n freqs σ out p g b) (ho : Usable σ out)
    (op : Option K → Option K) : Computed E n freqs σ out (Arrays.ufunc1 op p.1 out p.2) (fun j => op (g j)) b := by
  have k := computed_store h.valid (ho.mono h.ext) fun j => op (p.2.cells p.1 j)
  refine ⟨k.valid, h.ext.trans k.ext, k.address.imp id fun e => ⟨e.1, h.ext.next.trans e.2⟩, k.bound, k.free, ?_, ?_⟩
  · intro j hj
    exact (k.value j hj).trans (congrArg op (h.value j hj))
  · intro j hj
    exact (k.flags j hj).trans (h.flags j hj)

/-- an universal function with two computed operands, the first of which may be stored in `out` -/
theorem Computed.ufunc2 {E : Env α K} {n : Nat} {freqs : Nat → α} {σ : State K} {out out' : Option Nat}
    {p q : Nat × State K} {g g' : Nat → Option K} {b b' : Nat → Bool} (h : Computed E n freqs σ out' p g b)
    (hout : out' = out ∨ out' = none) (k : Computed E n freqs p.2 none q g' b') (ho : Usable σ out)
    (op : Option K → Option K → Option K) :
    Computed E n freqs σ out (Arrays.ufunc2 op p.1 q.1 out q.2) (fun j => op (g j) (g' j)) b' := by
  have e : Extends σ out p.2 := by
    rcases hout with e | e
    · exact e ▸ h.ext
    · subst e
      exact h.ext.weaken out
  have e' := e.trans (k.ext.weaken out)
  have m := computed_store k.valid (ho.mono e') fun j => op (q.2.cells p.1 j) (q.2.cells q.1 j)
  refine ⟨m.valid, e'.trans m.ext, m.address.imp id fun x => ⟨x.1, e'.next.trans x.2⟩, m.bound, m.free, ?_, ?_⟩
  · intro j hj
    refine (m.value j hj).trans ?_
    rw [k.ext.cells p.1 h.bound (by simp), h.value j hj, k.value j hj]
  · intro j hj
    exact (m.flags j hj).trans (k.flags j hj)

/-- the method `fix` -/
theorem Computed.fix {E : Env α K} {n : Nat} {freqs : Nat → α} {σ : State K} {out : Option Nat} {p : Nat × State K}
    {g : Nat → Option K} {b : Nat → Bool} (h : Computed E n freqs σ out p g b) :
    Computed E n freqs σ out (p.1, fixResult p.1 p.2) (fun j => Filter.fix (b j) (g j)) b := by
  have hf := h.flags
  have hv := h.value
  unfold flag at hf
  unfold fixResult
  rcases ht : p.2.transformed with _ | ⟨s, _ | mask⟩
  · rw [ht] at hf
    refine h.congr ?_ fun _ _ => rfl
    intro j hj
    rw [← hf j hj]
    rfl
  · rw [ht] at hf
    refine h.congr ?_ fun _ _ => rfl
    intro j hj
    rw [← hf j hj]
    rfl
  · rw [ht] at hf
    refine (h.write fun j => if mask j then some 0 else p.2.cells p.1 j).congr ?_ fun _ _ => rfl
    intro j hj
    rw [← hf j hj, ← hv j hj]
    rfl

omit [Field α] [LinearOrder α] [Module α K] in
/-- creating the `TransformedS` instance -/
theorem transform_spec {E : Env α K} {n : Nat} {freqs : Nat → α} {σ : State K} (h : Valid E n freqs σ) (t : Bool) :
    (transform t σ).1 = !t ∧ Valid E n freqs (transform t σ).2 ∧ Extends σ none (transform t σ).2 ∧
      ∀ j, flag (transform t σ).2 j = flag σ j := by
  unfold transform
  cases t with
  | true => exact ⟨rfl, h, Extends.refl _ _, fun _ => rfl⟩
  | false =>
    rcases ht : σ.transformed with _ | x
    · refine ⟨rfl, ⟨h.s, ?_, ?_, ?_⟩, ⟨le_rfl, fun _ _ _ => rfl, ?_⟩, ?_⟩
      · intro x a hx ha
        cases hx
        cases ha
      · intro x hx hs
        cases hx
        exact absurd rfl hs
      · intro x hx _
        cases hx
        rfl
      · rintro a _ (ha | ⟨x, hx, ha⟩)
        · exact Or.inl ha
        · cases hx
          cases ha
      · intro j
        simp [flag, ht]
    · exact ⟨rfl, h, Extends.refl _ _, fun _ => rfl⟩

omit [DecidableEq K] in
theorem fix_congr {b : Bool} {x y : Option K} (h : b = false → x = y) : Filter.fix b x = Filter.fix b y := by
  cases b with
  | true => rfl
  | false => exact congrArg _ (h rfl)

/-- `Term.__call__` is correct, if the method `_compute` is correct, except for the elements, that are replaced by zero -/
theorem computed_within' {E : Env α K} {n : Nat} {freqs : Nat → α} {σ : State K} (h : Valid E n freqs σ)
    {out : Option Nat} (ho : Usable σ out) (tr t : Bool) (compute : Bool → State K → Nat × State K)
    (g : Nat → Option K) (b : Nat → Bool)
    (hc : ∀ σ', Valid E n freqs σ' → Usable σ' out → (∀ j, flag σ' j = flag σ j) →
      ∃ g', Computed E n freqs σ' out (compute (t ^^ tr) σ') g' b ∧ ∀ j < n, b j = false → g' j = g j) :
    Computed E n freqs σ out (within tr t σ compute) (fun j => Filter.fix (b j) (g j)) b := by
  unfold within
  cases tr with
  | false =>
    obtain ⟨g', k, hg⟩ := hc σ h ho fun _ => rfl
    simp only [Bool.xor_false] at k
    exact k.fix.congr (fun j hj => fix_congr (hg j hj)) fun _ _ => rfl
  | true =>
    obtain ⟨h1, h2, h3, h4⟩ := transform_spec h t
    obtain ⟨g', k, hg⟩ := hc _ h2 (ho.mono h3) h4
    simp only [Bool.xor_true] at k
    simp only [if_true, h1]
    exact (k.fix.before h3).congr (fun j hj => fix_congr (hg j hj)) fun _ _ => rfl

/-- the same for a method, that computes the correct values -/
theorem computed_within {E : Env α K} {n : Nat} {freqs : Nat → α} {σ : State K} (h : Valid E n freqs σ)
    {out : Option Nat} (ho : Usable σ out) (tr t : Bool) (compute : Bool → State K → Nat × State K)
    (g : Nat → Option K) (b : Nat → Bool)
    (hc : ∀ σ', Valid E n freqs σ' → Usable σ' out → (∀ j, flag σ' j = flag σ j) →
      Computed E n freqs σ' out (compute (t ^^ tr) σ') g b) :
    Computed E n freqs σ out (within tr t σ compute) (fun j => Filter.fix (b j) (g j)) b :=
  computed_within' h ho tr t compute g b fun σ' h' ho' hf => ⟨g, hc σ' h' ho' hf, fun _ _ _ => rfl⟩

omit [Field α] [LinearOrder α] [Module α K] in
/-- the values of `s()` -/
theorem callS_spec {E : Env α K} {n : Nat} {freqs : Nat → α} {σ : State K} (h : Valid E n freqs σ) :
    Valid E n freqs (callS E freqs σ).2 ∧ Extends σ none (callS E freqs σ).2 ∧
      (callS E freqs σ).2.transformed = σ.transformed ∧ (callS E freqs σ).2.s = some (callS E freqs σ).1 := by
  unfold callS
  rcases hs : σ.s with _ | a
  · have k := h.alloc fun j => some (E.s (freqs j))
    have e := extends_alloc σ (fun j => some (E.s (freqs j))) none
    refine ⟨⟨?_, k.inverse, k.computed, k.uncomputed⟩, ⟨e.next, e.cells, ?_⟩, rfl, rfl⟩
    · intro a ha
      cases ha
      exact ⟨Nat.lt_succ_self _, fun j _ => by simp [alloc]⟩
    · rintro a ha (hc | hc)
      · cases hc
        exact absurd ha (lt_irrefl _)
      · exact Or.inr hc
  · exact ⟨h, Extends.refl _ _, rfl, hs⟩

/-- the values of `s()` for a `TransformedS` instance -/
theorem callTransformed_spec {E : Env α K} {n : Nat} {freqs : Nat → α} (junk : Nat → Nat → Option K) {σ : State K}
    (h : Valid E n freqs σ) :
    Valid E n freqs (callTransformed E n freqs junk σ).2 ∧ Extends σ none (callTransformed E n freqs junk σ).2 ∧
      ∃ x, (callTransformed E n freqs junk σ).2.transformed = some x ∧
        x.s = some (callTransformed E n freqs junk σ).1 := by
  by_cases hx : ∃ a m, σ.transformed = some ⟨some a, m⟩
  · obtain ⟨a, m, hx⟩ := hx
    have : callTransformed E n freqs junk σ = (a, σ) := by
      unfold callTransformed
      rw [hx]
    rw [this]
    exact ⟨h, Extends.refl _ _, _, hx, rfl⟩
  · obtain ⟨h1, h2, h3, h4⟩ := callS_spec h
    have key : ∀ (c : Nat → Option K) (m : Option (Nat → Bool)),
        (∀ j < n, E.s (freqs j) ≠ 0 → c j = some (E.s (freqs j))⁻¹) →
        (∀ j < n, (match m with | some mask => mask j | none => false) = decide (E.s (freqs j) = 0)) →
        Valid E n freqs { (alloc c (callS E freqs σ).2).2 with
            transformed := some ⟨some (alloc c (callS E freqs σ).2).1, m⟩ } ∧
          Extends σ none { (alloc c (callS E freqs σ).2).2 with
            transformed := some ⟨some (alloc c (callS E freqs σ).2).1, m⟩ } := by
      intro c m hc hm
      have k := h1.alloc c
      have e := h2.trans (extends_alloc _ c none)
      refine ⟨⟨k.s, ?_, ?_, ?_⟩, ⟨e.next, e.cells, ?_⟩⟩
      · intro x a hx ha
        cases hx
        cases ha
        refine ⟨Nat.lt_succ_self _, fun j hj hs => ?_⟩
        simp only [alloc, Function.update_self]
        exact hc j hj hs
      · intro x hx _ j hj
        rw [← hm j hj]
        cases m <;> rfl
      · intro x hx hs
        cases hx
        cases hs
      · rintro a ha (ha' | ⟨x, hx, ha'⟩)
        · exact e.cached a ha (Or.inl ha')
        · cases hx
          cases ha'
          exact absurd (ha.trans_le h2.next) (lt_irrefl _)
    have hcell : ∀ j < n, (callS E freqs σ).2.cells (callS E freqs σ).1 j = some (E.s (freqs j)) :=
      (h1.s _ h4).2
    have hdef : callTransformed E n freqs junk σ =
        let p := callS E freqs σ
        let zero := fun j => decide (p.2.cells p.1 j = some 0)
        if (List.range n).any zero then
          let q := alloc (fun j => if zero j then junk p.2.next j else (p.2.cells p.1 j).bind fun x => divide 1 x) p.2
          (q.1, { q.2 with transformed := some ⟨some q.1, some zero⟩ })
        else
          let q := alloc (fun j => (p.2.cells p.1 j).bind fun x => divide 1 x) p.2
          (q.1, { q.2 with transformed := some ⟨some q.1, none⟩ }) := by
      unfold callTransformed
      split
      · next a m hx' => exact absurd ⟨a, m, hx'⟩ hx
      · rfl
    rw [hdef]
    dsimp only
    split
    · refine ⟨(key _ _ ?_ ?_).1, (key _ _ ?_ ?_).2, _, rfl, rfl⟩ <;> intro j hj
      · intro hs
        simp [hcell j hj, divide, hs]
      · dsimp only
        rw [hcell j hj]
        simp
      · intro hs
        simp [hcell j hj, divide, hs]
      · dsimp only
        rw [hcell j hj]
        simp
    · next hany =>
      have hnz : ∀ j < n, E.s (freqs j) ≠ 0 := by
        intro j hj hs
        apply hany
        rw [List.any_eq_true]
        exact ⟨j, List.mem_range.2 hj, by simp [hcell j hj, hs]⟩
      refine ⟨(key _ _ ?_ ?_).1, (key _ _ ?_ ?_).2, _, rfl, rfl⟩ <;> intro j hj
      · intro hs
        rw [hcell j hj]
        simp [divide, hs]
      · simp [hnz j hj]
      · intro hs
        rw [hcell j hj]
        simp [divide, hs]
      · simp [hnz j hj]

/-- `s()` for both kinds of instances -/
theorem callVariable_spec {E : Env α K} {n : Nat} {freqs : Nat → α} (junk : Nat → Nat → Option K) {σ : State K}
    (h : Valid E n freqs σ) (t : Bool) (mem : K) :
    Valid E n freqs (callVariable E n freqs junk t σ).2 ∧ Extends σ none (callVariable E n freqs junk t σ).2 ∧
      (∀ j < n, flag (callVariable E n freqs junk t σ).2 j = touch E (freqs j) t (flag σ j)) ∧
      (∀ j < n, touch E (freqs j) t (flag σ j) = false →
        (callVariable E n freqs junk t σ).2.cells (callVariable E n freqs junk t σ).1 j =
          some (sMemory E mem (freqs j) t)) := by
  unfold callVariable
  cases t with
  | false =>
    obtain ⟨h1, h2, h3, h4⟩ := callS_spec h
    refine ⟨h1, h2, ?_, ?_⟩
    · intro j _
      simp [touch, flag, h3]
    · intro j hj _
      simpa [sMemory] using (h1.s _ h4).2 j hj
  | true =>
    obtain ⟨h1, h2, x, h3, h4⟩ := callTransformed_spec junk h
    refine ⟨h1, h2, ?_, ?_⟩
    · intro j hj
      simp only [if_true]
      rw [h1.computed x h3 (by simp [h4]) j hj]
      unfold touch
      by_cases hz : E.s (freqs j) = 0
      · simp [hz]
      · simp only [hz, decide_false, Bool.and_false, Bool.or_false]
        rcases ht : σ.transformed with _ | ⟨s, m⟩
        · simp [flag, ht]
        · cases s with
          | none =>
            have : m = none := h.uncomputed _ ht rfl
            simp [flag, ht, this]
          | some a => simp [h.computed _ ht (by simp) j hj, hz]
    · intro j hj hf
      have hz : E.s (freqs j) ≠ 0 := by
        intro hz
        simp [touch, hz] at hf
      simp only [if_true, sMemory, hz, if_false]
      exact (h1.inverse x _ h3 h4).2 j hj hz

/-- a method, that computes a new array from the values of `s()` -/
theorem computed_variable {E : Env α K} {n : Nat} {freqs : Nat → α} (junk : Nat → Nat → Option K) {σ : State K}
    (h : Valid E n freqs σ) {out : Option Nat} (ho : Usable σ out) (t : Bool)
    (g : (Nat → Option K) → Nat → Option K) :
    let s := callVariable E n freqs junk t σ
    Computed E n freqs σ out (fresh (g (s.2.cells s.1)) out s.2) (g (s.2.cells s.1))
      (fun j => touch E (freqs j) t (flag σ j)) := by
  obtain ⟨h1, h2, h3, -⟩ := callVariable_spec junk h t 0
  exact ((computed_fresh h1 (ho.mono h2) _).before h2).congr (fun _ _ => rfl) h3

theorem bands_spec {E : Env α K} {n : Nat} {freqs : Nat → α} (junk : Nat → Nat → Option K) {σ : State K}
    (h : Valid E n freqs σ) {out : Option Nat} (ho : Usable σ out) (xs : List α) (ys : List K) (i e : Mode) :
    Computed E n freqs σ out (bands E freqs junk xs ys i e out σ) (fun j => bandsAt E (freqs j) xs ys i e) (flag σ) := by
  have hp : ∃ g, Computed E n freqs σ out (match out with
      | none => alloc (junk σ.next) σ
      | some o => (o, σ)) g (flag σ) := by
    cases out with
    | none => exact ⟨_, computed_alloc h _⟩
    | some o => exact ⟨_, computed_out h ho⟩
  obtain ⟨g, hp⟩ := hp
  unfold bands
  cases xs with
  | nil => exact (hp.write fun _ => some 0).congr (fun _ _ => rfl) fun _ _ => rfl
  | cons x l =>
    refine ((hp.write _).write _).congr ?_ fun _ _ => rfl
    intro j _
    simp only [writeMask, write, Function.update_self, bandsAt]
    by_cases hc : freqs j < x ∨ (x :: l).getLast (List.cons_ne_nil x l) < freqs j
    · rw [if_pos hc]
      rcases hc with hc | hc <;> simp [hc]
    · rw [if_neg hc]
      obtain ⟨h1, h2⟩ := not_or.1 hc
      simp [h1, h2]

/-- the value of a sum or a product -/
def combine (op : Option K → Option K → Option K) : List (Option K) → Option K
  | [] => some 0
  | v :: l => l.foldl op v

omit [DecidableEq K] in
theorem sumValues_combine (l : List (Option K)) : sumValues l = combine addCells l := by cases l <;> rfl

omit [DecidableEq K] in
theorem productValues_combine (l : List (Option K)) : productValues l = combine mulCells l := by cases l <;> rfl

/-- The arrays contain the values for the single frequencies -/
theorem call_spec (E : Env α K) (n : Nat) (freqs : Nat → α) (junk : Nat → Nat → Option K) (mem : K) (a : Term α K) :
    ∀ t out σ, Valid E n freqs σ → Usable σ out → Computed E n freqs σ out (call E n freqs junk a t out σ)
      (fun j => (evalState E mem (freqs j) t a (flag σ j)).1) (fun j => (evalState E mem (freqs j) t a (flag σ j)).2) := by
  refine Term.rec (motive_1 := fun a => ∀ t out σ, Valid E n freqs σ → Usable σ out →
      Computed E n freqs σ out (call E n freqs junk a t out σ)
        (fun j => (evalState E mem (freqs j) t a (flag σ j)).1) (fun j => (evalState E mem (freqs j) t a (flag σ j)).2))
    (motive_2 := fun l => (∀ op t out σ p g b, Usable σ out → Computed E n freqs σ out p g b →
        Computed E n freqs σ out (callRest E n freqs junk op l t out p.1 p.2)
          (fun j => (evalStateList E mem (freqs j) t l (b j)).1.foldl op (g j))
          (fun j => (evalStateList E mem (freqs j) t l (b j)).2)) ∧
      ∀ op t out σ, Valid E n freqs σ → Usable σ out →
        Computed E n freqs σ out (callAll E n freqs junk op l t out σ)
          (fun j => combine op (evalStateList E mem (freqs j) t l
            (if l.length = 0 then touch E (freqs j) t (flag σ j) else flag σ j)).1)
          (fun j => (evalStateList E mem (freqs j) t l
            (if l.length = 0 then touch E (freqs j) t (flag σ j) else flag σ j)).2))
    ?_ ?_ ?_ ?_ ?_ ?_ ?_ ?_ ?_ ?_ ?_ ?_ a
  · intro v t out σ h ho
    simp only [evalState, call]
    refine computed_within h ho false t _ _ _ ?_
    intro σ' h' ho' hf
    simp only [Bool.xor_false]
    refine (computed_variable junk h' ho' t fun _ _ => some v).congr (fun _ _ => rfl) fun j _ => by rw [hf]
  · intro cs tr t out σ h ho
    simp only [evalState, call]
    refine computed_within' h ho tr t _ _ _ ?_
    intro σ' h' ho' hf
    obtain ⟨-, -, -, h4⟩ := callVariable_spec junk h' (t ^^ tr) mem
    refine ⟨_, (computed_variable junk h' ho' (t ^^ tr) fun c j => (c j).map (polyval cs)).congr (fun _ _ => rfl)
      fun j _ => by rw [hf], ?_⟩
    intro j hj hb
    rw [h4 j hj (by rw [hf]; exact hb), Option.map_some]
  · intro c tr t out σ h ho
    simp only [evalState, call]
    refine computed_within' h ho tr t _ _ _ ?_
    intro σ' h' ho' hf
    obtain ⟨h1, h2, h3, h4⟩ := callVariable_spec junk h' (t ^^ tr) mem
    have k := (((computed_store h1 (ho'.mono h2) fun j => ((callVariable E n freqs junk (t ^^ tr) σ').2.cells
      (callVariable E n freqs junk (t ^^ tr) σ').1 j).map fun x => c * x).before h2).ufunc1 ho' fun x => x.map E.exp)
    refine ⟨_, k.congr (fun _ _ => rfl) fun j hj => by rw [h3 j hj, hf], ?_⟩
    intro j hj hb
    rw [h4 j hj (by rw [hf]; exact hb), Option.map_some, Option.map_some]
  · intro xs ys i e t out σ h ho
    simp only [evalState, call]
    refine computed_within h ho false t _ _ _ ?_
    intro σ' h' ho' hf
    exact (bands_spec junk h' ho' xs ys i e).congr (fun _ _ => rfl) fun j _ => hf j
  · intro v tr ih t out σ h ho
    simp only [evalState, call]
    refine computed_within h ho tr t _ _ _ ?_
    intro σ' h' ho' hf
    have k := (ih (t ^^ tr) out σ' h' ho').ufunc1 ho' fun x => x.map E.abs
    simpa only [hf] using k
  · intro v tr ih t out σ h ho
    simp only [evalState, call]
    refine computed_within h ho tr t _ _ _ ?_
    intro σ' h' ho' hf
    have k := (ih (t ^^ tr) out σ' h' ho').ufunc1 ho' fun x => x.map fun x => -x
    simpa only [hf] using k
  · intro l tr ih t out σ h ho
    simp only [evalState, call, sumValues_combine]
    refine computed_within h ho tr t _ _ _ ?_
    intro σ' h' ho' hf
    have k := ih.2 addCells (t ^^ tr) out σ' h' ho'
    simpa only [hf] using k
  · intro m s tr ihm ihs t out σ h ho
    simp only [evalState, call]
    refine computed_within h ho tr t _ _ _ ?_
    intro σ' h' ho' hf
    have k := ihm (t ^^ tr) none σ' h' (usable_none _)
    have k' := (ihs (t ^^ tr) none _ k.valid (usable_none _)).congr (g' := fun j => (evalState E mem (freqs j) (t ^^ tr) s
      (evalState E mem (freqs j) (t ^^ tr) m (flag σ j)).2).1) (b' := fun j => (evalState E mem (freqs j) (t ^^ tr) s
      (evalState E mem (freqs j) (t ^^ tr) m (flag σ j)).2).2) (fun j hj => by rw [k.flags j hj, hf])
      (fun j hj => by rw [k.flags j hj, hf])
    have k'' := k.ufunc2 (Or.inr rfl) k' ho' subCells
    simpa only [hf, subCells] using k''
  · intro l tr ih t out σ h ho
    simp only [evalState, call, productValues_combine]
    refine computed_within h ho tr t _ _ _ ?_
    intro σ' h' ho' hf
    have k := ih.2 mulCells (t ^^ tr) out σ' h' ho'
    simpa only [hf] using k
  · intro m s tr ihm ihs t out σ h ho
    simp only [evalState, call]
    refine computed_within h ho tr t _ _ _ ?_
    intro σ' h' ho' hf
    have k := ihm (t ^^ tr) none σ' h' (usable_none _)
    have k' := (ihs (t ^^ tr) none _ k.valid (usable_none _)).congr (g' := fun j => (evalState E mem (freqs j) (t ^^ tr) s
      (evalState E mem (freqs j) (t ^^ tr) m (flag σ j)).2).1) (b' := fun j => (evalState E mem (freqs j) (t ^^ tr) s
      (evalState E mem (freqs j) (t ^^ tr) m (flag σ j)).2).2) (fun j hj => by rw [k.flags j hj, hf])
      (fun j hj => by rw [k.flags j hj, hf])
    have k'' := k.ufunc2 (Or.inr rfl) k' ho' divCells
    simpa only [hf, divCells] using k''
  · refine ⟨?_, ?_⟩
    · intro op t out σ p g b _ hp
      simpa only [callRest, evalStateList, List.foldl_nil] using hp
    · intro op t out σ h ho
      simp only [callAll, evalStateList, combine, List.length_nil, if_true]
      exact computed_variable junk h ho t fun _ _ => some 0
  · intro a l iha ihl
    have hrest : ∀ op t out σ p g b, Usable σ out → Computed E n freqs σ out p g b →
        Computed E n freqs σ out (callRest E n freqs junk op (a :: l) t out p.1 p.2)
          (fun j => (evalStateList E mem (freqs j) t (a :: l) (b j)).1.foldl op (g j))
          (fun j => (evalStateList E mem (freqs j) t (a :: l) (b j)).2) := by
      intro op t out σ p g b ho hp
      simp only [callRest, evalStateList, List.foldl_cons]
      have k := (iha t none p.2 hp.valid (usable_none _)).congr (g' := fun j => (evalState E mem (freqs j) t a (b j)).1)
        (b' := fun j => (evalState E mem (freqs j) t a (b j)).2) (fun j hj => by rw [hp.flags j hj])
        (fun j hj => by rw [hp.flags j hj])
      exact ihl.1 op t out σ _ _ _ ho (hp.ufunc2 (Or.inl rfl) k ho op)
    refine ⟨hrest, ?_⟩
    intro op t out σ h ho
    simp only [callAll, evalStateList, combine, List.length_cons, Nat.add_one_ne_zero, if_false]
    exact ihl.1 op t out σ _ _ _ ho (iha t out σ h ho)

/-- the loop of `Filter.spectrum` -/
theorem spectrumLoop_spec (E : Env α K) (n : Nat) (freqs : Nat → α) (junk : Nat → Nat → Option K) (mem : K)
    (l : List (Term α K)) : ∀ (c : Nat) (σ : State K), Valid E n freqs σ → (∀ i < l.length, Usable σ (some (c + i))) →
      (∀ i < l.length, ∀ j < n, (spectrumLoop E n freqs junk l c σ).cells (c + i) j =
        ((evalStateList E mem (freqs j) false l (flag σ j)).1[i]?).getD none) ∧
      ∀ a < σ.next, (a < c ∨ c + l.length ≤ a) → (spectrumLoop E n freqs junk l c σ).cells a = σ.cells a := by
  induction l with
  | nil =>
    intro c σ _ _
    refine ⟨fun i hi => absurd hi (Nat.not_lt_zero i), fun a _ _ => rfl⟩
  | cons a l ih =>
    intro c σ h hu
    have k := call_spec E n freqs junk mem a false (some c) σ h (hu 0 (by simp))
    have hc : (call E n freqs junk a false (some c) σ).1 = c := by
      rcases k.address with e | ⟨e, _⟩
      · exact (Option.some.inj e).symm
      · cases e
    have hlt : c < σ.next := (hu 0 (by simp) c (by simp)).1
    obtain ⟨h1, h2⟩ := ih (c + 1) _ k.valid (by
      intro i hi
      have := (hu (i + 1) (by simpa using hi)).mono k.ext
      rwa [Nat.add_comm i 1, ← Nat.add_assoc] at this)
    simp only [spectrumLoop]
    constructor
    · intro i hi j hj
      simp only [evalStateList]
      cases i with
      | zero =>
        change (spectrumLoop E n freqs junk l (c + 1) (call E n freqs junk a false (some c) σ).2).cells c j = _
        rw [h2 c (hlt.trans_le k.ext.next) (Or.inl (Nat.lt_succ_self c))]
        have := k.value j hj
        rw [hc] at this
        simpa using this
      | succ i =>
        rw [← k.flags j hj]
        have := h1 i (by simpa using hi) j hj
        rw [Nat.add_comm i 1, ← Nat.add_assoc, this, Nat.add_comm 1 i]
        simp
    · intro b hb hcb
      rw [h2 b (hb.trans_le k.ext.next) (by simp only [List.length_cons] at hcb; omega)]
      refine k.ext.cells b hb ?_
      intro e
      cases e
      simp only [List.length_cons] at hcb
      omega

theorem evalStateList_length' (mem : ℂ) (f : ℝ) (t : Bool) (l : List (Term ℝ ℂ)) (b : Bool) :
    (evalStateList complexEnv mem f t l b).1.length = l.length := by
  induction l generalizing b with
  | nil => simp [evalStateList]
  | cons a l ih => simp [evalStateList, ih]

theorem complexEnv_ne (f : ℝ) (hf : f ≠ 0) : complexEnv.s f ≠ 0 := by
  simp [complexEnv, hf, Real.pi_ne_zero]

/-- the loop of `Filter.__call__` -/
theorem callLoop_spec (E : Env α K) (n : Nat) (freqs : Nat → α) (junk : Nat → Nat → Option K) (mem : K)
    (l : List (Term α K)) : ∀ (σ : State K), Valid E n freqs σ →
      (callLoop E n freqs junk l σ).1.length = l.length ∧
      Extends σ none (callLoop E n freqs junk l σ).2 ∧
      (callLoop E n freqs junk l σ).1.Pairwise (· < ·) ∧
      (∀ b ∈ (callLoop E n freqs junk l σ).1, σ.next ≤ b) ∧
      ∀ (i b : Nat), (callLoop E n freqs junk l σ).1[i]? = some b → ∀ j < n, (callLoop E n freqs junk l σ).2.cells b j =
        ((evalStateList E mem (freqs j) false l (flag σ j)).1[i]?).getD none := by
  induction l with
  | nil =>
    intro σ _
    refine ⟨rfl, Extends.refl _ _, List.Pairwise.nil, by simp [callLoop], by simp [callLoop]⟩
  | cons a l ih =>
    intro σ h
    have k := call_spec E n freqs junk mem a false none σ h (usable_none σ)
    have hge : σ.next ≤ (call E n freqs junk a false none σ).1 := by
      rcases k.address with e | ⟨_, e⟩
      · cases e
      · exact e
    obtain ⟨h0, h1, h2, h3, h4⟩ := ih _ k.valid
    simp only [callLoop]
    refine ⟨by simp [h0], k.ext.trans h1, List.pairwise_cons.2 ⟨fun b hb => k.bound.trans_le (h3 b hb), h2⟩, ?_, ?_⟩
    · intro b hb
      rcases List.mem_cons.1 hb with e | hb
      · exact e ▸ hge
      · exact k.ext.next.trans (h3 b hb)
    · intro i b hb j hj
      simp only [evalStateList]
      cases i with
      | zero =>
        simp only [List.getElem?_cons_zero, Option.some.injEq] at hb
        subst hb
        rw [h1.cells _ k.bound (by simp), k.value j hj]
        rfl
      | succ i =>
        simp only [List.getElem?_cons_succ] at hb ⊢
        rw [h4 i b hb j hj, k.flags j hj]

omit [Field α] [LinearOrder α] [Module α K] in
/-- an `S` instance, that has not been used yet, is valid -/
theorem valid_new (E : Env α K) (n : Nat) (freqs : Nat → α) (k : Nat) (cells : Nat → Nat → Option K) :
    Valid E n freqs ⟨k, cells, none, none⟩ := by
  refine ⟨?_, ?_, ?_, ?_⟩
  · intro a ha
    cases ha
  · intro x a hx
    cases hx
  · intro x hx
    cases hx
  · intro x hx
    cases hx

omit [Field K] [DecidableEq K] in
theorem usable_new (k : Nat) (cells : Nat → Nat → Option K) (o : Nat) (ho : o < k) :
    Usable (⟨k, cells, none, none⟩ : State K) (some o) := by
  intro b hb
  cases hb
  refine ⟨ho, ?_⟩
  rintro (h | ⟨x, hx, _⟩)
  · cases h
  · cases hx

/-! ### C144 -/

/-- Specification: the value of a transfer function at a frequency. At 0 Hz, it is zero, if the lowpass-to-highpass
transform is used anywhere in the term. -/
noncomputable def expected (f : ℝ) (a : Term ℝ ℂ) : Option ℂ :=
  if f = 0 ∧ usesTransform false a = true then some 0 else eval complexEnv f false a

theorem expected_evalState (mem : ℂ) (f : ℝ) (a : Term ℝ ℂ) :
    (evalState complexEnv mem f false a false).1 = expected f a := by
  unfold expected
  by_cases hf : f = 0
  · subst hf
    rw [C60_zero_hertz_partial]
    simp
  · have : complexEnv.s f ≠ 0 := complexEnv_ne f hf
    rw [evalState_nonzero complexEnv mem f this]
    simp [hf]

/-- C144: When a transfer function is evaluated with an array, in which the result shall be stored, this array is
returned and contains the values of the transfer function for all frequencies. Neither the previous contents of this
array nor uninitialised memory have an influence. All other arrays, that existed before, are unchanged. -/
theorem C144_out (n : Nat) (freqs : Nat → ℝ) (junk : Nat → Nat → Option ℂ) (a : Term ℝ ℂ) (k : Nat)
    (cells : Nat → Nat → Option ℂ) (o : Nat) (ho : o < k) :
    let r := call complexEnv n freqs junk a false (some o) ⟨k, cells, none, none⟩
    r.1 = o ∧ (∀ j < n, r.2.cells o j = expected (freqs j) a) ∧ ∀ b < k, b ≠ o → r.2.cells b = cells b := by
  have h := call_spec complexEnv n freqs junk 0 a false (some o) ⟨k, cells, none, none⟩
    (valid_new complexEnv n freqs k cells) (usable_new k cells o ho)
  have e : (call complexEnv n freqs junk a false (some o) ⟨k, cells, none, none⟩).1 = o := by
    rcases h.address with e | ⟨e, _⟩
    · exact (Option.some.inj e).symm
    · cases e
  refine ⟨e, ?_, ?_⟩
  · intro j hj
    have := h.value j hj
    rw [e] at this
    exact this.trans (expected_evalState 0 (freqs j) a)
  · intro b hb hbo
    exact h.ext.cells b hb (by simpa using hbo)

example : let a : Term ℝ ℂ := .quotient (.sum [.polynomial [1, 0] false, .constant 1] true) (.constant 2) false
    expected 0 a = some 0 ∧ (0 : Nat) < 2 := by
  simp [expected, usesTransform, usesTransformList]

/-- C144: When a transfer function is evaluated without such an array, a new array is returned and no array, that existed
before, is changed. -/
theorem C144_new (n : Nat) (freqs : Nat → ℝ) (junk : Nat → Nat → Option ℂ) (a : Term ℝ ℂ) (k : Nat)
    (cells : Nat → Nat → Option ℂ) :
    let r := call complexEnv n freqs junk a false none ⟨k, cells, none, none⟩
    k ≤ r.1 ∧ (∀ j < n, r.2.cells r.1 j = expected (freqs j) a) ∧ ∀ b < k, r.2.cells b = cells b := by
  have h := call_spec complexEnv n freqs junk 0 a false none ⟨k, cells, none, none⟩
    (valid_new complexEnv n freqs k cells) (usable_none _)
  refine ⟨?_, ?_, ?_⟩
  · rcases h.address with e | ⟨_, e⟩
    · cases e
    · exact e
  · intro j hj
    exact (h.value j hj).trans (expected_evalState 0 (freqs j) a)
  · intro b hb
    exact h.ext.cells b hb (by simp)

/-- C144: An `S` instance can be used again: a further transfer function, that is evaluated with it, is stored in its own
array. The arrays, which the `S` instance has stored, are not changed and neither is the array of the first result. -/
theorem C144_again (n : Nat) (freqs : Nat → ℝ) (junk : Nat → Nat → Option ℂ) (a b : Term ℝ ℂ) (k : Nat)
    (cells : Nat → Nat → Option ℂ) (o p : Nat) (ho : o < k) (hp : p < k) (hop : o ≠ p) :
    let r := call complexEnv n freqs junk a false (some o) ⟨k, cells, none, none⟩
    let q := call complexEnv n freqs junk b false (some p) r.2
    q.1 = p ∧ (∀ j < n, q.2.cells o j = expected (freqs j) a) ∧
      (∀ j < n, freqs j ≠ 0 → q.2.cells p j = expected (freqs j) b) ∧
      ∀ c, Cached r.2 c → q.2.cells c = r.2.cells c := by
  intro r q
  have h := call_spec complexEnv n freqs junk 0 a false (some o) ⟨k, cells, none, none⟩
    (valid_new complexEnv n freqs k cells) (usable_new k cells o ho)
  have hu := (usable_new k cells p hp).mono h.ext
  have g := call_spec complexEnv n freqs junk 0 b false (some p) r.2 h.valid hu
  have e : q.1 = p := by
    rcases g.address with e | ⟨e, _⟩
    · exact (Option.some.inj e).symm
    · cases e
  refine ⟨e, ?_, ?_, ?_⟩
  · intro j hj
    have hk : k ≤ r.2.next := h.ext.next
    rw [g.ext.cells o (ho.trans_le hk) (by simpa using hop)]
    exact (C144_out n freqs junk a k cells o ho).2.1 j hj
  · intro j hj hf
    have hne : complexEnv.s (freqs j) ≠ 0 := complexEnv_ne _ hf
    have hv := g.value j hj
    have hfl := h.flags j hj
    rw [show flag (⟨k, cells, none, none⟩ : State ℂ) j = false from rfl, evalState_nonzero complexEnv 0 _ hne] at hfl
    rw [hfl, evalState_nonzero complexEnv 0 _ hne, e] at hv
    simpa [expected, hf] using hv
  · intro c hc
    refine g.ext.cells c (h.valid.cached_lt hc) ?_
    intro he
    cases he
    exact (hu p rfl).2 hc

/-- C144: The channels of the spectrum of a filter, which are computed in place in the rows of one matrix, are the samples
of the transfer functions at the multiples of the resolution, as they are computed for each frequency on its own. -/
theorem C144_spectrum (junk : Nat → Nat → Option ℂ) (mem : ℂ) (a : Channels ℝ ℂ) (resolution : ℝ) (length : Nat) :
    (spectrum complexEnv junk a resolution length).rows = (a.spectrum complexEnv mem resolution length).rows ∧
    (spectrum complexEnv junk a resolution length).cols = (a.spectrum complexEnv mem resolution length).cols ∧
    ∀ i < a.transferFunctions.length, ∀ j < length, (spectrum complexEnv junk a resolution length).get i j =
      (a.spectrum complexEnv mem resolution length).get i j := by
  refine ⟨rfl, rfl, ?_⟩
  intro i hi j hj
  have h := (spectrumLoop_spec complexEnv length (fun j => (j : ℝ) * resolution) junk mem a.transferFunctions 0
    ⟨a.transferFunctions.length, junk, none, none⟩ (valid_new _ _ _ _ _)
    fun i hi => usable_new _ _ _ (by simpa using hi)).1 i hi j hj
  rw [Nat.zero_add] at h
  exact h

/-- C144: The samples of the spectrum at positive frequencies -/
theorem C144_samples (junk : Nat → Nat → Option ℂ) (a : Channels ℝ ℂ) (resolution : ℝ) (hr : 0 < resolution)
    (length : Nat) (i : Nat) (hi : i < a.transferFunctions.length) (j : Nat) (hj : j < length) (hj0 : 0 < j) :
    (spectrum complexEnv junk a resolution length).get i j =
      eval complexEnv (j * resolution) false a.transferFunctions[i] := by
  rw [(C144_spectrum junk 0 a resolution length).2.2 i hi j hj, C33_spectrum_partial 0 a resolution hr length i j hi hj0]

example : (0 : ℝ) < 1 / 2 ∧ 0 < 3 ∧ 3 < 4 ∧
    1 < ([.constant 1, .exp 1 true] : List (Term ℝ ℂ)).length := by norm_num

/-- C144: A filter, that is called with an array of frequencies, returns one array for each channel. All of these arrays
are new and different from each other, no array, that existed before, is changed and the values are those, which the
filter has for each frequency on its own. -/
theorem C144_call (n : Nat) (freqs : Nat → ℝ) (junk : Nat → Nat → Option ℂ) (mem : ℂ) (a : Channels ℝ ℂ) (k : Nat)
    (cells : Nat → Nat → Option ℂ) :
    let r := callFilter complexEnv n freqs junk a k cells
    r.1.length = a.transferFunctions.length ∧ r.1.Nodup ∧ (∀ b ∈ r.1, k ≤ b) ∧ (∀ b < k, r.2.cells b = cells b) ∧
      ∀ (i b : Nat), r.1[i]? = some b → ∀ j < n, some (r.2.cells b j) = (a.call complexEnv mem (freqs j))[i]? := by
  obtain ⟨h0, h1, h2, h3, h4⟩ := callLoop_spec complexEnv n freqs junk mem a.transferFunctions ⟨k, cells, none, none⟩
    (valid_new _ _ _ _ _)
  refine ⟨h0, h2.imp fun h => ne_of_lt h, h3, fun b hb => h1.cells b hb (by simp), ?_⟩
  intro i b hb j hj
  have h := h4 i b hb j hj
  have hi : i < a.transferFunctions.length := by
    rw [← h0]
    exact (List.getElem?_eq_some_iff.1 hb).1
  have hl : i < (a.call complexEnv mem (freqs j)).length := by
    rw [Channels.call, evalStateList_length']
    exact hi
  rw [List.getElem?_eq_getElem hl]
  refine congrArg some (h.trans ?_)
  show ((a.call complexEnv mem (freqs j))[i]?).getD none = _
  rw [List.getElem?_eq_getElem hl]
  rfl

end Arrays
end Filter
end Verif
