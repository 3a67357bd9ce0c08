import Verif.BandsText
import Verif.BandsTableProps
import Mathlib.Algebra.Order.Group.Int
import Mathlib.Tactic.Common

/-
C96: Numbers in text tables
-/

namespace Verif
namespace Filter
namespace BandsText

open Re

/-! ### the specification -/

/-- the text of a positive finite float, as documented for `repr`: `12.5`, `1e-05`, `1.5e+20` -/
inductive IsUnsigned : List Char → Prop where
  | fixed (a b : List Char) (ha : a ≠ []) (hb : b ≠ []) (da : ∀ c ∈ a, digit c = true) (db : ∀ c ∈ b, digit c = true) :
      IsUnsigned (a ++ '.' :: b)
  | whole (a e : List Char) (s : Char) (ha : a ≠ []) (he : e ≠ []) (da : ∀ c ∈ a, digit c = true)
      (de : ∀ c ∈ e, digit c = true) (hs : sign s = true) : IsUnsigned (a ++ 'e' :: s :: e)
  | exponent (a b e : List Char) (s : Char) (ha : a ≠ []) (hb : b ≠ []) (he : e ≠ []) (da : ∀ c ∈ a, digit c = true)
      (db : ∀ c ∈ b, digit c = true) (de : ∀ c ∈ e, digit c = true) (hs : sign s = true) :
      IsUnsigned (a ++ '.' :: b ++ 'e' :: s :: e)

/-- the documented behaviour of `repr` and `float` for finite floats without the negative zero -/
structure Floats.Ok {F : Type} [LinearOrder F] [AddCommGroup F] (P : Floats F) : Prop where
  parse : ∀ x, P.parse (P.repr x) = some x
  unsigned : ∀ x, 0 ≤ x → IsUnsigned (P.repr x)
  negative : ∀ x, x < 0 → ∃ u, IsUnsigned u ∧ P.repr x = '-' :: u
  zero : P.repr 0 = "0.0".toList

/-! ### digits -/

theorem digit_props {c : Char} (h : digit c = true) :
    c ≠ '.' ∧ c ≠ 'e' ∧ sign c = false ∧ imag c = false ∧ letterN c = false ∧ space c = false ∧ c ≠ ',' ∧ c ≠ '{' ∧ c ≠ '}' ∧
      c ≠ '(' ∧ c ≠ ')' ∧ c ≠ '#' ∧ c ≠ ';' ∧ c.isWhitespace = false ∧ c ≠ '-' := by
  have key : ∀ d : Char, digit d = false → c ≠ d := by
    rintro d hd rfl
    rw [h] at hd
    cases hd
  have hne : ∀ d : Char, digit d = false → (c == d) = false := fun d hd => beq_eq_false_iff_ne.mpr (key d hd)
  refine ⟨key _ rfl, key _ rfl, ?_, ?_, ?_, hne _ rfl, key _ rfl, key _ rfl, key _ rfl, key _ rfl, key _ rfl, key _ rfl,
    key _ rfl, ?_, key _ rfl⟩
  · unfold sign
    rw [hne _ rfl, hne _ rfl]
    rfl
  · unfold imag
    rw [hne _ rfl, hne _ rfl, hne _ rfl, hne _ rfl]
    rfl
  · unfold letterN
    rw [hne _ rfl, hne _ rfl]
    rfl
  · simp only [Char.isWhitespace, Bool.or_eq_false_iff, decide_eq_false_iff_not]
    refine ⟨⟨⟨?_, ?_⟩, ?_⟩, ?_⟩ <;> exact key _ rfl

/-! ### repetitions -/

theorem starRests_stop (p : Char → Bool) (s : List Char) (h : ∀ c t, s = c :: t → p c = false) : starRests p s = [s] := by
  cases s with
  | nil => rfl
  | cons c t =>
    unfold starRests
    rw [h c t rfl]
    rfl

theorem starRests_head (p : Char → Bool) (a s : List Char) (ha : ∀ c ∈ a, p c = true)
    (h : ∀ c t, s = c :: t → p c = false) : ∃ l, starRests p (a ++ s) = s :: l := by
  induction a with
  | nil => exact ⟨[], starRests_stop p s h⟩
  | cons c a ih =>
    obtain ⟨l, hl⟩ := ih fun d hd => ha d (List.mem_cons_of_mem _ hd)
    refine ⟨l ++ [c :: (a ++ s)], ?_⟩
    rw [List.cons_append, starRests, if_pos (ha c List.mem_cons_self), hl]
    rfl

theorem mem_starRests (p : Char → Bool) (s o : List Char) (h : o ∈ starRests p s) :
    ∃ a, s = a ++ o ∧ ∀ c ∈ a, p c = true := by
  induction s with
  | nil =>
    rw [starRests, List.mem_singleton] at h
    exact ⟨[], by rw [h]; rfl, by simp⟩
  | cons c s ih =>
    rw [starRests] at h
    split at h
    · next hc =>
      rcases List.mem_append.mp h with h | h
      · obtain ⟨a, h1, h2⟩ := ih h
        refine ⟨c :: a, by rw [h1]; rfl, ?_⟩
        intro d hd
        rcases List.mem_cons.mp hd with rfl | hd
        · exact hc
        · exact h2 d hd
      · rw [List.mem_singleton] at h
        exact ⟨[], by rw [h]; rfl, by simp⟩
    · rw [List.mem_singleton] at h
      exact ⟨[], by rw [h]; rfl, by simp⟩

theorem mem_chr (p : Char → Bool) (s o : List Char) (h : o ∈ rests (.chr p) s) : ∃ c, s = c :: o ∧ p c = true := by
  cases s with
  | nil => cases h
  | cons c s =>
    unfold rests at h
    dsimp only at h
    split at h
    · next hc =>
      rw [List.mem_singleton] at h
      exact ⟨c, by rw [h], hc⟩
    · cases h

theorem mem_plus (p : Char → Bool) (s o : List Char) (h : o ∈ rests (.plus p) s) :
    ∃ a, s = a ++ o ∧ a ≠ [] ∧ ∀ c ∈ a, p c = true := by
  obtain ⟨t, h1, h2⟩ := List.mem_flatMap.mp h
  obtain ⟨c, rfl, hc⟩ := mem_chr p s t h1
  obtain ⟨a, rfl, ha⟩ := mem_starRests p t o h2
  refine ⟨c :: a, rfl, by simp, ?_⟩
  intro d hd
  rcases List.mem_cons.mp hd with rfl | hd
  · exact hc
  · exact ha d hd

theorem plus_head (p : Char → Bool) (a s : List Char) (hn : a ≠ []) (ha : ∀ c ∈ a, p c = true)
    (h : ∀ c t, s = c :: t → p c = false) : ∃ l, rests (.plus p) (a ++ s) = s :: l := by
  cases a with
  | nil => exact absurd rfl hn
  | cons c a =>
    obtain ⟨l, hl⟩ := starRests_head p a s (fun d hd => ha d (List.mem_cons_of_mem _ hd)) h
    refine ⟨l, ?_⟩
    unfold plus rests
    rw [show rests (.chr p) (c :: a ++ s) = [a ++ s] from if_pos (ha c List.mem_cons_self)]
    rw [List.flatMap_cons, List.flatMap_nil, List.append_nil]
    exact hl

/-! ### matches of numbers -/

/-- the text begins with a character, that can be a part of a number, but not a sign -/
def InNumber (s : List Char) : Prop := ∃ c t, s = c :: t ∧ (digit c = true ∨ c = '.' ∨ c = 'e')

/-- the first match leads to the remainder `r`, the others lead to `r` or end within a number -/
def Good (l : List (List Char)) (r : List Char) : Prop := ∃ os, l = r :: os ∧ ∀ o ∈ os, o = r ∨ InNumber o

theorem Good.bind {l : List (List Char)} {r r' : List Char} (h : Good l r) {f : List Char → List (List Char)}
    (hf : ∀ o, InNumber o → f o = []) (hr : Good (f r) r') : Good (l.flatMap f) r' := by
  obtain ⟨os, rfl, ho⟩ := h
  obtain ⟨os', h1, h2⟩ := hr
  refine ⟨os' ++ os.flatMap f, by rw [List.flatMap_cons, h1]; rfl, ?_⟩
  intro o hm
  rcases List.mem_append.mp hm with hm | hm
  · exact h2 o hm
  · obtain ⟨x, hx, hm⟩ := List.mem_flatMap.mp hm
    rcases ho x hx with rfl | hi
    · rw [h1] at hm
      rcases List.mem_cons.mp hm with rfl | hm
      · exact Or.inl rfl
      · exact h2 o hm
    · rw [hf x hi] at hm
      cases hm

theorem Good.fail {l : List (List Char)} {r : List Char} (h : Good l r) {f : List Char → List (List Char)}
    (hf : ∀ o, InNumber o → f o = []) (hr : f r = []) : l.flatMap f = [] := by
  obtain ⟨os, rfl, ho⟩ := h
  rw [List.flatMap_eq_nil_iff]
  intro x hx
  rcases List.mem_cons.mp hx with rfl | hx
  · exact hr
  · rcases ho x hx with rfl | hi
    · exact hr
    · exact hf x hi

theorem Good.head {l : List (List Char)} {r : List Char} (h : Good l r) : l.head? = some r := by
  obtain ⟨os, rfl, _⟩ := h
  rfl

theorem good_single (r : List Char) : Good [r] r := ⟨[], rfl, by simp⟩

/-- a single character after a number -/
theorem chr_inNumber (p : Char → Bool) (hp : ∀ c, digit c = true → p c = false) (h1 : p '.' = false) (h2 : p 'e' = false)
    (o : List Char) (h : InNumber o) : rests (.chr p) o = [] := by
  obtain ⟨c, t, rfl, hc⟩ := h
  refine if_neg ?_
  rw [Bool.not_eq_true]
  rcases hc with hc | rfl | rfl
  · exact hp c hc
  · exact h1
  · exact h2

theorem chr_cons (p : Char → Bool) (c : Char) (s : List Char) (h : p c = true) : rests (.chr p) (c :: s) = [s] := if_pos h

theorem chr_fail (p : Char → Bool) (c : Char) (s : List Char) (h : p c = false) : rests (.chr p) (c :: s) = [] :=
  if_neg (by rw [h]; simp)

/-- the first characters after a part of a text, if that part does not contain the following one -/
theorem prefix_of_mem {w o u r : List Char} (h : w ++ o = u ++ r) (hw : ∀ c t, r = c :: t → c ∉ w) :
    ∃ b, u = w ++ b ∧ o = b ++ r := by
  rcases List.append_eq_append_iff.mp h with ⟨b, h1, h2⟩ | ⟨b, h1, h2⟩
  · exact ⟨b, h1, h2⟩
  · cases b with
    | nil =>
      exact ⟨[], by rw [h1]; simp, by rw [h2]; simp⟩
    | cons c b =>
      exact absurd (by rw [h1]; simp) (hw c (b ++ o) (by rw [h2]; rfl))

/-- the number of characters, that are not digits -/
def others (s : List Char) : Nat := s.countP fun c => !digit c

theorem others_digits {s : List Char} (h : ∀ c ∈ s, digit c = true) : others s = 0 := by
  unfold others
  rw [List.countP_eq_zero]
  intro c hc
  rw [h c hc]
  simp

theorem others_append (a b : List Char) : others (a ++ b) = others a + others b := List.countP_append

theorem others_cons {c : Char} (b : List Char) (h : digit c = false) : others (c :: b) = others b + 1 := by
  unfold others
  rw [List.countP_cons, h]
  rfl

/-- the texts in front of the `e` of an exponential number -/
theorem mem_exponential (s o : List Char) (h : o ∈ rests exponential s) :
    ∃ w t, s = w ++ 'e' :: t ∧ others w ≤ 1 ∧
      ((∃ a, t = a ++ o ∧ a ≠ [] ∧ ∀ c ∈ a, digit c = true) ∨
        ∃ q a, t = q :: a ++ o ∧ sign q = true ∧ a ≠ [] ∧ ∀ c ∈ a, digit c = true) := by
  unfold exponential at h
  simp only [seqs] at h
  obtain ⟨s1, h1, k1⟩ := List.mem_flatMap.mp h
  obtain ⟨s2, h2, k2⟩ := List.mem_flatMap.mp k1
  obtain ⟨s3, h3, k3⟩ := List.mem_flatMap.mp k2
  obtain ⟨s4, h4, k4⟩ := List.mem_flatMap.mp k3
  obtain ⟨s5, h5, k5⟩ := List.mem_flatMap.mp k4
  obtain ⟨a1, rfl, -, d1⟩ := mem_plus digit s s1 h1
  obtain ⟨a3, rfl, d3⟩ := mem_starRests digit s2 s3 h3
  obtain ⟨c, rfl, hc⟩ := mem_chr _ s3 s4 h4
  have hc : c = 'e' := by simpa using hc
  subst hc
  have h2 : ∃ x, s1 = x ++ (a3 ++ 'e' :: s4) ∧ others x ≤ 1 := by
    rcases List.mem_append.mp h2 with h2 | h2
    · obtain ⟨x, hx, -⟩ := mem_chr _ s1 _ h2
      exact ⟨[x], hx, List.countP_le_length⟩
    · rw [List.mem_singleton] at h2
      exact ⟨[], by rw [← h2]; rfl, Nat.zero_le _⟩
  obtain ⟨x, rfl, hx⟩ := h2
  refine ⟨a1 ++ x ++ a3, s4, by simp, ?_, ?_⟩
  · rw [others_append, others_append, others_digits d1, others_digits d3]
    omega
  · obtain ⟨a5, h6, n5, d5⟩ := mem_plus digit s5 o k5
    rcases List.mem_append.mp h5 with h5 | h5
    · obtain ⟨q, rfl, hq⟩ := mem_chr _ s4 _ h5
      exact Or.inr ⟨q, a5, by rw [h6]; rfl, hq, n5, d5⟩
    · rw [List.mem_singleton] at h5
      exact Or.inl ⟨a5, by rw [← h5, h6], n5, d5⟩

/-- the texts, that are matched by a decimal number -/
theorem mem_decimal (s o : List Char) (h : o ∈ rests decimal s) :
    ∃ w, s = w ++ o ∧ ∀ c ∈ w, digit c = true ∨ c = '.' := by
  unfold decimal at h
  simp only [seqs] at h
  obtain ⟨s1, h1, k1⟩ := List.mem_flatMap.mp h
  obtain ⟨s2, h2, k2⟩ := List.mem_flatMap.mp k1
  obtain ⟨a1, rfl, -, d1⟩ := mem_plus digit s s1 h1
  obtain ⟨a3, rfl, d3⟩ := mem_starRests digit s2 o k2
  rcases List.mem_append.mp h2 with h2 | h2
  · obtain ⟨x, rfl, hx⟩ := mem_chr _ s1 _ h2
    have hx : x = '.' := by simpa using hx
    subst hx
    refine ⟨a1 ++ '.' :: a3, by simp, ?_⟩
    intro c hc
    rcases List.mem_append.mp hc with hc | hc
    · exact Or.inl (d1 c hc)
    · rcases List.mem_cons.mp hc with rfl | hc
      · exact Or.inr rfl
      · exact Or.inl (d3 c hc)
  · rw [List.mem_singleton] at h2
    subst h2
    refine ⟨a1 ++ a3, by simp, ?_⟩
    intro c hc
    rcases List.mem_append.mp hc with hc | hc
    · exact Or.inl (d1 c hc)
    · exact Or.inl (d3 c hc)

/-- a decimal fraction and the following characters -/
theorem fixed_good (a b r : List Char) (ha : a ≠ []) (da : ∀ c ∈ a, digit c = true)
    (db : ∀ c ∈ b, digit c = true) (hr : ¬ InNumber r) : Good (rests decimal (a ++ '.' :: b ++ r)) r := by
  have hrd : ∀ c t, r = c :: t → digit c = false := by
    intro c t h
    by_contra hc
    exact hr ⟨c, t, h, Or.inl (by simpa using hc)⟩
  have hrp : ∀ c t, r = c :: t → c ≠ '.' := by
    rintro c t h rfl
    exact hr ⟨_, t, h, Or.inr (Or.inl rfl)⟩
  have hall : ∀ o ∈ rests decimal (a ++ '.' :: b ++ r), o = r ∨ InNumber o := by
    intro o ho
    obtain ⟨w, h1, h2⟩ := mem_decimal _ o ho
    obtain ⟨q, h3, h4⟩ := prefix_of_mem h1.symm (by
      intro c t h hc
      rcases h2 c hc with h2 | h2
      · rw [hrd c t h] at h2
        cases h2
      · exact hrp c t h h2)
    cases q with
    | nil => exact Or.inl h4
    | cons c q =>
      refine Or.inr ⟨c, q ++ r, h4, ?_⟩
      have hc : c ∈ a ++ '.' :: b := by rw [h3]; simp
      rcases List.mem_append.mp hc with hc | hc
      · exact Or.inl (da c hc)
      · rcases List.mem_cons.mp hc with rfl | hc
        · exact Or.inr (Or.inl rfl)
        · exact Or.inl (db c hc)
  obtain ⟨l1, e1⟩ := plus_head digit a ('.' :: b ++ r) ha da (by
    intro c t h
    rw [← (List.cons.inj h).1]
    rfl)
  obtain ⟨l2, e2⟩ := starRests_head digit b r db hrd
  have hd : ∃ l, rests decimal (a ++ '.' :: b ++ r) = r :: l := by
    rw [List.append_assoc]
    unfold decimal
    simp only [seqs]
    unfold rests
    rw [e1, List.flatMap_cons]
    unfold rests
    rw [show rests (.opt (.lit '.')) ('.' :: b ++ r) = [b ++ r, '.' :: b ++ r] from rfl, List.flatMap_cons]
    unfold rests
    rw [e2]
    exact ⟨_, rfl⟩
  obtain ⟨l, hl⟩ := hd
  exact ⟨l, hl, fun o ho => hall o (by rw [hl]; exact List.mem_cons_of_mem _ ho)⟩

theorem good_append {l m : List (List Char)} {r : List Char} (h : Good l r) (hm : ∀ o ∈ m, o = r ∨ InNumber o) :
    Good (l ++ m) r := by
  obtain ⟨os, rfl, ho⟩ := h
  refine ⟨os ++ m, rfl, ?_⟩
  intro o h
  rcases List.mem_append.mp h with h | h
  · exact ho o h
  · exact hm o h

/-- a text, that starts with a digit, does not match a number, that starts with a point -/
theorem point_digits (a s : List Char) (ha : a ≠ []) (da : ∀ c ∈ a, digit c = true) :
    rests (.seq (.lit '.') (.plus digit)) (a ++ s) = [] := by
  cases a with
  | nil => exact absurd rfl ha
  | cons c a =>
    have hc := (digit_props (da c List.mem_cons_self)).1
    unfold rests
    rw [show rests (.lit '.') (c :: a ++ s) = [] from chr_fail _ c _ (beq_eq_false_iff_ne.mpr hc)]
    rfl

/-- a mantissa is the only possible text in front of the `e` -/
theorem mantissa_unique (m w e r t : List Char) (s : Char) (hm : ∀ c ∈ m, c ≠ 'e') (hs : sign s = true)
    (hw : others w ≤ 1) (h : m ++ 'e' :: s :: e ++ r = w ++ 'e' :: t) : w = m ∧ t = s :: e ++ r := by
  rw [List.append_assoc] at h
  rcases List.append_eq_append_iff.mp h with ⟨b, h1, h2⟩ | ⟨b, h1, h2⟩
  · cases b with
    | nil =>
      rw [List.append_nil] at h1
      refine ⟨h1, ?_⟩
      have h2 : 'e' :: s :: e ++ r = 'e' :: t := h2
      exact (List.cons.inj h2).2.symm
    | cons c b =>
      have h2 : 'e' :: (s :: e ++ r) = c :: (b ++ 'e' :: t) := h2
      obtain ⟨rfl, h2'⟩ := List.cons.inj h2
      have hse : digit 'e' = false := rfl
      have hss : digit s = false := by
        by_contra hd
        rw [(digit_props (by simpa using hd)).2.2.1] at hs
        cases hs
      cases b with
      | nil =>
        have h2 : s :: (e ++ r) = 'e' :: t := h2'
        rw [(List.cons.inj h2).1] at hs
        cases hs
      | cons d b =>
        have h2 : s :: (e ++ r) = d :: (b ++ 'e' :: t) := h2'
        obtain ⟨rfl, -⟩ := List.cons.inj h2
        rw [h1, others_append, others_cons _ hse, others_cons _ hss] at hw
        omega
  · cases b with
    | nil =>
      rw [List.append_nil] at h1
      refine ⟨h1.symm, ?_⟩
      have h2 : 'e' :: t = 'e' :: (s :: e ++ r) := h2
      exact (List.cons.inj h2).2
    | cons c b =>
      have h2 : 'e' :: t = c :: (b ++ ('e' :: s :: e ++ r)) := h2
      obtain ⟨rfl, h2⟩ := List.cons.inj h2
      exact absurd rfl (hm 'e' (by rw [h1]; simp))

/-- the remainders of an exponential number -/
theorem exponential_members (m e r : List Char) (s : Char) (hm : ∀ c ∈ m, c ≠ 'e') (hs : sign s = true)
    (de : ∀ c ∈ e, digit c = true) (hr : ¬ InNumber r) :
    ∀ o ∈ rests exponential (m ++ 'e' :: s :: e ++ r), o = r ∨ InNumber o := by
  intro o ho
  obtain ⟨w, t, h1, h2, h3⟩ := mem_exponential _ o ho
  obtain ⟨-, rfl⟩ := mantissa_unique m w e r t s hm hs h2 h1
  have key : ∀ a, e ++ r = a ++ o → (∀ c ∈ a, digit c = true) → o = r ∨ InNumber o := by
    intro a h4 h5
    obtain ⟨q, h6, h7⟩ := prefix_of_mem h4.symm (by
      intro c t h hc
      exact hr ⟨c, t, h, Or.inl (h5 c hc)⟩)
    cases q with
    | nil => exact Or.inl h7
    | cons c q => exact Or.inr ⟨c, q ++ r, h7, Or.inl (de c (by rw [h6]; simp))⟩
  rcases h3 with ⟨a, h4, h5, h6⟩ | ⟨q, a, h4, h5, h6, h7⟩
  · cases a with
    | nil => exact absurd rfl h5
    | cons c a =>
      have h4 : s :: (e ++ r) = c :: (a ++ o) := h4
      rw [← (List.cons.inj h4).1] at h6
      rw [(digit_props (h6 s List.mem_cons_self)).2.2.1] at hs
      cases hs
  · have h4 : s :: (e ++ r) = q :: (a ++ o) := h4
    exact key a (List.cons.inj h4).2 h7

/-- the remainders of a decimal number, that is the begin of an exponential number -/
theorem decimal_members (m t r : List Char) (hm : ∀ c ∈ m, digit c = true ∨ c = '.') :
    ∀ o ∈ rests decimal (m ++ 'e' :: t), o = r ∨ InNumber o := by
  intro o ho
  obtain ⟨w, h1, h2⟩ := mem_decimal _ o ho
  obtain ⟨q, h3, h4⟩ := prefix_of_mem h1.symm (by
    intro c t' h hc
    rw [← (List.cons.inj h).1] at hc
    rcases h2 'e' hc with h | h
    · cases h
    · cases h)
  right
  cases q with
  | nil => exact ⟨'e', t, h4, Or.inr (Or.inr rfl)⟩
  | cons c q =>
    refine ⟨c, q ++ 'e' :: t, h4, ?_⟩
    rcases hm c (by rw [h3]; simp) with h | h
    · exact Or.inl h
    · exact Or.inr (Or.inl h)

/-- the first match of an exponent -/
theorem exponent_head (e r : List Char) (s : Char) (he : e ≠ []) (hs : sign s = true) (de : ∀ c ∈ e, digit c = true)
    (hr : ¬ InNumber r) :
    ∃ l, rests (.seq (.lit 'e') (.seq (.opt (.chr sign)) (.plus digit))) ('e' :: s :: e ++ r) = r :: l := by
  obtain ⟨l, hl⟩ := plus_head digit e r he de (by
    intro c t h
    by_contra hc
    exact hr ⟨c, t, h, Or.inl (by simpa using hc)⟩)
  unfold rests
  rw [show rests (.lit 'e') ('e' :: s :: e ++ r) = [s :: e ++ r] from rfl, List.flatMap_cons]
  unfold rests
  rw [show rests (.opt (.chr sign)) (s :: e ++ r) = [e ++ r, s :: e ++ r] from by
    unfold rests
    rw [show rests (.chr sign) (s :: e ++ r) = [e ++ r] from chr_cons _ _ _ hs]
    rfl]
  rw [List.flatMap_cons, hl]
  exact ⟨_, rfl⟩

/-- C96, the regular expression for numbers matches the texts of floats as a whole -/
theorem unsigned_good (u r : List Char) (hu : IsUnsigned u) (hr : ¬ InNumber r) : Good (rests unsigned (u ++ r)) r := by
  have hse : ∀ s, sign s = true → digit s = false := by
    intro s hs
    by_contra hd
    rw [(digit_props (by simpa using hd)).2.2.1] at hs
    cases hs
  cases hu with
  | fixed a b ha hb da db =>
    have h1 : rests exponential (a ++ '.' :: b ++ r) = [] := by
      rw [List.eq_nil_iff_forall_not_mem]
      intro o ho
      obtain ⟨w, t, h1, h2, -⟩ := mem_exponential _ o ho
      rcases List.append_eq_append_iff.mp h1 with ⟨q, h3, h4⟩ | ⟨q, h3, h4⟩
      · cases q with
        | nil => exact hr ⟨'e', t, h4, Or.inr (Or.inr rfl)⟩
        | cons c q =>
          have hc : digit c = false := by
            by_contra hc
            refine hr ⟨c, q ++ 'e' :: t, h4, Or.inl (by simpa using hc)⟩
          rw [h3, others_append, others_append, others_cons _ hc, others_cons _ (show digit '.' = false from rfl)] at h2
          omega
      · cases q with
        | nil => exact hr ⟨'e', t, h4.symm, Or.inr (Or.inr rfl)⟩
        | cons c q =>
          have h4 : 'e' :: t = c :: (q ++ r) := h4
          have hc : 'e' ∈ a ++ '.' :: b := by
            rw [h3, (List.cons.inj h4).1]
            simp
          rcases List.mem_append.mp hc with hc | hc
          · cases da _ hc
          · rcases List.mem_cons.mp hc with hc | hc
            · cases hc
            · cases db _ hc
    show Good (rests exponential _ ++ (rests decimal _ ++ rests _ _)) r
    rw [h1, List.nil_append]
    refine good_append (fixed_good a b r ha da db hr) ?_
    rw [List.append_assoc, point_digits a _ ha da]
    simp
  | whole a e s ha he da de hs =>
    have hm : ∀ c ∈ a, c ≠ 'e' := fun c hc => (digit_props (da c hc)).2.1
    obtain ⟨l1, e1⟩ := plus_head digit a ('e' :: s :: e ++ r) ha da (by
      intro c t h
      rw [← (List.cons.inj h).1]
      rfl)
    obtain ⟨l2, e2⟩ := exponent_head e r s he hs de hr
    have hd : ∃ l, rests exponential (a ++ 'e' :: s :: e ++ r) = r :: l := by
      rw [List.append_assoc]
      unfold exponential
      simp only [seqs]
      unfold rests
      rw [e1, List.flatMap_cons]
      unfold rests
      rw [show rests (.opt (.chr fun _ => true)) ('e' :: s :: e ++ r) = [s :: e ++ r, 'e' :: s :: e ++ r] from rfl,
        List.flatMap_cons, List.flatMap_cons]
      have z1 : starRests digit (s :: e ++ r) = [s :: e ++ r] := starRests_stop _ _ (by
        intro c t h
        rw [← (List.cons.inj h).1]
        exact hse s hs)
      have z2 : starRests digit ('e' :: s :: e ++ r) = ['e' :: s :: e ++ r] := starRests_stop _ _ (by
        intro c t h
        rw [← (List.cons.inj h).1]
        rfl)
      have y1 : rests (.seq (.star digit) (.seq (.lit 'e') (.seq (.opt (.chr sign)) (.plus digit)))) (s :: e ++ r) = [] := by
        show (starRests digit (s :: e ++ r)).flatMap _ = []
        rw [z1, List.flatMap_cons]
        unfold rests
        rw [show rests (.lit 'e') (s :: e ++ r) = [] from chr_fail _ s _ (by
          rw [beq_eq_false_iff_ne]
          rintro rfl
          cases hs)]
        rfl
      have y2 : ∃ l, rests (.seq (.star digit) (.seq (.lit 'e') (.seq (.opt (.chr sign)) (.plus digit))))
          ('e' :: s :: e ++ r) = r :: l := by
        show ∃ l, (starRests digit ('e' :: s :: e ++ r)).flatMap _ = r :: l
        rw [z2, List.flatMap_cons, e2]
        exact ⟨_, rfl⟩
      obtain ⟨l3, y2⟩ := y2
      rw [y1, y2]
      exact ⟨_, rfl⟩
    obtain ⟨l, hl⟩ := hd
    show Good (rests exponential _ ++ (rests decimal _ ++ rests _ _)) r
    refine good_append ⟨l, hl, ?_⟩ ?_
    · intro o ho
      exact exponential_members a e r s hm hs de hr o (by rw [hl]; exact List.mem_cons_of_mem _ ho)
    · rw [List.append_assoc, point_digits a _ ha da, List.append_nil]
      exact decimal_members a _ r fun c hc => Or.inl (da c hc)
  | exponent a b e s ha hb he da db de hs =>
    have hmd : ∀ c ∈ a ++ '.' :: b, digit c = true ∨ c = '.' := by
      intro c hc
      rcases List.mem_append.mp hc with hc | hc
      · exact Or.inl (da c hc)
      · rcases List.mem_cons.mp hc with rfl | hc
        · exact Or.inr rfl
        · exact Or.inl (db c hc)
    have hm : ∀ c ∈ a ++ '.' :: b, c ≠ 'e' := by
      rintro c hc rfl
      rcases hmd _ hc with h | h
      · cases h
      · cases h
    obtain ⟨l1, e1⟩ := plus_head digit a ('.' :: (b ++ ('e' :: s :: e ++ r))) ha da (by
      intro c t h
      rw [← (List.cons.inj h).1]
      rfl)
    obtain ⟨l2, e2⟩ := exponent_head e r s he hs de hr
    obtain ⟨l3, e3⟩ := starRests_head digit b ('e' :: s :: e ++ r) db (by
      intro c t h
      rw [← (List.cons.inj h).1]
      rfl)
    have hd : ∃ l, rests exponential (a ++ '.' :: b ++ 'e' :: s :: e ++ r) = r :: l := by
      rw [show a ++ '.' :: b ++ 'e' :: s :: e ++ r = a ++ ('.' :: (b ++ ('e' :: s :: e ++ r))) by simp]
      unfold exponential
      simp only [seqs]
      unfold rests
      rw [e1, List.flatMap_cons]
      unfold rests
      rw [show rests (.opt (.chr fun _ => true)) ('.' :: (b ++ ('e' :: s :: e ++ r))) =
        [b ++ ('e' :: s :: e ++ r), '.' :: (b ++ ('e' :: s :: e ++ r))] from rfl, List.flatMap_cons]
      have y2 : ∃ l, rests (.seq (.star digit) (.seq (.lit 'e') (.seq (.opt (.chr sign)) (.plus digit))))
          (b ++ ('e' :: s :: e ++ r)) = r :: l := by
        show ∃ l, (starRests digit (b ++ ('e' :: s :: e ++ r))).flatMap _ = r :: l
        rw [e3, List.flatMap_cons, e2]
        exact ⟨_, rfl⟩
      obtain ⟨l4, y2⟩ := y2
      rw [y2]
      exact ⟨_, rfl⟩
    obtain ⟨l, hl⟩ := hd
    show Good (rests exponential _ ++ (rests decimal _ ++ rests _ _)) r
    refine good_append ⟨l, hl, ?_⟩ ?_
    · intro o ho
      exact exponential_members (a ++ '.' :: b) e r s hm hs de hr o (by rw [hl]; exact List.mem_cons_of_mem _ ho)
    · rw [show rests (.seq (.lit '.') (.plus digit)) (a ++ '.' :: b ++ 'e' :: s :: e ++ r) = [] by
        rw [List.append_assoc, List.append_assoc]
        exact point_digits a _ ha da, List.append_nil, List.append_assoc]
      exact decimal_members (a ++ '.' :: b) _ r hmd

/-! ### characters, with which no number begins -/

theorem plus_fail (c : Char) (s : List Char) (h : digit c = false) : rests (.plus digit) (c :: s) = [] := by
  unfold plus rests
  rw [chr_fail _ c s h]
  rfl

theorem unsigned_fail (c : Char) (s : List Char) (h : digit c = false) (hp : c ≠ '.') : rests unsigned (c :: s) = [] := by
  show rests exponential _ ++ (rests decimal _ ++ rests _ _) = []
  have h1 : rests exponential (c :: s) = [] := by
    unfold exponential
    simp only [seqs]
    unfold rests
    rw [plus_fail c s h]
    rfl
  have h2 : rests decimal (c :: s) = [] := by
    unfold decimal
    simp only [seqs]
    unfold rests
    rw [plus_fail c s h]
    rfl
  have h3 : rests (.seq (.lit '.') (.plus digit)) (c :: s) = [] := by
    unfold rests
    rw [show rests (.lit '.') (c :: s) = [] from chr_fail _ c _ (beq_eq_false_iff_ne.mpr hp)]
    rfl
  rw [h1, h2, h3]
  rfl

theorem real_cons (c : Char) (s : List Char) (h : c ≠ '-') : rests real (c :: s) = rests unsigned (c :: s) := by
  unfold real
  rw [rests]
  rw [show rests (.opt (.lit '-')) (c :: s) = [c :: s] from by
    unfold rests
    rw [show rests (.lit '-') (c :: s) = [] from chr_fail _ c _ (beq_eq_false_iff_ne.mpr h)]
    rfl]
  rw [List.flatMap_cons, List.flatMap_nil, List.append_nil]

theorem real_fail (c : Char) (s : List Char) (h : digit c = false) (hp : c ≠ '.') (hm : c ≠ '-') :
    rests real (c :: s) = [] := by
  rw [real_cons c s hm, unsigned_fail c s h hp]

theorem seq_fail (a b : Re) (s : List Char) (h : rests a s = []) : rests (.seq a b) s = [] := by
  rw [rests, h]
  rfl

theorem lit_fail (d c : Char) (s : List Char) (h : c ≠ d) : rests (.lit d) (c :: s) = [] :=
  chr_fail _ c s (beq_eq_false_iff_ne.mpr h)

theorem nan_fail (c : Char) (s : List Char) (h : letterN c = false) (hb : c ≠ '{') : rests nan (c :: s) = [] := by
  show rests nan3 _ ++ rests _ _ = []
  rw [show rests nan3 (c :: s) = [] from seq_fail _ _ _ (chr_fail _ c s h), seqs]
  rw [seq_fail _ _ _ (lit_fail '{' c s hb)]
  rfl

/-- the match of the mask, if the first characters are those of a number without brackets -/
theorem first_eq (c : Char) (s : List Char) (hb : c ≠ '{') (hp : c ≠ '(') : first (c :: s) =
    match (rests complex (c :: s)).head? with
    | some r => some (.complex, r)
    | none => match (rests real (c :: s)).head? with
      | some r => some (.real, r)
      | none => (rests nan (c :: s)).head?.map fun r => (.nan, r) := by
  have h1 : rests gnuplot (c :: s) = [] := seq_fail _ _ _ (lit_fail '{' c s hb)
  have h2 : rests parentheses (c :: s) = [] := seq_fail _ _ _ (lit_fail '(' c s hp)
  unfold first mask
  simp only [List.findSome?_cons, h1, h2, List.head?_nil, Option.map_none]
  cases (rests complex (c :: s)).head? with
  | some r => rfl
  | none =>
    cases (rests real (c :: s)).head? with
    | some r => rfl
    | none => cases (rests nan (c :: s)).head? <;> rfl

/-- there is no number at a separator -/
theorem first_separator (c : Char) (s : List Char) (h : c = '\t' ∨ c = ' ' ∨ c = '|') : first (c :: s) = none := by
  have hr : rests real (c :: s) = [] := by
    rcases h with rfl | rfl | rfl <;> exact real_fail _ s rfl (by decide) (by decide)
  have hc : rests complex (c :: s) = [] := seq_fail _ _ _ hr
  have hn : rests nan (c :: s) = [] := by
    rcases h with rfl | rfl | rfl <;> exact nan_fail _ s rfl (by decide)
  rw [first_eq c s (by rcases h with rfl | rfl | rfl <;> decide) (by rcases h with rfl | rfl | rfl <;> decide), hr, hc, hn]
  rfl

/-! ### the texts of numbers -/

/-- the characters of the texts of floats -/
def FloatChar (c : Char) : Prop := digit c = true ∨ c = '.' ∨ c = 'e' ∨ sign c = true

/-- what is known about the text of a float -/
structure FloatText (w : List Char) : Prop where
  chars : ∀ c ∈ w, FloatChar c
  head : ∃ c t, w = c :: t ∧ (digit c = true ∨ c = '-')
  last : ∃ t c, w = t ++ [c] ∧ digit c = true

theorem unsigned_text (u : List Char) (h : IsUnsigned u) : FloatText u ∧ ∃ c t, u = c :: t ∧ digit c = true := by
  have hh : ∀ a s : List Char, a ≠ [] → (∀ c ∈ a, digit c = true) → ∃ c t, a ++ s = c :: t ∧ digit c = true := by
    intro a s ha da
    cases a with
    | nil => exact absurd rfl ha
    | cons c a => exact ⟨c, a ++ s, rfl, da c List.mem_cons_self⟩
  have hl : ∀ b s : List Char, b ≠ [] → (∀ c ∈ b, digit c = true) → ∃ t c, s ++ b = t ++ [c] ∧ digit c = true := by
    intro b s hb db
    refine ⟨s ++ b.dropLast, b.getLast hb, ?_, db _ (List.getLast_mem hb)⟩
    rw [List.append_assoc, List.dropLast_append_getLast]
  cases h with
  | fixed a b ha hb da db =>
    obtain ⟨c, t, h1, h2⟩ := hh a ('.' :: b) ha da
    refine ⟨⟨?_, ⟨c, t, h1, Or.inl h2⟩, ?_⟩, c, t, h1, h2⟩
    · intro c hc
      simp only [List.mem_append, List.mem_cons] at hc
      rcases hc with hc | rfl | hc
      · exact Or.inl (da c hc)
      · exact Or.inr (Or.inl rfl)
      · exact Or.inl (db c hc)
    · obtain ⟨t, c, h3, h4⟩ := hl b (a ++ ['.']) hb db
      exact ⟨t, c, by rw [← h3]; simp, h4⟩
  | whole a e s ha he da de hs =>
    obtain ⟨c, t, h1, h2⟩ := hh a ('e' :: s :: e) ha da
    refine ⟨⟨?_, ⟨c, t, h1, Or.inl h2⟩, ?_⟩, c, t, h1, h2⟩
    · intro c hc
      simp only [List.mem_append, List.mem_cons] at hc
      rcases hc with hc | rfl | rfl | hc
      · exact Or.inl (da c hc)
      · exact Or.inr (Or.inr (Or.inl rfl))
      · exact Or.inr (Or.inr (Or.inr hs))
      · exact Or.inl (de c hc)
    · obtain ⟨t, c, h3, h4⟩ := hl e (a ++ ['e', s]) he de
      exact ⟨t, c, by rw [← h3]; simp, h4⟩
  | exponent a b e s ha hb he da db de hs =>
    obtain ⟨c, t, h1, h2⟩ := hh a ('.' :: b ++ 'e' :: s :: e) ha da
    rw [List.append_assoc]
    refine ⟨⟨?_, ⟨c, t, h1, Or.inl h2⟩, ?_⟩, c, t, h1, h2⟩
    · intro c hc
      simp only [List.mem_append, List.mem_cons] at hc
      rcases hc with hc | (rfl | hc) | rfl | rfl | hc
      · exact Or.inl (da c hc)
      · exact Or.inr (Or.inl rfl)
      · exact Or.inl (db c hc)
      · exact Or.inr (Or.inr (Or.inl rfl))
      · exact Or.inr (Or.inr (Or.inr hs))
      · exact Or.inl (de c hc)
    · obtain ⟨t, c, h3, h4⟩ := hl e (a ++ '.' :: b ++ ['e', s]) he de
      exact ⟨t, c, by rw [← h3]; simp, h4⟩

section Numbers

variable {F : Type} [LinearOrder F] [AddCommGroup F]

theorem repr_text {P : Floats F} (hP : P.Ok) (x : F) : FloatText (P.repr x) := by
  rcases lt_or_ge x 0 with h | h
  · obtain ⟨u, hu, e⟩ := hP.negative x h
    obtain ⟨⟨h1, -, t, c, h2, h3⟩, -⟩ := unsigned_text u hu
    rw [e]
    refine ⟨?_, ⟨'-', u, rfl, Or.inr rfl⟩, '-' :: t, c, by rw [h2]; rfl, h3⟩
    intro c hc
    rcases List.mem_cons.mp hc with rfl | hc
    · exact Or.inr (Or.inr (Or.inr rfl))
    · exact h1 c hc
  · exact (unsigned_text _ (hP.unsigned x h)).1

theorem real_good {P : Floats F} (hP : P.Ok) (x : F) (r : List Char) (hr : ¬ InNumber r) :
    Good (rests real (P.repr x ++ r)) r := by
  rcases lt_or_ge x 0 with h | h
  · obtain ⟨u, hu, e⟩ := hP.negative x h
    rw [e]
    obtain ⟨os, h1, h2⟩ := unsigned_good u r hu hr
    refine ⟨os, ?_, h2⟩
    unfold real rests
    rw [show rests (.opt (.lit '-')) ('-' :: u ++ r) = [u ++ r, '-' :: u ++ r] from rfl]
    rw [List.flatMap_cons, List.flatMap_cons, List.flatMap_nil, h1]
    rw [show rests unsigned ('-' :: u ++ r) = [] from unsigned_fail _ _ rfl (by decide)]
    simp
  · have hu := hP.unsigned x h
    obtain ⟨-, c, t, e, hc⟩ := unsigned_text _ hu
    have := unsigned_good _ r hu hr
    rw [e] at this ⊢
    rw [List.cons_append, real_cons c (t ++ r) (digit_props hc).2.2.2.2.2.2.2.2.2.2.2.2.2.2]
    exact this

/-- a separator or the end of the line follows -/
def Ends (r : List Char) : Prop := r = [] ∨ ∃ c t, r = c :: t ∧ (c = '\t' ∨ c = ' ')

theorem Ends.not_inNumber {r : List Char} (h : Ends r) : ¬ InNumber r := by
  rintro ⟨c, t, rfl, hc⟩
  rcases h with h | ⟨d, u, h, hd⟩
  · cases h
  · obtain ⟨rfl, -⟩ := List.cons.inj h
    rcases hd with rfl | rfl <;> rcases hc with hc | hc | hc <;> cases hc

theorem not_inNumber_cons {c : Char} (s : List Char) (h1 : digit c = false) (h2 : c ≠ '.') (h3 : c ≠ 'e') :
    ¬ InNumber (c :: s) := by
  rintro ⟨d, t, h, hc⟩
  obtain ⟨rfl, -⟩ := List.cons.inj h
  rcases hc with hc | hc | hc
  · rw [h1] at hc
    cases hc
  · exact h2 hc
  · exact h3 hc

theorem sign_props {s : Char} (h : sign s = true) : digit s = false ∧ s ≠ '.' ∧ s ≠ 'e' := by
  have : s = '+' ∨ s = '-' := by simpa [sign] using h
  rcases this with rfl | rfl <;> exact ⟨rfl, by decide, by decide⟩

theorem imag_props {s : Char} (h : imag s = true) : digit s = false ∧ s ≠ '.' ∧ s ≠ 'e' := by
  have : ((s = 'j' ∨ s = 'J') ∨ s = 'i') ∨ s = 'I' := by simpa [imag] using h
  rcases this with ((rfl | rfl) | rfl) | rfl <;> exact ⟨rfl, by decide, by decide⟩

theorem sign_inNumber (a : Re) (o : List Char) (h : InNumber o) : rests (.seq (.chr sign) a) o = [] :=
  seq_fail _ _ _ (chr_inNumber sign (fun c hc => (digit_props hc).2.2.1) rfl rfl o h)

/-- C96, real numbers are recognised -/
theorem first_real {P : Floats F} (hP : P.Ok) (x : F) (r : List Char) (hr : Ends r) :
    first (P.repr x ++ r) = some (.real, r) := by
  obtain ⟨-, ⟨c, t, e, hc⟩, -⟩ := repr_text hP x
  have hg := real_good hP x r hr.not_inNumber
  have hcomplex : rests complex (P.repr x ++ r) = [] := by
    refine hg.fail (fun o ho => sign_inNumber _ o ho) ?_
    rcases hr with rfl | ⟨d, u, rfl, hd⟩
    · rfl
    · exact seq_fail _ _ _ (chr_fail _ d u (by rcases hd with rfl | rfl <;> rfl))
  have hreal := hg.head
  have hb : c ≠ '{' ∧ c ≠ '(' := by
    rcases hc with hc | rfl
    · obtain ⟨-, -, -, -, -, -, -, h1, -, h2, -⟩ := digit_props hc
      exact ⟨h1, h2⟩
    · exact ⟨by decide, by decide⟩
  rw [e] at hcomplex hreal ⊢
  rw [List.cons_append] at hcomplex hreal ⊢
  rw [first_eq c _ hb.1 hb.2, hcomplex, hreal]
  rfl

/-- C96, complex numbers are recognised -/
theorem first_complex {P : Floats F} (hP : P.Ok) (x : F) (s : Char) (u : List Char) (i : Char) (r : List Char)
    (hs : sign s = true) (hu : IsUnsigned u) (hi : imag i = true) :
    first (P.repr x ++ s :: u ++ i :: r) = some (.complex, r) := by
  obtain ⟨-, ⟨c, t, e, hc⟩, -⟩ := repr_text hP x
  obtain ⟨s1, s2, s3⟩ := sign_props hs
  obtain ⟨i1, i2, i3⟩ := imag_props hi
  have hg := real_good hP x (s :: (u ++ i :: r)) (not_inNumber_cons _ s1 s2 s3)
  have hcomplex : Good (rests complex (P.repr x ++ s :: (u ++ i :: r))) r := by
    refine hg.bind (fun o ho => sign_inNumber _ o ho) ?_
    show Good ((rests (.chr sign) _).flatMap _) r
    rw [chr_cons sign s _ hs, List.flatMap_cons, List.flatMap_nil, List.append_nil]
    refine (unsigned_good u (i :: r) hu (not_inNumber_cons _ i1 i2 i3)).bind ?_ ?_
    · exact fun o ho => chr_inNumber imag (fun c hc => (digit_props hc).2.2.2.1) rfl rfl o ho
    · show Good (rests (.chr imag) (i :: r)) r
      rw [chr_cons imag i r hi]
      exact good_single r
  have hb : c ≠ '{' ∧ c ≠ '(' := by
    rcases hc with hc | rfl
    · obtain ⟨-, -, -, -, -, -, -, h1, -, h2, -⟩ := digit_props hc
      exact ⟨h1, h2⟩
    · exact ⟨by decide, by decide⟩
  have hh := hcomplex.head
  rw [List.append_assoc, List.cons_append]
  rw [e] at hh ⊢
  rw [List.cons_append] at hh ⊢
  rw [first_eq c _ hb.1 hb.2, hh]

/-- C96, complex numbers in gnuplot's syntax are recognised -/
theorem first_gnuplot {P : Floats F} (hP : P.Ok) (x y : F) (r : List Char) :
    first ('{' :: P.repr x ++ ',' :: P.repr y ++ '}' :: r) = some (.gnuplot, r) := by
  have hcomma : ∀ (a : Re) (o : List Char), InNumber o → rests (.seq (.star space) (.seq (.lit ',') a)) o = [] := by
    rintro a o ⟨c, t, rfl, hc⟩
    have h1 : space c = false ∧ c ≠ ',' := by
      rcases hc with hc | rfl | rfl
      · obtain ⟨-, -, -, -, -, h1, h2, -⟩ := digit_props hc
        exact ⟨h1, h2⟩
      · exact ⟨rfl, by decide⟩
      · exact ⟨rfl, by decide⟩
    show (starRests space (c :: t)).flatMap _ = []
    rw [starRests_stop space (c :: t) (by
      intro d u h
      rw [← (List.cons.inj h).1]
      exact h1.1), List.flatMap_cons, seq_fail _ _ _ (lit_fail ',' c t h1.2)]
    rfl
  have hx := real_good hP x (',' :: (P.repr y ++ '}' :: r)) (not_inNumber_cons _ rfl (by decide) (by decide))
  have hy := real_good hP y ('}' :: r) (not_inNumber_cons _ rfl (by decide) (by decide))
  obtain ⟨-, ⟨c, t, e, hc⟩, -⟩ := repr_text hP y
  have hsp : space c = false := by
    rcases hc with hc | rfl
    · exact (digit_props hc).2.2.2.2.2.1
    · rfl
  have hg : Good (rests gnuplot ('{' :: (P.repr x ++ ',' :: (P.repr y ++ '}' :: r)))) r := by
    show Good ((rests (.lit '{') _).flatMap _) r
    rw [show rests (.lit '{') ('{' :: (P.repr x ++ ',' :: (P.repr y ++ '}' :: r))) =
      [P.repr x ++ ',' :: (P.repr y ++ '}' :: r)] from rfl, List.flatMap_cons, List.flatMap_nil, List.append_nil]
    refine hx.bind (fun o ho => hcomma _ o ho) ?_
    show Good ((starRests space (',' :: (P.repr y ++ '}' :: r))).flatMap _) r
    rw [starRests_stop space _ (by
      intro d u h
      rw [← (List.cons.inj h).1]
      rfl), List.flatMap_cons, List.flatMap_nil, List.append_nil]
    show Good ((rests (.lit ',') _).flatMap _) r
    rw [show rests (.lit ',') (',' :: (P.repr y ++ '}' :: r)) = [P.repr y ++ '}' :: r] from rfl, List.flatMap_cons,
      List.flatMap_nil, List.append_nil]
    show Good ((starRests space (P.repr y ++ '}' :: r)).flatMap _) r
    rw [starRests_stop space (P.repr y ++ '}' :: r) (by
      intro d u h
      rw [e] at h
      rw [← (List.cons.inj h).1]
      exact hsp), List.flatMap_cons, List.flatMap_nil, List.append_nil]
    refine hy.bind (fun o ho => ?_) ?_
    · exact chr_inNumber _ (fun c hc => beq_eq_false_iff_ne.mpr (digit_props hc).2.2.2.2.2.2.2.2.1) rfl rfl o ho
    · exact good_single r
  rw [show '{' :: P.repr x ++ ',' :: P.repr y ++ '}' :: r = '{' :: (P.repr x ++ ',' :: (P.repr y ++ '}' :: r)) by simp]
  unfold first mask
  simp only [List.findSome?_cons, hg.head]
  rfl

theorem first_nan (r : List Char) : first ('n' :: 'a' :: 'n' :: r) = some (.nan, r) := by
  have hr : rests real ('n' :: 'a' :: 'n' :: r) = [] := real_fail _ _ rfl (by decide) (by decide)
  have hc : rests complex ('n' :: 'a' :: 'n' :: r) = [] := seq_fail _ _ _ hr
  rw [first_eq _ _ (by decide) (by decide), hr, hc]
  rfl

theorem first_gnuplot_nan (r : List Char) : first ("{nan, nan}".toList ++ r) = some (.nan, r) := by
  have hg : rests gnuplot ("{nan, nan}".toList ++ r) = [] := by
    show (rests (.lit '{') _).flatMap _ = []
    rw [show rests (.lit '{') ("{nan, nan}".toList ++ r) = ["nan, nan}".toList ++ r] from rfl, List.flatMap_cons,
      List.flatMap_nil, List.append_nil]
    exact seq_fail _ _ _ (real_fail _ _ rfl (by decide) (by decide))
  have hp : rests parentheses ("{nan, nan}".toList ++ r) = [] := seq_fail _ _ _ (lit_fail '(' '{' _ (by decide))
  have hr : rests real ("{nan, nan}".toList ++ r) = [] := real_fail '{' _ rfl (by decide) (by decide)
  have hc : rests complex ("{nan, nan}".toList ++ r) = [] := seq_fail _ _ _ hr
  unfold first mask
  simp only [List.findSome?_cons, hg, hp, hr, hc]
  rfl

/-! ### the values -/

theorem floatChar_plain {c : Char} (h : FloatChar c) :
    c ≠ '#' ∧ c ≠ ';' ∧ c ≠ ',' ∧ c.isWhitespace = false ∧ c ≠ '{' ∧ c ≠ '}' := by
  rcases h with h | rfl | rfl | h
  · obtain ⟨-, -, -, -, -, -, h1, h2, h3, -, -, h4, h5, h6, -⟩ := digit_props h
    exact ⟨h4, h5, h1, h6, h2, h3⟩
  · exact ⟨by decide, by decide, by decide, rfl, by decide, by decide⟩
  · exact ⟨by decide, by decide, by decide, rfl, by decide, by decide⟩
  · have : c = '+' ∨ c = '-' := by simpa [sign] using h
    rcases this with rfl | rfl <;> exact ⟨by decide, by decide, by decide, rfl, by decide, by decide⟩

theorem dropWhile_head {p : Char → Bool} {c : Char} {s : List Char} (h : p c = false) : (c :: s).dropWhile p = c :: s :=
  List.dropWhile_cons_of_neg (by rw [h]; simp)

theorem strip_float {w : List Char} (h : FloatText w) : strip w = w := by
  obtain ⟨h1, ⟨c, t, e, -⟩, u, d, e', -⟩ := h
  unfold strip
  have hc : c.isWhitespace = false := (floatChar_plain (h1 c (by rw [e]; simp))).2.2.2.1
  have hd : d.isWhitespace = false := (floatChar_plain (h1 d (by rw [e']; simp))).2.2.2.1
  rw [show w.dropWhile Char.isWhitespace = w by rw [e]; exact dropWhile_head hc, e',
    List.rdropWhile_concat_neg _ _ _ (by rw [hd]; simp)]

theorem parseComplex_text {P : Floats F} (hP : P.Ok) (x y : F) (s i : Char) (hs : sign s = true) (hi : imag i = true) :
    parseComplex P (P.repr x ++ s :: P.repr y ++ [i]) = .ok (.complex x (if s = '-' then -y else y)) := by
  obtain ⟨-, -, t, d, e, hd⟩ := repr_text hP y
  obtain ⟨s1, s2, s3⟩ := sign_props hs
  have ht : (P.repr x ++ s :: P.repr y ++ [i]).rdropWhile imag = P.repr x ++ s :: P.repr y := by
    rw [List.rdropWhile_concat_pos _ _ _ hi, e]
    rw [show P.repr x ++ s :: (t ++ [d]) = (P.repr x ++ s :: t) ++ [d] by simp]
    rw [List.rdropWhile_concat_neg _ _ _ (by rw [(digit_props hd).2.2.2.1]; simp)]
  unfold parseComplex
  dsimp only
  rw [ht, (real_good hP x (s :: P.repr y) (not_inNumber_cons _ s1 s2 s3)).head]
  dsimp only
  rw [show (P.repr x ++ s :: P.repr y).take ((P.repr x ++ s :: P.repr y).length - ((P.repr y).length + 1)) = P.repr x by
    rw [List.length_append, List.length_cons, Nat.add_sub_cancel, List.take_left], hP.parse, hP.parse]

/-- the group, in which a number is found -/
def Format.kind (f : Format) : Option (Number F) → Kind
  | none => .nan
  | some (.float _) => .real
  | some _ => if f.gnuplot then .gnuplot else .complex

/-- integers of numpy are excluded, see `C96_integer_violated` -/
def Plain : Option (Number F) → Prop
  | some (.integer _) => False
  | _ => True

variable [IsOrderedAddMonoid F]

/-- C96: Each number is found with the matching group and its text is converted to the number. -/
theorem C96_number {P : Floats F} (hP : P.Ok) (f : Format) (hf : f ∈ formats) (y : Option (Number F)) (hy : Plain y)
    (r : List Char) (hr : Ends r) :
    first (f.number P y ++ r) = some (f.kind y, r) ∧ parseValue P (f.kind y, f.number P y) = .ok y := by
  match y, hy with
  | none, _ =>
    by_cases hg : f.gnuplot = true
    · rw [show f.number P none = "{nan, nan}".toList from if_pos hg]
      exact ⟨first_gnuplot_nan r, rfl⟩
    · rw [show f.number P none = "nan".toList from if_neg hg]
      exact ⟨first_nan r, rfl⟩
  | some (.float x), _ =>
    refine ⟨first_real hP x r hr, ?_⟩
    show (match P.parse (P.repr x) with
      | some x => Except.ok (some (Number.float x))
      | none => .error ReadExc.valueError) = _
    rw [hP.parse]
  | some (.complex re im), _ =>
    by_cases hg : f.gnuplot = true
    · rw [show f.number P (some (.complex re im)) = '{' :: P.repr re ++ ',' :: P.repr im ++ ['}'] from if_pos hg,
        show f.kind (some (.complex re im)) = .gnuplot from if_pos hg]
      constructor
      · rw [show '{' :: P.repr re ++ ',' :: P.repr im ++ ['}'] ++ r = '{' :: P.repr re ++ ',' :: P.repr im ++ '}' :: r by simp]
        exact first_gnuplot hP re im r
      · have tre := repr_text hP re
        have tim := repr_text hP im
        obtain ⟨c, t, e, -⟩ := tre.head
        obtain ⟨u, d, e', -⟩ := tim.last
        have hc : c ≠ '{' := (floatChar_plain (tre.chars c (by rw [e]; simp))).2.2.2.2.1
        have hd : d ≠ '}' := (floatChar_plain (tim.chars d (by rw [e']; simp))).2.2.2.2.2
        have g1 : ('{' :: P.repr re ++ ',' :: P.repr im ++ ['}']).dropWhile (fun c => c == '{') =
            P.repr re ++ ',' :: P.repr im ++ ['}'] := by
          rw [List.cons_append, List.cons_append, List.dropWhile_cons_of_pos rfl, e]
          exact dropWhile_head (beq_eq_false_iff_ne.mpr hc)
        have g2 : (P.repr re ++ ',' :: P.repr im ++ ['}']).rdropWhile (fun c => c == '}') =
            P.repr re ++ ',' :: P.repr im := by
          rw [List.rdropWhile_concat_pos _ _ _ rfl, e', show P.repr re ++ ',' :: (u ++ [d]) = (P.repr re ++ ',' :: u) ++ [d] by
            simp, List.rdropWhile_concat_neg _ _ _ (by simpa using hd)]
        have hn : ∀ c ∈ P.repr re, (c != ',') = true := by
          intro c hc
          simpa using (floatChar_plain (tre.chars c hc)).2.2.1
        have g3 : (P.repr re ++ ',' :: P.repr im).takeWhile (fun c => c != ',') = P.repr re := by
          rw [List.takeWhile_append_of_pos hn, List.takeWhile_cons_of_neg (by simp), List.append_nil]
        have g4 : (P.repr re ++ ',' :: P.repr im).dropWhile (fun c => c != ',') = ',' :: P.repr im := by
          rw [List.dropWhile_append_of_pos hn, List.dropWhile_cons_of_neg (by simp)]
        unfold parseValue
        dsimp only
        rw [g1, g2, g3, g4, strip_float tre, List.drop_one, List.tail_cons, strip_float tim, hP.parse, hP.parse]
    · rw [show f.kind (some (.complex re im)) = .complex from if_neg hg]
      have hi : imag f.imaginary = true := by
        simp only [formats, List.mem_cons, List.not_mem_nil, or_false] at hf
        rcases hf with rfl | rfl | rfl | rfl | rfl
        · rfl
        · rfl
        · rfl
        · rfl
        · exact absurd rfl hg
      have key : ∀ (s : Char) (v : F), sign s = true → 0 ≤ v → f.number P (some (.complex re im)) =
          P.repr re ++ s :: P.repr v ++ [f.imaginary] → im = (if s = '-' then -v else v) →
          first (f.number P (some (.complex re im)) ++ r) = some (.complex, r) ∧
            parseValue P (.complex, f.number P (some (.complex re im))) = .ok (some (.complex re im)) := by
        intro s v hs hv e1 e2
        rw [e1]
        constructor
        · rw [List.append_assoc]
          exact first_complex hP re s (P.repr v) f.imaginary r hs (hP.unsigned v hv) hi
        · show (parseComplex P _).map some = _
          rw [parseComplex_text hP re v s f.imaginary hs hi, ← e2]
          rfl
      rcases lt_trichotomy im 0 with h | h | h
      · refine key '-' (-im) rfl (neg_nonneg.mpr h.le) ?_ (by rw [if_pos rfl, neg_neg])
        show (if f.gnuplot then _ else _) = _
        rw [if_neg hg, if_neg h.ne, if_neg h.not_gt]
      · refine key '+' 0 rfl le_rfl ?_ (by rw [if_neg (by decide), h])
        show (if f.gnuplot then _ else _) = _
        rw [if_neg hg, if_pos h, hP.zero]
        simp
      · refine key '+' im rfl h.le ?_ (by rw [if_neg (by decide)])
        show (if f.gnuplot then _ else _) = _
        rw [if_neg hg, if_neg h.ne', if_pos h]

omit [IsOrderedAddMonoid F] in
/-- C96: The value of a complex number in parentheses, as it is written by other programs, does not depend on the spaces in it. -/
theorem C96_parentheses {P : Floats F} (hP : P.Ok) (x y : F) (s i : Char) (hs : sign s = true) (hi : imag i = true)
    (a b c d e : Nat) :
    parseValue P (.parentheses, '(' :: (List.replicate a ' ' ++ P.repr x ++ List.replicate b ' ' ++ s :: (List.replicate c ' ' ++
      P.repr y ++ List.replicate d ' ' ++ i :: List.replicate e ' ')) ++ [')']) =
      .ok (some (.complex x (if s = '-' then -y else y))) := by
  have hf : ∀ z, ∀ q ∈ P.repr z, q ≠ '(' ∧ q ≠ ')' ∧ q ≠ ' ' := by
    intro z q hq
    rcases (repr_text hP z).chars q hq with h | rfl | rfl | h
    · have hd := digit_props h
      refine ⟨hd.2.2.2.2.2.2.2.2.2.1, hd.2.2.2.2.2.2.2.2.2.2.1, ?_⟩
      rintro rfl
      cases h
    · exact ⟨by decide, by decide, by decide⟩
    · exact ⟨by decide, by decide, by decide⟩
    · have : q = '+' ∨ q = '-' := by simpa [sign] using h
      rcases this with rfl | rfl <;> exact ⟨by decide, by decide, by decide⟩
  have hs' : s ≠ '(' ∧ s ≠ ')' ∧ s ≠ ' ' := by
    have : s = '+' ∨ s = '-' := by simpa [sign] using hs
    rcases this with rfl | rfl <;> exact ⟨by decide, by decide, by decide⟩
  have hi' : i ≠ '(' ∧ i ≠ ')' ∧ i ≠ ' ' := by
    refine ⟨?_, ?_, ?_⟩ <;> rintro rfl <;> cases hi
  have hr : ∀ n, ∀ q ∈ List.replicate n ' ', q ≠ '(' ∧ q ≠ ')' := by
    intro n q hq
    rw [List.eq_of_mem_replicate hq]
    exact ⟨by decide, by decide⟩
  obtain ⟨M, hM⟩ : ∃ M, M = List.replicate a ' ' ++ P.repr x ++ List.replicate b ' ' ++ s :: (List.replicate c ' ' ++
      P.repr y ++ List.replicate d ' ' ++ i :: List.replicate e ' ') := ⟨_, rfl⟩
  have hall : ∀ q ∈ M, q ≠ '(' ∧ q ≠ ')' := by
    intro q hq
    rw [hM] at hq
    simp only [List.mem_append, List.mem_cons] at hq
    rcases hq with ((h | h) | h) | rfl | ((h | h) | h) | rfl | h
    · exact hr _ q h
    · exact ⟨(hf x q h).1, (hf x q h).2.1⟩
    · exact hr _ q h
    · exact ⟨hs'.1, hs'.2.1⟩
    · exact hr _ q h
    · exact ⟨(hf y q h).1, (hf y q h).2.1⟩
    · exact hr _ q h
    · exact ⟨hi'.1, hi'.2.1⟩
    · exact hr _ q h
  have hfilter : M.filter (fun c => c != ' ') = P.repr x ++ s :: P.repr y ++ [i] := by
    have hk : ∀ z, (P.repr z).filter (fun c => c != ' ') = P.repr z := fun z =>
      List.filter_eq_self.mpr fun q hq => by simpa using (hf z q hq).2.2
    have hz : ∀ n, (List.replicate n ' ').filter (fun c => c != ' ') = [] := fun n =>
      List.filter_eq_nil_iff.mpr fun q hq => by rw [List.eq_of_mem_replicate hq]; simp
    have h1 : (s != ' ') = true := by simpa using hs'.2.2
    have h2 : (i != ' ') = true := by simpa using hi'.2.2
    rw [hM]
    simp only [List.filter_append, List.filter_cons, hk, hz, h1, h2, if_true, List.nil_append, List.append_nil,
      List.append_assoc, List.cons_append]
  have hd1 : ('(' :: M ++ [')']).dropWhile (fun c => c == '(') = M ++ [')'] := by
    rw [List.cons_append, List.dropWhile_cons_of_pos rfl]
    cases M with
    | nil => rfl
    | cons q t => exact dropWhile_head (beq_eq_false_iff_ne.mpr (hall q (by simp)).1)
  have hd2 : (M ++ [')']).rdropWhile (fun c => c == ')') = M := by
    rw [List.rdropWhile_concat_pos _ _ _ rfl, List.rdropWhile_eq_self_iff]
    intro hl
    simpa using (hall _ (List.getLast_mem hl)).2
  rw [← hM]
  unfold parseValue
  dsimp only
  rw [hd1, hd2, hfilter, parseComplex_text hP x y s i hs hi]
  rfl

omit [IsOrderedAddMonoid F] in
/-- C96: The imaginary unit and the separator of the columns are those, that are announced by the names of the formats. -/
theorem C96_formats (P : Floats F) (re im : F) (x : Option (Number F)) (ys : List (Option (Number F))) :
    (∀ f ∈ [tabI, pipeI], ∃ t, f.number P (some (.complex re im)) = t ++ ['i']) ∧
    (∀ f ∈ [tabJ, pipeJ], ∃ t, f.number P (some (.complex re im)) = t ++ ['j']) ∧
    (∃ t, gnuplotTable.number P (some (.complex re im)) = '{' :: t ++ ['}']) ∧
    (∀ f ∈ [tabI, tabJ, gnuplotTable], ∃ t, f.line P x ys = f.number P x ++ '\t' :: t) ∧
    (∀ f ∈ [pipeI, pipeJ], ∃ t, f.line P x ys = f.number P x ++ ' ' :: '|' :: ' ' :: t) := by
  have key : ∀ f : Format, f.gnuplot = false → ∃ t, f.number P (some (.complex re im)) = t ++ [f.imaginary] := by
    intro f hf
    show ∃ t, (if f.gnuplot then _ else _) = _
    rw [hf, if_neg (by decide)]
    split
    · exact ⟨_, rfl⟩
    · split
      · exact ⟨_, rfl⟩
      · exact ⟨_, rfl⟩
  have line : ∀ f : Format, ∃ t, f.line P x ys = f.number P x ++ (f.delimiter ++ t) := fun f =>
    ⟨_, by unfold Format.line; rw [List.append_assoc, List.append_assoc]⟩
  refine ⟨?_, ?_, ⟨P.repr re ++ ',' :: P.repr im, ?_⟩, ?_, ?_⟩
  · intro f hf
    simp only [List.mem_cons, List.not_mem_nil, or_false] at hf
    rcases hf with rfl | rfl <;> exact key _ rfl
  · intro f hf
    simp only [List.mem_cons, List.not_mem_nil, or_false] at hf
    rcases hf with rfl | rfl <;> exact key _ rfl
  · show '{' :: P.repr re ++ ',' :: P.repr im ++ ['}'] = _
    simp
  · intro f hf
    simp only [List.mem_cons, List.not_mem_nil, or_false] at hf
    rcases hf with rfl | rfl | rfl <;> exact line _
  · intro f hf
    simp only [List.mem_cons, List.not_mem_nil, or_false] at hf
    rcases hf with rfl | rfl <;> exact line _

/-! ### lines -/

theorem scan_number (n : Nat) (t r : List Char) (k : Kind) (ht : t ≠ []) (h : first (t ++ r) = some (k, r)) :
    scan (n + 1) (t ++ r) = (k, t) :: scan n r := by
  cases t with
  | nil => exact absurd rfl ht
  | cons c t =>
    rw [List.cons_append] at h ⊢
    rw [scan, h]
    dsimp only
    rw [show (c :: (t ++ r)).length - r.length = (c :: t).length by
      rw [List.length_cons, List.length_append, List.length_cons]
      omega, ← List.cons_append, List.take_left]

theorem scan_skip (n : Nat) (c : Char) (s : List Char) (h : c = '\t' ∨ c = ' ' ∨ c = '|') :
    scan (n + 1) (c :: s) = scan n s := by
  rw [scan, first_separator c s h]

omit [IsOrderedAddMonoid F] in
theorem scan_delimiter (f : Format) (hf : f ∈ formats) (n : Nat) (s : List Char) (h : f.delimiter.length ≤ n) :
    scan n (f.delimiter ++ s) = scan (n - f.delimiter.length) s := by
  simp only [formats, List.mem_cons, List.not_mem_nil, or_false] at hf
  have tab : 1 ≤ n → scan n (['\t'] ++ s) = scan (n - 1) s := by
    intro h
    obtain ⟨m, rfl⟩ : ∃ m, n = m + 1 := ⟨n - 1, by omega⟩
    exact scan_skip m '\t' s (Or.inl rfl)
  have pipe : 3 ≤ n → scan n ([' ', '|', ' '] ++ s) = scan (n - 3) s := by
    intro h
    obtain ⟨m, rfl⟩ : ∃ m, n = m + 3 := ⟨n - 3, by omega⟩
    show scan (m + 3) (' ' :: '|' :: ' ' :: s) = scan m s
    rw [scan_skip (m + 2) ' ' _ (Or.inr (Or.inl rfl)), scan_skip (m + 1) '|' _ (Or.inr (Or.inr rfl)),
      scan_skip m ' ' _ (Or.inr (Or.inl rfl))]
  rcases hf with rfl | rfl | rfl | rfl | rfl
  · exact tab h
  · exact tab h
  · exact pipe h
  · exact pipe h
  · exact tab h

theorem delimiter_ends (f : Format) (hf : f ∈ formats) (s : List Char) : Ends (f.delimiter ++ s) := by
  simp only [formats, List.mem_cons, List.not_mem_nil, or_false] at hf
  rcases hf with rfl | rfl | rfl | rfl | rfl
  · exact Or.inr ⟨'\t', _, rfl, Or.inl rfl⟩
  · exact Or.inr ⟨'\t', _, rfl, Or.inl rfl⟩
  · exact Or.inr ⟨' ', _, rfl, Or.inr rfl⟩
  · exact Or.inr ⟨' ', _, rfl, Or.inr rfl⟩
  · exact Or.inr ⟨'\t', _, rfl, Or.inl rfl⟩

omit [IsOrderedAddMonoid F] in
/-- the text of a number: it does not contain a comment, starts with a digit, unless it is negative or missing, and does not
end with a white space -/
theorem number_text {P : Floats F} (hP : P.Ok) (f : Format) (hf : f ∈ formats) (y : Option (Number F)) (hy : Plain y) :
    (∀ c ∈ f.number P y, c ≠ '#' ∧ c ≠ ';') ∧ ∃ t c, f.number P y = t ++ [c] ∧ c.isWhitespace = false := by
  have hi : imag f.imaginary = true := by
    simp only [formats, List.mem_cons, List.not_mem_nil, or_false] at hf
    rcases hf with rfl | rfl | rfl | rfl | rfl <;> rfl
  have hi' : f.imaginary ≠ '#' ∧ f.imaginary ≠ ';' ∧ f.imaginary.isWhitespace = false := by
    simp only [formats, List.mem_cons, List.not_mem_nil, or_false] at hf
    rcases hf with rfl | rfl | rfl | rfl | rfl <;> exact ⟨by decide, by decide, rfl⟩
  have hc : ∀ x, ∀ c ∈ P.repr x, c ≠ '#' ∧ c ≠ ';' := by
    intro x c hc
    have := floatChar_plain ((repr_text hP x).chars c hc)
    exact ⟨this.1, this.2.1⟩
  match y, hy with
  | none, _ =>
    by_cases hg : f.gnuplot = true
    · rw [show f.number P none = "{nan, nan}".toList from if_pos hg]
      exact ⟨by decide, "{nan, nan".toList, '}', rfl, rfl⟩
    · rw [show f.number P none = "nan".toList from if_neg hg]
      exact ⟨by decide, "na".toList, 'n', rfl, rfl⟩
  | some (.float x), _ =>
    refine ⟨hc x, ?_⟩
    obtain ⟨t, d, e, hd⟩ := (repr_text hP x).last
    exact ⟨t, d, e, (digit_props hd).2.2.2.2.2.2.2.2.2.2.2.2.2.1⟩
  | some (.complex re im), _ =>
    by_cases hg : f.gnuplot = true
    · rw [show f.number P (some (.complex re im)) = '{' :: P.repr re ++ ',' :: P.repr im ++ ['}'] from if_pos hg]
      refine ⟨?_, _, '}', rfl, rfl⟩
      intro c h
      simp only [List.mem_append, List.mem_cons, List.not_mem_nil, or_false] at h
      rcases h with ((rfl | h) | rfl | h) | rfl
      · exact ⟨by decide, by decide⟩
      · exact hc _ c h
      · exact ⟨by decide, by decide⟩
      · exact hc _ c h
      · exact ⟨by decide, by decide⟩
    · have key : ∀ (s : Char) (w : List Char), (s = '+' ∨ s = '-') → (∀ c ∈ w, c ≠ '#' ∧ c ≠ ';') →
          (∀ c ∈ P.repr re ++ s :: w ++ [f.imaginary], c ≠ '#' ∧ c ≠ ';') ∧
          ∃ t c, P.repr re ++ s :: w ++ [f.imaginary] = t ++ [c] ∧ c.isWhitespace = false := by
        intro s w hs hw
        refine ⟨?_, _, f.imaginary, rfl, hi'.2.2⟩
        intro c h
        simp only [List.mem_append, List.mem_cons, List.not_mem_nil, or_false] at h
        rcases h with (h | rfl | h) | rfl
        · exact hc _ c h
        · rcases hs with rfl | rfl <;> exact ⟨by decide, by decide⟩
        · exact hw c h
        · exact ⟨hi'.1, hi'.2.1⟩
      rw [show f.number P (some (.complex re im)) = if im = 0 then P.repr re ++ "+0.0".toList ++ [f.imaginary]
        else if im > 0 then P.repr re ++ '+' :: P.repr im ++ [f.imaginary]
        else P.repr re ++ '-' :: P.repr (-im) ++ [f.imaginary] from if_neg hg]
      split
      · exact key '+' "0.0".toList (Or.inl rfl) (by decide)
      · split
        · exact key '+' _ (Or.inl rfl) (hc im)
        · exact key '-' _ (Or.inr rfl) (hc (-im))

omit [IsOrderedAddMonoid F] in
theorem number_ne_nil {P : Floats F} (hP : P.Ok) (f : Format) (hf : f ∈ formats) (y : Option (Number F)) (hy : Plain y) :
    f.number P y ≠ [] := by
  obtain ⟨-, t, c, h, -⟩ := number_text hP f hf y hy
  rw [h]
  simp

/-- the text of the values of a line -/
def Format.values (f : Format) (P : Floats F) (ys : List (Option (Number F))) : List Char :=
  ys.flatMap fun y => f.delimiter ++ f.number P y

theorem scan_values {P : Floats F} (hP : P.Ok) (f : Format) (hf : f ∈ formats) :
    ∀ (ys : List (Option (Number F))) (n : Nat), (∀ y ∈ ys, Plain y) → (f.values P ys).length ≤ n →
      scan n (f.values P ys) = ys.map fun y => (f.kind y, f.number P y)
  | [], n, _, _ => by
    cases n <;> rfl
  | y :: ys, n, hy, hn => by
    have he : f.values P (y :: ys) = f.delimiter ++ (f.number P y ++ f.values P ys) := by
      unfold Format.values
      rw [List.flatMap_cons, List.append_assoc]
    have hends : Ends (f.values P ys) := by
      cases ys with
      | nil => exact Or.inl rfl
      | cons z zs =>
        unfold Format.values
        rw [List.flatMap_cons, List.append_assoc]
        exact delimiter_ends f hf _
    have hpos := List.length_pos_of_ne_nil (number_ne_nil hP f hf y (hy y List.mem_cons_self))
    rw [he, List.length_append, List.length_append] at hn
    rw [he, scan_delimiter f hf n _ (by omega)]
    obtain ⟨m, hm⟩ : ∃ m, n - f.delimiter.length = m + 1 := ⟨n - f.delimiter.length - 1, by omega⟩
    rw [hm, scan_number m _ _ (f.kind y) (number_ne_nil hP f hf y (hy y List.mem_cons_self))
      (C96_number hP f hf y (hy y List.mem_cons_self) _ hends).1,
      scan_values hP f hf ys m (fun z hz => hy z (List.mem_cons_of_mem _ hz)) (by omega)]
    rfl

/-- C96: The numbers of a line are exactly those, that have been written, with every delimiter. -/
theorem C96_tokens {P : Floats F} (hP : P.Ok) (f : Format) (hf : f ∈ formats) (y : Option (Number F))
    (ys : List (Option (Number F))) (hy : Plain y) (hys : ∀ y ∈ ys, Plain y) :
    tokens (f.number P y ++ f.values P ys) = (f.kind y, f.number P y) :: ys.map fun y => (f.kind y, f.number P y) := by
  have hends : Ends (f.values P ys) := by
    cases ys with
    | nil => exact Or.inl rfl
    | cons z zs =>
      unfold Format.values
      rw [List.flatMap_cons, List.append_assoc]
      exact delimiter_ends f hf _
  have hpos := List.length_pos_of_ne_nil (number_ne_nil hP f hf y hy)
  unfold tokens
  obtain ⟨m, hm⟩ : ∃ m, (f.number P y ++ f.values P ys).length = m + 1 := ⟨(f.number P y ++ f.values P ys).length - 1, by
    rw [List.length_append]
    omega⟩
  rw [hm, scan_number m _ _ (f.kind y) (number_ne_nil hP f hf y hy) (C96_number hP f hf y hy _ hends).1,
    scan_values hP f hf ys m hys (by
      rw [List.length_append] at hm
      omega)]

omit [LinearOrder F] [AddCommGroup F] [IsOrderedAddMonoid F] in
theorem intercalate_values (d : List Char) (ls : List (List Char)) (h : ls ≠ []) :
    d ++ d.intercalate ls = ls.flatMap fun l => d ++ l := by
  induction ls with
  | nil => exact absurd rfl h
  | cons l ls ih =>
    cases ls with
    | nil => simp [List.intercalate]
    | cons m ms =>
      have : d.intercalate (l :: m :: ms) = l ++ d ++ d.intercalate (m :: ms) := by
        simp [List.intercalate, List.intersperse]
      rw [this, List.flatMap_cons, ← ih (by simp)]
      simp

theorem clean_line (s t : List Char) (c d : Char) (u : List Char) (h1 : ∀ c ∈ s, c ≠ '#' ∧ c ≠ ';') (h2 : s = c :: u)
    (h3 : s = t ++ [d]) (hc : c.isWhitespace = false) (hd : d.isWhitespace = false) : clean (s ++ ['\n']) = s := by
  have k1 : (s ++ ['\n']).takeWhile (fun c => c != '#') = s ++ ['\n'] := by
    rw [List.takeWhile_eq_self_iff]
    intro c hc
    rcases List.mem_append.mp hc with hc | hc
    · simpa using (h1 c hc).1
    · rw [List.mem_singleton] at hc
      rw [hc]
      rfl
  have k2 : (s ++ ['\n']).takeWhile (fun c => c != ';') = s ++ ['\n'] := by
    rw [List.takeWhile_eq_self_iff]
    intro c hc
    rcases List.mem_append.mp hc with hc | hc
    · simpa using (h1 c hc).2
    · rw [List.mem_singleton] at hc
      rw [hc]
      rfl
  unfold clean strip
  rw [k1, k2, show (s ++ ['\n']).dropWhile Char.isWhitespace = s ++ ['\n'] by rw [h2]; exact dropWhile_head hc,
    List.rdropWhile_concat_pos _ _ _ rfl, h3, List.rdropWhile_concat_neg _ _ _ (by rw [hd]; simp)]

omit [IsOrderedAddMonoid F] in
theorem line_facts {P : Floats F} (hP : P.Ok) (f : Format) (hf : f ∈ formats) (y : Option (Number F))
    (ys : List (Option (Number F))) (hy : Plain y) (hys : ∀ y ∈ ys, Plain y) (hn : ys ≠ []) :
    f.line P y ys = f.number P y ++ f.values P ys ++ ['\n'] ∧
    (∀ c ∈ f.number P y ++ f.values P ys, c ≠ '#' ∧ c ≠ ';') ∧
    ∃ t d, f.number P y ++ f.values P ys = t ++ [d] ∧ d.isWhitespace = false := by
  have hdel : ∀ c ∈ f.delimiter, c ≠ '#' ∧ c ≠ ';' := by
    simp only [formats, List.mem_cons, List.not_mem_nil, or_false] at hf
    rcases hf with rfl | rfl | rfl | rfl | rfl <;> decide
  refine ⟨?_, ?_, ?_⟩
  · unfold Format.line Format.values
    rw [List.append_assoc (f.number P y), intercalate_values _ _ (by simpa using hn), List.flatMap_map]
  · intro c hc
    rcases List.mem_append.mp hc with hc | hc
    · exact (number_text hP f hf y hy).1 c hc
    · obtain ⟨z, hz, hc⟩ := List.mem_flatMap.mp hc
      rcases List.mem_append.mp hc with hc | hc
      · exact hdel c hc
      · exact (number_text hP f hf z (hys z hz)).1 c hc
  · obtain ⟨zs, z, rfl⟩ : ∃ zs z, ys = zs ++ [z] := ⟨ys.dropLast, ys.getLast hn, (List.dropLast_append_getLast hn).symm⟩
    obtain ⟨-, t, d, e, hd⟩ := number_text hP f hf z (hys z (by simp))
    refine ⟨f.number P y ++ (f.values P zs ++ (f.delimiter ++ t)), d, ?_, hd⟩
    unfold Format.values
    rw [List.flatMap_append, List.flatMap_cons, List.flatMap_nil, e]
    simp

theorem mapM_values {P : Floats F} (hP : P.Ok) (f : Format) (hf : f ∈ formats) :
    ∀ ys : List (Option (Number F)), (∀ y ∈ ys, Plain y) →
      (ys.map fun y => (f.kind y, f.number P y)).mapM (parseValue P) = .ok ys
  | [], _ => rfl
  | y :: ys, h => by
    rw [List.map_cons, List.mapM_cons, (C96_number hP f hf y (h y List.mem_cons_self) [] (Or.inl rfl)).2,
      mapM_values hP f hf ys fun z hz => h z (List.mem_cons_of_mem _ hz)]
    rfl

/-- C96: Reading a written line returns the frequency and the values of all channels. -/
theorem C96_line {P : Floats F} (hP : P.Ok) (f : Format) (hf : f ∈ formats) (x : F) (hx : 0 ≤ x)
    (ys : List (Option (Number F))) (hys : ∀ y ∈ ys, Plain y) (hn : ys ≠ []) :
    readLine P (f.line P (some (.float x)) ys) = .ok (.frequency x :: ys.map toToken) := by
  obtain ⟨h1, h2, t, d, h3, h4⟩ := line_facts hP f hf (some (.float x)) ys trivial hys hn
  obtain ⟨-, c, u, e, hc⟩ := unsigned_text _ (hP.unsigned x hx)
  have e' : f.number P (some (.float x)) ++ f.values P ys = c :: (u ++ f.values P ys) := by
    show P.repr x ++ _ = _
    rw [e]
    rfl
  have hclean := clean_line _ t c d _ h2 e' h3 (digit_props hc).2.2.2.2.2.2.2.2.2.2.2.2.2.1 h4
  unfold readLine
  dsimp only
  rw [h1, hclean, if_neg (by rw [e']; simp), if_neg (by
    rw [not_not]
    left
    rw [e']
    exact hc), C96_tokens hP f hf (some (.float x)) ys trivial hys]
  show (match P.parse (P.repr x) with
    | some f_1 => _
    | none => _) = _
  rw [hP.parse, mapM_values hP f hf ys hys]
  rfl

theorem nan_braces (r : List Char) : rests nan ('{' :: ("nan, nan}".toList ++ r)) = [r] := rfl

theorem nan_plain (r : List Char) : rests nan ('n' :: ("an".toList ++ r)) = [r] := rfl

/-- C96: Reading the line of a table without frequencies returns the number of channels. -/
theorem C96_empty_line {P : Floats F} (hP : P.Ok) (f : Format) (hf : f ∈ formats) (n : Nat) (hn : n ≠ 0) :
    readLine P (f.line P none (List.replicate n none)) = .ok (.nan :: List.replicate n .nan) := by
  have hys : ∀ y ∈ List.replicate n (none : Option (Number F)), Plain y := by
    intro y hy
    rw [List.eq_of_mem_replicate hy]
    trivial
  obtain ⟨h1, h2, t, d, h3, h4⟩ := line_facts hP f hf none (List.replicate n none) trivial hys (by
    intro h
    rw [List.replicate_eq_nil_iff] at h
    exact hn h)
  have e : ∃ c u, f.number P none ++ f.values P (List.replicate n none) = c :: u ∧ c.isWhitespace = false ∧
      rests nan (c :: u) ≠ [] := by
    by_cases hg : f.gnuplot = true
    · rw [show f.number P none = "{nan, nan}".toList from if_pos hg]
      refine ⟨'{', "nan, nan}".toList ++ f.values P (List.replicate n none), rfl, rfl, ?_⟩
      rw [nan_braces (f.values P (List.replicate n none))]
      simp
    · rw [show f.number P none = "nan".toList from if_neg hg]
      refine ⟨'n', "an".toList ++ f.values P (List.replicate n none), rfl, rfl, ?_⟩
      rw [nan_plain (f.values P (List.replicate n none))]
      simp
  obtain ⟨c, u, e, hc, hnan⟩ := e
  have hclean := clean_line _ t c d _ h2 e h3 hc h4
  unfold readLine
  dsimp only
  rw [h1, hclean, if_neg (by rw [e]; simp), if_neg (by
    rw [not_not]
    right
    rw [e]
    exact hnan), C96_tokens hP f hf none (List.replicate n none) trivial hys]
  show Except.ok (Token.nan :: _) = _
  rw [List.map_map, List.map_replicate]
  rfl

omit [LinearOrder F] [IsOrderedAddMonoid F] in
/-- C96: the first line is ignored, whatever the labels are -/
theorem C96_header (P : Floats F) (f : Format) (labels : List Char) :
    readLine P ("# frequencies".toList ++ f.delimiter ++ labels ++ ['\n']) = .ok [] := rfl

theorem file_lines {P : Floats F} (hP : P.Ok) (f : Format) (hf : f ∈ formats) (labels : List Char)
    (a : Channels F (Number F)) (rows : List (Option F × List (Option (Number F))))
    (ha : tableRows a.transferFunctions = .ok rows)
    (hrows : ∀ r ∈ rows, r.2 ≠ [] ∧ (∀ y ∈ r.2, Plain y) ∧ (∀ x, r.1 = some x → 0 ≤ x) ∧
      (r.1 = none → ∀ y ∈ r.2, y = none)) :
    ∃ lines table, f.write P labels a = .ok lines ∧ textWrite a = .ok table ∧ lines.mapM (readLine P) = .ok table := by
  unfold Format.write textWrite
  rw [ha]
  refine ⟨_, _, rfl, rfl, ?_⟩
  rw [List.mapM_cons, C96_header]
  have key : ∀ rows : List (Option F × List (Option (Number F))), (∀ r ∈ rows, r.2 ≠ [] ∧ (∀ y ∈ r.2, Plain y) ∧
      (∀ x, r.1 = some x → 0 ≤ x) ∧ (r.1 = none → ∀ y ∈ r.2, y = none)) →
      (rows.map fun r => f.line P (r.1.map .float) r.2).mapM (readLine P) =
        .ok (rows.map fun r => (match r.1 with | some f => Token.frequency f | none => .nan) ::
          r.2.map fun y => match y with | some y => Token.value y | none => .nan) := by
    intro rows
    induction rows with
    | nil => intro _; rfl
    | cons r rows ih =>
      intro h
      obtain ⟨h1, h2, h3, h4⟩ := h r List.mem_cons_self
      rw [List.map_cons, List.mapM_cons, ih fun r hr => h r (List.mem_cons_of_mem _ hr)]
      obtain ⟨x, ys⟩ := r
      cases x with
      | some x =>
        rw [show f.line P (Option.map Number.float (some x, ys).1) (some x, ys).2 = f.line P (some (.float x)) ys from rfl,
          C96_line hP f hf x (h3 x rfl) ys h2 h1]
        rfl
      | none =>
        have hys : ys = List.replicate ys.length none := List.eq_replicate_of_mem fun y hy => h4 rfl y hy
        have := C96_empty_line hP f hf ys.length (by
          intro h
          exact h1 (List.length_eq_zero_iff.mp h))
        rw [← hys] at this
        rw [show f.line P (Option.map Number.float (none, ys).1) (none, ys).2 = f.line P none ys from rfl, this]
        show Except.ok _ = Except.ok _
        congr 2
        rw [hys]
        simp
  show (do
    let l ← (rows.map fun r : Option F × List (Option (Number F)) => f.line P (r.1.map .float) r.2).mapM (readLine P)
    pure ([] :: l)) = _
  rw [key rows hrows]
  show Except.ok ([] :: _) = Except.ok ([] :: _)
  congr 2
  refine List.map_congr_left fun r _ => ?_
  obtain ⟨x, ys⟩ := r
  congr 1
  refine List.map_congr_left fun y _ => ?_
  cases y <;> rfl

omit [AddCommGroup F] [IsOrderedAddMonoid F] in
theorem rows_facts {K : Type} (cs : List (Channel F K)) (hc : ∀ c ∈ cs, c.Good) (rows : List (Option F × List (Option K)))
    (h : tableRows (cs.map Channel.term) = .ok rows) :
    ∀ r ∈ rows, r.2.length = cs.length ∧ cs ≠ [] ∧ (∀ x, r.1 = some x → ∃ c ∈ cs, x ∈ c.1) ∧
      (∀ v, some v ∈ r.2 → ∃ c ∈ cs, v ∈ c.2.1) ∧ (r.1 = none → ∀ y ∈ r.2, y = none) := by
  obtain ⟨d, h1, h2⟩ := joinChannels_spec cs hc [] [] ⟨List.nodup_nil, fun f => by simp [Dict.get?]⟩
  rw [List.nil_append] at h2
  unfold tableRows at h
  have h1 : joinChannels 0 [] (cs.map Channel.term) = .ok d := h1
  rw [h1] at h
  have h : (if d.isEmpty ∧ (cs.map Channel.term).length ≠ 0 then
    Except.ok [(none, List.replicate (cs.map Channel.term).length none)]
    else .ok ((d.insertionSort fun p q => p.1 ≤ q.1).map fun p => (some p.1, p.2)) :
      Py (List (Option F × List (Option K)))) = .ok rows := h
  split at h
  · next he =>
    cases h
    intro r hr
    rw [List.mem_singleton] at hr
    subst hr
    refine ⟨by simp, ?_, ?_, ?_, ?_⟩
    · rintro rfl
      exact he.2 rfl
    · intro x hx
      cases hx
    · intro v hv
      cases List.eq_of_mem_replicate hv
    · exact fun _ y hy => List.eq_of_mem_replicate hy
  · cases h
    intro r hr
    obtain ⟨p, hpm, rfl⟩ := List.mem_map.mp hr
    have hp := List.perm_insertionSort (fun p q : F × List (Option K) => p.1 ≤ q.1) d
    have hentry := Dict.get?_of_mem h2.1 (hp.mem_iff.mp hpm)
    rw [h2.2] at hentry
    split at hentry
    · next hex =>
      have e := (Option.some.inj hentry).symm
      refine ⟨?_, ?_, ?_, ?_, ?_⟩
      · show p.2.length = _
        rw [e, List.length_map]
      · obtain ⟨c, hc, -⟩ := hex
        rintro rfl
        cases hc
      · intro x hx
        rw [← Option.some.inj hx]
        exact hex
      · intro v hv
        have hv : some v ∈ p.2 := hv
        rw [e] at hv
        obtain ⟨c, hcs, hv⟩ := List.mem_map.mp hv
        exact ⟨c, hcs, (List.of_mem_zip (show (p.1, v) ∈ c.1.zip c.2.1 from Dict.mem_of_get? hv)).2⟩
      · intro h
        cases h
    · cases hentry

/-- C96: Storing a bands filter in a text table with any of the five formats and loading it again restores the frequencies
and the values of all channels. -/
theorem C96_file_partial {P : Floats F} (hP : P.Ok) (f : Format) (hf : f ∈ formats) (filename : String)
    (cs : List (Channel F (Number F))) (hc : ∀ c ∈ cs, c.Good) (hpos : ∀ c ∈ cs, ∀ x ∈ c.1, 0 ≤ x)
    (hplain : ∀ c ∈ cs, ∀ y ∈ c.2.1, Plain (some y)) (labels : List String) (header : List Char) :
    ∃ lines table b, f.write P header ⟨cs.map Channel.term, labels⟩ = .ok lines ∧ lines.mapM (readLine P) = .ok table ∧
      textRead filename table = .ok b ∧
      b.filter = ⟨cs.map fun c => .bands c.1 c.2.1 .logarithmic .stairsLin, fileLabels filename cs.length⟩ := by
  obtain ⟨table, b, h1, h2, h3⟩ := C51_text filename cs hc hpos labels
  obtain ⟨rows, h4, -⟩ := tableRows_spec cs hc
  have hrows := rows_facts cs hc rows h4
  obtain ⟨lines, table', k1, k2, k3⟩ := file_lines hP f hf header ⟨cs.map Channel.term, labels⟩ rows h4 (by
    intro r hr
    obtain ⟨a1, a2, a3, a4, a5⟩ := hrows r hr
    refine ⟨?_, ?_, ?_, a5⟩
    · intro h
      rw [h] at a1
      exact a2 (List.length_eq_zero_iff.mp a1.symm)
    · intro y hy
      cases y with
      | none => trivial
      | some v =>
        obtain ⟨c, hcs, hv⟩ := a4 v hy
        exact hplain c hcs v hv
    · intro x hx
      obtain ⟨c, hcs, hm⟩ := a3 x hx
      exact hpos c hcs x hm)
  rw [h1] at k2
  cases k2
  exact ⟨lines, table, b, k1, k3, h2, h3⟩

end Numbers

/-! ### an example for the numbers -/

/-- integers, which are represented like floats, as an example for numbers with `repr` and `float` -/
def ints : Floats ℤ where
  repr x := if x < 0 then '-' :: (Nat.toDigits 10 x.natAbs ++ ['.', '0']) else Nat.toDigits 10 x.natAbs ++ ['.', '0']
  parse s := match s with
    | '-' :: t => some (-((Nat.ofDigitChars 10 (t.takeWhile digit) 0 : ℕ) : ℤ))
    | t => some ((Nat.ofDigitChars 10 (t.takeWhile digit) 0 : ℕ) : ℤ)

theorem toDigits_digit (n : ℕ) : ∀ c ∈ Nat.toDigits 10 n, digit c = true :=
  fun _ hc => Nat.isDigit_of_mem_toDigits (by decide) (by decide) hc

theorem ints_takeWhile (n : ℕ) : (Nat.toDigits 10 n ++ ['.', '0']).takeWhile digit = Nat.toDigits 10 n := by
  rw [List.takeWhile_append_of_pos (toDigits_digit n), List.takeWhile_cons_of_neg (by decide), List.append_nil]

theorem ints_unsigned (n : ℕ) : IsUnsigned (Nat.toDigits 10 n ++ ['.', '0']) :=
  .fixed _ ['0'] Nat.toDigits_ne_nil (by simp) (toDigits_digit n) (by decide)

theorem ints_ok : ints.Ok where
  parse x := by
    by_cases h : x < 0
    · rw [show ints.repr x = '-' :: (Nat.toDigits 10 x.natAbs ++ ['.', '0']) from if_pos h]
      show some _ = _
      rw [ints_takeWhile, Nat.ofDigitChars_toDigits (by decide) (by decide)]
      congr 1
      omega
    · rw [show ints.repr x = Nat.toDigits 10 x.natAbs ++ ['.', '0'] from if_neg h]
      have key : ∀ t : List Char, (∃ c u, t = c :: u ∧ digit c = true) →
          ints.parse t = some ((Nat.ofDigitChars 10 (t.takeWhile digit) 0 : ℕ) : ℤ) := by
        rintro t ⟨c, u, rfl, hc⟩
        unfold ints
        dsimp only
        split
        · next heq =>
          rw [(List.cons.inj heq).1] at hc
          cases hc
        · rfl
      obtain ⟨-, hd⟩ := unsigned_text _ (ints_unsigned x.natAbs)
      rw [key _ hd, ints_takeWhile, Nat.ofDigitChars_toDigits (by decide) (by decide),
        Int.natAbs_of_nonneg (not_lt.mp h)]
  unsigned x hx := by
    rw [show ints.repr x = Nat.toDigits 10 x.natAbs ++ ['.', '0'] from if_neg (not_lt.mpr hx)]
    exact ints_unsigned _
  negative x hx := ⟨_, ints_unsigned x.natAbs, if_pos hx⟩
  zero := rfl

/-- an instance of the main theorem -/
example : ∃ lines table b,
    pipeJ.write ints "one | two".toList ⟨[Channel.term ([1, 20], [.float (-3), .complex 4 (-5)], .linear, .zero),
      Channel.term ([20, 300], [.complex 0 7, .complex (-8) 0], .linear, .zero)], ["one", "two"]⟩ = .ok lines ∧
    lines.mapM (readLine ints) = .ok table ∧ textRead "file.txt" table = .ok b ∧
    b.filter = ⟨[.bands [1, 20] [.float (-3), .complex 4 (-5)] .logarithmic .stairsLin,
      .bands [20, 300] [.complex 0 7, .complex (-8) 0] .logarithmic .stairsLin], fileLabels "file.txt" 2⟩ := by
  refine C96_file_partial ints_ok pipeJ (by simp [formats]) "file.txt"
    [([1, 20], [.float (-3), .complex 4 (-5)], .linear, .zero), ([20, 300], [.complex 0 7, .complex (-8) 0], .linear, .zero)]
    ?_ ?_ ?_ ["one", "two"] "one | two".toList
  · intro c hc
    simp only [List.mem_cons, List.not_mem_nil, or_false] at hc
    rcases hc with rfl | rfl <;> exact ⟨by decide, rfl⟩
  · intro c hc
    simp only [List.mem_cons, List.not_mem_nil, or_false] at hc
    rcases hc with rfl | rfl <;> decide
  · intro c hc
    simp only [List.mem_cons, List.not_mem_nil, or_false] at hc
    rcases hc with rfl | rfl <;>
    · intro y hy
      simp only [List.mem_cons, List.not_mem_nil, or_false] at hy
      rcases hy with rfl | rfl <;> trivial

/-- the text of a line -/
example : pipeJ.line ints (some (.float 20)) [some (.complex 4 (-5)), none] = "20.0 | 4.0-5.0j | nan\n".toList := by decide

/-- `C96_parentheses` -/
example : tokens "20.0 (4.0 - 5.0j)".toList = [(.real, "20.0".toList), (.parentheses, "(4.0 - 5.0j)".toList)] ∧
    readLine ints "20.0 (4.0 - 5.0j)".toList = .ok [.frequency 20, .value (.complex 4 (-5))] := ⟨by decide, rfl⟩

/-! ### violations -/

/-- C96: The frequencies of a filter, that has been created with integers as frequencies, are stored in an array of integers.
These are written as complex numbers, so that the file cannot be loaded. -/
theorem C96_integer_violated : ∀ f ∈ formats,
    ∃ e, readLine ints (f.line ints (some (.integer 10)) [some (.float 2)]) = .error e := by
  intro f hf
  simp only [formats, List.mem_cons, List.not_mem_nil, or_false] at hf
  rcases hf with rfl | rfl | rfl | rfl | rfl
  · exact ⟨.osError, rfl⟩
  · exact ⟨.osError, rfl⟩
  · exact ⟨.osError, rfl⟩
  · exact ⟨.osError, rfl⟩
  · exact ⟨.valueError, rfl⟩

/-- C96: The dot in the expression for numbers with an exponent is not escaped, so that an integer frequency and a value with
an exponent are found as one number, whatever separates them: The columns of the line are lost. -/
theorem C96_dot_violated :
    tokens "10\t2e-05".toList = [(.real, "10\t2e-05".toList)] ∧ tokens "10,2e-05".toList = [(.real, "10,2e-05".toList)] ∧
    tokens "10 2e-05".toList = [(.real, "10 2e-05".toList)] ∧
    tokens "10.0 2e-05".toList = [(.real, "10.0".toList), (.real, "2e-05".toList)] := by
  decide

/-- C96: The value of an infinite amplification is skipped, so that the following value is assigned to the wrong channel. -/
theorem C96_infinity_violated :
    readLine ints "10.0\tinf\t3.0\n".toList = .ok [.frequency 10, .value (.float 3)] := by
  rfl

end BandsText
end Filter
end Verif
