import Verif.PyExprParse
import Verif.BandsTextProps

/-
Lemmas about the tokens of python expressions (`PyExpr.lean`): which texts have which tokens
-/

namespace Verif
namespace PyExpr

open Verif.Filter.BandsText (IsUnsigned digit sign)

/-- the text has the given tokens -/
def L (s : List Char) (ts : List Tok) : Prop := ∀ n, s.length ≤ n → lexN n s = some ts

theorem L_lex {s : List Char} {ts : List Tok} (h : L s ts) : lex s = some ts := h _ le_rfl

theorem L_nil : L [] [] := by
  intro n _
  cases n <;> rfl

theorem L_step {c : Char} {s r : List Char} {t : Option Tok} {us : List Tok} (h : lexStep (c :: s) = some (t, r))
    (hl : r.length ≤ s.length) (hr : L r us) : L (c :: s) (t.toList ++ us) := by
  intro n hn
  rw [List.length_cons] at hn
  obtain ⟨m, rfl⟩ : ∃ m, n = m + 1 := ⟨n - 1, by omega⟩
  rw [lexN, h]
  dsimp only
  rw [hr m (by omega)]
  rfl

/-- characters, that are tokens -/
def isSym (c : Char) : Bool :=
  !(c == ' ' || c == '\n' || nameStart c || c.isDigit || c == '\'' || c == '"')

theorem L_sym {c : Char} {r : List Char} {us : List Tok} (hc : isSym c = true) (h : L r us) :
    L (c :: r) (.sym c :: us) := by
  simp only [isSym, Bool.not_eq_true', Bool.or_eq_false_iff, beq_eq_false_iff_ne] at hc
  obtain ⟨⟨⟨⟨⟨h1, h2⟩, h3⟩, h4⟩, h5⟩, h6⟩ := hc
  refine L_step (t := some (.sym c)) (r := r) ?_ le_rfl h
  simp [lexStep, h1, h2, h3, h4, h5, h6]

theorem L_space {r : List Char} {us : List Tok} (h : L r us) : L (' ' :: r) us :=
  L_step (t := none) (r := r) (by simp [lexStep]) le_rfl h

theorem L_newline {r : List Char} {us : List Tok} (h : L r us) : L ('\n' :: r) us :=
  L_step (t := none) (r := r) (by simp [lexStep]) le_rfl h

/-- the text does not continue a name or a number -/
def Break (r : List Char) : Prop := ∀ c ∈ r.head?, nameChar c = false ∧ c ≠ '.'

theorem break_cons {c : Char} (r : List Char) (h : nameChar c = false ∧ c ≠ '.') : Break (c :: r) := by
  intro d hd
  simp only [List.head?_cons, Option.mem_def, Option.some.injEq] at hd
  subst hd
  exact h

theorem span_append (p : Char → Bool) (a r : List Char) (ha : ∀ c ∈ a, p c = true) (hr : ∀ c ∈ r.head?, p c = false) :
    (a ++ r).takeWhile p = a ∧ (a ++ r).dropWhile p = r := by
  induction a with
  | nil =>
    cases r with
    | nil => exact ⟨rfl, rfl⟩
    | cons c r =>
      have := hr c rfl
      simp [this]
  | cons c a ih =>
    obtain ⟨h1, h2⟩ := ih fun d hd => ha d (List.mem_cons_of_mem _ hd)
    have := ha c List.mem_cons_self
    rw [List.cons_append, List.takeWhile_cons, List.dropWhile_cons, if_pos this, if_pos this, h1, h2]
    exact ⟨rfl, rfl⟩

/-- a name -/
def IsName (x : List Char) : Prop := ∃ c s, x = c :: s ∧ nameStart c = true ∧ ∀ d ∈ s, nameChar d = true

theorem nameStart_props {c : Char} (h : nameStart c = true) : ¬(c = ' ' ∨ c = '\n') := by
  rintro (rfl | rfl) <;> exact absurd h (by decide)

theorem L_name_of {x r : List Char} {us : List Tok} (hx : IsName x) (hr : ∀ c ∈ r.head?, nameChar c = false)
    (h : L r us) : L (x ++ r) (.name x :: us) := by
  obtain ⟨c, s, rfl, hc, hs⟩ := hx
  obtain ⟨h1, h2⟩ := span_append nameChar s r hs hr
  refine L_step (t := some (.name (c :: s))) (r := r) ?_ (by simp) h
  show lexStep (c :: (s ++ r)) = _
  rw [lexStep, if_neg (nameStart_props hc), if_pos hc, h1, h2]

theorem L_name {x r : List Char} {us : List Tok} (hx : IsName x) (hr : Break r) (h : L r us) :
    L (x ++ r) (.name x :: us) := L_name_of hx (fun d hd => (hr d hd).1) h

/-- a name before a dot -/
theorem L_name_dot {x r : List Char} {us : List Tok} (hx : IsName x) (h : L r us) :
    L (x ++ '.' :: r) (.name x :: .sym '.' :: us) := by
  refine L_name_of hx (fun c hc => ?_) (L_sym (by decide) h)
  simp only [List.head?_cons, Option.mem_def, Option.some.injEq] at hc
  subst hc
  decide

/-! ### numbers -/

/-- the text of a number without sign -/
inductive IsNumber : List Char → Prop where
  | unsigned (u : List Char) (h : IsUnsigned u) : IsNumber u
  | digits (u : List Char) (h0 : u ≠ []) (h : ∀ c ∈ u, c.isDigit = true) : IsNumber u

theorem digit_ne {c : Char} (h : c.isDigit = true) {d : Char} (hd : d.isDigit = false) : c ≠ d := by
  rintro rfl
  rw [h] at hd
  cases hd

theorem lexExponent_none {r : List Char} (hr : ∀ c ∈ r.head?, c ≠ 'e' ∧ c ≠ 'E') : lexExponent r = ([], r) := by
  cases r with
  | nil => rfl
  | cons c r =>
    obtain ⟨h1, h2⟩ := hr c rfl
    simp [lexExponent, h1, h2]

theorem lexExponent_some {s : Char} {e r : List Char} (hs : sign s = true) (he : e ≠ []) (de : ∀ c ∈ e, c.isDigit = true)
    (hr : ∀ c ∈ r.head?, c.isDigit = false) : lexExponent ('e' :: s :: (e ++ r)) = ('e' :: s :: e, r) := by
  obtain ⟨h1, h2⟩ := span_append Char.isDigit e r de hr
  have hs' : s = '+' ∨ s = '-' := by simpa [sign] using hs
  have hd : s.isDigit = false := by rcases hs' with rfl | rfl <;> decide
  have hh : ((e ++ r).head?.map Char.isDigit).getD false = true := by
    cases e with
    | nil => exact absurd rfl he
    | cons c e => exact de c List.mem_cons_self
  simp only [lexExponent, true_or, if_true, hd, hs', hh, h1, h2, and_self, Bool.false_eq_true, if_false]

theorem lexFraction_none {r : List Char} (hr : ∀ c ∈ r.head?, c ≠ '.') : lexFraction r = ([], r) := by
  cases r with
  | nil => rfl
  | cons c r =>
    rw [lexFraction]
    intro s hs
    simp only [List.cons.injEq] at hs
    exact hr c rfl hs.1

/-- the text does not continue a number -/
def NumberEnd (r : List Char) : Prop := ∀ c ∈ r.head?, c.isDigit = false ∧ c ≠ '.' ∧ c ≠ 'e' ∧ c ≠ 'E'

theorem lexNumber_append {u r : List Char} (hu : IsNumber u) (hr : NumberEnd r) : lexNumber (u ++ r) = (u, r) := by
  have rd := fun c hc => (hr c hc).1
  have rp := fun c hc => (hr c hc).2.1
  have re := fun c hc => (hr c hc).2.2
  cases hu with
  | digits h0 h =>
    obtain ⟨h1, h2⟩ := span_append Char.isDigit u r h rd
    simp only [lexNumber, h1, h2, lexFraction_none rp, lexExponent_none re, List.append_nil]
  | unsigned h =>
    cases h with
    | fixed a b ha hb da db =>
      have e : (a ++ '.' :: b) ++ r = a ++ '.' :: (b ++ r) := by simp
      obtain ⟨h1, h2⟩ := span_append Char.isDigit a ('.' :: (b ++ r)) da (fun c hc => by
        simp only [List.head?_cons, Option.mem_def, Option.some.injEq] at hc
        subst hc
        rfl)
      obtain ⟨h3, h4⟩ := span_append Char.isDigit b r db rd
      simp only [lexNumber, e, h1, h2, lexFraction, h3, h4, lexExponent_none re, List.append_nil]
    | whole a x s ha hx da dx hs =>
      have e : (a ++ 'e' :: s :: x) ++ r = a ++ 'e' :: s :: (x ++ r) := by simp
      obtain ⟨h1, h2⟩ := span_append Char.isDigit a ('e' :: s :: (x ++ r)) da (fun c hc => by
        simp only [List.head?_cons, Option.mem_def, Option.some.injEq] at hc
        subst hc
        rfl)
      have h3 : lexFraction ('e' :: s :: (x ++ r)) = ([], 'e' :: s :: (x ++ r)) := lexFraction_none (fun c hc => by
        simp only [List.head?_cons, Option.mem_def, Option.some.injEq] at hc
        subst hc
        decide)
      simp only [lexNumber, e, h1, h2, h3, lexExponent_some hs hx dx rd, List.append_nil]
    | exponent a b x s ha hb hx da db dx hs =>
      have e : (a ++ '.' :: b ++ 'e' :: s :: x) ++ r = a ++ '.' :: (b ++ 'e' :: s :: (x ++ r)) := by simp
      obtain ⟨h1, h2⟩ := span_append Char.isDigit a ('.' :: (b ++ 'e' :: s :: (x ++ r))) da (fun c hc => by
        simp only [List.head?_cons, Option.mem_def, Option.some.injEq] at hc
        subst hc
        rfl)
      obtain ⟨h3, h4⟩ := span_append Char.isDigit b ('e' :: s :: (x ++ r)) db (fun c hc => by
        simp only [List.head?_cons, Option.mem_def, Option.some.injEq] at hc
        subst hc
        rfl)
      rw [e]
      simp only [lexNumber, h1, h2, lexFraction, h3, h4, lexExponent_some hs hx dx rd]

theorem number_head {u : List Char} (hu : IsNumber u) : ∃ c s, u = c :: s ∧ c.isDigit = true := by
  have key : ∀ a s : List Char, a ≠ [] → (∀ c ∈ a, c.isDigit = true) → ∃ c t, a ++ s = c :: t ∧ c.isDigit = true := by
    intro a s ha da
    cases a with
    | nil => exact absurd rfl ha
    | cons c a => exact ⟨c, a ++ s, rfl, da c List.mem_cons_self⟩
  cases hu with
  | digits h0 h =>
    have := key u [] h0 h
    rwa [List.append_nil] at this
  | unsigned h =>
    cases h with
    | fixed a b ha hb da db => exact key a _ ha da
    | whole a x s ha hx da dx hs => exact key a _ ha da
    | exponent a b x s ha hb hx da db dx hs =>
      rw [List.append_assoc]
      exact key a _ ha da

theorem digit_start {c : Char} (h : c.isDigit = true) : ¬(c = ' ' ∨ c = '\n') ∧ nameStart c = false := by
  refine ⟨?_, ?_⟩
  · rintro (rfl | rfl) <;> exact absurd h (by decide)
  · unfold nameStart
    rw [Bool.or_eq_false_iff, beq_eq_false_iff_ne]
    refine ⟨?_, digit_ne h (by decide)⟩
    simp only [Char.isDigit, Char.isAlpha, Char.isUpper, Char.isLower, Bool.and_eq_true, decide_eq_true_eq,
      Bool.or_eq_false_iff, Bool.and_eq_false_iff, decide_eq_false_iff_not, ge_iff_le] at h ⊢
    obtain ⟨h1, h2⟩ := h
    rw [UInt32.le_iff_toNat_le] at h2
    simp only [UInt32.le_iff_toNat_le]
    have h57 : '9'.val.toNat = 57 := rfl
    have h65 : 'A'.val.toNat = 65 := rfl
    have h97 : 'a'.val.toNat = 97 := rfl
    exact ⟨by omega, by omega⟩

theorem break_number {r : List Char} (h : Break r) : NumberEnd r ∧ ∀ c ∈ r.head?, c ≠ 'j' := by
  refine ⟨fun c hc => ?_, fun c hc => ?_⟩
  · obtain ⟨h1, h2⟩ := h c hc
    refine ⟨?_, h2, ?_, ?_⟩
    · simp only [nameChar, Char.isAlphanum, Bool.or_eq_false_iff] at h1
      exact h1.1.2
    · rintro rfl
      exact absurd h1 (by decide)
    · rintro rfl
      exact absurd h1 (by decide)
  · rintro rfl
    exact absurd (h _ hc).1 (by decide)

theorem L_num {u r : List Char} {us : List Tok} (hu : IsNumber u) (hr : Break r) (h : L r us) :
    L (u ++ r) (.num u :: us) := by
  obtain ⟨c, s, rfl, hc⟩ := number_head hu
  obtain ⟨h1, h2⟩ := break_number hr
  have e := lexNumber_append hu h1
  refine L_step (t := some (.num (c :: s))) (r := r) ?_ (by simp) h
  show lexStep (c :: (s ++ r)) = _
  rw [List.cons_append] at e
  rw [lexStep, if_neg (digit_start hc).1, if_neg (by simp [(digit_start hc).2]), if_pos hc]
  simp only [e]
  split
  · exact absurd rfl (h2 _ rfl)
  · rfl

theorem L_imag {u r : List Char} {us : List Tok} (hu : IsNumber u) (h : L r us) :
    L (u ++ 'j' :: r) (.imag u :: us) := by
  obtain ⟨c, s, rfl, hc⟩ := number_head hu
  have e := lexNumber_append (r := 'j' :: r) hu (fun c hc => by
    simp only [List.head?_cons, Option.mem_def, Option.some.injEq] at hc
    subst hc
    decide)
  refine L_step (t := some (.imag (c :: s))) (r := r) ?_ (by simp; omega) h
  show lexStep (c :: (s ++ 'j' :: r)) = _
  rw [List.cons_append] at e
  rw [lexStep, if_neg (digit_start hc).1, if_neg (by simp [(digit_start hc).2]), if_pos hc]
  simp only [e]

/-! ### strings -/

theorem hexValue_hexDigit (d : Nat) (h : d < 16) : hexValue (hexDigit d) = some d := by
  have key : ∀ d : Fin 16, hexValue (hexDigit d) = some d.val := by decide
  exact key ⟨d, h⟩

theorem hexNumber_append (k : Nat) (a : List Char) (c : Char) (m d : Nat) (ha : hexNumber k a = some m)
    (hc : hexValue c = some d) : hexNumber k (a ++ [c]) = some (16 * m + d) := by
  induction a generalizing k with
  | nil =>
    cases ha
    simp [hexNumber, hc]
  | cons b a ih =>
    rw [List.cons_append]
    rw [hexNumber] at ha ⊢
    cases hb : hexValue b with
    | none =>
      rw [hb] at ha
      cases ha
    | some x =>
      rw [hb] at ha
      exact ih _ ha

theorem hexNumber_hexDigits (m k : Nat) (h : k < 16 ^ m) : hexNumber 0 (hexDigits m k) = some k := by
  induction m generalizing k with
  | zero =>
    have : k = 0 := by simpa using h
    subst this
    rfl
  | succ m ih =>
    rw [hexDigits, hexNumber_append 0 _ _ (k / 16) (k % 16) (ih _ ?_) (hexValue_hexDigit _ (Nat.mod_lt _ (by omega)))]
    · rw [Nat.div_add_mod]
    · rw [pow_succ] at h
      omega

theorem hexDigits_length (m k : Nat) : (hexDigits m k).length = m := by
  induction m generalizing k with
  | zero => rfl
  | succ m ih => rw [hexDigits, List.length_append, ih]; rfl

/-- a character, that is written with hexadecimal digits -/
theorem lexString_hex {q k c : Char} {m n : Nat} {r s t : List Char} (hq : q = '\'' ∨ q = '"')
    (hk : escapeKind k = some (.inl m)) (hc : c.toNat < 16 ^ m) (h : lexString q n r = some (s, t)) :
    lexString q (n + 1) ('\\' :: k :: hexDigits m c.toNat ++ r) = some (c :: s, t) := by
  have h1 : ¬('\\' = q) := by rcases hq with rfl | rfl <;> decide
  have h2 : ¬((hexDigits m c.toNat ++ r).length < m) := by
    rw [List.length_append, hexDigits_length]
    omega
  have h3 : (hexDigits m c.toNat ++ r).take m = hexDigits m c.toNat :=
    List.take_left' (hexDigits_length _ _)
  have h4 : (hexDigits m c.toNat ++ r).drop m = r := List.drop_left' (hexDigits_length _ _)
  have h5 : ¬('\\' = '\n') := by decide
  simp only [List.cons_append, lexString, h1, if_false, h5, if_true, hk, h2, h3, h4, hexNumber_hexDigits m _ hc, h,
    Option.map_some, Char.ofNat_toNat]

/-- a character of the `repr` of a string -/
theorem lexString_char {printable : Char → Bool} {q c : Char} {n : Nat} {r s t : List Char} (hq : q = '\'' ∨ q = '"')
    (h : lexString q n r = some (s, t)) :
    lexString q (n + 1) (reprChar printable q c ++ r) = some (c :: s, t) := by
  have h1 : ¬('\\' = q) := by rcases hq with rfl | rfl <;> decide
  have h5 : ¬('\\' = '\n') := by decide
  have esc : ∀ k d, escapeKind k = some (.inr d) → lexString q (n + 1) ('\\' :: k :: r) = some (d :: s, t) := by
    intro k d hk
    simp only [lexString, h1, if_false, h5, if_true, hk, h, Option.map_some]
  unfold reprChar
  split
  · rename_i hc
    refine esc c c ?_
    rcases hc with rfl | rfl
    · rcases hq with rfl | rfl <;> decide
    · decide
  split
  · rename_i hc
    subst hc
    exact esc 't' '\t' (by decide)
  split
  · rename_i hc
    subst hc
    exact esc 'n' '\n' (by decide)
  split
  · rename_i hc
    subst hc
    exact esc 'r' '\r' (by decide)
  split
  · rename_i a1 a2 a3 a4 a5
    simp only [not_or] at a1
    simp only [List.cons_append, List.nil_append, lexString, a1.1, a1.2, a3, if_false, h, Option.map_some]
  split
  · exact lexString_hex hq (by decide) (by omega) h
  split
  · exact lexString_hex hq (by decide) (by omega) h
  · have : c.toNat < 1114112 := by
      have := c.valid
      simp only [UInt32.isValidChar, Nat.isValidChar] at this
      unfold Char.toNat
      omega
    exact lexString_hex hq (by decide) (by omega) h

theorem reprChar_length (printable : Char → Bool) (q c : Char) : 1 ≤ (reprChar printable q c).length := by
  unfold reprChar
  split_ifs <;> simp

theorem lexString_repr {printable : Char → Bool} {q : Char} (hq : q = '\'' ∨ q = '"') (s r : List Char) (n : Nat)
    (hn : (s.flatMap (reprChar printable q)).length + 1 ≤ n) :
    lexString q n (s.flatMap (reprChar printable q) ++ q :: r) = some (s, r) := by
  induction s generalizing n with
  | nil =>
    obtain ⟨m, rfl⟩ : ∃ m, n = m + 1 := ⟨n - 1, by omega⟩
    simp [lexString]
  | cons c s ih =>
    rw [List.flatMap_cons, List.length_append] at hn
    have := reprChar_length printable q c
    obtain ⟨m, rfl⟩ : ∃ m, n = m + 1 := ⟨n - 1, by omega⟩
    rw [List.flatMap_cons, List.append_assoc]
    exact lexString_char hq (ih m (by omega))

theorem quote_props (s : List Char) : quote s = '\'' ∨ quote s = '"' := by
  unfold quote
  split <;> simp

theorem L_str {printable : Char → Bool} {s r : List Char} {us : List Tok} (h : L r us) :
    L (reprStr printable s ++ r) (.str s :: us) := by
  have hq := quote_props s
  refine L_step (t := some (.str s)) (r := r) ?_ (by simp; omega) h
  show lexStep (quote s :: (s.flatMap (reprChar printable (quote s)) ++ [quote s] ++ r)) = _
  rw [List.append_assoc, List.singleton_append]
  have e := lexString_repr (printable := printable) hq s r
    ((s.flatMap (reprChar printable (quote s)) ++ quote s :: r).length + 1)
    (by rw [List.length_append]; omega)
  have h1 : ¬(quote s = ' ' ∨ quote s = '\n') := by rcases hq with h | h <;> rw [h] <;> decide
  have h2 : nameStart (quote s) = false := by rcases hq with h | h <;> rw [h] <;> decide
  have h3 : (quote s).isDigit = false := by rcases hq with h | h <;> rw [h] <;> decide
  rw [lexStep, if_neg h1, if_neg (by simp [h2]), if_neg (by simp [h3]), if_pos hq, e]
  rfl

end PyExpr
end Verif
