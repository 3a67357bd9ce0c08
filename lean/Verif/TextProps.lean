import Verif.Text

/-
C48: ordinal numbers.
-/

namespace Verif
namespace Text

/-! ### Specification -/

/-- the ending of an English ordinal number: 11, 12 and 13 (and everything, that ends with these, like 111) end with
"th", the other numbers have an ending, that depends on the last digit -/
def ordinalEnding (n : Nat) : List Char :=
  if n % 100 = 11 ∨ n % 100 = 12 ∨ n % 100 = 13 then ['t', 'h']
  else if n % 10 = 1 then ['s', 't']
  else if n % 10 = 2 then ['n', 'd']
  else if n % 10 = 3 then ['r', 'd']
  else ['t', 'h']

/-! ### Digits -/

theorem digitChar_inj {a b : Nat} (ha : a < 10) (hb : b < 10) (h : Nat.digitChar a = Nat.digitChar b) : a = b := by
  have : ∀ a : Fin 10, ∀ b : Fin 10, Nat.digitChar a = Nat.digitChar b → a = b := by decide
  have := this ⟨a, ha⟩ ⟨b, hb⟩ h
  simpa using this

theorem endsWith_append_one (s : List Char) (c d : Char) : endsWith (s ++ [c]) [d] = decide (c = d) := by
  unfold endsWith
  rw [Bool.eq_iff_iff]
  simp only [List.isSuffixOf_iff_suffix, decide_eq_true_eq]
  constructor
  · rintro ⟨t, h⟩
    exact (List.append_inj' h rfl).2 |> List.singleton_inj.mp |> Eq.symm
  · rintro rfl
    exact ⟨s, rfl⟩

theorem endsWith_append_two (s : List Char) (c d e : Char) :
    endsWith (s ++ [c]) [d, e] = (decide (c = e) && endsWith s [d]) := by
  unfold endsWith
  rw [Bool.eq_iff_iff]
  simp only [List.isSuffixOf_iff_suffix, decide_eq_true_eq, Bool.and_eq_true]
  constructor
  · rintro ⟨t, h⟩
    have h' : (t ++ [d]) ++ [e] = s ++ [c] := by simpa using h
    have := List.append_inj' h' rfl
    exact ⟨(List.singleton_inj.mp this.2).symm, ⟨t, this.1⟩⟩
  · rintro ⟨rfl, t, h⟩
    exact ⟨t, by rw [← h]; simp⟩

/-- the digits in front of the last one -/
theorem str_eq (n : Int) : ∃ s : List Char, str n = s ++ [Nat.digitChar (n.natAbs % 10)] ∧
    ∀ d, d < 10 → endsWith s [Nat.digitChar d] = decide (10 ≤ n.natAbs ∧ n.natAbs / 10 % 10 = d) := by
  have key : ∀ m : Nat, ∀ sign : List Char, (sign = [] ∨ sign = ['-']) → ∃ s : List Char,
      sign ++ Nat.toDigits 10 m = s ++ [Nat.digitChar (m % 10)] ∧
      ∀ d, d < 10 → endsWith s [Nat.digitChar d] = decide (10 ≤ m ∧ m / 10 % 10 = d) := by
    intro m sign hsign
    by_cases hm : m < 10
    · refine ⟨sign, ?_, ?_⟩
      · rw [Nat.toDigits_of_lt_base hm, Nat.mod_eq_of_lt hm]
      · intro d hd
        have : decide (10 ≤ m ∧ m / 10 % 10 = d) = false := by simp; omega
        rw [this]
        have : ∀ d : Fin 10, endsWith [] [Nat.digitChar d] = false ∧ endsWith ['-'] [Nat.digitChar d] = false := by
          decide
        cases hsign with
        | inl h => rw [h]; exact (this ⟨d, hd⟩).1
        | inr h => rw [h]; exact (this ⟨d, hd⟩).2
    · refine ⟨sign ++ Nat.toDigits 10 (m / 10), ?_, ?_⟩
      · rw [Nat.toDigits_of_base_le (by omega) (by omega), List.append_assoc]
      · intro d hd
        have h2 : ∃ t, Nat.toDigits 10 (m / 10) = t ++ [Nat.digitChar (m / 10 % 10)] := by
          by_cases h3 : m / 10 < 10
          · exact ⟨[], by rw [Nat.toDigits_of_lt_base h3, Nat.mod_eq_of_lt h3]; rfl⟩
          · exact ⟨_, Nat.toDigits_of_base_le (by omega) (by omega)⟩
        obtain ⟨t, ht⟩ := h2
        rw [ht, ← List.append_assoc, endsWith_append_one, Bool.eq_iff_iff]
        simp only [decide_eq_true_eq]
        constructor
        · intro h
          exact ⟨by omega, digitChar_inj (by omega) hd h⟩
        · rintro ⟨_, rfl⟩
          rfl
  unfold str
  split
  · exact key n.natAbs ['-'] (.inr rfl)
  · exact key n.natAbs [] (.inl rfl)

/-! ### C48 -/

/-- C48: The result is the number, followed by the ending of its English ordinal. -/
theorem C48_ordinal (number : Int) : countingNumber number = str number ++ ordinalEnding number.natAbs := by
  obtain ⟨s, h1, h2⟩ := str_eq number
  obtain ⟨n, hn⟩ : ∃ n, number.natAbs = n := ⟨_, rfl⟩
  rw [hn] at h1 h2 ⊢
  have e1 : ∀ d, d < 10 → endsWith (str number) [Nat.digitChar d] = decide (n % 10 = d) := by
    intro d hd
    rw [h1, endsWith_append_one, Bool.eq_iff_iff]
    simp only [decide_eq_true_eq]
    constructor
    · exact digitChar_inj (by omega) hd
    · rintro rfl; rfl
  have e2 : ∀ d e, d < 10 → e < 10 → endsWith (str number) [Nat.digitChar d, Nat.digitChar e] =
      decide (n % 100 = 10 * d + e ∧ 10 ≤ n) := by
    intro d e hd he
    rw [h1, endsWith_append_two, h2 d hd, Bool.eq_iff_iff]
    simp only [decide_eq_true_eq, Bool.and_eq_true]
    constructor
    · rintro ⟨h3, h4, h5⟩
      have := digitChar_inj (by omega) he h3
      omega
    · rintro ⟨h3, h4⟩
      refine ⟨?_, h4, by omega⟩
      rw [show n % 10 = e by omega]
  unfold countingNumber
  have a1 := e1 1 (by omega)
  have a2 := e1 2 (by omega)
  have a3 := e1 3 (by omega)
  have b1 := e2 1 1 (by omega) (by omega)
  have b2 := e2 1 2 (by omega) (by omega)
  have b3 := e2 1 3 (by omega) (by omega)
  change endsWith (str number) ['1'] = _ at a1
  change endsWith (str number) ['2'] = _ at a2
  change endsWith (str number) ['3'] = _ at a3
  change endsWith (str number) ['1', '1'] = _ at b1
  change endsWith (str number) ['1', '2'] = _ at b2
  change endsWith (str number) ['1', '3'] = _ at b3
  dsimp only
  rw [a1, a2, a3, b1, b2, b3]
  simp only [Bool.and_eq_true, Bool.not_eq_true', decide_eq_true_eq, decide_eq_false_iff_not]
  unfold ordinalEnding
  by_cases t : n % 100 = 11 ∨ n % 100 = 12 ∨ n % 100 = 13
  · rw [if_pos t, if_neg (by omega), if_neg (by omega), if_neg (by omega)]
  · rw [if_neg t]
    by_cases c1 : n % 10 = 1
    · rw [if_pos c1, if_pos (by omega)]
    · rw [if_neg c1, if_neg (by omega)]
      by_cases c2 : n % 10 = 2
      · rw [if_pos c2, if_pos (by omega)]
      · rw [if_neg c2, if_neg (by omega)]
        by_cases c3 : n % 10 = 3
        · rw [if_pos c3, if_pos (by omega)]
        · rw [if_neg c3, if_neg (by omega)]

/-- C48: The digits in front of the ending are those of the number. -/
theorem C48_digits_injective (a b : Nat) (h : countingNumber a = countingNumber b) : a = b := by
  rw [C48_ordinal, C48_ordinal] at h
  have l : ∀ n, (ordinalEnding n).length = 2 := by
    intro n
    unfold ordinalEnding
    repeat' split
    all_goals rfl
  have h := (List.append_inj' h (by rw [l, l])).1
  have inj : ∀ a b : Nat, Nat.toDigits 10 a = Nat.toDigits 10 b → a = b := by
    intro a
    induction a using Nat.strongRecOn with
    | _ a ih =>
      intro b hab
      obtain ⟨s, s1, s2⟩ := str_eq a
      obtain ⟨t, t1, t2⟩ := str_eq b
      have ha : str a = Nat.toDigits 10 a := by unfold str; rw [if_neg (by omega)]; rfl
      have hb : str b = Nat.toDigits 10 b := by unfold str; rw [if_neg (by omega)]; rfl
      rw [ha] at s1
      rw [hb] at t1
      have hlast := (List.append_inj' (s1.symm.trans (hab.trans t1)) rfl).2
      have hlast := digitChar_inj (by omega) (by omega) (List.singleton_inj.mp hlast)
      simp only [Int.natAbs_natCast] at hlast
      have hne : ∀ n : Nat, Nat.toDigits 10 n ≠ [] := by
        intro n
        rw [Nat.toDigits_eq_if (by omega)]
        split
        · simp
        · simp
      by_cases h1 : a < 10
      · by_cases h2 : b < 10
        · omega
        · exfalso
          rw [Nat.toDigits_of_lt_base h1, Nat.toDigits_of_base_le (by omega) (by omega)] at hab
          have := congrArg List.length hab
          have := List.length_pos_iff.mpr (hne (b / 10))
          simp at *
      · by_cases h2 : b < 10
        · exfalso
          rw [Nat.toDigits_of_lt_base h2, Nat.toDigits_of_base_le (by omega) (by omega)] at hab
          have := congrArg List.length hab
          have := List.length_pos_iff.mpr (hne (a / 10))
          simp at *
        · rw [Nat.toDigits_of_base_le (by omega) (by omega), Nat.toDigits_of_base_le (b := 10) (n := b) (by omega) (by omega)] at hab
          have := ih (a / 10) (by omega) (b / 10) (List.append_inj' hab rfl).1
          omega
  apply inj
  have ha : str a = Nat.toDigits 10 a := by unfold str; rw [if_neg (by omega)]; rfl
  have hb : str b = Nat.toDigits 10 b := by unfold str; rw [if_neg (by omega)]; rfl
  rwa [ha, hb] at h

example : (["1", "2", "3", "4", "11", "12", "13", "21", "111", "112", "122", "1000"].map String.toList) =
    [1, 2, 3, 4, 11, 12, 13, 21, 111, 112, 122, 1000].map fun n => (countingNumber n).dropLast.dropLast := by
  decide +kernel
example : [1, 2, 3, 4, 11, 12, 13, 21, 111, 112, 122].map ordinalEnding =
    ["st", "nd", "rd", "th", "th", "th", "th", "st", "th", "th", "nd"].map String.toList := by decide +kernel

end Text
end Verif
