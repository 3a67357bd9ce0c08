import Verif.Numbers
import Verif.RoundingProps
import Verif.SignalLawsProps
import Mathlib.Data.Rat.Encodable
import Mathlib.Logic.Equiv.List

/-
C151: Equality and hashes of signals with different types of numbers
-/

namespace Verif
namespace Numbers

/-! ### the specification -/

/-- the value of a number: a rational number or an infinity; NaN does not have a value -/
def value : Num → Option (ℚ ⊕ Bool)
  | .int n => some (.inl n)
  | .float x => some (.inl x)
  | .inf a => some (.inr a)
  | .nan => none

/-- numbers, whose value can be represented by a floating point number -/
def Exact : Num → Prop
  | .int n => Double.fl n = n
  | .nan => False
  | _ => True

/-- all samples of a signal can be represented by floating point numbers -/
def ExactSamples (s : Signal Num ℚ) : Prop := ∀ c i, c < s.count → i < s.length → Exact (s.channels.get c i)

/-! ### numbers -/

/-- C151: Integers, whose magnitude is not greater than 2⁵³, can be represented by floating point numbers. -/
theorem C151_exact (n : Int) (h : |n| ≤ 2 ^ 53) : Exact (.int n) := Double.fl_int n h

theorem same_value {a b : Num} (ha : Exact a) (hb : Exact b) : same a b = true ↔ value a = value b := by
  cases a with
  | nan => exact ha.elim
  | int m =>
    have hm : Double.fl m = m := ha
    cases b with
    | nan => exact hb.elim
    | int n => simp [same, value]
    | float y => simp [same, sameDouble, toDouble, value, hm]
    | inf t => simp [same, sameDouble, toDouble, value]
  | float x =>
    cases b with
    | nan => exact hb.elim
    | int n =>
      have hn : Double.fl n = n := hb
      simp [same, sameDouble, toDouble, value, hn]
    | float y => simp [same, sameDouble, toDouble, value]
    | inf t => simp [same, sameDouble, toDouble, value]
  | inf s =>
    cases b with
    | nan => exact hb.elim
    | int n => simp [same, sameDouble, toDouble, value]
    | float y => simp [same, sameDouble, toDouble, value]
    | inf t => simp [same, sameDouble, toDouble, value]

theorem same_symm (a b : Num) (h : same a b = true) : same b a = true := by
  cases a <;> cases b <;> simp [same, sameDouble, toDouble] at h ⊢ <;> exact h.symm

theorem hash_value (hashValue : ℚ → Int) (hashInf : Bool → Int) (i j : Int) {a b : Num} (ha : Exact a) (hb : Exact b)
    (h : value a = value b) : hashNum hashValue hashInf i a = hashNum hashValue hashInf j b := by
  cases a <;> cases b <;> simp [value] at h <;> first
    | exact ha.elim
    | exact hb.elim
    | (simp [hashNum, h])

/-! ### signals -/

/-- C151: Signals are equal, if and only if their parameters and the values of their samples are equal; it does not matter, whether
the values are stored as integers or as floating point numbers.

`_partial`: all values can be represented by floating point numbers and there is no NaN among them, see
`C151_transitive_violated` and `C151_nan_hash_violated`. -/
theorem C151_values_partial (s o : Signal Num ℚ) (hs : ExactSamples s) (ho : ExactSamples o) :
    signalEq s o = true ↔ s.rate = o.rate ∧ s.offset = o.offset ∧ s.labels = o.labels ∧ s.count = o.count ∧
      s.length = o.length ∧ ∀ c i, c < s.count → i < s.length → value (s.channels.get c i) = value (o.channels.get c i) := by
  unfold signalEq
  rw [Signal.C13_eq_iff]
  constructor
  · rintro ⟨h1, h2, h3, h4, h5, h6⟩
    exact ⟨h1, h2, h3, h4, h5, fun c i hc hi => (same_value (hs c i hc hi) (ho c i (h4 ▸ hc) (h5 ▸ hi))).mp (h6 c i hc hi)⟩
  · rintro ⟨h1, h2, h3, h4, h5, h6⟩
    exact ⟨h1, h2, h3, h4, h5, fun c i hc hi => (same_value (hs c i hc hi) (ho c i (h4 ▸ hc) (h5 ▸ hi))).mpr (h6 c i hc hi)⟩

/-- C151: The equality is symmetric for all signals. -/
theorem C151_symmetric (s o : Signal Num ℚ) : signalEq s o = signalEq o s := by
  have h : ∀ a b : Signal Num ℚ, signalEq a b = true → signalEq b a = true := fun a b =>
    Signal.C13_symm same same_symm a b
  cases h1 : signalEq s o with
  | true => exact (h s o h1).symm
  | false =>
    cases h2 : signalEq o s with
    | false => rfl
    | true => rw [h o s h2] at h1; cases h1

/-- C151: The equality is reflexive and transitive.

`_partial`: see `C151_values_partial` -/
theorem C151_equivalence_partial (a b c : Signal Num ℚ) (ha : ExactSamples a) (hb : ExactSamples b) (hc : ExactSamples c) :
    signalEq a a = true ∧ (signalEq a b = true → signalEq b c = true → signalEq a c = true) := by
  rw [C151_values_partial a a ha ha, C151_values_partial a b ha hb, C151_values_partial b c hb hc,
    C151_values_partial a c ha hc]
  refine ⟨⟨rfl, rfl, rfl, rfl, rfl, fun _ _ _ _ => rfl⟩, ?_⟩
  rintro ⟨h1, h2, h3, h4, h5, h6⟩ ⟨g1, g2, g3, g4, g5, g6⟩
  exact ⟨h1.trans g1, h2.trans g2, h3.trans g3, h4.trans g4, h5.trans g5,
    fun k i hk hi => (h6 k i hk hi).trans (g6 k i (h4 ▸ hk) (h5 ▸ hi))⟩

/-- C151: Equal signals have equal hashes, so that they are found in dictionaries.

`_partial`: see `C151_values_partial`, `C151_hash_violated` and `C151_nan_hash_violated` -/
theorem C151_hash_partial (hashValue : ℚ → Int) (hashInf : Bool → Int)
    (hashTuple : (Nat × Nat) × List Int × List String → Int) (hashOuter : Int × ℚ × Int → Int) (i j : Int)
    (s o : Signal Num ℚ) (hs : ExactSamples s) (ho : ExactSamples o) (h : signalEq s o = true) :
    signalHash hashValue hashInf hashTuple hashOuter i s = signalHash hashValue hashInf hashTuple hashOuter j o := by
  rw [C151_values_partial s o hs ho] at h
  obtain ⟨h1, h2, h3, h4, h5, h6⟩ := h
  unfold signalHash Signal.hash
  have e : s.channels.flat.map (hashNum hashValue hashInf i) = o.channels.flat.map (hashNum hashValue hashInf j) := by
    unfold Mat.flat
    rw [show o.channels.rows = s.count from h4.symm, show o.channels.cols = s.length from h5.symm,
      List.map_flatMap, List.map_flatMap]
    refine List.flatMap_congr fun c hc => ?_
    rw [List.map_map, List.map_map]
    refine List.map_congr_left fun t ht => ?_
    have hc' := List.mem_range.mp hc
    have ht' := List.mem_range.mp ht
    exact hash_value hashValue hashInf i j (hs c t hc' ht') (ho c t (h4 ▸ hc') (h5 ▸ ht')) (h6 c t hc' ht')
  rw [e, h1, h2, h3, h4, h5]

/-! ### examples and violations -/

/-- a signal with one sample -/
def single (x : Num) : Signal Num ℚ := ⟨⟨1, 1, fun _ _ => x⟩, 48000, 0, ["x"]⟩

theorem single_eq (x y : Num) : signalEq (single x) (single y) = same x y := by
  cases h : same x y with
  | true =>
    unfold signalEq
    rw [Signal.C13_eq_iff]
    exact ⟨rfl, rfl, rfl, rfl, rfl, fun _ _ _ _ => h⟩
  | false =>
    cases he : signalEq (single x) (single y) with
    | false => rfl
    | true =>
      unfold signalEq at he
      rw [Signal.C13_eq_iff] at he
      have := he.2.2.2.2.2 0 0 Nat.zero_lt_one Nat.zero_lt_one
      exact this.symm.trans h

theorem single_hash (hashValue : ℚ → Int) (hashInf : Bool → Int) (hashTuple : (Nat × Nat) × List Int × List String → Int)
    (hashOuter : Int × ℚ × Int → Int) (identity : Int) (x : Num) :
    signalHash hashValue hashInf hashTuple hashOuter identity (single x) =
      hashOuter (hashTuple ((1, 1), [hashNum hashValue hashInf identity x], ["x"]), 48000, 0) := rfl

theorem round_even : Double.fl ((2 ^ 53 + 1 : Int) : ℚ) = 2 ^ 53 := by
  have h : (((2 ^ 53 + 1 : Int) : ℚ)) = 9007199254740993 := by norm_num
  rw [h]
  unfold Double.fl Double.ulp
  rw [Double.log_unique (e := 53) (by norm_num) (by norm_num)]
  rw [show (9007199254740993 : ℚ) / 2 ^ ((53 : Int) - 52) = 9007199254740993 / 2 by norm_num,
    show pyRound (9007199254740993 / 2) = 4503599627370496 by decide +kernel]
  norm_num

/-- C151 is violated: the equality is not transitive, because large integers are rounded, when they are compared with floating
point numbers. -/
theorem C151_transitive_violated :
    signalEq (single (.int (2 ^ 53 + 1))) (single (.float (2 ^ 53))) = true ∧
    signalEq (single (.float (2 ^ 53))) (single (.int (2 ^ 53))) = true ∧
    signalEq (single (.int (2 ^ 53 + 1))) (single (.int (2 ^ 53))) = false := by
  rw [single_eq, single_eq, single_eq]
  refine ⟨?_, ?_, by decide⟩
  · simp only [same, toDouble, sameDouble, round_even]
    simp
  · have h := Double.fl_int (2 ^ 53) (by norm_num)
    simp only [same, toDouble, sameDouble, h]
    norm_num

/-- C151 is violated: a signal with a large integer is equal to a signal with a floating point number, although their hashes are
different. (This holds for all hash functions, that distinguish the two numbers and do not have collisions for these signals.) -/
theorem C151_hash_violated (hashValue : ℚ → Int) (hashInf : Bool → Int)
    (hashTuple : (Nat × Nat) × List Int × List String → Int) (hashOuter : Int × ℚ × Int → Int) (i j : Int)
    (hv : hashValue (2 ^ 53 + 1) ≠ hashValue (2 ^ 53)) (ht : Function.Injective hashTuple)
    (ho : Function.Injective hashOuter) :
    signalEq (single (.int (2 ^ 53 + 1))) (single (.float (2 ^ 53))) = true ∧
    signalHash hashValue hashInf hashTuple hashOuter i (single (.int (2 ^ 53 + 1))) ≠
      signalHash hashValue hashInf hashTuple hashOuter j (single (.float (2 ^ 53))) := by
  refine ⟨C151_transitive_violated.1, ?_⟩
  rw [single_hash, single_hash]
  intro h
  have h1 := ht (congrArg Prod.fst (ho h))
  apply hv
  have h2 := List.head_eq_of_cons_eq (congrArg (fun t => t.2.1) h1)
  simp only [hashNum] at h2
  rw [← h2]
  norm_num

/-- C151 is violated: the hash of a signal, that contains NaN, is different each time, it is computed. (This holds for all hash
functions, that do not have collisions for these signals.) The signal is not equal to itself, either. -/
theorem C151_nan_hash_violated (hashValue : ℚ → Int) (hashInf : Bool → Int)
    (hashTuple : (Nat × Nat) × List Int × List String → Int) (hashOuter : Int × ℚ × Int → Int) (i j : Int)
    (hij : i ≠ j) (ht : Function.Injective hashTuple) (ho : Function.Injective hashOuter) :
    signalEq (single .nan) (single .nan) = false ∧
    signalHash hashValue hashInf hashTuple hashOuter i (single .nan) ≠
      signalHash hashValue hashInf hashTuple hashOuter j (single .nan) := by
  refine ⟨by rw [single_eq]; rfl, ?_⟩
  rw [single_hash, single_hash]
  intro h
  have h1 := ht (congrArg Prod.fst (ho h))
  exact hij (List.head_eq_of_cons_eq (congrArg (fun t => t.2.1) h1))

/-- there are injective functions, as they are demanded in `C151_hash_violated` and `C151_nan_hash_violated` -/
example : (∃ f : (Nat × Nat) × List Int × List String → Int, Function.Injective f) ∧
    (∃ f : Int × ℚ × Int → Int, Function.Injective f) ∧ ∃ f : ℚ → Int, f (2 ^ 53 + 1) ≠ f (2 ^ 53) := by
  have hc : Countable Char := Function.Injective.countable (f := Char.toNat) fun a b h => Char.toNat_inj.mp h
  have hs : Countable String := Function.Injective.countable (f := String.toList) fun a b h => String.toList_inj.mp h
  obtain ⟨f, hf⟩ := Countable.exists_injective_nat ((Nat × Nat) × List Int × List String)
  obtain ⟨g, hg⟩ := Countable.exists_injective_nat (Int × ℚ × Int)
  exact ⟨⟨fun x => (f x : Int), Nat.cast_injective.comp hf⟩, ⟨fun x => (g x : Int), Nat.cast_injective.comp hg⟩,
    fun q => q.num, by norm_num⟩

/-- a signal with integers and one with floating point numbers and an infinity -/
example : ExactSamples (single (.int 7)) ∧ ExactSamples (single (.float 7)) ∧ ExactSamples (single (.inf true)) ∧
    signalEq (single (.int 7)) (single (.float 7)) = true ∧ signalEq (single (.inf true)) (single (.inf true)) = true := by
  have h7 : Exact (.int 7) := C151_exact 7 (by norm_num)
  refine ⟨fun _ _ _ _ => h7, fun _ _ _ _ => trivial, fun _ _ _ _ => trivial, ?_, ?_⟩
  · exact (single_eq _ _).trans ((same_value (b := .float 7) h7 trivial).mpr (by simp [value]))
  · rw [single_eq]
    rfl

end Numbers
end Verif
