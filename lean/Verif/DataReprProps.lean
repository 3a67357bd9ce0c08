import Verif.DataRepr
import Verif.TermReprProps
import Mathlib.Tactic.IntervalCases
import Mathlib.Tactic.Ring

/-
C101: The text representation of signals, spectrums and spectrograms
-/

namespace Verif
namespace DataRepr

open Filter
open PyExpr

variable {α K : Type} [Field α] [LinearOrder α] [Field K] [DecidableEq K]

/-! ### the specification -/

/-- Specification: a two-dimensional array -/
def ndOfMat (A : Mat K) : Nd K :=
  ⟨[A.rows, A.cols], (List.range A.rows).flatMap fun c => (List.range A.cols).map fun t => A.get c t⟩

/-- Specification: a three-dimensional array -/
def ndOfCube (A : Cube K) : Nd K :=
  ⟨[A.d0, A.d1, A.d2], (List.range A.d0).flatMap fun c => (List.range A.d1).flatMap fun f =>
    (List.range A.d2).map fun t => A.get c f t⟩

theorem flatMap_getElem {β : Type} (g : Nat → List β) (m n c t : Nat) (h : ∀ i, i < n → (g i).length = m) (hc : c < n)
    (ht : t < m) : ((List.range n).flatMap g)[c * m + t]? = (g c)[t]? := by
  have len : ∀ k, k ≤ n → ((List.range k).flatMap g).length = k * m := by
    intro k hk
    induction k with
    | zero => simp
    | succ k ih =>
      rw [List.range_succ, List.flatMap_append, List.length_append, ih (by omega), List.flatMap_singleton, h k (by omega)]
      ring
  induction n with
  | zero => omega
  | succ n ih =>
    rw [List.range_succ, List.flatMap_append, List.flatMap_singleton]
    have e := len n (by omega)
    by_cases hn : c < n
    · rw [List.getElem?_append_left, ih (fun i hi => h i (by omega)) hn fun k hk => len k (by omega)]
      rw [e]
      calc c * m + t < c * m + m := by omega
        _ = (c + 1) * m := by ring
        _ ≤ n * m := Nat.mul_le_mul_right _ hn
    · have : c = n := by omega
      subst this
      rw [List.getElem?_append_right (by omega), e]
      congr 1
      omega

omit [Field K] [DecidableEq K] in
/-- The elements are in row-major order, so the array is determined by this description. -/
theorem ndOfMat_elements (A : Mat K) (c t : Nat) (hc : c < A.rows) (ht : t < A.cols) :
    (ndOfMat A).elements[c * A.cols + t]? = some (A.get c t) := by
  unfold ndOfMat
  rw [flatMap_getElem _ A.cols A.rows c t (by simp) hc ht]
  simp [ht]

omit [Field K] [DecidableEq K] in
/-- The elements are in row-major order, so the array is determined by this description. -/
theorem ndOfCube_elements (A : Cube K) (c f t : Nat) (hc : c < A.d0) (hf : f < A.d1) (ht : t < A.d2) :
    (ndOfCube A).elements[c * (A.d1 * A.d2) + (f * A.d2 + t)]? = some (A.get c f t) := by
  unfold ndOfCube
  have hl : f * A.d2 + t < A.d1 * A.d2 :=
    calc f * A.d2 + t < f * A.d2 + A.d2 := by omega
      _ = (f + 1) * A.d2 := by ring
      _ ≤ A.d1 * A.d2 := Nat.mul_le_mul_right _ hf
  rw [flatMap_getElem _ (A.d1 * A.d2) A.d0 c _ (by simp [List.length_flatMap]) hc hl,
    flatMap_getElem _ A.d2 A.d1 f t (by simp) hf ht]
  simp [ht]

/-- Specification: an element of an array with the given data type, that can be represented -/
def Element (F : α → Prop) (N : Numbers α K) (complexType : Bool) (z : K) : Prop :=
  Rep F N z ∧ (complexType = false → N.ofReal (N.re z) = z)

variable {T : Texts α} {N : Numbers α K} {E : Env α K} {n : Nat} {F : α → Prop}

/-! ### integer numbers -/

theorem digitsValue_append (s : List Char) (c : Char) : digitsValue (s ++ [c]) = 10 * digitsValue s + (c.toNat - 48) := by
  unfold digitsValue
  rw [List.foldl_append]
  rfl

theorem digitChar_value (k : Nat) (h : k < 10) : (Nat.digitChar k).isDigit = true ∧ (Nat.digitChar k).toNat - 48 = k := by
  interval_cases k <;> decide

theorem toDigits_spec (k : Nat) : Nat.toDigits 10 k ≠ [] ∧ (∀ c ∈ Nat.toDigits 10 k, c.isDigit = true) ∧
    digitsValue (Nat.toDigits 10 k) = k := by
  induction k using Nat.strong_induction_on with
  | _ k ih =>
    by_cases h : k < 10
    · have e : Nat.toDigits 10 k = [Nat.digitChar k] := Nat.toDigits_of_lt_base h
      rw [e]
      refine ⟨by simp, by simp [(digitChar_value k h).1], ?_⟩
      have := digitsValue_append [] (Nat.digitChar k)
      rw [List.nil_append, (digitChar_value k h).2] at this
      rw [this]
      simp [digitsValue]
    · have e : Nat.toDigits 10 k = Nat.toDigits 10 (k / 10) ++ [Nat.digitChar (k % 10)] :=
        Nat.toDigits_of_base_le (by decide) (by omega)
      obtain ⟨h1, h2, h3⟩ := ih (k / 10) (by omega)
      have hd := digitChar_value (k % 10) (by omega)
      rw [e]
      refine ⟨by simp, ?_, ?_⟩
      · intro c hc
        rcases List.mem_append.mp hc with hc | hc
        · exact h2 c hc
        · rw [List.mem_singleton] at hc
          rw [hc]
          exact hd.1
      · rw [digitsValue_append, h3, hd.2]
        omega

theorem denotes_int (m : Int) : Denotes T N E n (reprInt m) (.ok (.int m)) := by
  have lit : ∀ k : Nat, literal (K := K) T (Nat.toDigits 10 k) = .ok (.int (k : ℕ)) := by
    intro k
    obtain ⟨_, h2, h3⟩ := toDigits_spec k
    rw [literal, if_pos (List.all_eq_true.mpr h2), h3]
  cases m with
  | ofNat k =>
    obtain ⟨h1, h2, h3⟩ := toDigits_spec k
    exact ⟨_, prints_num (.digits _ h1 h2), by rw [evalAst]; exact lit k⟩
  | negSucc k =>
    obtain ⟨h1, h2, h3⟩ := toDigits_spec (k + 1)
    refine ⟨_, prints_neg (.digits _ h1 h2), ?_⟩
    rw [evalAst, evalAst, lit, ev_ok, Obj.neg]
    rfl

/-! ### arrays -/

theorem prints_listText {l : List (List Char)} {as : List Ast} (h : List.Forall₂ Prints l as) :
    Prints (listText l) (.list as) :=
  ⟨.list as (good_of_prints h), fun r us _ h' => by
    rw [toks, listText]
    simp only [List.cons_append, List.append_assoc, List.nil_append]
    exact L_sym (by decide) (L_joinBreaks _ h 0 h')⟩

/-- C101: The text of a dimension of an array is written in one line, if this is the case for the texts of its elements. -/
theorem C101_one_line (l : List (List Char)) (h : ∀ x ∈ l, '\n' ∉ x) : '\n' ∉ listText l := by
  have key : ∀ (l : List (List Char)) (i : Nat), (∀ x ∈ l, '\n' ∉ x) → '\n' ∉ joinBreaks (fun _ => false) i l := by
    intro l
    induction l with
    | nil => intro i _; simp [joinBreaks]
    | cons x l ih =>
      intro i h
      cases l with
      | nil => simpa [joinBreaks] using h
      | cons y l =>
        rw [joinBreaks]
        · have h1 := h x (by simp)
          have h2 := ih (i + 1) fun z hz => h z (List.mem_cons_of_mem _ hz)
          simp [h1, h2]
        · simp
  have h1 := key l 0 h
  unfold listText
  simp only [List.mem_cons, List.mem_append, List.not_mem_nil, or_false, not_or]
  exact ⟨by decide, h1, by decide⟩

example : listText ["1.0".toList, "2.5".toList] = "[1.0,2.5]".toList := by decide

theorem denotes_listText {β : Type} (l : List β) (text : β → List Char) (v : β → Obj α K)
    (h : ∀ x ∈ l, Denotes T N E n (text x) (.ok (v x))) :
    Denotes T N E n (listText (l.map text)) (.ok (.seq (l.map v))) := by
  have e : List.Forall₂ (Denotes T N E n) (l.map text) (l.map fun x => .ok (v x)) := by
    rw [List.forall₂_map_left_iff, List.forall₂_map_right_iff, List.forall₂_same]
    exact h
  obtain ⟨as, h1, h2⟩ := denotes_asts e
  exact ⟨_, prints_listText h1, by rw [evalAst, h2, sequence_ok, ev_ok]⟩

theorem prints_arrayText {s : List Char} {as : List Ast} (h : Prints s (.list as)) :
    Prints (arrayText s) (.call (.name "array".toList) [(none, .list as)]) := by
  refine ⟨.call _ _ ?_ ?_, fun r us _ h' => ?_⟩
  · intro p hp
    rw [List.mem_singleton] at hp
    subst hp
    exact h.1
  · intro p hp _
    rw [List.mem_singleton] at hp
    subst hp
    exact ⟨as, rfl⟩
  · rw [toks, toks, toksArgs_single, toksArg, arrayText]
    simp only [List.cons_append, List.append_assoc, List.nil_append]
    exact L_name name_array (break_cons _ (by decide))
      (L_sym (by decide) (h.2 _ _ (break_cons _ (by decide)) (L_sym (by decide) h')))

theorem denotes_arrayText {β : Type} (l : List β) (text : β → List Char) (v : β → Obj α K)
    (h : ∀ x ∈ l, Denotes T N E n (text x) (.ok (v x))) :
    Denotes T N E n (arrayText (listText (l.map text))) (.ok (.seq (l.map v))) := by
  have e : List.Forall₂ (Denotes T N E n) (l.map text) (l.map fun x => .ok (v x)) := by
    rw [List.forall₂_map_left_iff, List.forall₂_map_right_iff, List.forall₂_same]
    exact h
  obtain ⟨as, h1, h2⟩ := denotes_asts e
  refine ⟨_, prints_arrayText (prints_listText h1), ?_⟩
  have hc : callee (.name "array".toList) = .ok .array := by simp [callee]
  rw [evalAst, hc, ev_ok, evalArgs, evalArg, evalAst, h2, sequence_ok]
  simp only [ev_ok, evalArgs]
  rfl

omit [Field α] [LinearOrder α] [Field K] [DecidableEq K] in
theorem shape_map {β : Type} (l : List β) (v : β → Obj α K) (s : List Nat) (h0 : l ≠ []) (h : ∀ x ∈ l, shape (v x) = some s) :
    shape (.seq (l.map v)) = some (l.length :: s) := by
  have e : shapes (l.map v) = some (l.map fun _ => s) := by
    clear h0
    induction l with
    | nil => rw [List.map_nil, shapes]; rfl
    | cons x l ih =>
      rw [List.map_cons, shapes, h x List.mem_cons_self, ih fun y hy => h y (List.mem_cons_of_mem _ hy)]
      rfl
  rw [shape, e]
  cases l with
  | nil => exact absurd rfl h0
  | cons x l => simp

omit [Field α] [LinearOrder α] [DecidableEq K] in
theorem elements_map {β : Type} (l : List β) (v : β → Obj α K) (g : β → List K) (h : ∀ x ∈ l, elements N (v x) = .ok (g x)) :
    elements N (.seq (l.map v)) = .ok (l.flatMap g) := by
  rw [elements]
  induction l with
  | nil => rw [List.map_nil, elementsList]; rfl
  | cons x l ih =>
    rw [List.map_cons, elementsList, h x List.mem_cons_self, ih fun y hy => h y (List.mem_cons_of_mem _ hy)]
    rfl

/-- the value of an element -/
def elementObj (N : Numbers α K) (complexType : Bool) (z : K) : Obj α K :=
  if complexType then .complex z else .real (N.re z)

variable [IsStrictOrderedRing α]

theorem denotes_element (hT : T.Ok F) (hN : N.Hom) (hL : N.Lawful) {complexType : Bool} {z : K}
    (h : Element F N complexType z) :
    Denotes T N E n (elementText T N complexType z) (.ok (elementObj N complexType z)) := by
  unfold elementText elementObj
  cases complexType with
  | true => exact denotes_parts hT hN hL h.1
  | false => exact denotes_float hT h.1.1

omit [Field α] [LinearOrder α] [Field K] [DecidableEq K] [IsStrictOrderedRing α] in
theorem element_shape (complexType : Bool) (z : K) : shape (elementObj N complexType z) = some [] := by
  cases complexType with
  | true => exact shape.eq_3 z
  | false => exact shape.eq_2 (N.re z)

omit [Field α] [LinearOrder α] [DecidableEq K] [IsStrictOrderedRing α] in
theorem element_elements {complexType : Bool} {z : K} (h : Element F N complexType z) :
    elements N (elementObj N complexType z) = .ok [z] := by
  cases complexType with
  | true =>
    show elements N (.complex z) = _
    rw [elements]
    · rfl
    · intro l hl
      cases hl
  | false =>
    show elements N (.real (N.re z)) = _
    rw [elements]
    · show Except.ok [N.ofReal (N.re z)] = _
      rw [h.2 rfl]
    · intro l hl
      cases hl

theorem denotes_mat (hT : T.Ok F) (hN : N.Hom) (hL : N.Lawful) (complexType : Bool) (A : Mat K) (h0 : 0 < A.rows)
    (h1 : 0 < A.cols) (h : ∀ c t, c < A.rows → t < A.cols → Element F N complexType (A.get c t)) :
    ∃ o, Denotes T N E n (arrayText (matText (elementText T N complexType) A)) (.ok o) ∧ toNd N o = .ok (ndOfMat A) := by
  have hz : A.rows * A.cols ≠ 0 := Nat.mul_ne_zero (by omega) (by omega)
  refine ⟨.seq ((List.range A.rows).map fun c => .seq ((List.range A.cols).map fun t =>
    elementObj N complexType (A.get c t))), ?_, ?_⟩
  · rw [matText, if_neg hz]
    refine denotes_arrayText _ _ _ fun c hc => denotes_listText _ _ _ fun t ht => denotes_element hT hN hL ?_
    exact h c t (List.mem_range.mp hc) (List.mem_range.mp ht)
  · rw [toNd, shape_map _ _ [A.cols], elements_map _ _ fun c => (List.range A.cols).map fun t => A.get c t]
    · simp [ndOfMat, ev_ok]
    · intro c hc
      rw [elements_map _ _ fun t => [A.get c t], List.map_eq_flatMap]
      exact fun t ht => element_elements (h c t (List.mem_range.mp hc) (List.mem_range.mp ht))
    · simp; omega
    · intro c _
      rw [shape_map _ _ []]
      · simp
      · simp; omega
      · exact fun t _ => element_shape _ _

theorem denotes_cube (hT : T.Ok F) (hN : N.Hom) (hL : N.Lawful) (complexType : Bool) (A : Cube K) (h0 : 0 < A.d0)
    (h1 : 0 < A.d1) (h2 : 0 < A.d2)
    (h : ∀ c f t, c < A.d0 → f < A.d1 → t < A.d2 → Element F N complexType (A.get c f t)) :
    ∃ o, Denotes T N E n (arrayText (cubeText (elementText T N complexType) A)) (.ok o) ∧ toNd N o = .ok (ndOfCube A) := by
  have hz : A.d0 * A.d1 * A.d2 ≠ 0 := Nat.mul_ne_zero (Nat.mul_ne_zero (by omega) (by omega)) (by omega)
  refine ⟨.seq ((List.range A.d0).map fun c => .seq ((List.range A.d1).map fun f => .seq ((List.range A.d2).map fun t =>
    elementObj N complexType (A.get c f t)))), ?_, ?_⟩
  · rw [cubeText, if_neg hz]
    refine denotes_arrayText _ _ _ fun c hc => denotes_listText _ _ _ fun f hf => denotes_listText _ _ _ fun t ht =>
      denotes_element hT hN hL ?_
    exact h c f t (List.mem_range.mp hc) (List.mem_range.mp hf) (List.mem_range.mp ht)
  · rw [toNd, shape_map _ _ [A.d1, A.d2], elements_map _ _ fun c => (List.range A.d1).flatMap fun f =>
      (List.range A.d2).map fun t => A.get c f t]
    · simp [ndOfCube, ev_ok]
    · intro c hc
      rw [elements_map _ _ fun f => (List.range A.d2).map fun t => A.get c f t]
      intro f hf
      rw [elements_map _ _ fun t => [A.get c f t], List.map_eq_flatMap]
      exact fun t ht => element_elements (h c f t (List.mem_range.mp hc) (List.mem_range.mp hf) (List.mem_range.mp ht))
    · simp; omega
    · intro c _
      rw [shape_map _ _ [A.d2]]
      · simp
      · simp; omega
      · intro f _
        rw [shape_map _ _ []]
        · simp
        · simp; omega
        · exact fun t _ => element_shape _ _

omit [IsStrictOrderedRing α] in
/-- the text of an array without elements -/
theorem denotes_empty : ∃ o : Obj α K, Denotes T N E n (arrayText ['[', ']']) (.ok o) ∧ toNd N o = .ok ⟨[0], []⟩ := by
  refine ⟨.seq [], ?_, ?_⟩
  · exact denotes_arrayText (β := Unit) [] (fun _ => []) (fun _ => .bool true) (by simp)
  · have e1 : shape (.seq [] : Obj α K) = some [0] := by
      rw [shape, shapes]
      rfl
    have e2 : elements N (.seq [] : Obj α K) = .ok [] := by
      rw [elements, elementsList]
    rw [toNd, e1, e2]
    rfl

omit [Field α] [LinearOrder α] [Field K] [DecidableEq K] [IsStrictOrderedRing α] in
theorem toLabels_ok (l : List String) : toLabels (α := α) (K := K) (.seq (l.map .str)) = .ok l :=
  mapM_obj .str Obj.toStr (fun _ => rfl) l

omit [IsStrictOrderedRing α] in
/-- the expression of the text -/
theorem parse_call {cls : String} (hc : isName cls.toList = true) {l : List (String × List Char)}
    {vs : List (String × Ev (Obj α K))} (h : List.Forall₂ (DenotesArg T N E n) l vs) :
    ∃ as, parse (callText cls l) = some (.call (.name cls.toList) (keywordArgs as)) ∧
      evalArgs T N E n (keywordArgs as) = keywordValues vs := by
  obtain ⟨as, h1, h2⟩ := denotes_args h
  refine ⟨as, ?_, h2⟩
  obtain ⟨g1, g2⟩ := prints_function (isName_spec hc) h1
  have e := g2 [] [] (fun c hc => by simp at hc) L_nil
  rw [List.append_nil, List.append_nil] at e
  exact parse_good g1 (L_lex e)

variable [Module α K]

omit [Module α K] in
/-- the value of the text of a signal -/
theorem read_signal (hT : T.Ok F) (complexType : Bool) (s : Signal K α) (hr : F s.rate) (o : Obj α K) (c : Nd K)
    (h1 : Denotes T N E n (arrayText (matText (elementText T N complexType) s.channels)) (.ok o)) (h2 : toNd N o = .ok c) :
    dataEval T N E n (reprSignal T N complexType "Signal" s) = newSignal c s.rate s.offset s.labels := by
  obtain ⟨as, p1, p2⟩ := parse_call (cls := "Signal") (by decide)
    (.cons (denotes_arg (k := "channels") (by decide) h1)
      (.cons (denotes_arg (k := "sampling_rate") (by decide) (denotes_float hT hr))
        (.cons (denotes_arg (k := "offset") (by decide) (denotes_int s.offset))
          (.cons (denotes_arg (k := "labels") (by decide) (denotes_labels s.labels)) .nil))))
  rw [dataEval, reprSignal, p1]
  dsimp only
  rw [evalData, if_pos rfl, p2]
  simp [keywordValues, Filter.sequence, ev_ok, keyword, h2, toInt, toLabels_ok, Obj.toReal]

omit [Module α K] in
/-- the value of the text of a spectrum -/
theorem read_spectrum (hT : T.Ok F) (complexType : Bool) (s : Spectrum K α) (hr : F s.resolution) (o : Obj α K) (c : Nd K)
    (h1 : Denotes T N E n (arrayText (matText (elementText T N complexType) s.channels)) (.ok o)) (h2 : toNd N o = .ok c) :
    dataEval T N E n (reprSpectrum T N complexType "Spectrum" s) = newSpectrum c s.resolution s.labels := by
  obtain ⟨as, p1, p2⟩ := parse_call (cls := "Spectrum") (by decide)
    (.cons (denotes_arg (k := "channels") (by decide) h1)
      (.cons (denotes_arg (k := "resolution") (by decide) (denotes_float hT hr))
        (.cons (denotes_arg (k := "labels") (by decide) (denotes_labels s.labels)) .nil)))
  rw [dataEval, reprSpectrum, p1]
  dsimp only
  rw [evalData, if_neg (by decide), if_pos rfl, p2]
  simp [keywordValues, Filter.sequence, ev_ok, keyword, h2, toLabels_ok, Obj.toReal]

omit [Module α K] in
/-- the value of the text of a spectrogram -/
theorem read_spectrogram (hT : T.Ok F) (complexType : Bool) (s : Spectrogram K α) (hd : F s.resolution) (hr : F s.rate)
    (o : Obj α K) (c : Nd K)
    (h1 : Denotes T N E n (arrayText (cubeText (elementText T N complexType) s.channels)) (.ok o)) (h2 : toNd N o = .ok c) :
    dataEval T N E n (reprSpectrogram T N complexType "Spectrogram" s) =
      newSpectrogram c s.resolution s.rate s.offset s.labels := by
  obtain ⟨as, p1, p2⟩ := parse_call (cls := "Spectrogram") (by decide)
    (.cons (denotes_arg (k := "channels") (by decide) h1)
      (.cons (denotes_arg (k := "resolution") (by decide) (denotes_float hT hd))
        (.cons (denotes_arg (k := "sampling_rate") (by decide) (denotes_float hT hr))
          (.cons (denotes_arg (k := "offset") (by decide) (denotes_int s.offset))
            (.cons (denotes_arg (k := "labels") (by decide) (denotes_labels s.labels)) .nil)))))
  rw [dataEval, reprSpectrogram, p1]
  dsimp only
  rw [evalData, if_neg (by decide), if_neg (by decide), if_pos rfl, p2]
  simp [keywordValues, Filter.sequence, ev_ok, keyword, h2, toInt, toLabels_ok, Obj.toReal]

/-! ### the property -/

omit [Module α K] in
/-- C101: Evaluating the text of a signal restores its samples, sampling rate, offset and labels exactly. Missing: signals
without samples (`C101_empty_violated`) and derived classes (`C101_derived_violated`). -/
theorem C101_signal_partial (hT : T.Ok F) (hN : N.Hom) (hL : N.Lawful) (complexType : Bool) (s : Signal K α)
    (h0 : 0 < s.channels.rows) (h1 : 0 < s.channels.cols) (hl : s.labels.length = s.channels.rows) (hr : F s.rate)
    (h : ∀ c t, c < s.channels.rows → t < s.channels.cols → Element F N complexType (s.channels.get c t)) :
    dataEval T N E n (reprSignal T N complexType "Signal" s) =
      .ok (.signal (ndOfMat s.channels) s.rate s.offset s.labels) := by
  obtain ⟨o, p1, p2⟩ := denotes_mat (E := E) (n := n) hT hN hL complexType s.channels h0 h1 h
  rw [read_signal hT complexType s hr o _ p1 p2, newSignal, sampledData]
  show Except.ok (Data.signal _ _ _ _) = _
  rw [Signal.sanitize_self hl]

omit [Module α K] in
/-- C101: Evaluating the text of a spectrum restores its samples, resolution and labels exactly. Missing: as in
`C101_signal_partial`. -/
theorem C101_spectrum_partial (hT : T.Ok F) (hN : N.Hom) (hL : N.Lawful) (complexType : Bool) (s : Spectrum K α)
    (h0 : 0 < s.channels.rows) (h1 : 0 < s.channels.cols) (hl : s.labels.length = s.channels.rows) (hr : F s.resolution)
    (h : ∀ c t, c < s.channels.rows → t < s.channels.cols → Element F N complexType (s.channels.get c t)) :
    dataEval T N E n (reprSpectrum T N complexType "Spectrum" s) =
      .ok (.spectrum (ndOfMat s.channels) s.resolution s.labels) := by
  obtain ⟨o, p1, p2⟩ := denotes_mat (E := E) (n := n) hT hN hL complexType s.channels h0 h1 h
  rw [read_spectrum hT complexType s hr o _ p1 p2, newSpectrum, sampledData]
  show Except.ok (Data.spectrum _ _ _) = _
  rw [Signal.sanitize_self hl]

omit [Module α K] in
/-- C101: Evaluating the text of a spectrogram restores its samples, resolution, sampling rate, offset and labels exactly.
Missing: as in `C101_signal_partial`. -/
theorem C101_spectrogram_partial (hT : T.Ok F) (hN : N.Hom) (hL : N.Lawful) (complexType : Bool) (s : Spectrogram K α)
    (h0 : 0 < s.channels.d0) (h1 : 0 < s.channels.d1) (h2 : 0 < s.channels.d2) (hl : s.labels.length = s.channels.d0)
    (hd : F s.resolution) (hr : F s.rate)
    (h : ∀ c f t, c < s.channels.d0 → f < s.channels.d1 → t < s.channels.d2 → Element F N complexType (s.channels.get c f t)) :
    dataEval T N E n (reprSpectrogram T N complexType "Spectrogram" s) =
      .ok (.spectrogram (ndOfCube s.channels) s.resolution s.rate s.offset s.labels) := by
  obtain ⟨o, p1, p2⟩ := denotes_cube (E := E) (n := n) hT hN hL complexType s.channels h0 h1 h2 h
  rw [read_spectrogram hT complexType s hd hr o _ p1 p2, newSpectrogram, sampledData]
  show Except.ok (Data.spectrogram _ _ _ _ _) = _
  rw [Signal.sanitize_self hl]

omit [Module α K] in
/-- C101 is violated by data without samples, e.g. the instances `Signal()` and `Spectrum()`, that are created with the default
parameters, because NumPy writes arrays without elements as `[]`: the restored signals and spectrums have a one-dimensional array
and no labels, evaluating the text of a spectrogram raises an `IndexError`. -/
theorem C101_empty_violated (hT : T.Ok F) (complexType : Bool) :
    (∀ s : Signal K α, s.channels.rows * s.channels.cols = 0 → F s.rate →
      dataEval T N E n (reprSignal T N complexType "Signal" s) = .ok (.signal ⟨[0], []⟩ s.rate s.offset [])) ∧
    (∀ s : Spectrum K α, s.channels.rows * s.channels.cols = 0 → F s.resolution →
      dataEval T N E n (reprSpectrum T N complexType "Spectrum" s) = .ok (.spectrum ⟨[0], []⟩ s.resolution [])) ∧
    ∀ s : Spectrogram K α, s.channels.d0 * s.channels.d1 * s.channels.d2 = 0 → F s.resolution → F s.rate →
      dataEval T N E n (reprSpectrogram T N complexType "Spectrogram" s) = .error (.py .indexError) := by
  obtain ⟨o, p1, p2⟩ := denotes_empty (T := T) (N := N) (E := E) (n := n)
  have hs : ∀ l : List String, sanitizeLabels (some l) 0 = [] := by
    intro l
    cases l <;> simp [sanitizeLabels]
  refine ⟨fun s h hr => ?_, fun s h hr => ?_, fun s h hd hr => ?_⟩
  · rw [read_signal hT complexType s hr o _ (by rwa [matText, if_pos h]) p2, newSignal, sampledData]
    show Except.ok (Data.signal _ _ _ _) = _
    rw [hs]
  · rw [read_spectrum hT complexType s hr o _ (by rwa [matText, if_pos h]) p2, newSpectrum, sampledData]
    show Except.ok (Data.spectrum _ _ _) = _
    rw [hs]
  · rw [read_spectrogram hT complexType s hd hr o _ (by rwa [cubeText, if_pos h]) p2]
    rfl

omit [Module α K] in
/-- C101 is violated by signals of derived classes, e.g. windows, sweeps or noise: their text contains the name of their class,
which is not one of the documented names, that have to be defined for the evaluation, so a `NameError` is raised. (If this name
were defined, the evaluation would still fail, because the constructors of the derived classes have other parameters.) -/
theorem C101_derived_violated (hT : T.Ok F) (hN : N.Hom) (hL : N.Lawful) (complexType : Bool) (s : Signal K α)
    (h0 : 0 < s.channels.rows) (h1 : 0 < s.channels.cols) (hr : F s.rate)
    (h : ∀ c t, c < s.channels.rows → t < s.channels.cols → Element F N complexType (s.channels.get c t))
    (cls : String) (hc : cls ∈ ["HannWindow", "KaiserWindow", "ExponentialSweep", "GaussianNoise", "MaximumLengthSequence",
      "SineWave", "ConstantSignal", "Fade", "EnergyDecayCurve"]) :
    dataEval T N E n (reprSignal T N complexType cls s) = .error .nameError := by
  obtain ⟨o, q1, -⟩ := denotes_mat (E := E) (n := n) hT hN hL complexType s.channels h0 h1 h
  have hn : isName cls.toList = true ∧ cls.toList ≠ "Signal".toList ∧ cls.toList ≠ "Spectrum".toList ∧
      cls.toList ≠ "Spectrogram".toList ∧ callee (.name cls.toList) = .error .nameError := by
    simp only [List.mem_cons, List.not_mem_nil, or_false] at hc
    rcases hc with rfl | rfl | rfl | rfl | rfl | rfl | rfl | rfl | rfl <;>
      exact ⟨by decide, by decide, by decide, by decide, by simp [callee]⟩
  obtain ⟨as, p1, p2⟩ := parse_call hn.1
    (.cons (denotes_arg (k := "channels") (by decide) q1)
      (.cons (denotes_arg (k := "sampling_rate") (by decide) (denotes_float hT hr))
        (.cons (denotes_arg (k := "offset") (by decide) (denotes_int s.offset))
          (.cons (denotes_arg (k := "labels") (by decide) (denotes_labels s.labels)) .nil))))
  rw [dataEval, reprSignal, p1]
  dsimp only
  rw [evalData, if_neg hn.2.1, if_neg hn.2.2.1, if_neg hn.2.2.2.1, evalAst, hn.2.2.2.2, ev_error, ev_error]

/-! ### the arrays in the loaded data are consistent -/

section

omit [Field α] [LinearOrder α] [DecidableEq K] [IsStrictOrderedRing α] [Module α K]

mutual

theorem elements_length : ∀ (a : Obj α K) (s : List Nat) (l : List K), shape a = some s → elements N a = .ok l → l.length = s.prod
  | .seq l, s, x, hs, hx => by
    rw [shape] at hs
    rw [elements] at hx
    cases h : shapes l with
    | none => rw [h] at hs; cases hs
    | some ss =>
      rw [h] at hs
      cases ss with
      | nil =>
        cases hs
        have := elementsList_length l [] 0 x h (by simp) hx
        simpa using this
      | cons q r =>
        change (if r.all (· = q) then some ((q :: r).length :: q) else none) = some s at hs
        by_cases hq : r.all (· = q)
        · rw [if_pos hq] at hs
          cases hs
          have := elementsList_length l (q :: r) q.prod x h (by
            intro y hy
            rcases List.mem_cons.mp hy with rfl | hy
            · rfl
            · have := List.all_eq_true.mp hq y hy
              rw [of_decide_eq_true this]) hx
          rw [this, List.prod_cons]
        · rw [if_neg hq] at hs
          cases hs
  | .int z, s, x, hs, hx => by rw [shape] at hs; cases hs; cases hx; rfl
  | .real z, s, x, hs, hx => by rw [shape] at hs; cases hs; cases hx; rfl
  | .complex z, s, x, hs, hx => by rw [shape] at hs; cases hs; cases hx; rfl
  | .bool _, s, x, hs, hx => by cases hs
  | .str _, s, x, hs, hx => by cases hs
  | .dict _, s, x, hs, hx => by cases hs
  | .term _, s, x, hs, hx => by cases hs
  | .filter _, s, x, hs, hx => by cases hs
  | .bands _, s, x, hs, hx => by cases hs

theorem elementsList_length : ∀ (l : List (Obj α K)) (ss : List (List Nat)) (k : Nat) (x : List K), shapes l = some ss →
    (∀ s ∈ ss, s.prod = k) → elementsList N l = .ok x → x.length = ss.length * k
  | [], ss, k, x, hs, _, hx => by
    rw [shapes] at hs
    rw [elementsList] at hx
    cases hs
    cases hx
    simp
  | a :: l, ss, k, x, hs, hk, hx => by
    rw [shapes] at hs
    rw [elementsList] at hx
    cases h1 : shape a with
    | none => rw [h1] at hs; cases hs
    | some s =>
      rw [h1] at hs
      cases h2 : shapes l with
      | none =>
        change (shapes l >>= fun ss => some (s :: ss)) = _ at hs
        rw [h2] at hs
        cases hs
      | some ss' =>
        change (shapes l >>= fun ss => some (s :: ss)) = _ at hs
        rw [h2] at hs
        cases hs
        cases h3 : elements N a with
        | error e => rw [h3] at hx; cases hx
        | ok y =>
          rw [h3] at hx
          change (elementsList N l >>= fun z => .ok (y ++ z)) = _ at hx
          cases h4 : elementsList N l with
          | error e => rw [h4] at hx; cases hx
          | ok z =>
            rw [h4] at hx
            cases hx
            rw [List.length_append, elements_length a s y h1 h3, hk s (List.mem_cons_self ..),
              elementsList_length l ss' k z h2 (fun t ht => hk t (List.mem_cons_of_mem _ ht)) h4, List.length_cons]
            ring

end

/-- C101: Sequences, whose elements have different lengths, are refused, so that the number of elements of a loaded array is the
product of the dimensions in its shape. -/
theorem C101_homogeneous (a : Obj α K) (A : Nd K) (h : toNd N a = .ok A) : A.elements.length = A.shape.prod := by
  unfold toNd at h
  cases hs : shape a with
  | none => rw [hs] at h; cases h
  | some s =>
    rw [hs] at h
    change (elements N a >>= fun l => Except.ok (⟨s, l⟩ : Nd K)) = Except.ok A at h
    cases hx : elements N a with
    | error e => rw [hx] at h; cases h
    | ok l =>
      rw [hx] at h
      cases h
      exact elements_length a s l hs hx

end

/-- Two rows with two elements are accepted, but not two rows with two and one elements. -/
example : (∃ A, toNd exampleNumbers (.seq [.seq [.int 1, .int 2], .seq [.int 3, .int 4]] : Obj ℝ ℂ) = .ok A) ∧
    toNd exampleNumbers (.seq [.seq [.int 1, .int 2], .seq [.int 3]] : Obj ℝ ℂ) = .error (.py .valueError) := by
  constructor
  · refine ⟨⟨[2, 2], [(1 : Int), (2 : Int), (3 : Int), (4 : Int)]⟩, ?_⟩
    rfl
  · rfl

/-! ### examples for the hypotheses -/

/-- a signal with two channels -/
def exampleSignal : Signal ℂ ℝ := ⟨⟨2, 3, fun c t => if c = t then 1 else -1⟩, 1, -12, ["it's", "\t"]⟩

/-- The hypotheses of `C101_signal_partial` are fulfilled by `exampleSignal`. -/
example (n : Nat) : dataEval exampleTexts exampleNumbers complexEnv n
    (reprSignal exampleTexts exampleNumbers false "Signal" exampleSignal) =
      .ok (.signal ⟨[2, 3], [1, -1, -1, -1, 1, -1]⟩ 1 (-12) ["it's", "\t"]) := by
  have e := C101_signal_partial (E := complexEnv) (n := n) exampleTexts_ok exampleNumbers_hom exampleNumbers_lawful false
    exampleSignal (by decide) (by decide) rfl (.inr (.inl rfl)) (by
      intro c t _ _
      by_cases h : c = t
      · simp [exampleSignal, h, Element, Rep, exampleFloats, exampleNumbers]
      · simp [exampleSignal, h, Element, Rep, exampleFloats, exampleNumbers])
  rw [e]
  rfl

/-- The hypotheses of `C101_spectrum_partial` are fulfilled by a spectrum with complex samples. -/
example (n : Nat) : dataEval exampleTexts exampleNumbers complexEnv n
    (reprSpectrum exampleTexts exampleNumbers true "Spectrum" ⟨⟨1, 2, fun _ t => if t = 0 then 1 else -Complex.I⟩, 1, ["a"]⟩) =
      .ok (.spectrum ⟨[1, 2], [1, -Complex.I]⟩ 1 ["a"]) := by
  have e := C101_spectrum_partial (E := complexEnv) (n := n) exampleTexts_ok exampleNumbers_hom exampleNumbers_lawful true
    ⟨⟨1, 2, fun _ t => if t = 0 then 1 else -Complex.I⟩, 1, ["a"]⟩ (by decide) (by decide) rfl (.inr (.inl rfl)) (by
      intro c t _ _
      by_cases h : t = 0
      · simp [h, Element, Rep, exampleFloats, exampleNumbers]
      · simp [h, Element, Rep, exampleFloats, exampleNumbers])
  rw [e]
  rfl

/-- The hypotheses of `C101_spectrogram_partial` are fulfilled by a spectrogram with complex samples. -/
example (n : Nat) : dataEval exampleTexts exampleNumbers complexEnv n
    (reprSpectrogram exampleTexts exampleNumbers true "Spectrogram"
      ⟨⟨1, 2, 1, fun _ f _ => if f = 0 then 1 else -Complex.I⟩, 1, 1, 3, ["a"]⟩) =
      .ok (.spectrogram ⟨[1, 2, 1], [1, -Complex.I]⟩ 1 1 3 ["a"]) := by
  have e := C101_spectrogram_partial (E := complexEnv) (n := n) exampleTexts_ok exampleNumbers_hom exampleNumbers_lawful true
    ⟨⟨1, 2, 1, fun _ f _ => if f = 0 then 1 else -Complex.I⟩, 1, 1, 3, ["a"]⟩ (by decide) (by decide) (by decide) rfl
    (.inr (.inl rfl)) (.inr (.inl rfl)) (by
      intro c f t _ _ _
      by_cases h : f = 0
      · simp [h, Element, Rep, exampleFloats, exampleNumbers]
      · simp [h, Element, Rep, exampleFloats, exampleNumbers])
  rw [e]
  rfl

/-- The hypotheses of `C101_empty_violated` are fulfilled by a signal without samples. -/
example (n : Nat) : dataEval exampleTexts exampleNumbers complexEnv n
    (reprSignal exampleTexts exampleNumbers false "Signal" ⟨⟨1, 0, fun _ _ => 0⟩, 1, 0, [""]⟩) =
      .ok (.signal ⟨[0], []⟩ 1 0 []) :=
  (C101_empty_violated exampleTexts_ok false).1 _ rfl (.inr (.inl rfl))

end DataRepr
end Verif
