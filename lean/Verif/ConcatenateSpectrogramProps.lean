import Verif.ConcatenateProps

/-
Property C22 for spectrograms.
-/

namespace Verif
namespace Concatenate

open Cube

variable {α R : Type}

/-! ### Specification -/

/-- The spectrogram as a function of time: zero where it has no samples. -/
def sgValue [Zero α] (s : Spectrogram α R) (c k : Nat) (t : Int) : α :=
  if c < s.count ∧ k < s.freqs ∧ s.offset ≤ t ∧ t < s.offset + s.length then
    s.channels.get c k (t - s.offset).toNat else 0

/-- The spectrograms with the time by which they are delayed: the end of the predecessors. -/
def sgDelayed : Int → List (Spectrogram α R) → List (Int × Spectrogram α R)
  | _, [] => []
  | n, s :: rest => (n, s) :: sgDelayed (n + s.offset + s.length) rest

/-- What the concatenation shall be at the time index `t`: the sum of all delayed spectrograms. -/
def sgTotal [AddCommMonoid α] (l : List (Spectrogram α R)) (c k : Nat) (t : Int) : α :=
  ((sgDelayed 0 l).map fun x => sgValue x.2 c k (t - x.1)).sum

/-! ### Writing and adding -/

theorem cubeAddTo_ok [Add α] {A S : Cube α} {r s t : PySlice} (b0 b1 a b : Nat)
    (hr : r.lo A.d0 = 0 ∧ r.hi A.d0 = b0) (hs : s.lo A.d1 = 0 ∧ s.hi A.d1 = b1)
    (ht : t.lo A.d2 = a ∧ t.hi A.d2 = b)
    (h0 : S.d0 = b0) (h1 : S.d1 = b1) (h2 : S.d2 = b - a) :
    ∃ C, A.addTo r s t S = .ok C ∧ C.d0 = A.d0 ∧ C.d1 = A.d1 ∧ C.d2 = A.d2 ∧
      (∀ i j k, i < b0 → j < b1 → a ≤ k → k < b → C.get i j k = A.get i j k + S.get i j (k - a)) ∧
      (∀ i j k, ¬ (i < b0 ∧ j < b1 ∧ a ≤ k ∧ k < b) → C.get i j k = A.get i j k) := by
  have e0 : (A.slice r s t).d0 = b0 := by show r.count A.d0 = b0; rw [PySlice.count, hr.1, hr.2]; omega
  have e1 : (A.slice r s t).d1 = b1 := by show s.count A.d1 = b1; rw [PySlice.count, hs.1, hs.2]; omega
  have e2 : (A.slice r s t).d2 = b - a := by show t.count A.d2 = b - a; rw [PySlice.count, ht.1, ht.2]
  obtain ⟨C, hC, u⟩ := Cube.ufunc2_ok (f := (· + ·)) (A := A.slice r s t) (B := S) (out := A) 0 b0 0 b1 a b hr hs ht
    ⟨Or.inl (by omega), Or.inl (by omega), Or.inl (by omega)⟩
    ⟨Or.inl (by omega), Or.inl (by omega), Or.inl (by omega)⟩
  refine ⟨C, hC, u.e0, u.e1, u.e2, ?_, ?_⟩
  · intro i j k g1 g2 g3 g4
    rw [u.inside i j k ⟨by omega, by omega, by omega⟩]
    rw [ix_lt (n := (A.slice r s t).d0) (by omega), ix_lt (n := (A.slice r s t).d1) (by omega),
      ix_lt (n := (A.slice r s t).d2) (by omega), ix_lt (n := S.d0) (by omega), ix_lt (n := S.d1) (by omega),
      ix_lt (n := S.d2) (by omega)]
    show A.get (r.lo A.d0 + (i - 0)) (s.lo A.d1 + (j - 0)) (t.lo A.d2 + (k - a)) + _ = _
    rw [hr.1, hs.1, ht.1]
    congr 2 <;> omega
  · intro i j k g
    exact u.outside i j k (fun h => g ⟨h.1.2, h.2.1.2, h.2.2.1, h.2.2.2⟩)

theorem zeroFreqs_ok [Zero α] {M data : Cube α} {number freqs : Nat} (a b : Nat)
    (hab : a ≤ b) (hM : M.d0 = number) (hF : M.d1 = freqs) (hbM : b ≤ M.d2)
    (hr : data.d0 ≤ number) (hf : data.d1 ≤ freqs) :
    ∃ C, zeroFreqs freqs M a b data = .ok C ∧ C.d0 = M.d0 ∧ C.d1 = M.d1 ∧ C.d2 = M.d2 ∧
      (∀ i j k, i < data.d0 → data.d1 ≤ j → j < freqs → a ≤ k → k < b → C.get i j k = 0) ∧
      (∀ i j k, ¬ (i < data.d0 ∧ data.d1 ≤ j ∧ j < freqs ∧ a ≤ k ∧ k < b) → C.get i j k = M.get i j k) := by
  unfold zeroFreqs
  by_cases h : data.d1 < freqs
  · rw [if_pos h]
    obtain ⟨C, hC, u⟩ := Cube.assign_ok (A := M) (S := .scalar 0) (r := .range 0 data.d0) (s := .drop data.d1)
      (t := .range a b) 0 data.d0 data.d1 freqs a b ⟨by simp, by simp; omega⟩ ⟨by simp; omega, by simp; omega⟩
      ⟨by simp; omega, by simp; omega⟩ ⟨Or.inr rfl, Or.inr rfl, Or.inr rfl⟩
    refine ⟨C, hC, u.e0, u.e1, u.e2, ?_, ?_⟩
    · intro i j k g1 g2 g3 g4 g5
      rw [u.inside i j k ⟨by omega, by omega, by omega⟩]
      rfl
    · intro i j k g
      exact u.outside i j k (fun h => g ⟨h.1.2, h.2.1.1, h.2.1.2, h.2.2.1, h.2.2.2⟩)
  · rw [if_neg h]
    exact ⟨M, rfl, rfl, rfl, rfl, fun i j k _ _ _ _ _ => by omega, fun _ _ _ _ => rfl⟩

theorem writeSpectrogram_ok [Zero α] {M data : Cube α} {number freqs : Nat} (a b : Nat) (start stop : Int)
    (ha : start = a) (hb : stop = b) (hab : a ≤ b) (hM : M.d0 = number) (hF : M.d1 = freqs) (hbM : b ≤ M.d2)
    (hr : data.d0 ≤ number) (hf : data.d1 ≤ freqs) (hc : data.d2 = b - a) :
    ∃ C, writeSpectrogram number freqs M start stop data = .ok C ∧ C.d0 = M.d0 ∧ C.d1 = M.d1 ∧ C.d2 = M.d2 ∧
      (∀ i j k, i < number → j < freqs → a ≤ k → k < b →
        C.get i j k = if i < data.d0 ∧ j < data.d1 then data.get i j (k - a) else 0) ∧
      (∀ i j k, ¬ (a ≤ k ∧ k < b) → C.get i j k = M.get i j k) := by
  subst ha hb
  obtain ⟨C, hC, u⟩ := Cube.assign_ok (A := M) (S := data) (r := .range 0 data.d0) (s := .range 0 data.d1)
    (t := .range a b) 0 data.d0 0 data.d1 a b ⟨by simp, by simp; omega⟩ ⟨by simp, by simp; omega⟩
    ⟨by simp; omega, by simp; omega⟩ ⟨Or.inl (by omega), Or.inl (by omega), Or.inl hc⟩
  have u1 := u.e0
  have u2 := u.e1
  have u3 := u.e2
  obtain ⟨D, hD, v1, v2, v3, v4, v5⟩ := zeroFreqs_ok (M := C) (data := data) (number := number) (freqs := freqs) a b hab
    (by omega) (by omega) (by omega) hr hf
  have hin : ∀ i j k, i < data.d0 → j < freqs → a ≤ k → k < b →
      D.get i j k = if i < data.d0 ∧ j < data.d1 then data.get i j (k - a) else 0 := by
    intro i j k g1 g2 g3 g4
    by_cases h : j < data.d1
    · rw [if_pos ⟨g1, h⟩, v5 i j k (by omega), u.inside i j k ⟨by omega, by omega, by omega⟩,
        ix_lt (n := data.d0) (by omega), ix_lt (n := data.d1) (by omega), ix_lt (n := data.d2) (by omega)]
      rfl
    · rw [if_neg (fun g => h g.2), v4 i j k g1 (by omega) g2 g3 g4]
  unfold writeSpectrogram
  rw [hC]
  show ∃ C', (zeroFreqs freqs C a b data >>= _) = _ ∧ _
  rw [hD]
  show ∃ C', (if data.d0 < number then _ else _) = _ ∧ _
  by_cases h : data.d0 < number
  · rw [if_pos h]
    obtain ⟨E, hE, w⟩ := Cube.assign_ok (A := D) (S := .scalar 0) (r := .drop data.d0) (s := .all)
      (t := .range a b) data.d0 number 0 freqs a b ⟨by simp; omega, by simp; omega⟩ ⟨by simp, by simp; omega⟩
      ⟨by simp; omega, by simp; omega⟩ ⟨Or.inr rfl, Or.inr rfl, Or.inr rfl⟩
    have w1 := w.e0
    have w2 := w.e1
    have w3 := w.e2
    refine ⟨E, hE, by omega, by omega, by omega, ?_, ?_⟩
    · intro i j k g1 g2 g3 g4
      by_cases hi : i < data.d0
      · rw [w.outside i j k (fun h => absurd h.1.1 (by omega)), hin i j k hi g2 g3 g4]
      · rw [w.inside i j k ⟨by omega, by omega, by omega⟩, if_neg (fun g => hi g.1)]
        rfl
    · intro i j k g
      rw [w.outside i j k (fun h => g h.2.2), v5 i j k (by omega), u.outside i j k (fun h => g h.2.2)]
  · rw [if_neg h]
    refine ⟨D, rfl, by omega, by omega, by omega, ?_, ?_⟩
    · intro i j k g1 g2 g3 g4
      exact hin i j k (by omega) g2 g3 g4
    · intro i j k g
      rw [v5 i j k (by omega), u.outside i j k (fun h => g h.2.2)]

/-! ### The loop -/

/-- the contribution of one entry at the absolute time index `t` -/
def sgContrib [Zero α] (e : Entry (Cube α)) (c k : Nat) (t : Int) : α :=
  if c < e.data.d0 ∧ k < e.data.d1 ∧ e.start ≤ t ∧ t < e.stop then e.data.get c k (t - e.start).toNat else 0

theorem copySpectrogram_ok [AddCommMonoid α] {M : Cube α} {number freqs : Nat} {offset lastIndex : Int}
    {previous e : Entry (Cube α)} (last : Nat)
    (hlast : max lastIndex (previous.stop - offset) = last) (hM : M.d0 = number) (hF : M.d1 = freqs)
    (he : e.stop = e.start + e.data.d2) (hs : offset ≤ e.start) (hr : e.data.d0 ≤ number) (hf : e.data.d1 ≤ freqs)
    (hc : e.stop - offset ≤ M.d2) (hlM : last ≤ M.d2) :
    ∃ C, copySpectrogram offset number freqs M lastIndex previous e = .ok (C, (last : Int)) ∧
      C.d0 = M.d0 ∧ C.d1 = M.d1 ∧ C.d2 = M.d2 ∧
      (∀ c k (t : Nat), c < number → k < freqs → t < last →
        C.get c k t = M.get c k t + sgContrib e c k (offset + t)) ∧
      (∀ c k (t : Nat), c < number → k < freqs → last ≤ t → (t : Int) < e.stop - offset →
        C.get c k t = sgContrib e c k (offset + t)) := by
  unfold copySpectrogram
  simp only [hlast]
  obtain ⟨a, ha⟩ : ∃ a : Nat, e.start - offset = a := ⟨(e.start - offset).toNat, by omega⟩
  obtain ⟨b, hb⟩ : ∃ b : Nat, e.stop - offset = b := ⟨(e.stop - offset).toNat, by omega⟩
  have hab : b = a + e.data.d2 := by omega
  rw [ha, hb]
  by_cases h1 : (a : Int) < last
  · rw [if_pos h1]
    by_cases h2 : (last : Int) ≥ b
    · rw [if_pos h2]
      obtain ⟨C, g1, g2, g2', g3, g4, g5⟩ := cubeAddTo_ok (A := M) (S := e.data) (r := .range 0 e.data.d0)
        (s := .range 0 e.data.d1) (t := .range a (a + e.data.d2)) e.data.d0 e.data.d1 a b
        ⟨by simp, by simp; omega⟩ ⟨by simp, by simp; omega⟩
        ⟨by simp; omega, by rw [show (a : Int) + e.data.d2 = b by omega]; simp; omega⟩ rfl rfl (by omega)
      rw [g1]
      refine ⟨C, rfl, g2, g2', g3, ?_, ?_⟩
      · intro c k t k1 k1' k2
        unfold sgContrib
        by_cases h : c < e.data.d0 ∧ k < e.data.d1 ∧ e.start ≤ offset + t ∧ offset + t < e.stop
        · rw [if_pos h, g4 c k t h.1 h.2.1 (by omega) (by omega)]
          congr 2; omega
        · rw [if_neg h, g5 c k t (by omega), add_zero]
      · intro c k t k1 k1' k2 k3
        omega
    · rw [if_neg h2]
      have el : ((last : Int) - a) = ((last - a : Nat) : Int) := by omega
      obtain ⟨C, g1, g2, g2', g3, g4, g5⟩ := cubeAddTo_ok (A := M)
        (S := e.data.slice .all .all (.range 0 (last - a))) (r := .range 0 e.data.d0)
        (s := .range 0 e.data.d1) (t := .range a last) e.data.d0 e.data.d1 a last
        ⟨by simp, by simp; omega⟩ ⟨by simp, by simp; omega⟩ ⟨by simp; omega, by simp; omega⟩ rfl rfl
        (by show (PySlice.range 0 ((last : Int) - a)).count e.data.d2 = _; rw [el]; simp; omega)
      rw [g1]
      obtain ⟨D, k1, k2, k2', k3, k4, k5⟩ := writeSpectrogram_ok (M := C)
        (data := e.data.slice .all .all (.drop (last - a)))
        (number := number) (freqs := freqs) last b last b rfl rfl (by omega) (by omega) (by omega) (by omega)
        (show e.data.d0 ≤ number from hr) (show e.data.d1 ≤ freqs from hf)
        (by show (PySlice.drop ((last : Int) - a)).count e.data.d2 = _; rw [el]; simp; omega)
      show ∃ C', (writeSpectrogram number freqs C last b (e.data.slice .all .all (.drop (last - a))) >>= _) = _ ∧ _
      rw [k1]
      refine ⟨D, rfl, k2.trans g2, k2'.trans g2', k3.trans g3, ?_, ?_⟩
      · intro c k t l1 l1' l2
        rw [k5 c k t (by omega)]
        unfold sgContrib
        by_cases h : c < e.data.d0 ∧ k < e.data.d1 ∧ e.start ≤ offset + t ∧ offset + t < e.stop
        · rw [if_pos h, g4 c k t h.1 h.2.1 (by omega) (by omega)]
          show _ + e.data.get (0 + c) (0 + k) ((PySlice.range 0 ((last : Int) - a)).lo e.data.d2 + (t - a)) = _
          congr 2
          · omega
          · omega
          · simp; omega
        · rw [if_neg h, g5 c k t (by omega), add_zero]
      · intro c k t l1 l1' l2 l3
        rw [k4 c k t l1 l1' l2 (by omega)]
        unfold sgContrib
        show (if c < e.data.d0 ∧ k < e.data.d1 then
          e.data.get (0 + c) (0 + k) ((PySlice.drop ((last : Int) - a)).lo e.data.d2 + (t - last)) else 0) = _
        by_cases h : c < e.data.d0 ∧ k < e.data.d1
        · rw [if_pos h, if_pos ⟨h.1, h.2, by omega, by omega⟩, el]
          congr 1
          · omega
          · omega
          · simp; omega
        · rw [if_neg h, if_neg (by omega)]
  · rw [if_neg h1]
    have main : ∀ N : Cube α, N.d0 = M.d0 → N.d1 = M.d1 → N.d2 = M.d2 →
        (∀ c k (t : Nat), t < last → N.get c k t = M.get c k t) →
        (∀ c k (t : Nat), c < number → k < freqs → last ≤ t → t < a → N.get c k t = 0) →
        ∃ C, writeSpectrogram number freqs N a b e.data = .ok C ∧ C.d0 = M.d0 ∧ C.d1 = M.d1 ∧ C.d2 = M.d2 ∧
          (∀ c k (t : Nat), c < number → k < freqs → t < last →
            C.get c k t = M.get c k t + sgContrib e c k (offset + t)) ∧
          (∀ c k (t : Nat), c < number → k < freqs → last ≤ t → (t : Int) < b →
            C.get c k t = sgContrib e c k (offset + t)) := by
      intro N n1 n1' n2 n3 n4
      obtain ⟨D, k1, k2, k2', k3, k4, k5⟩ := writeSpectrogram_ok (M := N) (data := e.data)
        (number := number) (freqs := freqs) a b a b rfl rfl (by omega) (by omega) (by omega) (by omega) hr hf
        (by omega)
      refine ⟨D, k1, k2.trans n1, k2'.trans n1', k3.trans n2, ?_, ?_⟩
      · intro c k t l1 l1' l2
        rw [k5 c k t (by omega), n3 c k t l2]
        unfold sgContrib
        rw [if_neg (by omega), add_zero]
      · intro c k t l1 l1' l2 l3
        unfold sgContrib
        by_cases h : a ≤ t
        · rw [k4 c k t l1 l1' h (by omega)]
          by_cases h' : c < e.data.d0 ∧ k < e.data.d1
          · rw [if_pos h', if_pos ⟨h'.1, h'.2, by omega, by omega⟩]
            congr 1; omega
          · rw [if_neg h', if_neg (by omega)]
        · rw [k5 c k t (by omega), n4 c k t l1 l1' l2 (by omega), if_neg (by omega)]
    by_cases h2 : (a : Int) > last
    · rw [if_pos h2]
      obtain ⟨N, g1, u⟩ := Cube.assign_ok (A := M) (S := .scalar 0) (r := .all) (s := .all) (t := .range last a)
        0 M.d0 0 M.d1 last a ⟨by simp, by simp⟩ ⟨by simp, by simp⟩ ⟨by simp; omega, by simp; omega⟩
        ⟨Or.inr rfl, Or.inr rfl, Or.inr rfl⟩
      rw [g1]
      obtain ⟨C, k1, k2⟩ := main N u.e0 u.e1 u.e2
        (fun c k t h => u.outside c k t (fun h' => absurd h'.2.2.1 (by omega)))
        (fun c k t h h0 h' h'' => by rw [u.inside c k t ⟨by omega, by omega, by omega⟩]; rfl)
      show ∃ C', (writeSpectrogram number freqs N a b e.data >>= _) = _ ∧ _
      rw [k1]
      exact ⟨C, rfl, k2⟩
    · rw [if_neg h2]
      obtain ⟨C, k1, k2⟩ := main M rfl rfl rfl (fun c k t h => rfl) (fun c k t h h0 h' h'' => by omega)
      rw [k1]
      exact ⟨C, rfl, k2⟩

/-- The claim about the loop: the first samples of the channels array contain the sum of the entries `done`. -/
theorem copySpectrograms_ok [AddCommMonoid α] {number freqs : Nat} {offset : Int} (L : Nat) :
    ∀ (rest done : List (Entry (Cube α))) (previous : Entry (Cube α)) (M : Cube α) (lastIndex : Int) (last : Nat),
    max lastIndex (previous.stop - offset) = last → M.d0 = number → M.d1 = freqs → M.d2 = L →
    (∀ e ∈ done, e.stop - offset ≤ last) → last ≤ L →
    (∀ c k (t : Nat), c < number → k < freqs → t < last →
      M.get c k t = (done.map fun e => sgContrib e c k (offset + t)).sum) →
    (∀ e ∈ rest, e.stop = e.start + e.data.d2 ∧ offset ≤ e.start ∧ e.data.d0 ≤ number ∧ e.data.d1 ≤ freqs ∧
      e.stop - offset ≤ L) →
    ∃ C, copySpectrograms offset number freqs M lastIndex previous rest = .ok C ∧
      C.d0 = number ∧ C.d1 = freqs ∧ C.d2 = L ∧
      ∀ c k (t : Nat), c < number → k < freqs → (t < last ∨ ∃ e ∈ rest, (t : Int) < e.stop - offset) →
        C.get c k t = ((done ++ rest).map fun e => sgContrib e c k (offset + t)).sum := by
  intro rest
  induction rest with
  | nil =>
    intro done previous M lastIndex last h1 h2 h2' h3 h4 h5 h6 _
    refine ⟨M, rfl, h2, h2', h3, ?_⟩
    rintro c k t hc hk (ht | ⟨e, he, _⟩)
    · rw [List.append_nil]; exact h6 c k t hc hk ht
    · cases he
  | cons e rest ih =>
    intro done previous M lastIndex last h1 h2 h2' h3 h4 h5 h6 h7
    obtain ⟨e1, e2, e3, e3', e4⟩ := h7 e (by simp)
    obtain ⟨C, g1, g2, g2', g3, g4, g5⟩ := copySpectrogram_ok (M := M) (number := number) (freqs := freqs)
      (offset := offset) (lastIndex := lastIndex) (previous := previous) (e := e) last h1 h2 h2' e1 e2 e3 e3'
      (by omega) (by omega)
    obtain ⟨D, k1, k2, k2', k3, k4⟩ := ih (done ++ [e]) e C last (max last (e.stop - offset).toNat) (by omega)
      (g2.trans h2) (g2'.trans h2') (g3.trans h3)
      (by
        intro e' he'
        rcases List.mem_append.1 he' with h | h
        · have := h4 e' h; omega
        · rw [List.mem_singleton.1 h]; omega)
      (by omega)
      (by
        intro c k t hc hk ht
        rw [List.map_append, List.sum_append]
        simp only [List.map_cons, List.map_nil, List.sum_cons, List.sum_nil, add_zero]
        by_cases hl : t < last
        · rw [g4 c k t hc hk hl, h6 c k t hc hk hl]
        · rw [g5 c k t hc hk (by omega) (by omega)]
          rw [List.sum_eq_zero, zero_add]
          intro x hx
          obtain ⟨e', he', rfl⟩ := List.mem_map.1 hx
          have := h4 e' he'
          unfold sgContrib
          rw [if_neg (by omega)])
      (fun e' he' => h7 e' (List.mem_cons_of_mem _ he'))
    refine ⟨D, ?_, k2, k2', k3, ?_⟩
    · show (copySpectrogram offset number freqs M lastIndex previous e >>= _) = _
      rw [g1]
      exact k1
    · intro c k t hc hk ht
      rw [k4 c k t hc hk, List.append_assoc]
      · rfl
      · rcases ht with h | ⟨e', he', h⟩
        · left; omega
        · rcases List.mem_cons.1 he' with rfl | h'
          · left; omega
          · right; exact ⟨e', h', h⟩

/-! ### The result -/

/-- The entries are the delayed spectrograms. -/
theorem spectrogramEntries_eq (n : Int) (l : List (Spectrogram α R)) :
    spectrogramEntries n l = (sgDelayed n l).map fun x =>
      ⟨x.1 + x.2.offset, x.1 + x.2.offset + x.2.length, x.2.channels⟩ := by
  induction l generalizing n with
  | nil => rfl
  | cons s l ih =>
    simp only [spectrogramEntries, sgDelayed, List.map_cons]
    rw [ih]

theorem sgContrib_delayed [Zero α] (n : Int) (s : Spectrogram α R) (c k : Nat) (t : Int) :
    sgContrib ⟨n + s.offset, n + s.offset + s.length, s.channels⟩ c k t = sgValue s c k (t - n) := by
  unfold sgContrib sgValue
  dsimp only
  by_cases h : c < s.count ∧ k < s.freqs ∧ s.offset ≤ t - n ∧ t - n < s.offset + s.length
  · rw [if_pos h, if_pos ⟨h.1, h.2.1, by omega, by omega⟩]
    congr 2
    omega
  · rw [if_neg h, if_neg]
    rintro ⟨h1, h2, h3, h4⟩
    exact h ⟨h1, h2, by omega, by omega⟩

theorem mem_sgDelayed {n : Int} {l : List (Spectrogram α R)} {x : Int × Spectrogram α R}
    (h : x ∈ sgDelayed n l) : x.2 ∈ l := by
  induction l generalizing n with
  | nil => cases h
  | cons s l ih =>
    rcases List.mem_cons.1 h with rfl | h
    · simp
    · exact List.mem_cons_of_mem _ (ih h)

theorem mem_sgDelayed' {n : Int} {l : List (Spectrogram α R)} {s : Spectrogram α R} (h : s ∈ l) :
    ∃ m, (m, s) ∈ sgDelayed n l := by
  induction l generalizing n with
  | nil => cases h
  | cons a l ih =>
    rcases List.mem_cons.1 h with rfl | h
    · exact ⟨n, by simp [sgDelayed]⟩
    · obtain ⟨m, hm⟩ := ih (n := n + a.offset + a.length) h
      exact ⟨m, List.mem_cons_of_mem _ hm⟩

/-- What C22 demands of the result `r` of a concatenation of the spectrograms `l`. -/
structure SgSumSpec [AddCommMonoid α] (l : List (Spectrogram α R)) (r : Spectrogram α R) : Prop where
  /-- the result contains the sum of the delayed spectrograms -/
  value : ∀ c k t, sgValue r c k t = sgTotal l c k t
  /-- no delayed spectrogram reaches out of the result, not even by zeros -/
  covers : ∀ x ∈ sgDelayed 0 l, r.offset ≤ x.1 + x.2.offset ∧ x.1 + x.2.offset + x.2.length ≤ r.offset + r.length
  /-- the result is not longer than necessary -/
  start : ∃ x ∈ sgDelayed 0 l, r.offset = x.1 + x.2.offset
  stop : ∃ x ∈ sgDelayed 0 l, r.offset + r.length = x.1 + x.2.offset + x.2.length
  /-- the number of channels is the maximum -/
  count_ge : ∀ s ∈ l, s.count ≤ r.count
  count : ∃ s ∈ l, r.count = s.count
  /-- the number of frequencies is the maximum -/
  freqs_ge : ∀ s ∈ l, s.freqs ≤ r.freqs
  freqs : ∃ s ∈ l, r.freqs = s.freqs
  /-- resolution and sampling rate are those of the first spectrogram -/
  rates : ∃ s, l.head? = some s ∧ r.rate = s.rate ∧ r.resolution = s.resolution
  /-- the labels are numbered, unless there is only one data set -/
  labels : 2 ≤ l.length → ∀ i, i < r.count → r.labels[i]? = some ("Concatenation " ++ toString (i + 1))

/-- C22: the concatenation of spectrograms is the sum of the delayed spectrograms. -/
theorem C22_spectrograms [AddCommMonoid α] (mem : Nat → Nat → Nat → α) (l : List (Spectrogram α R)) (hl : l ≠ []) :
    ∃ r, spectrograms mem l = .ok r ∧ SgSumSpec l r := by
  match l, hl with
  | [s], _ =>
    refine ⟨s, rfl, ?_, ?_, ?_, ?_, ?_, ?_, ?_, ?_, ?_, ?_⟩
    · intro c k t
      simp [sgTotal, sgDelayed]
    · intro x hx
      rw [sgDelayed, sgDelayed, List.mem_singleton] at hx
      subst hx
      simp
    · exact ⟨(0, s), by simp [sgDelayed], by simp⟩
    · exact ⟨(0, s), by simp [sgDelayed], by simp⟩
    · simp
    · exact ⟨s, by simp, rfl⟩
    · simp
    · exact ⟨s, by simp, rfl⟩
    · exact ⟨s, rfl, rfl, rfl⟩
    · intro h; simp at h
  | first :: second :: rest, _ =>
    generalize hdata : first :: second :: rest = data
    have hfirst : data.head? = some first := by rw [← hdata]; rfl
    have hfm : first ∈ data := by rw [← hdata]; simp
    obtain ⟨hn1, hn2⟩ := foldl_max_le (fun s : Spectrogram α R => s.count) data 0
    have hn3 := foldl_max_mem (fun s : Spectrogram α R => s.count) data 0
    rw [show spectrograms mem data = spectrogramsMany mem first data by rw [← hdata]; rfl]
    unfold spectrogramsMany
    dsimp only
    generalize hnum : data.foldl (fun m s => max m s.count) 0 = number at *
    have hperm : (sortEntries (spectrogramEntries 0 data)).Perm (spectrogramEntries 0 data) :=
      List.perm_insertionSort _ _
    cases hsort : sortEntries (spectrogramEntries 0 data) with
    | nil =>
      rw [hsort] at hperm
      have := hperm.length_eq
      rw [spectrogramEntries_eq, ← hdata] at this
      simp [sgDelayed] at this
    | cons h t =>
      rw [hsort] at hperm
      dsimp only
      obtain ⟨hf1, hf2⟩ := foldl_max_le (fun e : Entry (Cube α) => e.data.d1) (h :: t) 0
      have hf3 := foldl_max_mem (fun e : Entry (Cube α) => e.data.d1) (h :: t) 0
      generalize (h :: t).foldl (fun m e => max m e.data.d1) 0 = freqs at *
      have hmem : ∀ e ∈ h :: t, ∃ x ∈ sgDelayed 0 data,
          e = ⟨x.1 + x.2.offset, x.1 + x.2.offset + x.2.length, x.2.channels⟩ := by
        intro e he
        have := hperm.mem_iff.1 he
        rw [spectrogramEntries_eq, List.mem_map] at this
        obtain ⟨x, hx, rfl⟩ := this
        exact ⟨x, hx, rfl⟩
      have hmem' : ∀ x ∈ sgDelayed 0 data,
          (⟨x.1 + x.2.offset, x.1 + x.2.offset + x.2.length, x.2.channels⟩ : Entry (Cube α)) ∈ h :: t := by
        intro x hx
        apply hperm.mem_iff.2
        rw [spectrogramEntries_eq, List.mem_map]
        exact ⟨x, hx, rfl⟩
      have hfacts : ∀ e ∈ h :: t, e.stop = e.start + e.data.d2 ∧ e.data.d0 ≤ number ∧ e.data.d1 ≤ freqs := by
        intro e he
        obtain ⟨x, hx, rfl⟩ := hmem e he
        exact ⟨rfl, hn2 _ (mem_sgDelayed hx), hf2 _ he⟩
      have hfr : ∀ s ∈ data, s.freqs ≤ freqs := by
        intro s hs
        obtain ⟨m, hm⟩ := mem_sgDelayed' (n := 0) hs
        exact hf2 _ (hmem' _ hm)
      have hmin := minStart_le h t
      have hmax := le_maxStop h t
      have hhead := sorted_head hsort
      have hminmem := minStart_mem h t
      have hmaxmem := maxStop_mem h t
      generalize minStart h t = offset at *
      generalize hstop : maxStop h t = stop at *
      obtain ⟨f1, f2, f3⟩ := hfacts h (by simp)
      have m1 := hmax h (by simp)
      obtain ⟨C, c1, c2, c2', c3, c4, c5⟩ := writeSpectrogram_ok
        (M := allocCube mem number freqs (stop - offset).toNat)
        (data := h.data) (number := number) (freqs := freqs) 0 (h.stop - offset).toNat (h.start - offset)
        (h.stop - offset)
        (by omega) (by omega) (by omega) rfl rfl (by simp only [allocCube]; omega) f2 f3 (by omega)
      obtain ⟨D, d1, d2, d2', d3, d4⟩ := copySpectrograms_ok (number := number) (freqs := freqs) (offset := offset)
        (stop - offset).toNat
        t [h] h C 0 (h.stop - offset).toNat (by omega) c2 c2' c3
        (by intro e he; rw [List.mem_singleton.1 he]; omega) (by omega)
        (by
          intro c k t hc hk ht
          rw [c4 c k t hc hk (by omega) ht]
          simp only [List.map_cons, List.map_nil, List.sum_cons, List.sum_nil, add_zero, sgContrib]
          by_cases hr : c < h.data.d0 ∧ k < h.data.d1
          · rw [if_pos hr, if_pos ⟨hr.1, hr.2, by omega, by omega⟩]
            congr 1; omega
          · rw [if_neg hr, if_neg (fun h => hr ⟨h.1, h.2.1⟩)])
        (by
          intro e he
          obtain ⟨g1, g2, g2'⟩ := hfacts e (List.mem_cons_of_mem _ he)
          have g3 := hmin e (List.mem_cons_of_mem _ he)
          have g4 := hmax e (List.mem_cons_of_mem _ he)
          exact ⟨g1, g3, g2, g2', by omega⟩)
      rw [c1]
      show ∃ r, (copySpectrograms offset number freqs C 0 h t >>= _) = _ ∧ _
      rw [d1]
      refine ⟨_, rfl, ?_, ?_, ?_, ?_, ?_, ?_, ?_, ?_, ?_, ?_⟩
      · intro c k τ
        have htotal : sgTotal data c k τ = ((h :: t).map fun e => sgContrib e c k τ).sum := by
          rw [(hperm.map _).sum_eq, spectrogramEntries_eq, List.map_map]
          unfold sgTotal
          congr 2
          funext x
          exact (sgContrib_delayed x.1 x.2 c k τ).symm
        rw [htotal]
        unfold sgValue
        show (if c < D.d0 ∧ k < D.d1 ∧ offset ≤ τ ∧ τ < offset + D.d2 then
          D.get c k (τ - offset).toNat else 0) = _
        by_cases hx : c < D.d0 ∧ k < D.d1 ∧ offset ≤ τ ∧ τ < offset + D.d2
        · rw [if_pos hx]
          obtain ⟨e, he, hee⟩ := hmaxmem
          rw [d4 c k _ (by omega) (by omega)]
          · rw [show offset + ((τ - offset).toNat : Int) = τ by omega]
            rfl
          · clear hf3 hminmem
            rcases List.mem_cons.1 he with rfl | he
            · left; omega
            · right; exact ⟨e, he, by omega⟩
        · rw [if_neg hx, List.sum_eq_zero]
          intro x hx'
          obtain ⟨e, he, rfl⟩ := List.mem_map.1 hx'
          unfold sgContrib
          rw [if_neg]
          rintro ⟨k1, k1', k2, k3⟩
          obtain ⟨g1, g2, g2'⟩ := hfacts e he
          have g3 := hmin e he
          have g4 := hmax e he
          exact hx ⟨by omega, by omega, by omega, by omega⟩
      · intro x hx
        have h1 := hmin _ (hmem' x hx)
        have h2 := hmax _ (hmem' x hx)
        show offset ≤ _ ∧ _ ≤ offset + (D.d2 : Int)
        dsimp only at h1 h2
        omega
      · obtain ⟨e, he, hee⟩ := hminmem
        obtain ⟨x, hx, rfl⟩ := hmem e he
        exact ⟨x, hx, hee⟩
      · obtain ⟨e, he, hee⟩ := hmaxmem
        obtain ⟨x, hx, rfl⟩ := hmem e he
        refine ⟨x, hx, ?_⟩
        show offset + (D.d2 : Int) = _
        dsimp only at *
        omega
      · intro s hs
        show s.count ≤ D.d0
        rw [d2]
        exact hn2 s hs
      · show ∃ s ∈ data, D.d0 = s.count
        rw [d2]
        rcases hn3 with hz | hz
        · exact ⟨first, hfm, by have := hn2 first hfm; omega⟩
        · exact hz
      · intro s hs
        show s.freqs ≤ D.d1
        rw [d2']
        exact hfr s hs
      · show ∃ s ∈ data, D.d1 = s.freqs
        rw [d2']
        rcases hf3 with hz | ⟨e, he, hz⟩
        · exact ⟨first, hfm, by have := hfr first hfm; omega⟩
        · obtain ⟨x, hx, rfl⟩ := hmem e he
          exact ⟨x.2, mem_sgDelayed hx, hz⟩
      · exact ⟨first, hfirst, rfl, rfl⟩
      · intro _ i hi
        have hi' : i < D.d0 := hi
        show (sanitizeLabels (some (labels number)) D.d0)[i]? = _
        rw [d2] at hi' ⊢
        exact labels_get hi'

/-- an application: two spectrograms with different numbers of frequencies and an overlap -/
example :
    (spectrograms (fun _ _ _ => (99 : Int))
      [(⟨Cube.ofLists 1 2 [[[1, 2]]], (5 : Nat), 7, 1, ["a"]⟩ : Spectrogram Int Nat),
       ⟨Cube.ofLists 2 2 [[[10, 20], [30, 40]]], 6, 8, -1, ["b"]⟩]).map
      (fun r => (r.channels.flat, r.offset, r.resolution, r.rate)) =
    .ok ([1, 12, 20, 0, 30, 40], 1, 5, 7) := by
  decide +kernel

end Concatenate
end Verif
