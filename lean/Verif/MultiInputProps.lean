import Verif.MultiInput
import Verif.MergeProps
import Verif.ConcatenateProps

/-
C24: the bookkeeping of the inputs of `Merge` and `Concatenate`.
-/

namespace Verif
namespace MultiInput

variable {Id D : Type} [DecidableEq Id]

/-! ### Specification -/

/-- What becomes of a data set `x`, which is stored under `i`, during the given events: `none`, if it is removed. -/
def outcome (i : Id) (x : D) : List (Event Id D) → Option D
  | [] => some x
  | .removed j :: es => if j = i then none else outcome i x es
  | .replaced j y :: es => outcome i (if j = i then y else x) es
  | .added _ _ :: es => outcome i x es

/-- The data sets which are present after the given events: those, which have been added and not removed
afterwards, in the order, in which they have been added. -/
def survivors : List (Event Id D) → List (Id × D)
  | [] => []
  | .added i x :: es => ((outcome i x es).map fun v => (i, v)).toList ++ survivors es
  | _ :: es => survivors es

example : survivors [.added 1 "a", .added 2 "b", .replaced 1 "c", .added 3 "d", .removed 2, .added 2 "e"] =
    [(1, "c"), (3, "d"), (2, "e")] := by decide

/-! ### Proofs -/

theorem run_eq (fresh : Store Id D → Id) : ∀ (calls : List (Call Id D)) (d0 d : Store Id D) (es : List (Event Id D)),
    run fresh d0 calls = .ok (d, es) →
    d = (d0.flatMap fun e => ((outcome e.1 e.2 es).map fun v => (e.1, v)).toList) ++ survivors es := by
  intro calls
  induction calls with
  | nil =>
    intro d0 d es h
    cases h
    simp only [outcome, survivors, Option.map_some, Option.toList_some, List.append_nil]
    induction d0 with
    | nil => rfl
    | cons a l ih => rw [List.flatMap_cons, ← ih]; rfl
  | cons c calls ih =>
    intro d0 d es h
    unfold run at h
    match hs : step fresh d0 c with
    | .error e => rw [hs] at h; cases h
    | .ok (d1, e) =>
      rw [hs] at h
      match hr : run fresh d1 calls with
      | .error e =>
        change (run fresh d1 calls >>= _) = _ at h
        rw [hr] at h; cases h
      | .ok (d2, es') =>
        change (run fresh d1 calls >>= _) = _ at h
        rw [hr] at h
        cases h
        rw [ih d1 d es' hr]
        cases c with
        | add x =>
          cases hs
          rw [List.flatMap_append]
          simp [survivors, outcome]
        | remove i =>
          unfold step delItem at hs
          dsimp only at hs
          split at hs
          · cases hs
            simp only [survivors, outcome]
            congr 1
            rw [List.flatMap_def, List.flatMap_def]
            clear hr ih
            induction d0 with
            | nil => rfl
            | cons a l ihl =>
              rename_i hmem
              by_cases ha : a.1 = i
              · simp only [List.filter_cons, ha, ne_eq, not_true_eq_false, decide_false, Bool.false_eq_true,
                  if_false, List.map_cons, List.flatten_cons, if_true, Option.map_none, Option.toList_none,
                  List.nil_append]
                by_cases hl : i ∈ keys l
                · exact ihl hl
                · have : l.filter (fun e => decide (¬ e.1 = i)) = l := by
                    rw [List.filter_eq_self]
                    intro e he
                    simp only [decide_eq_true_eq]
                    rintro rfl
                    exact hl (List.mem_map_of_mem he)
                  rw [this]
                  congr 1
                  apply List.map_congr_left
                  intro e he
                  rw [if_neg]
                  rintro rfl
                  exact hl (List.mem_map_of_mem he)
              · have hl : i ∈ keys l := by
                  rcases List.mem_cons.1 hmem with h | h
                  · exact absurd h.symm ha
                  · exact h
                have := ihl hl
                simp only [ne_eq] at this
                simp only [List.filter_cons, ha, ne_eq, not_false_eq_true, decide_true, if_true, List.map_cons,
                  List.flatten_cons, this]
                rw [if_neg (fun h => ha h.symm)]
          · cases hs
        | replace i x =>
          unfold step setItem at hs
          dsimp only at hs
          by_cases hi : i ∈ keys d0
          · rw [if_pos hi, if_pos hi] at hs
            cases hs
            simp only [survivors, outcome]
            congr 1
            rw [List.flatMap_map, List.flatMap_def, List.flatMap_def]
            congr 1
            apply List.map_congr_left
            rintro ⟨j, y⟩ _
            by_cases hj : j = i
            · subst hj; simp
            · have : ¬ i = j := fun h => hj h.symm
              simp [hj, this]
          · rw [if_neg hi, if_neg hi] at hs
            cases hs
            rw [List.flatMap_append]
            simp [survivors, outcome]

/-- C24: after any history of calls, the stored data sets are those, which have been added and not been removed,
in the order of adding; replacing changes the data set, but neither its position nor the other data sets. -/
theorem C24_history (fresh : Store Id D → Id) (calls : List (Call Id D)) (d : Store Id D) (es : List (Event Id D))
    (h : run fresh [] calls = .ok (d, es)) : d = survivors es := by
  have := run_eq fresh calls [] d es h
  simpa using this

/-- C24: the events are the ones, which have been demanded by the calls. (`add` yields the identifier of the data set;
`replace` with an identifier, which is not in use, adds the data set.) -/
theorem C24_events (fresh : Store Id D → Id) (d0 : Store Id D) (c : Call Id D) (d : Store Id D) (e : Event Id D)
    (h : step fresh d0 c = .ok (d, e)) :
    (∀ x, c = .add x → e = .added (fresh d0) x) ∧
    (∀ i, c = .remove i → i ∈ keys d0 ∧ e = .removed i) ∧
    (∀ i x, c = .replace i x → i ∈ keys d0 → e = .replaced i x) ∧
    (∀ i x, c = .replace i x → i ∉ keys d0 → e = .added i x) := by
  refine ⟨?_, ?_, ?_, ?_⟩
  · rintro x rfl; cases h; rfl
  · rintro i rfl
    unfold step delItem at h
    dsimp only at h
    split at h
    · cases h; exact ⟨by assumption, rfl⟩
    · cases h
  · rintro i x rfl hi
    unfold step at h
    dsimp only at h
    rw [if_pos hi] at h
    cases h; rfl
  · rintro i x rfl hi
    unfold step at h
    dsimp only at h
    rw [if_neg hi] at h
    cases h; rfl

/-- C24: a call fails, if and only if a data set shall be removed, that is not present; this raises a `KeyError`. -/
theorem C24_failure (fresh : Store Id D → Id) (d0 : Store Id D) (c : Call Id D) (err : PyExc) :
    step fresh d0 c = .error err ↔ err = .keyError ∧ ∃ i, c = .remove i ∧ i ∉ keys d0 := by
  cases c with
  | add x => simp [step]
  | replace i x => simp [step]
  | remove i =>
    unfold step delItem
    dsimp only
    by_cases hi : i ∈ keys d0
    · rw [if_pos hi]
      constructor
      · intro h; cases h
      · rintro ⟨_, j, hj, hj'⟩
        cases hj
        exact absurd hi hj'
    · rw [if_neg hi]
      constructor
      · intro h
        cases h
        exact ⟨rfl, i, rfl, hi⟩
      · rintro ⟨rfl, _⟩
        rfl

theorem step_nodup (fresh : Store Id D → Id) (hf : ∀ d, fresh d ∉ keys d) {d0 d : Store Id D} {c : Call Id D}
    {e : Event Id D} (h : step fresh d0 c = .ok (d, e)) (hn : (keys d0).Nodup) : (keys d).Nodup := by
  cases c with
  | add x =>
    cases h
    unfold keys at *
    rw [List.map_append, List.nodup_append]
    refine ⟨hn, by simp, ?_⟩
    rintro a ha b hb rfl
    simp only [List.map_cons, List.map_nil, List.mem_singleton] at hb
    subst hb
    exact hf d0 ha
  | remove i =>
    unfold step delItem at h
    dsimp only at h
    split at h
    · cases h
      exact hn.sublist (List.filter_sublist.map _)
    · cases h
  | replace i x =>
    unfold step setItem at h
    dsimp only at h
    by_cases hi : i ∈ keys d0
    · rw [if_pos hi] at h
      cases h
      have : keys (d0.map fun e => if e.1 = i then (i, x) else e) = keys d0 := by
        unfold keys
        rw [List.map_map]
        apply List.map_congr_left
        intro a _
        simp only [Function.comp]
        split
        · symm; assumption
        · rfl
      rw [this]; exact hn
    · rw [if_neg hi] at h
      cases h
      unfold keys at *
      rw [List.map_append, List.nodup_append]
      refine ⟨hn, by simp, ?_⟩
      rintro a ha b hb rfl
      simp only [List.map_cons, List.map_nil, List.mem_singleton] at hb
      subst hb
      exact hi ha

theorem run_nodup (fresh : Store Id D → Id) (hf : ∀ d, fresh d ∉ keys d) : ∀ (calls : List (Call Id D))
    (d0 d : Store Id D) (es : List (Event Id D)), run fresh d0 calls = .ok (d, es) → (keys d0).Nodup →
    (keys d).Nodup := by
  intro calls
  induction calls with
  | nil => intro d0 d es h hn; cases h; exact hn
  | cons c calls ih =>
    intro d0 d es h hn
    unfold run at h
    match hs : step fresh d0 c with
    | .error e => rw [hs] at h; cases h
    | .ok (d1, e) =>
      rw [hs] at h
      change (run fresh d1 calls >>= _) = _ at h
      match hr : run fresh d1 calls with
      | .error e => rw [hr] at h; cases h
      | .ok (d2, es') =>
        rw [hr] at h
        cases h
        exact ih d1 d es' hr (step_nodup fresh hf hs hn)

/-- C24: identifiers are never confused: at any time, the stored data sets have different identifiers. -/
theorem C24_identifiers (fresh : Store Id D → Id) (hf : ∀ d, fresh d ∉ keys d) (calls : List (Call Id D))
    (d : Store Id D) (es : List (Event Id D)) (h : run fresh [] calls = .ok (d, es)) : (keys d).Nodup :=
  run_nodup fresh hf calls [] d es h (by simp [keys])

theorem run_adds (fresh : Store Id D → Id) : ∀ (data : List D) (d0 : Store Id D),
    (run fresh d0 (data.map .add)).map Prod.fst = .ok (data.foldl (fun d x => d ++ [(fresh d, x)]) d0) := by
  intro data
  induction data with
  | nil => intro d0; rfl
  | cons x data ih =>
    intro d0
    rw [List.map_cons, List.foldl_cons, ← ih]
    show Except.map Prod.fst (run fresh (d0 ++ [(fresh d0, x)]) (data.map .add) >>= _) = _
    match run fresh (d0 ++ [(fresh d0, x)]) (data.map .add) with
    | .ok _ => rfl
    | .error _ => rfl

/-- C24: passing the data sets to the constructor is the same as adding them. -/
theorem C24_init (fresh : Store Id D → Id) (data : List D) :
    (run fresh [] (data.map .add)).map Prod.fst = .ok (init fresh data) ∧ values (init fresh data) = data := by
  refine ⟨run_adds fresh data [], ?_⟩
  unfold init
  have : ∀ (data : List D) (d0 : Store Id D),
      values (data.foldl (fun d x => d ++ [(fresh d, x)]) d0) = values d0 ++ data := by
    intro data
    induction data with
    | nil => intro d0; simp
    | cons x data ih => intro d0; rw [List.foldl_cons, ih]; simp [values]
  simpa [values] using this data []

/-- C24 and C23: the output of a `Merge` instance after an arbitrary history of calls consists of the channels of the
data sets, which are present, in the order, in which they have been added. -/
theorem C24_merge {α R : Type} [Zero α] (mem : Nat → Nat → α) (mode : MergeMode)
    (fresh : Store Id (Signal α R) → Id) (calls : List (Call Id (Signal α R))) (d : Store Id (Signal α R))
    (es : List (Event Id (Signal α R))) (h : run fresh [] calls = .ok (d, es)) (hne : survivors es ≠ [])
    (hw : ∀ s ∈ (survivors es).map Prod.snd, s.labels.length = s.count)
    (hv : Merge.Valid mode (((survivors es).map Prod.snd).map fun s => s.count)) :
    ∃ r, mergeOutput mem mode d = .ok r ∧ Merge.SignalSpec mode ((survivors es).map Prod.snd) r := by
  rw [C24_history fresh calls d es h]
  exact Merge.C23_signals_partial mem mode _ (by simpa [values] using hne) hw hv

/-- C24 for `Concatenate` instances. -/
theorem C24_concatenate {α R : Type} [AddCommMonoid α] (mem : Nat → Nat → α)
    (fresh : Store Id (Signal α R) → Id) (calls : List (Call Id (Signal α R))) (d : Store Id (Signal α R))
    (es : List (Event Id (Signal α R))) (h : run fresh [] calls = .ok (d, es)) :
    concatenateOutput mem d = Concatenate.signals mem ((survivors es).map Prod.snd) := by
  rw [C24_history fresh calls d es h]
  rfl

/-- an example of a history with the identifiers 0, 1, 2, … -/
example : run (fun d => d.length) ([] : Store Nat String) [.add "a", .add "b", .replace 0 "c", .add "d", .remove 1] =
    .ok ([(0, "c"), (2, "d")],
      [.added 0 "a", .added 1 "b", .replaced 0 "c", .added 2 "d", .removed 1]) := by decide +kernel
/-- a function `fresh`, which fulfils the assumption of `C24_identifiers` -/
example : ∀ d : Store Nat String, (d.map Prod.fst).sum + 1 ∉ keys d := by
  intro d h
  have : ∀ (l : List Nat) (a : Nat), a ∈ l → a ≤ l.sum := by
    intro l
    induction l with
    | nil => simp
    | cons b l ih =>
      intro a ha
      rw [List.sum_cons]
      rcases List.mem_cons.1 ha with rfl | ha
      · omega
      · have := ih a ha; omega
  have := this _ _ h
  unfold keys at this
  omega

end MultiInput
end Verif
