import Mathlib.Data.List.Sort
import Mathlib.Order.Basic

/-
Dictionaries of python as lists of keys and values in the order of insertion. The keys of a dictionary are unique
(`Dict.Ok`), which is preserved by the operations.
-/

namespace Verif

/-- a dictionary -/
abbrev Dict (κ β : Type) := List (κ × β)

namespace Dict

variable {κ β γ : Type}

/-- `d.keys()` -/
def keys (d : Dict κ β) : List κ := d.map Prod.fst

/-- each key is stored once -/
def Ok (d : Dict κ β) : Prop := d.keys.Nodup

/-- the dictionary comprehension `{k: g(v) for k, v in d.items()}` -/
def mapValues (g : β → γ) (d : Dict κ β) : Dict κ γ := d.map fun p => (p.1, g p.2)

variable [DecidableEq κ]

/-- `d[k]` or `none`, if the key is not in the dictionary -/
def get? : Dict κ β → κ → Option β
  | [], _ => none
  | p :: d, k => if p.1 = k then some p.2 else get? d k

/-- `d[k] = v` -/
def set : Dict κ β → κ → β → Dict κ β
  | [], k, v => [(k, v)]
  | p :: d, k, v => if p.1 = k then (k, v) :: d else p :: set d k v

theorem get?_nil (k : κ) : get? ([] : Dict κ β) k = none := rfl

theorem get?_cons (p : κ × β) (d : Dict κ β) (k : κ) : get? (p :: d) k = if p.1 = k then some p.2 else get? d k := rfl

theorem get?_set (d : Dict κ β) (k : κ) (v : β) (j : κ) : (d.set k v).get? j = if j = k then some v else d.get? j := by
  induction d with
  | nil => simp only [set, get?, eq_comm]
  | cons p d ih =>
    unfold set
    by_cases h : p.1 = k
    · rw [if_pos h, get?_cons, get?_cons, h]
      by_cases hj : k = j
      · rw [if_pos hj, if_pos hj.symm]
      · rw [if_neg hj, if_neg (Ne.symm hj), if_neg hj]
    · rw [if_neg h, get?_cons, get?_cons, ih]
      by_cases hj : p.1 = j
      · rw [if_pos hj, if_pos hj, if_neg (by rw [← hj]; exact h)]
      · rw [if_neg hj, if_neg hj]

theorem mem_keys_iff (d : Dict κ β) (k : κ) : k ∈ d.keys ↔ (d.get? k).isSome := by
  induction d with
  | nil => simp [keys, get?]
  | cons p d ih =>
    rw [get?_cons]
    show k ∈ p.1 :: keys d ↔ _
    rw [List.mem_cons, ih]
    by_cases h : p.1 = k
    · simp [h]
    · simp [h, Ne.symm h]

theorem get?_eq_none (d : Dict κ β) (k : κ) : d.get? k = none ↔ k ∉ d.keys := by
  rw [mem_keys_iff]
  simp

theorem get?_of_mem {d : Dict κ β} (hd : d.Ok) {p : κ × β} (h : p ∈ d) : d.get? p.1 = some p.2 := by
  induction d with
  | nil => cases h
  | cons q d ih =>
    rw [get?_cons]
    have hn := List.nodup_cons.mp (show (q.1 :: keys d).Nodup from hd)
    rcases List.mem_cons.mp h with rfl | h
    · rw [if_pos rfl]
    · rw [if_neg, ih hn.2 h]
      intro e
      exact hn.1 (e ▸ List.mem_map_of_mem h)

theorem mem_of_get? {d : Dict κ β} {k : κ} {v : β} (h : d.get? k = some v) : (k, v) ∈ d := by
  induction d with
  | nil => cases h
  | cons p d ih =>
    rw [get?_cons] at h
    split at h
    · next e =>
      rw [← e, ← Option.some.inj h]
      exact List.mem_cons_self
    · exact List.mem_cons_of_mem _ (ih h)

theorem keys_set (d : Dict κ β) (k : κ) (v : β) : (d.set k v).keys = if k ∈ d.keys then d.keys else d.keys ++ [k] := by
  induction d with
  | nil => rfl
  | cons p d ih =>
    unfold set
    by_cases h : p.1 = k
    · rw [if_pos h]
      simp [keys, h]
    · rw [if_neg h]
      show p.1 :: keys (set d k v) = _
      rw [ih]
      show _ = if k ∈ p.1 :: keys d then p.1 :: keys d else p.1 :: keys d ++ [k]
      by_cases hk : k ∈ keys d
      · simp [hk]
      · simp [hk, Ne.symm h]

theorem ok_set {d : Dict κ β} (h : d.Ok) (k : κ) (v : β) : (d.set k v).Ok := by
  unfold Ok
  rw [keys_set]
  split
  · exact h
  · next hk =>
    rw [List.nodup_append]
    refine ⟨h, by simp, ?_⟩
    intro a ha b hb e
    rw [List.mem_singleton] at hb
    rw [e, hb] at ha
    exact hk ha

omit [DecidableEq κ] in
theorem keys_mapValues (g : β → γ) (d : Dict κ β) : (d.mapValues g).keys = d.keys := by
  simp [keys, mapValues, Function.comp_def]

theorem get?_mapValues (g : β → γ) (d : Dict κ β) (k : κ) : (d.mapValues g).get? k = (d.get? k).map g := by
  induction d with
  | nil => rfl
  | cons p d ih =>
    show get? ((p.1, g p.2) :: mapValues g d) k = _
    rw [get?_cons, get?_cons, ih]
    split <;> rfl

/-- two dictionaries with the same content have the same sorted keys -/
theorem sorted_keys_eq [LinearOrder κ] {d e : Dict κ β} (hd : d.Ok) (he : e.Ok) (h : ∀ k, d.get? k = e.get? k) :
    d.keys.insertionSort (· ≤ ·) = e.keys.insertionSort (· ≤ ·) := by
  have hp : d.keys.Perm e.keys := by
    rw [List.perm_ext_iff_of_nodup hd he]
    intro a
    rw [mem_keys_iff, mem_keys_iff, h]
  refine List.Perm.eq_of_pairwise' (r := (· ≤ ·)) (List.pairwise_insertionSort _ _) (List.pairwise_insertionSort _ _) ?_
  exact (List.perm_insertionSort _ _).trans (hp.trans (List.perm_insertionSort _ _).symm)

end Dict
end Verif
