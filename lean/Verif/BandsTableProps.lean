import Verif.BandsTable
import Verif.BandsProps

/-
C51: storing bands filters in tables.
-/

namespace Verif
namespace Filter

open Interpolation (Mode)

/-- a channel of a bands filter: the frequencies, the values and the modes -/
abbrev Channel (α K : Type) := List α × List K × Mode × Mode

namespace Channel

variable {α K : Type}

/-- the transfer function of a channel -/
def term (c : Channel α K) : Term α K := .bands c.1 c.2.1 c.2.2.1 c.2.2.2

/-- the values of a channel at its frequencies -/
def points (c : Channel α K) : Dict α K := c.1.zip c.2.1

/-- the frequencies are sorted and each one has a value -/
def Good [LT α] (c : Channel α K) : Prop := c.1.Pairwise (· < ·) ∧ c.1.length = c.2.1.length

theorem points_keys [LT α] {c : Channel α K} (h : c.Good) : c.points.keys = c.1 :=
  List.map_fst_zip (by rw [h.2])

theorem points_ok [LinearOrder α] {c : Channel α K} (h : c.Good) : c.points.Ok := by
  unfold Dict.Ok
  rw [points_keys h]
  exact h.1.imp fun hlt => hlt.ne

end Channel

variable {α K : Type} [LinearOrder α]

/-! ### dictionaries -/

theorem dict_get_perm {d e : Dict α K} (hd : d.Ok) (h : d.Perm e) (k : α) : d.get? k = e.get? k := by
  have he : e.Ok := (h.map Prod.fst).nodup_iff.mp hd
  apply Option.ext
  intro v
  constructor
  · intro hv
    exact Dict.get?_of_mem he (h.mem_iff.mp (Dict.mem_of_get? hv))
  · intro hv
    exact Dict.get?_of_mem hd (h.mem_iff.mpr (Dict.mem_of_get? hv))

theorem appendValues_spec (i : Nat) (points : List (α × K)) (hp : (points.map Prod.fst).Nodup) :
    ∀ d : Dict α (List (Option K)), d.Ok → (appendValues i d points).Ok ∧
      ∀ f, (appendValues i d points).get? f =
        match Dict.get? points f with
        | some y => some ((d.get? f).getD (List.replicate i none) ++ [some y])
        | none => d.get? f := by
  induction points with
  | nil => exact fun d hd => ⟨hd, fun f => rfl⟩
  | cons p ps ih =>
    intro d hd
    obtain ⟨h1, h2⟩ := List.nodup_cons.mp (show (p.1 :: ps.map Prod.fst).Nodup from hp)
    obtain ⟨k1, k2⟩ := ih h2 (d.set p.1 ((d.get? p.1).getD (List.replicate i none) ++ [some p.2])) (Dict.ok_set hd _ _)
    refine ⟨k1, fun f => ?_⟩
    refine (k2 f).trans ?_
    rw [Dict.get?_cons, Dict.get?_set]
    by_cases hf : p.1 = f
    · subst hf
      have : Dict.get? ps p.1 = none := (Dict.get?_eq_none ps p.1).mpr h1
      rw [this, if_pos rfl, if_pos rfl]
    · rw [if_neg hf, if_neg (Ne.symm hf)]

theorem appendMissing_spec (frequencies : List α) (d : Dict α (List (Option K))) (hd : d.Ok) :
    (appendMissing d frequencies).Ok ∧ ∀ f, (appendMissing d frequencies).get? f =
      (d.get? f).map fun l => if f ∈ frequencies then l else l ++ [none] := by
  have hk : (appendMissing d frequencies).keys = d.keys := by
    unfold appendMissing Dict.keys
    rw [List.map_map]
    apply List.map_congr_left
    intro q _
    show (if q.1 ∈ frequencies then q else (q.1, q.2 ++ [none])).1 = q.1
    split <;> rfl
  refine ⟨by unfold Dict.Ok; rw [hk]; exact hd, fun f => ?_⟩
  clear hk hd
  induction d with
  | nil => rfl
  | cons q d ih =>
    show Dict.get? ((if q.1 ∈ frequencies then q else (q.1, q.2 ++ [none])) :: appendMissing d frequencies) f = _
    rw [Dict.get?_cons, Dict.get?_cons, ih]
    have e : (if q.1 ∈ frequencies then q else (q.1, q.2 ++ [none])).1 = q.1 := by split <;> rfl
    rw [e]
    by_cases hf : q.1 = f
    · rw [if_pos hf, if_pos hf]
      subst hf
      split <;> simp_all
    · rw [if_neg hf, if_neg hf]

/-- the content of the dictionary with all frequencies -/
def Joined (d : Dict α (List (Option K))) (cs : List (Channel α K)) : Prop :=
  d.Ok ∧ ∀ f, d.get? f = if ∃ c ∈ cs, f ∈ c.1 then some (cs.map fun c => c.points.get? f) else none

theorem joined_step {d : Dict α (List (Option K))} {cs : List (Channel α K)} (hd : Joined d cs) {c : Channel α K}
    (hc : c.Good) : Joined (appendMissing (appendValues cs.length d c.points) c.1) (cs ++ [c]) := by
  have hn : (c.points.map Prod.fst).Nodup := Channel.points_ok hc
  obtain ⟨a1, a2⟩ := appendValues_spec cs.length c.points hn d hd.1
  obtain ⟨b1, b2⟩ := appendMissing_spec c.1 _ a1
  refine ⟨b1, fun f => ?_⟩
  rw [b2, a2, hd.2, List.map_append]
  have hex : (∃ x ∈ cs ++ [c], f ∈ x.1) ↔ (∃ x ∈ cs, f ∈ x.1) ∨ f ∈ c.1 := by
    constructor
    · rintro ⟨x, hx, hf⟩
      rcases List.mem_append.mp hx with hx | hx
      · exact .inl ⟨x, hx, hf⟩
      · rw [List.mem_singleton] at hx
        exact .inr (hx ▸ hf)
    · rintro (⟨x, hx, hf⟩ | hf)
      · exact ⟨x, List.mem_append_left _ hx, hf⟩
      · exact ⟨c, by simp, hf⟩
  have hmem : f ∈ c.1 ↔ (c.points.get? f).isSome := by
    rw [← Dict.mem_keys_iff, Channel.points_keys hc]
  by_cases hf : f ∈ c.1
  · obtain ⟨y, hy⟩ := Option.isSome_iff_exists.mp (hmem.mp hf)
    rw [if_pos (hex.mpr (.inr hf)), hy]
    simp only [Option.map_some, hf, if_true, List.map_cons, List.map_nil, hy]
    congr 2
    split
    · rfl
    · next hno =>
      show List.replicate cs.length none = _
      symm
      rw [List.eq_replicate_iff]
      refine ⟨by simp, ?_⟩
      intro b hb
      obtain ⟨x, hx, rfl⟩ := List.mem_map.mp hb
      rw [Dict.get?_eq_none]
      intro hk
      exact hno ⟨x, hx, (List.of_mem_zip (show (f, _) ∈ x.1.zip x.2.1 from
        Dict.mem_of_get? (Option.isSome_iff_exists.mp ((Dict.mem_keys_iff _ _).mp hk)).choose_spec)).1⟩
  · have hnone : c.points.get? f = none := by
      rw [hmem] at hf
      simpa using hf
    rw [hnone]
    simp only [hf, if_false, List.map_cons, List.map_nil, hnone]
    by_cases he : ∃ x ∈ cs, f ∈ x.1
    · rw [if_pos he, if_pos (hex.mpr (.inl he))]
      rfl
    · rw [if_neg he, if_neg fun h => (hex.mp h).elim he hf]
      rfl

theorem joinChannels_spec (cs : List (Channel α K)) (hc : ∀ c ∈ cs, c.Good) :
    ∀ (done : List (Channel α K)) (d : Dict α (List (Option K))), Joined d done →
      ∃ r, joinChannels done.length d (cs.map Channel.term) = .ok r ∧ Joined r (done ++ cs) := by
  induction cs with
  | nil => exact fun done d hd => ⟨d, rfl, by simpa using hd⟩
  | cons c cs ih =>
    intro done d hd
    have hs := joined_step hd (hc c List.mem_cons_self)
    obtain ⟨r, h1, h2⟩ := ih (fun x hx => hc x (List.mem_cons_of_mem _ hx)) (done ++ [c]) _ hs
    refine ⟨r, ?_, by simpa using h2⟩
    rw [← h1, List.length_append]
    rfl

/-! ### rows -/

/-- the effect of a row on the dictionary of a channel -/
def stepColumn (c : Nat) (d : Dict α K) (r : Option α × List (Option K)) : Dict α K :=
  match r.1, r.2[c]? with
  | some f, some (some y) => d.set f y
  | _, _ => d

theorem columnDict_eq (rows : List (Option α × List (Option K))) (c : Nat) :
    columnDict rows c = rows.foldl (stepColumn c) [] := rfl

theorem fold_column (c : Nat) (l : Dict α (List (Option K))) (hl : l.Ok) :
    ∀ d : Dict α K, d.Ok → ((l.map fun p => (some p.1, p.2)).foldl (stepColumn c) d).Ok ∧
      ∀ f, ((l.map fun p => (some p.1, p.2)).foldl (stepColumn c) d).get? f =
        match l.get? f with
        | some cells => (match cells[c]? with | some (some y) => some y | _ => d.get? f)
        | none => d.get? f := by
  induction l with
  | nil => exact fun d hd => ⟨hd, fun f => rfl⟩
  | cons p l ih =>
    intro d hd
    obtain ⟨h1, h2⟩ := List.nodup_cons.mp (show (p.1 :: Dict.keys l).Nodup from hl)
    rw [List.map_cons, List.foldl_cons]
    have hok : (stepColumn c d (some p.1, p.2)).Ok := by
      unfold stepColumn
      dsimp only
      split
      · exact Dict.ok_set hd _ _
      · exact hd
    obtain ⟨k1, k2⟩ := ih h2 _ hok
    refine ⟨k1, fun f => ?_⟩
    rw [k2, Dict.get?_cons]
    by_cases hf : p.1 = f
    · subst hf
      rw [(Dict.get?_eq_none l p.1).mpr h1, if_pos rfl]
      dsimp only
      unfold stepColumn
      dsimp only
      rcases p.2[c]? with _ | _ | y
      · rfl
      · rfl
      · dsimp only
        rw [Dict.get?_set, if_pos rfl]
    · rw [if_neg hf]
      have e : (stepColumn c d (some p.1, p.2)).get? f = d.get? f := by
        unfold stepColumn
        dsimp only
        split
        · next heq _ =>
          rw [Dict.get?_set, if_neg]
          rw [← Option.some.inj heq]
          exact Ne.symm hf
        · rfl
      rw [e]

theorem sorted_ok (d : Dict α (List (Option K))) (hd : d.Ok) :
    Dict.Ok (d.insertionSort fun p q => p.1 ≤ q.1) :=
  ((List.perm_insertionSort _ d).map Prod.fst).nodup_iff.mpr hd

/-- everything, that the readers depend on -/
theorem tableRows_spec (cs : List (Channel α K)) (hc : ∀ c ∈ cs, c.Good) :
    ∃ rows, tableRows (cs.map Channel.term) = .ok rows ∧ (∀ r ∈ rows, r.2.length = cs.length) ∧
      (rows = [] ↔ cs = []) ∧ (∀ r ∈ rows, ∀ f, r.1 = some f → ∃ c ∈ cs, f ∈ c.1) ∧
      ∀ i c, cs[i]? = some c → (columnDict rows i).Ok ∧ ∀ f, (columnDict rows i).get? f = c.points.get? f := by
  obtain ⟨d, h1, h2⟩ := joinChannels_spec cs hc [] [] ⟨List.nodup_nil, fun f => by simp [Dict.get?]⟩
  rw [List.nil_append] at h2
  unfold tableRows
  have h1 : joinChannels 0 [] (cs.map Channel.term) = .ok d := h1
  rw [h1]
  show ∃ rows, (if d.isEmpty ∧ (cs.map Channel.term).length ≠ 0 then _ else _) = _ ∧ _
  by_cases he : d.isEmpty = true ∧ (cs.map Channel.term).length ≠ 0
  · rw [if_pos he]
    have hd : d = [] := List.isEmpty_iff.mp he.1
    have hcs : cs ≠ [] := by
      rintro rfl
      exact he.2 rfl
    refine ⟨_, rfl, ?_, by simpa using hcs, ?_, ?_⟩
    · intro r hr
      rw [List.mem_singleton] at hr
      subst hr
      simp
    · intro r hr f hf
      rw [List.mem_singleton] at hr
      subst hr
      cases hf
    · intro i c hi
      have e : columnDict ([(none, List.replicate (cs.map Channel.term).length none)] :
          List (Option α × List (Option K))) i = [] := rfl
      rw [e]
      refine ⟨List.nodup_nil, fun f => ?_⟩
      have hf := h2.2 f
      rw [hd] at hf
      split at hf
      · cases hf
      · next hno =>
        symm
        show c.points.get? f = none
        rw [Dict.get?_eq_none, Channel.points_keys (hc c (List.mem_of_getElem? hi))]
        exact fun hm => hno ⟨c, List.mem_of_getElem? hi, hm⟩
  · rw [if_neg he]
    have hp := List.perm_insertionSort (fun p q : α × List (Option K) => p.1 ≤ q.1) d
    have hok := sorted_ok d h2.1
    have hget : ∀ f, Dict.get? (d.insertionSort fun p q => p.1 ≤ q.1) f = d.get? f :=
      fun f => (dict_get_perm h2.1 hp.symm f).symm
    have hentry : ∀ p ∈ d, (∃ c ∈ cs, p.1 ∈ c.1) ∧ p.2 = cs.map fun c => c.points.get? p.1 := by
      intro p hpd
      have := Dict.get?_of_mem h2.1 hpd
      rw [h2.2] at this
      split at this
      · next hex => exact ⟨hex, (Option.some.inj this).symm⟩
      · cases this
    refine ⟨_, rfl, ?_, ?_, ?_, ?_⟩
    · intro r hr
      obtain ⟨p, hpm, rfl⟩ := List.mem_map.mp hr
      show p.2.length = _
      rw [(hentry p (hp.mem_iff.mp hpm)).2, List.length_map]
    · constructor
      · intro h
        rw [List.map_eq_nil_iff] at h
        have hd : d = [] := by
          have := hp.length_eq
          rw [h] at this
          exact List.length_eq_zero_iff.mp this.symm
        by_contra hcs
        apply he
        rw [hd]
        refine ⟨rfl, ?_⟩
        rw [List.length_map]
        exact fun h => hcs (List.length_eq_zero_iff.mp h)
      · rintro rfl
        have : d = [] := ok_inj h1 ▸ rfl
        rw [this]
        rfl
    · intro r hr f hf
      obtain ⟨p, hpm, rfl⟩ := List.mem_map.mp hr
      rw [← Option.some.inj hf]
      exact (hentry p (hp.mem_iff.mp hpm)).1
    · intro i c hi
      rw [columnDict_eq]
      obtain ⟨k1, k2⟩ := fold_column (K := K) i _ hok [] List.nodup_nil
      refine ⟨k1, fun f => ?_⟩
      rw [k2, hget, h2.2]
      by_cases hex : ∃ c ∈ cs, f ∈ c.1
      · rw [if_pos hex]
        dsimp only
        rw [List.getElem?_map, hi]
        show (match some (c.points.get? f) with | some (some y) => some y | _ => none) = _
        cases c.points.get? f <;> rfl
      · rw [if_neg hex]
        symm
        show c.points.get? f = none
        rw [Dict.get?_eq_none, Channel.points_keys (hc c (List.mem_of_getElem? hi))]
        exact fun hm => hex ⟨c, List.mem_of_getElem? hi, hm⟩

/-! ### the filter, that is created from the dictionaries -/

theorem valuesAt_points (xs : List α) (ys : List K) (hl : xs.length = ys.length) (hn : xs.Nodup) :
    xs.filterMap (Dict.get? (xs.zip ys)) = ys := by
  induction xs generalizing ys with
  | nil =>
    cases ys with
    | nil => rfl
    | cons => cases hl
  | cons x xs ih =>
    match ys, hl with
    | y :: ys, hl =>
      obtain ⟨h1, h2⟩ := List.nodup_cons.mp hn
      rw [List.zip_cons_cons, List.filterMap_cons, Dict.get?_cons, if_pos rfl]
      dsimp only
      congr 1
      refine Eq.trans (List.filterMap_congr fun a ha => ?_) (ih ys (by simpa using hl) h2)
      rw [Dict.get?_cons, if_neg]
      rintro rfl
      exact h1 ha

theorem bandsTerm_points {d : Dict α K} (hd : d.Ok) {c : Channel α K} (hc : c.Good)
    (h : ∀ f, d.get? f = c.points.get? f) (i e : Mode) : bandsTerm d i e = mkBands c.1 c.2.1 i e := by
  have hk : sortedKeys d = c.1 := by
    unfold sortedKeys
    rw [Dict.sorted_keys_eq hd (Channel.points_ok hc) h, Channel.points_keys hc]
    exact List.Pairwise.insertionSort_eq (hc.1.imp fun h => h.le)
  unfold bandsTerm valuesAt
  rw [hk]
  congr 1
  rw [List.filterMap_congr fun f _ => h f]
  exact valuesAt_points c.1 c.2.1 hc.2 (hc.1.imp fun h => h.ne)

theorem bandsTerms_points (cs : List (Channel α K)) (hc : ∀ c ∈ cs, c.Good) (ds : List (Dict α K))
    (hl : ds.length = cs.length) (is es : List Mode) (hi : is.length = cs.length) (he : es.length = cs.length)
    (h : ∀ (k : Nat) (c : Channel α K), cs[k]? = some c → ∃ d : Dict α K, ds[k]? = some d ∧ d.Ok ∧ ∀ f, d.get? f = c.points.get? f) :
    bandsTerms ds is es = List.zipWith (fun (c : Channel α K) (m : Mode × Mode) => mkBands c.1 c.2.1 m.1 m.2) cs (is.zip es) := by
  induction cs generalizing ds is es with
  | nil =>
    rw [List.length_eq_zero_iff.mp hl]
    rfl
  | cons c cs ih =>
    match ds, is, es, hl, hi, he with
    | d :: ds, i :: is, e :: es, hl, hi, he =>
      obtain ⟨d', hd1, hd2, hd3⟩ := h 0 c rfl
      have : d = d' := Option.some.inj hd1
      subst this
      show bandsTerm d i e :: bandsTerms ds is es = _
      rw [bandsTerm_points hd2 (hc c List.mem_cons_self) hd3, ih (fun x hx => hc x (List.mem_cons_of_mem _ hx)) ds
        (by simpa using hl) is es (by simpa using hi) (by simpa using he) fun k x hk => h (k + 1) x hk]
      rfl

/-- the filter, that is created by the readers without modes in the file -/
theorem new_points (cs : List (Channel α K)) (hc : ∀ c ∈ cs, c.Good) (ds : List (Dict α K))
    (hl : ds.length = cs.length) (i e : Mode) (labels : List String) (hlab : labels.length = cs.length)
    (h : ∀ (k : Nat) (c : Channel α K), cs[k]? = some c → ∃ d : Dict α K, ds[k]? = some d ∧ d.Ok ∧ ∀ f, d.get? f = c.points.get? f) :
    ∃ b, BandsFilter.new ds (.single i) (.single e) (.sequence labels) = .ok b ∧
      b.filter = ⟨cs.map fun c => mkBands c.1 c.2.1 i e, labels⟩ := by
  refine ⟨_, rfl, ?_⟩
  have ht : bandsTerms ds (List.replicate ds.length i) (List.replicate ds.length e) =
      cs.map fun c => mkBands c.1 c.2.1 i e := by
    rw [bandsTerms_points cs hc ds hl _ _ (by simp [hl]) (by simp [hl]) h, hl]
    clear h hl hc hlab
    induction cs with
    | nil => rfl
    | cons c cs ih =>
      rw [List.length_cons, List.replicate_succ, List.replicate_succ, List.zip_cons_cons, List.zipWith_cons_cons, ih]
      rfl
  show Channels.new (bandsTerms ds (List.replicate ds.length i) (List.replicate ds.length e))
    (BandsParam.fillLabels ds.length (.sequence labels)) = _
  have hf : BandsParam.fillLabels ds.length (.sequence labels) = labels := by simp [BandsParam.fillLabels, hl, hlab]
  rw [ht, hf]
  unfold Channels.new
  rw [Signal.sanitize_self (by simpa using hlab)]

/-! ### C51 -/

/-- C51: The rows of the table are sorted by their frequencies. The frequencies are those of all channels. Each row has
one cell per channel, that contains the value of the channel at the frequency or nothing, if the channel is not defined
at that frequency. -/
theorem C51_table (cs : List (Channel α K)) (hc : ∀ c ∈ cs, c.Good) (hne : ∃ c ∈ cs, c.1 ≠ []) :
    ∃ rows : List (α × List (Option K)), tableRows (cs.map Channel.term) = .ok (rows.map fun r => (some r.1, r.2)) ∧
      (rows.map Prod.fst).Pairwise (· < ·) ∧ (∀ f, f ∈ rows.map Prod.fst ↔ ∃ c ∈ cs, f ∈ c.1) ∧
      ∀ r ∈ rows, r.2.length = cs.length ∧ ∀ (i : Nat) (c : Channel α K), cs[i]? = some c →
        ∀ y, r.2[i]? = some (some y) ↔ ∃ j : Nat, c.1[j]? = some r.1 ∧ c.2.1[j]? = some y := by
  obtain ⟨d, h1, h2⟩ := joinChannels_spec cs hc [] [] ⟨List.nodup_nil, fun f => by simp [Dict.get?]⟩
  rw [List.nil_append] at h2
  have h1 : joinChannels 0 [] (cs.map Channel.term) = .ok d := h1
  have hd : d ≠ [] := by
    rintro rfl
    obtain ⟨c, hcs, hx⟩ := hne
    obtain ⟨x, hx⟩ := List.exists_mem_of_ne_nil _ hx
    have := h2.2 x
    rw [if_pos ⟨c, hcs, hx⟩] at this
    cases this
  have hp := List.perm_insertionSort (fun p q : α × List (Option K) => p.1 ≤ q.1) d
  refine ⟨d.insertionSort fun p q => p.1 ≤ q.1, ?_, ?_, ?_, ?_⟩
  · unfold tableRows
    rw [h1]
    show (if d.isEmpty ∧ (cs.map Channel.term).length ≠ 0 then _ else _) = _
    rw [if_neg]
    rintro ⟨h, _⟩
    exact hd (List.isEmpty_iff.mp h)
  · have s1 := List.pairwise_insertionSort (fun p q : α × List (Option K) => p.1 ≤ q.1) d
    have s2 := sorted_ok d h2.1
    rw [List.pairwise_map]
    have s2 := List.pairwise_map.mp s2
    exact (s1.and s2).imp fun ⟨a, b⟩ => lt_of_le_of_ne a b
  · intro f
    rw [(hp.map Prod.fst).mem_iff]
    show f ∈ Dict.keys d ↔ _
    rw [Dict.mem_keys_iff, h2.2]
    split
    · next h => exact ⟨fun _ => h, fun _ => rfl⟩
    · next h => exact ⟨fun k => (Bool.false_ne_true k).elim, fun k => absurd k h⟩
  · intro r hr
    have hr := hp.mem_iff.mp hr
    have hg := Dict.get?_of_mem h2.1 hr
    rw [h2.2] at hg
    split at hg
    · have hg := (Option.some.inj hg).symm
      refine ⟨by rw [hg, List.length_map], ?_⟩
      intro i c hi y
      rw [hg, List.getElem?_map, hi]
      show some (c.points.get? r.1) = some (some y) ↔ _
      rw [Option.some.injEq]
      have hcg := hc c (List.mem_of_getElem? hi)
      constructor
      · intro h
        obtain ⟨j, hj⟩ := List.mem_iff_getElem?.mp (Dict.mem_of_get? h)
        have hj : (c.1.zip c.2.1)[j]? = some (r.1, y) := hj
        rw [List.getElem?_zip_eq_some] at hj
        exact ⟨j, hj⟩
      · rintro ⟨j, hj⟩
        have : (r.1, y) ∈ c.points := by
          apply List.mem_iff_getElem?.mpr
          exact ⟨j, by
            show (c.1.zip c.2.1)[j]? = some (r.1, y)
            rw [List.getElem?_zip_eq_some]
            exact hj⟩
        exact Dict.get?_of_mem (Channel.points_ok hcg) this
    · cases hg

theorem updateAll_length (f : α) (vs : List (Option K)) (ds : List (Dict α K)) :
    (updateAll f vs ds).length = ds.length := by
  induction vs generalizing ds with
  | nil => rfl
  | cons v vs ih =>
    cases ds with
    | nil => rfl
    | cons d ds => simp [updateAll, ih]

theorem updateAll_get (f : α) (vs : List (Option K)) (ds : List (Dict α K)) (c : Nat) :
    (updateAll f vs ds)[c]? = ds[c]?.map fun d => stepColumn c d (some f, vs) := by
  induction vs generalizing ds c with
  | nil =>
    show ds[c]? = _
    cases ds[c]? <;> rfl
  | cons v vs ih =>
    cases ds with
    | nil => rfl
    | cons d ds =>
      cases c with
      | zero => cases v <;> rfl
      | succ c => exact ih ds c

theorem mapM_toValue (ys : List (Option K)) :
    (ys.map fun y => match y with | some y => (Cell.value y : Cell α K) | none => .empty).mapM Cell.toValue = .ok ys := by
  induction ys with
  | nil => rfl
  | cons y ys ih =>
    rw [List.map_cons, List.mapM_cons, ih]
    cases y <;> rfl

theorem processRows_rows (rows : List (Option α × List (Option K))) (n : Nat) (hr : ∀ r ∈ rows, r.2.length = n) :
    ∀ ds : List (Dict α K), ds.length = n → ∃ b, processRows ds (rows.map fun r =>
      (match r.1 with | some f => Cell.frequency f | none => .empty) ::
        r.2.map fun y => match y with | some y => Cell.value y | none => .empty) = .ok b ∧ b.length = n ∧
      ∀ c, b[c]? = ds[c]?.map fun d => rows.foldl (stepColumn c) d := by
  induction rows with
  | nil => exact fun ds hd => ⟨ds, rfl, hd, fun c => by simp⟩
  | cons r rows ih =>
    intro ds hd
    have hrl := hr r List.mem_cons_self
    have hext : ∀ m, m = n → extend ds m = ds := by
      intro m hm
      simp [extend, hm, hd]
    rcases r with ⟨_ | f, ys⟩
    · obtain ⟨b, h1, h2, h3⟩ := ih (fun r hr' => hr r (List.mem_cons_of_mem _ hr')) ds hd
      refine ⟨b, ?_, h2, fun c => ?_⟩
      · rw [← h1]
        rw [List.map_cons, processRows]
        simp only [processRow]
        rw [hext _ (by simpa using hrl)]
      · rw [h3]
        rfl
    · have hl : (updateAll f ys ds).length = n := by rw [updateAll_length, hd]
      obtain ⟨b, h1, h2, h3⟩ := ih (fun r hr' => hr r (List.mem_cons_of_mem _ hr')) _ hl
      refine ⟨b, ?_, h2, fun c => ?_⟩
      · rw [← h1]
        rw [List.map_cons, processRows]
        simp only [processRow, Cell.toFloat, mapM_toValue]
        rw [hext _ (by simpa using hrl)]
      · rw [h3, updateAll_get, Option.map_map]
        rfl

/-- C51: Writing a bands filter to a CSV file and reading it restores the frequencies, the values and the labels of all
channels. The modes are not stored. -/
theorem C51_csv (filename : String) (cs : List (Channel α K)) (hc : ∀ c ∈ cs, c.Good) (labels : List String)
    (hl : labels.length = cs.length) :
    ∃ file b, csvWrite ⟨cs.map Channel.term, labels⟩ = .ok file ∧ csvRead filename file = .ok b ∧
      b.filter = ⟨cs.map fun c => .bands c.1 c.2.1 .logarithmic .stairsLin, labels⟩ := by
  obtain ⟨rows, h1, h2, h3, h4, h5⟩ := tableRows_spec cs hc
  have hhead : processRow [] ((Cell.text "frequency" : Cell α K) :: labels.map Cell.text) =
      (List.replicate cs.length [], some .valueError) := by
    simp [processRow, extend, Cell.toFloat, hl]
  obtain ⟨ds, p1, p2, p3⟩ := processRows_rows rows cs.length h2 (List.replicate cs.length []) (by simp)
  obtain ⟨b, n1, n2⟩ := new_points cs hc ds p2 .logarithmic .stairsLin labels hl (by
    intro k c hk
    have hlt : k < cs.length := (List.getElem?_eq_some_iff.mp hk).1
    refine ⟨columnDict rows k, ?_, h5 k c hk⟩
    rw [p3, List.getElem?_replicate, if_pos hlt]
    rfl)
  have hw : csvWrite ⟨cs.map Channel.term, labels⟩ = .ok ((Cell.text "frequency" :: labels.map Cell.text) :: rows.map fun r =>
      (match r.1 with | some f => Cell.frequency f | none => .empty) ::
        r.2.map fun y => match y with | some y => Cell.value y | none => .empty) := by
    unfold csvWrite
    rw [h1]
    rfl
  refine ⟨_, b, hw, ?_, n2⟩
  · unfold csvRead
    dsimp only
    rw [hhead]
    show (processRows (List.replicate cs.length []) _ >>= _) = _
    rw [p1]
    have : (((Cell.text "frequency" : Cell α K) :: labels.map Cell.text).tail).map Cell.toText = labels := by
      simp [Cell.toText, Function.comp_def]
    rw [this]
    exact n1

theorem updateLine_get (frequency : Option α) (ys : List (Option K)) :
    ∀ ds : List (Dict α K), ds.length ≤ ys.length → ∃ b, updateLine frequency
      (ys.map fun y => match y with | some y => Token.value y | none => .nan) ds = .ok b ∧ b.length = ys.length ∧
      ∀ c, c < ys.length → b[c]? = some (stepColumn c (ds[c]?.getD []) (frequency, ys)) := by
  induction ys with
  | nil =>
    intro ds hd
    have : ds = [] := List.length_eq_zero_iff.mp (by simpa using hd)
    subst this
    exact ⟨[], rfl, rfl, fun c hc => absurd hc (Nat.not_lt_zero c)⟩
  | cons y ys ih =>
    intro ds hd
    obtain ⟨b, h1, h2, h3⟩ := ih ds.tail (by simp at hd ⊢; omega)
    refine ⟨stepColumn 0 (ds.headD []) (frequency, y :: ys) :: b, ?_, by simp [h2], ?_⟩
    · rcases frequency with _ | f <;> rcases y with _ | y <;>
        (show (updateLine _ _ ds.tail >>= _) = _
         rw [h1]
         rfl)
    · intro c hc
      cases c with
      | zero => cases ds <;> rfl
      | succ c =>
        have := h3 c (by simpa using hc)
        cases ds with
        | nil => exact this
        | cons d ds => exact this

theorem textLines_rows [Zero α] (rows : List (Option α × List (Option K))) (n : Nat) (hr : ∀ r ∈ rows, r.2.length = n)
    (hpos : ∀ r ∈ rows, ∀ f, r.1 = some f → 0 ≤ f) :
    ∀ ds : List (Dict α K), ds.length ≤ n → ∃ b, textLines ds (rows.map fun r =>
      (match r.1 with | some f => Token.frequency f | none => .nan) ::
        r.2.map fun y => match y with | some y => Token.value y | none => .nan) = .ok b ∧
      b.length = (if rows = [] then ds.length else n) ∧
      ∀ c, c < b.length → b[c]? = some (rows.foldl (stepColumn c) (ds[c]?.getD [])) := by
  induction rows with
  | nil =>
    intro ds hd
    refine ⟨ds, rfl, by simp, ?_⟩
    intro c hc
    rw [List.getElem?_eq_getElem hc]
    rfl
  | cons r rows ih =>
    intro ds hd
    have hrl := hr r List.mem_cons_self
    obtain ⟨b1, u1, u2, u3⟩ := updateLine_get r.1 r.2 ds (by omega)
    obtain ⟨b, h1, h2, h3⟩ := ih (fun r hr' => hr r (List.mem_cons_of_mem _ hr'))
      (fun r hr' => hpos r (List.mem_cons_of_mem _ hr')) b1 (by omega)
    have hbl : b.length = n := by
      rw [h2, u2]
      split <;> omega
    refine ⟨b, ?_, by rw [if_neg (by simp), hbl], ?_⟩
    · rw [← h1, List.map_cons]
      rcases r with ⟨_ | f, ys⟩
      · rw [textLines]
        show (updateLine none _ ds >>= _) = _
        rw [u1]
        rfl
      · rw [textLines]
        show (if f < 0 then _ else updateLine (some f) _ ds >>= _) = _
        rw [if_neg (not_lt.mpr (hpos _ List.mem_cons_self f rfl)), u1]
        rfl
    · intro c hc
      rw [h3 c hc, u3 c (by omega), List.foldl_cons]
      rfl

/-- C51: The labels of filters, that have been read from files without labels, are the file name with the numbers of the
channels, which are counted from one. -/
theorem C51_labels (filename : String) (n : Nat) : (fileLabels filename n).length = n ∧
    ∀ i, i < n → (fileLabels filename n)[i]? = some (filename ++ " " ++ toString (i + 1)) := by
  refine ⟨by simp [fileLabels], fun i hi => ?_⟩
  unfold fileLabels
  rw [List.getElem?_map, List.getElem?_range hi]
  rfl

example : fileLabels "bands" 2 = ["bands 1", "bands 2"] := by decide

/-- C51: A CSV file, whose first row contains a frequency and not the labels, has the same frequencies and values; the labels
are made from the name of the file. -/
theorem C51_csv_no_labels (filename : String) (cs : List (Channel α K)) (hc : ∀ c ∈ cs, c.Good) (hne : cs ≠ [])
    (labels : List String) :
    ∃ header file b, csvWrite ⟨cs.map Channel.term, labels⟩ = .ok (header :: file) ∧ csvRead filename file = .ok b ∧
      b.filter = ⟨cs.map fun c => .bands c.1 c.2.1 .logarithmic .stairsLin, fileLabels filename cs.length⟩ := by
  obtain ⟨rows, h1, h2, h3, h4, h5⟩ := tableRows_spec cs hc
  obtain ⟨ds, p1, p2, p3⟩ := processRows_rows rows cs.length h2 (List.replicate cs.length []) (by simp)
  obtain ⟨b, n1, n2⟩ := new_points cs hc ds p2 .logarithmic .stairsLin (fileLabels filename cs.length)
    (by simp [fileLabels]) (by
    intro k c hk
    have hlt : k < cs.length := (List.getElem?_eq_some_iff.mp hk).1
    refine ⟨columnDict rows k, ?_, h5 k c hk⟩
    rw [p3, List.getElem?_replicate, if_pos hlt]
    rfl)
  refine ⟨Cell.text "frequency" :: labels.map Cell.text, rows.map fun r =>
      (match r.1 with | some f => Cell.frequency f | none => .empty) ::
        r.2.map fun y => match y with | some y => Cell.value y | none => .empty, b, ?_, ?_, n2⟩
  · unfold csvWrite
    rw [h1]
    rfl
  rcases rows with _ | ⟨r, rows⟩
  · exact absurd (h3.mp rfl) hne
  have hr := h2 r List.mem_cons_self
  rw [List.map_cons] at p1 ⊢
  set cells := (match r.1 with | some f => Cell.frequency f | none => .empty) ::
    r.2.map (fun y => match y with | some y => (Cell.value y : Cell α K) | none => .empty) with hcells
  have hlen : cells.length - 1 = cs.length := by simp [hcells, hr]
  have hrow : processRow [] cells = processRow (List.replicate cs.length []) cells := by
    have e1 : extend ([] : List (Dict α K)) (cells.length - 1) = List.replicate cs.length [] := by simp [extend, hlen]
    have e2 : extend (List.replicate cs.length ([] : Dict α K)) (cells.length - 1) = List.replicate cs.length [] := by
      simp [extend, hlen]
    unfold processRow
    rw [e1, e2]
  rw [processRows] at p1
  unfold csvRead
  dsimp only
  rw [hrow, hlen]
  rcases hp : processRow (List.replicate cs.length []) cells with ⟨b', e⟩
  rw [hp] at p1
  rcases e with _ | e
  · have p1 : processRows b' _ = .ok ds := p1
    show (processRows b' _ >>= _) = _
    rw [p1]
    exact n1
  · cases p1

example : csvRead "bands.csv" [[.frequency (1 : ℤ), .value (2 : ℤ)], [.frequency 3, .empty]] =
    BandsFilter.new [[((1 : ℤ), (2 : ℤ))]] (.single .logarithmic) (.single .stairsLin) (.sequence ["bands.csv 1"]) := rfl

/-- C51: A row, that contains something else than samples, raises a `ValueError`. -/
theorem C51_csv_text (bands : List (Dict α K)) (f : α) (cells : List (Cell α K)) (text : String) (h : .text text ∈ cells) :
    (processRow bands (.frequency f :: cells)).2 = some .valueError := by
  have hm : cells.mapM Cell.toValue = .error .valueError := by
    induction cells with
    | nil => cases h
    | cons c cells ih =>
      rw [List.mapM_cons]
      rcases List.mem_cons.mp h with rfl | h
      · rfl
      · rw [ih h]
        cases c <;> rfl
  simp only [processRow, Cell.toFloat, hm]

example : csvRead "bands.csv" [[.text "frequency", .text "a"], [.frequency (1 : ℤ), (.text "b" : Cell ℤ ℤ)]] =
    .error .valueError := rfl

/-- C51: Writing a bands filter to a text table and reading it restores the frequencies and the values of all channels,
if there are no negative frequencies. The labels and the modes are not stored. -/
theorem C51_text [Zero α] (filename : String) (cs : List (Channel α K)) (hc : ∀ c ∈ cs, c.Good)
    (hpos : ∀ c ∈ cs, ∀ f ∈ c.1, 0 ≤ f) (labels : List String) :
    ∃ file b, textWrite ⟨cs.map Channel.term, labels⟩ = .ok file ∧ textRead filename file = .ok b ∧
      b.filter = ⟨cs.map fun c => .bands c.1 c.2.1 .logarithmic .stairsLin, fileLabels filename cs.length⟩ := by
  obtain ⟨rows, h1, h2, h3, h4, h5⟩ := tableRows_spec cs hc
  obtain ⟨ds, p1, p2, p3⟩ := textLines_rows rows cs.length h2 (by
    intro r hr f hf
    obtain ⟨c, hcs, hm⟩ := h4 r hr f hf
    exact hpos c hcs f hm) [] (by simp)
  have hdl : ds.length = cs.length := by
    rw [p2]
    split
    · next h =>
      rw [h3.mp h]
      rfl
    · rfl
  obtain ⟨b, n1, n2⟩ := new_points cs hc ds hdl .logarithmic .stairsLin (fileLabels filename cs.length)
    (by simp [fileLabels]) (by
    intro k c hk
    have hlt : k < cs.length := (List.getElem?_eq_some_iff.mp hk).1
    refine ⟨columnDict rows k, ?_, h5 k c hk⟩
    rw [p3 k (by omega)]
    rfl)
  have hw : textWrite ⟨cs.map Channel.term, labels⟩ = .ok ([] :: rows.map fun r =>
      (match r.1 with | some f => Token.frequency f | none => .nan) ::
        r.2.map fun y => match y with | some y => Token.value y | none => .nan) := by
    unfold textWrite
    rw [h1]
    rfl
  refine ⟨_, b, hw, ?_, n2⟩
  · unfold textRead
    rw [textLines, p1]
    rw [← n1, ← hdl]
    rfl

theorem tableColumns_rows {rows : List (Option α × List (Option K))} {n : Nat} (h : rows ≠ [])
    (hr : ∀ r ∈ rows, r.2.length = n) (m : Nat) : tableColumns rows m = n := by
  cases rows with
  | nil => exact absurd rfl h
  | cons r rows => exact hr r List.mem_cons_self

/-- C51: Writing a bands filter to a NPY file and reading it restores the frequencies and the values of all channels, if
there is at least one channel. The labels and the modes are not stored. -/
theorem C51_npy_partial (filename : String) (cs : List (Channel α K)) (hc : ∀ c ∈ cs, c.Good) (hne : cs ≠ [])
    (labels : List String) :
    ∃ file b, npyWrite ⟨cs.map Channel.term, labels⟩ = .ok file ∧ npyRead filename file = .ok b ∧
      b.filter = ⟨cs.map fun c => .bands c.1 c.2.1 .linear .stairsLin, fileLabels filename cs.length⟩ := by
  obtain ⟨rows, h1, h2, h3, h4, h5⟩ := tableRows_spec cs hc
  have hcol := tableColumns_rows (fun h => hne (h3.mp h)) h2 1
  obtain ⟨b, n1, n2⟩ := new_points cs hc ((List.range cs.length).map (columnDict rows)) (by simp) .linear .stairsLin
    (fileLabels filename cs.length) (by simp [fileLabels]) (by
    intro k c hk
    have hlt : k < cs.length := (List.getElem?_eq_some_iff.mp hk).1
    refine ⟨columnDict rows k, ?_, h5 k c hk⟩
    rw [List.getElem?_map, List.getElem?_range hlt]
    rfl)
  have hw : npyWrite ⟨cs.map Channel.term, labels⟩ = .ok ⟨tableColumns rows 1, rows⟩ := by
    unfold npyWrite
    rw [h1]
    rfl
  refine ⟨_, b, hw, ?_, n2⟩
  · unfold npyRead
    dsimp only
    rw [hcol]
    exact n1

/-- C51: Writing a bands filter to a NPZ file and reading it restores the filter with its modes and labels, if there is
at least one channel. The constructor of the terms does not allow logarithmic stairs as extrapolation. -/
theorem C51_npz_partial (cs : List (Channel α K)) (hc : ∀ c ∈ cs, c.Good) (hne : cs ≠ [])
    (he : ∀ c ∈ cs, c.2.2.2 ≠ .stairsLog) (labels : List String) (hl : labels.length = cs.length) :
    ∃ file b, npzWrite ⟨cs.map Channel.term, labels⟩ = .ok file ∧ npzRead file = .ok b ∧
      b.filter = ⟨cs.map Channel.term, labels⟩ := by
  obtain ⟨rows, h1, h2, h3, h4, h5⟩ := tableRows_spec cs hc
  have hcol := tableColumns_rows (fun h => hne (h3.mp h)) h2 1
  have hw : npzWrite ⟨cs.map Channel.term, labels⟩ = .ok ⟨⟨cs.length, rows⟩, (cs.map Channel.term).map termInterpolation,
      (cs.map Channel.term).map termExtrapolation, labels⟩ := by
    unfold npzWrite
    rw [h1]
    show Except.ok _ = _
    rw [hcol]
  refine ⟨_, ⟨⟨bandsTerms ((List.range cs.length).map (columnDict rows)) ((cs.map Channel.term).map termInterpolation)
      ((cs.map Channel.term).map termExtrapolation), labels⟩, (List.range cs.length).map (columnDict rows),
      (cs.map Channel.term).map termInterpolation, (cs.map Channel.term).map termExtrapolation⟩, hw, ?_, ?_⟩
  · unfold npzRead
    exact new_sequences _ _ _ _ (by simp) (by simp) (by simpa using hl)
  · dsimp only
    congr 1
    rw [bandsTerms_points cs hc _ (by simp) _ _ (by simp) (by simp) (by
      intro k c hk
      have hlt : k < cs.length := (List.getElem?_eq_some_iff.mp hk).1
      refine ⟨columnDict rows k, ?_, h5 k c hk⟩
      rw [List.getElem?_map, List.getElem?_range hlt]
      rfl)]
    clear h1 h2 h3 h4 h5 hw hcol hl hne hc rows
    induction cs with
    | nil => rfl
    | cons c cs ih =>
      rw [List.map_cons, List.map_cons, List.map_cons, List.zip_cons_cons, List.zipWith_cons_cons,
        ih fun x hx => he x (List.mem_cons_of_mem _ hx)]
      congr 1
      show mkBands c.1 c.2.1 c.2.2.1 c.2.2.2 = _
      unfold mkBands
      rw [if_neg (he c List.mem_cons_self)]
      rfl

/-- C51: A filter without channels cannot be restored from a NPY or a NPZ file. A channel is read from the NPY file and
reading the NPZ file raises an exception. -/
theorem C51_no_channels_violated (filename : String) :
    (∃ file b, npyWrite (⟨[], []⟩ : Channels ℚ ℚ) = .ok file ∧ npyRead filename file = .ok b ∧
      b.filter.transferFunctions.length = 1) ∧
    ∃ file, npzWrite (⟨[], []⟩ : Channels ℚ ℚ) = .ok file ∧ npzRead file = .error .indexError :=
  ⟨⟨_, _, rfl, rfl, rfl⟩, _, rfl, rfl⟩

/-- C51: The documentation of `TableReader` says, that lines with less columns than other lines define values for the
first channels only, but reading such a file raises an `AttributeError`. -/
theorem C51_short_line_violated (filename : String) :
    textRead filename ([[.frequency 1, .value 2, .value 3], [.frequency 2, .value 5]] : List (List (Token ℚ ℚ))) =
      .error .attributeError := rfl

/-- C51: Channels with negative frequencies can be written to a text table, but not be read from it. -/
theorem C51_negative_frequency_violated (filename : String) :
    ∃ file, textWrite (⟨[.bands [-1, 1] [2, 3] .linear .zero], ["a"]⟩ : Channels ℚ ℚ) = .ok file ∧
      textRead filename file = .error .valueError := by
  refine ⟨[[], [.frequency (-1), .value 2], [.frequency 1, .value 3]], ?_, ?_⟩
  · rfl
  · rfl

/-- C51: Filters with other transfer functions than bands are refused. -/
theorem C51_other_terms (v : K) (tfs : List (Term α K)) : tableRows (.constant v :: tfs) = .error .valueError := rfl

example : (∀ c ∈ ([([1, 2], [3, 4], .linear, .zero), ([2, 5, 7], [1, 2, 3], .zero, .one), ([], [], .zero, .zero)] :
    List (Channel ℚ ℚ)), c.Good) := by
  intro c hc
  simp only [List.mem_cons, List.not_mem_nil, or_false] at hc
  rcases hc with rfl | rfl | rfl <;> refine ⟨?_, rfl⟩ <;> simp <;> norm_num

end Filter
end Verif
