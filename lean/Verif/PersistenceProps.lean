import Verif.Persistence
import Mathlib.Tactic.Common

/-
C46: Loading files, C47: Saving files
-/

namespace Verif
namespace Persistence

/-! ### C46 -/

section reading

variable {P D : Type}

/-- a reader can be created -/
def Available (cls : ReaderClass P D) : Prop := cls.create = .ok ()

instance (cls : ReaderClass P D) : Decidable (Available cls) :=
  match h : cls.create with
  | .ok () => .isTrue h
  | .error e => .isFalse fun k => by rw [Available, h] at k; cases k

/-- the constructors raise no other exceptions than `ImportError` -/
def OnlyImportErrors (classes : List (ReaderClass P D)) : Prop :=
  ∀ cls ∈ classes, ∀ e, cls.create = .error e → e = .importError

/-- the result of a reader, if it can read the file -/
def readable (path : P) (cls : ReaderClass P D) : Option D :=
  match cls.read path with
  | .ok d => some d
  | .error _ => none

/-- The documented order of the readers: at first the instances, that have already been used, then the available
readers, that are associated with the extension, and then the other available readers. -/
def documentedOrder (classes : List (ReaderClass P D)) (instances : List Nat) (extension : String) :
    List (ReaderClass P D) :=
  instances.filterMap (classes[·]?) ++
    ((classes.zipIdx.filter fun p => p.2 ∉ instances ∧ Available p.1 ∧ extension ∈ p.1.extensions).map Prod.fst ++
      (classes.zipIdx.filter fun p => p.2 ∉ instances ∧ Available p.1 ∧ extension ∉ p.1.extensions).map Prod.fst)

theorem tryInstances_eq (classes : List (ReaderClass P D)) (path : P) (l : List Nat) :
    tryInstances classes path l = (l.filterMap (classes[·]?)).findSome? (readable path) := by
  induction l with
  | nil => rfl
  | cons r l ih =>
    unfold tryInstances
    rw [List.filterMap_cons]
    cases hr : classes[r]? with
    | none => exact ih
    | some cls =>
      dsimp only
      rw [List.findSome?_cons]
      cases hc : cls.read path with
      | error e =>
        have : readable path cls = none := by rw [readable, hc]
        rw [this]
        exact ih
      | ok d =>
        have : readable path cls = some d := by rw [readable, hc]
        rw [this]

theorem tryAssociated_eq (extension : String) (path : P) (instances : List Nat) (classes : List (ReaderClass P D))
    (hi : OnlyImportErrors classes) :
    ∀ (k : Nat) (list : List Nat), (∀ j, k ≤ j → (j ∈ list ↔ j ∈ instances)) →
      (tryAssociated extension path k classes list).1 = .ok ((((classes.zipIdx k).filter fun p =>
        p.2 ∉ instances ∧ Available p.1 ∧ extension ∈ p.1.extensions).map Prod.fst).findSome? (readable path)) ∧
      ∀ j, j ∈ (tryAssociated extension path k classes list).2 →
        j ∈ list ∨ k ≤ j ∧ ∃ cls, classes[j - k]? = some cls ∧ extension ∈ cls.extensions := by
  induction classes with
  | nil => exact fun k list _ => ⟨rfl, fun j hj => .inl hj⟩
  | cons cls classes ih =>
    have ih := ih fun c hc => hi c (List.mem_cons_of_mem _ hc)
    intro k list hl
    rw [List.zipIdx_cons, List.filter_cons]
    have hnext : ∀ j, k + 1 ≤ j → (j ∈ list ↔ j ∈ instances) := fun j hj => hl j (by omega)
    have lift : ∀ j (l : List Nat), (j ∈ l ∨ k + 1 ≤ j ∧ ∃ c, classes[j - (k + 1)]? = some c ∧ extension ∈ c.extensions) →
        j ∈ l ∨ k ≤ j ∧ ∃ c, (cls :: classes)[j - k]? = some c ∧ extension ∈ c.extensions := by
      rintro j l (h | ⟨h1, c, h2, h3⟩)
      · exact .inl h
      · refine .inr ⟨by omega, c, ?_, h3⟩
        have : j - k = (j - (k + 1)) + 1 := by omega
        rw [this]
        exact h2
    unfold tryAssociated
    by_cases hc : extension ∈ cls.extensions ∧ k ∉ list
    · rw [if_pos hc]
      have hk : k ∉ instances := fun h => hc.2 ((hl k (le_refl k)).mpr h)
      cases hcr : cls.create with
      | error e =>
        have : e = .importError := hi cls List.mem_cons_self e hcr
        subst this
        obtain ⟨h1, h2⟩ := ih (k + 1) list hnext
        rw [if_neg (by simp [Available, hcr])]
        exact ⟨h1, fun j hj => lift j list (h2 j hj)⟩
      | ok u =>
        rw [if_pos (by simp [Available, hcr, hk, hc.1])]
        have self : ∀ j, j ∈ list ++ [k] → j ∈ list ∨ k ≤ j ∧ ∃ c, (cls :: classes)[j - k]? = some c ∧
            extension ∈ c.extensions := by
          intro j hj
          rcases List.mem_append.mp hj with h | h
          · exact .inl h
          · rw [List.mem_singleton] at h
            subst h
            exact .inr ⟨le_refl j, cls, by simp, hc.1⟩
        rw [List.map_cons, List.findSome?_cons]
        cases hr : cls.read path with
        | error e =>
          have : readable path cls = none := by rw [readable, hr]
          rw [this]
          obtain ⟨h1, h2⟩ := ih (k + 1) (list ++ [k]) (by
            intro j hj
            rw [List.mem_append, List.mem_singleton, ← hnext j hj]
            constructor
            · rintro (h | h)
              · exact h
              · omega
            · exact .inl)
          refine ⟨h1, fun j hj => ?_⟩
          rcases lift j (list ++ [k]) (h2 j hj) with h | h
          · exact self j h
          · exact .inr h
        | ok d =>
          have : readable path cls = some d := by rw [readable, hr]
          rw [this]
          exact ⟨rfl, self⟩
    · rw [if_neg hc, if_neg]
      · obtain ⟨h1, h2⟩ := ih (k + 1) list hnext
        exact ⟨h1, fun j hj => lift j list (h2 j hj)⟩
      · intro h
        simp only [decide_eq_true_eq] at h
        exact hc ⟨h.2.2, fun hm => h.1 ((hl k (le_refl k)).mp hm)⟩

theorem tryAssociated_mono (extension : String) (path : P) (classes : List (ReaderClass P D)) :
    ∀ (k : Nat) (list : List Nat) (j : Nat), j ∈ list → j ∈ (tryAssociated extension path k classes list).2 := by
  induction classes with
  | nil => exact fun k list j h => h
  | cons cls classes ih =>
    intro k list j h
    have happ : j ∈ list ++ [k] := List.mem_append_left _ h
    unfold tryAssociated
    split
    · split
      · exact ih _ _ _ h
      · exact h
      · split
        · exact ih _ _ _ happ
        · exact happ
    · exact ih _ _ _ h

theorem tryOthers_mono (extension : String) (path : P) (classes : List (ReaderClass P D)) :
    ∀ (k : Nat) (list : List Nat) (j : Nat), j ∈ list → j ∈ (tryOthers extension path k classes list).2 := by
  induction classes with
  | nil => exact fun k list j h => h
  | cons cls classes ih =>
    intro k list j h
    unfold tryOthers
    split
    · split
      · exact ih _ _ _ h
      · exact h
      · split
        · exact ih _ _ _ h
        · exact List.mem_append_left _ h
    · exact ih _ _ _ h

theorem tryOthers_eq (extension : String) (path : P) (instances list : List Nat) (classes : List (ReaderClass P D))
    (hi : OnlyImportErrors classes) :
    ∀ k : Nat, (∀ j cls, classes[j]? = some cls → extension ∉ cls.extensions → (j + k ∈ list ↔ j + k ∈ instances)) →
      (tryOthers extension path k classes list).1 = .ok ((((classes.zipIdx k).filter fun p =>
        p.2 ∉ instances ∧ Available p.1 ∧ extension ∉ p.1.extensions).map Prod.fst).findSome? (readable path)) := by
  induction classes with
  | nil => exact fun k _ => rfl
  | cons cls classes ih =>
    have ih := ih fun c hc => hi c (List.mem_cons_of_mem _ hc)
    intro k hl
    rw [List.zipIdx_cons, List.filter_cons]
    have hnext := ih (k + 1) (by
      intro j c hj hc
      have := hl (j + 1) c hj hc
      rwa [show j + 1 + k = j + (k + 1) by omega] at this)
    unfold tryOthers
    by_cases hc : extension ∉ cls.extensions ∧ k ∉ list
    · rw [if_pos hc]
      have hk : k ∉ instances := fun h => hc.2 (by
        have := hl 0 cls rfl hc.1
        rw [Nat.zero_add] at this
        exact this.mpr h)
      cases hcr : cls.create with
      | error e =>
        have : e = .importError := hi cls List.mem_cons_self e hcr
        subst this
        rw [if_neg (by simp [Available, hcr])]
        exact hnext
      | ok u =>
        rw [if_pos (by simp [Available, hcr, hk, hc.1]), List.map_cons, List.findSome?_cons]
        cases hr : cls.read path with
        | error e =>
          have : readable path cls = none := by rw [readable, hr]
          rw [this]
          exact hnext
        | ok d =>
          have : readable path cls = some d := by rw [readable, hr]
          rw [this]
    · rw [if_neg hc, if_neg]
      · exact hnext
      · intro h
        simp only [decide_eq_true_eq] at h
        refine hc ⟨h.2.2, fun hm => h.1 ?_⟩
        have := hl 0 cls rfl h.2.2
        rw [Nat.zero_add] at this
        exact this.mp hm

/-- C46: Loading a file returns the result of the first reader in the documented order, that can read the file. If there
is no such reader, a `ValueError` is raised. -/
theorem C46_order (classes : List (ReaderClass P D)) (hi : OnlyImportErrors classes) (readers : Dict String (List Nat))
    (extension : String) (path : P) :
    (readFile classes readers extension path).1 =
      match (documentedOrder classes ((readers.get? extension).getD []) extension).findSome? (readable path) with
      | some d => .ok d
      | none => .error .valueError := by
  unfold readFile documentedOrder
  dsimp only
  generalize (readers.get? extension).getD [] = list
  rw [List.findSome?_append, List.findSome?_append, tryInstances_eq]
  cases h0 : (list.filterMap (classes[·]?)).findSome? (readable path) with
  | some d => rfl
  | none =>
    rw [Option.none_or]
    dsimp only
    obtain ⟨h1, h2⟩ := tryAssociated_eq extension path list classes hi 0 list fun j _ => Iff.rfl
    cases ha : tryAssociated extension path 0 classes list with
    | mk r l =>
      rw [ha] at h1 h2
      dsimp only at h1 h2
      rw [h1]
      generalize (List.map Prod.fst _).findSome? (readable path) = x
      cases x with
      | some d => rfl
      | none =>
        rw [Option.none_or]
        dsimp only
        have h3 := tryOthers_eq extension path list l classes hi 0 (by
          intro j cls hj hc
          rw [Nat.add_zero]
          constructor
          · intro hm
            rcases h2 j hm with h | ⟨_, c, h4, h5⟩
            · exact h
            · rw [Nat.sub_zero, hj] at h4
              exact absurd (Option.some.inj h4 ▸ h5) hc
          · intro hm
            have := tryAssociated_mono extension path classes 0 list j hm
            rw [ha] at this
            exact this)
        cases ho : tryOthers extension path 0 classes l with
        | mk r' l' =>
          rw [ho] at h3
          dsimp only at h3
          rw [h3]
          generalize (List.map Prod.fst _).findSome? (readable path) = y
          cases y <;> rfl

/-- C46: Loading a file succeeds, if and only if there is an available reader, that can read the file. The instances of
readers in the dictionary have been created, so these readers are available. -/
theorem C46_success (classes : List (ReaderClass P D)) (hi : OnlyImportErrors classes) (readers : Dict String (List Nat))
    (hr : ∀ e l, readers.get? e = some l → ∀ k ∈ l, ∃ cls, classes[k]? = some cls ∧ cls.create = .ok ())
    (extension : String) (path : P) :
    ((∃ d, (readFile classes readers extension path).1 = .ok d) ↔
      ∃ cls ∈ classes, cls.create = .ok () ∧ ∃ d, cls.read path = .ok d) ∧
    ∀ e, (readFile classes readers extension path).1 = .error e → e = .valueError := by
  rw [C46_order classes hi]
  have hlist : ∀ k ∈ (readers.get? extension).getD [], ∃ cls, classes[k]? = some cls ∧ cls.create = .ok () := by
    intro k hk
    cases h : readers.get? extension with
    | none =>
      rw [h] at hk
      cases hk
    | some l =>
      rw [h] at hk
      exact hr extension l h k hk
  generalize (readers.get? extension).getD [] = list at hlist
  have hread : ∀ cls : ReaderClass P D, (readable path cls).isSome ↔ ∃ d, cls.read path = .ok d := by
    intro cls
    unfold readable
    cases cls.read path <;> simp
  have hmem : ∀ cls, cls ∈ documentedOrder classes list extension ↔ cls ∈ classes ∧ cls.create = .ok () := by
    intro cls
    unfold documentedOrder
    simp only [List.mem_append, List.mem_filterMap, List.mem_map, List.mem_filter, decide_eq_true_eq]
    constructor
    · rintro (⟨k, hk, hc⟩ | ⟨p, ⟨hp, _, ha, _⟩, rfl⟩ | ⟨p, ⟨hp, _, ha, _⟩, rfl⟩)
      · obtain ⟨c, h1, h2⟩ := hlist k hk
        rw [hc] at h1
        rw [Option.some.inj h1]
        exact ⟨List.mem_of_getElem? (Option.some.inj h1 ▸ hc), h2⟩
      · exact ⟨List.fst_mem_of_mem_zipIdx hp, ha⟩
      · exact ⟨List.fst_mem_of_mem_zipIdx hp, ha⟩
    · rintro ⟨hc, ha⟩
      obtain ⟨k, hk⟩ := List.mem_iff_getElem?.mp hc
      by_cases hl : k ∈ list
      · exact .inl ⟨k, hl, hk⟩
      · have hz : (cls, k) ∈ classes.zipIdx := List.mem_zipIdx_iff_getElem?.mpr hk
        by_cases he : extension ∈ cls.extensions
        · exact .inr (.inl ⟨(cls, k), ⟨hz, hl, ha, he⟩, rfl⟩)
        · exact .inr (.inr ⟨(cls, k), ⟨hz, hl, ha, he⟩, rfl⟩)
  have hsome : ((documentedOrder classes list extension).findSome? (readable path)).isSome ↔
      ∃ cls ∈ classes, cls.create = .ok () ∧ ∃ d, cls.read path = .ok d := by
    rw [List.findSome?_isSome_iff]
    constructor
    · rintro ⟨cls, h1, h2⟩
      exact ⟨cls, ((hmem cls).mp h1).1, ((hmem cls).mp h1).2, (hread cls).mp h2⟩
    · rintro ⟨cls, h1, h2, h3⟩
      exact ⟨cls, (hmem cls).mpr ⟨h1, h2⟩, (hread cls).mpr h3⟩
  rw [← hsome]
  cases (documentedOrder classes list extension).findSome? (readable path) with
  | none => exact ⟨by simp, fun e h => by cases h; rfl⟩
  | some d => exact ⟨by simp, fun e h => by cases h⟩

theorem storeList_nil (extension : String) (list : List Nat) : storeList [] extension list = [] := rfl

/-- C46: The successful readers are never remembered, because new lists of readers are not stored in the dictionary. -/
theorem C46_remember_violated (classes : List (ReaderClass P D)) (extension : String) (path : P) :
    (readFile classes [] extension path).2 = [] := by
  unfold readFile
  dsimp only
  split
  · rfl
  · split
    · rfl
    · rfl
    · split <;> rfl

/-- C46: Because no readers are remembered, the result of loading a file does not depend on the files, that have been
loaded before. -/
theorem C46_history (classes : List (ReaderClass P D)) (calls : List (String × P)) :
    readFiles classes [] calls = (calls.map fun c => (readFile classes [] c.1 c.2).1, []) := by
  induction calls with
  | nil => rfl
  | cons c calls ih =>
    unfold readFiles
    dsimp only
    rw [C46_remember_violated, ih]
    rfl

/-- C46: If there is a list of instances for an extension in the dictionary, the readers are remembered. Those, that are
associated with the extension, are remembered, even if they fail. -/
theorem C46_stored_partial (classes : List (ReaderClass P D))
    (readers : Dict String (List Nat)) (extension : String) (list : List Nat) (hl : readers.get? extension = some list)
    (path : P) :
    ∃ list', (readFile classes readers extension path).2.get? extension = some list' ∧ ∀ k ∈ list, k ∈ list' := by
  have hst : ∀ l, (storeList readers extension l).get? extension = some l := by
    intro l
    unfold storeList
    rw [hl]
    dsimp only
    rw [Dict.get?_set, if_pos rfl]
  unfold readFile
  dsimp only
  rw [hl, Option.getD_some]
  have hm := tryAssociated_mono extension path classes 0 list
  split
  · exact ⟨list, hl, fun k hk => hk⟩
  · cases ha : tryAssociated extension path 0 classes list with
    | mk r l =>
      rw [ha] at hm
      cases r with
      | error e => exact ⟨l, hst l, hm⟩
      | ok o =>
        cases o with
        | some d => exact ⟨l, hst l, hm⟩
        | none =>
          dsimp only
          have hm' := tryOthers_mono extension path classes 0 l
          cases ho : tryOthers extension path 0 classes l with
          | mk r' l' =>
            rw [ho] at hm'
            rcases r' with e | _ | d
            · exact ⟨l', hst l', fun k hk => hm' k (hm k hk)⟩
            · exact ⟨l', hst l', fun k hk => hm' k (hm k hk)⟩
            · exact ⟨l', hst l', fun k hk => hm' k (hm k hk)⟩

/-- readers for a digit and a letter; the reader for ".xyz" files cannot be created -/
def exampleReaders : List (ReaderClass String Nat) :=
  [⟨[".xyz"], .error .importError, fun _ => .ok 0⟩,
   ⟨[".num", ".txt"], .ok (), fun s => if s = "7" then .ok 7 else .error .valueError⟩,
   ⟨[".abc"], .ok (), fun s => if s = "a" then .ok 1 else .error .typeError⟩]

example : OnlyImportErrors exampleReaders := by
  intro cls hc e he
  simp only [exampleReaders, List.mem_cons, List.not_mem_nil, or_false] at hc
  rcases hc with rfl | rfl | rfl <;> simp_all

example : (readFile exampleReaders [] ".txt" "a").1 = .ok 1 := by decide +kernel
example : (readFile exampleReaders [(".txt", [])] ".txt" "a").2 = [(".txt", [1, 2])] := by decide +kernel

end reading

/-! ### C47 -/

section writing

variable {F D P C : Type} [DecidableEq F]

/-- the constructors raise no other exceptions than `ImportError` -/
def OnlyMissingLibraries (classes : List (WriterClass F D P C)) : Prop :=
  ∀ cls ∈ classes, ∀ f e, cls.create f = .error e → e = .importError

/-- the writers raise no other exceptions than `ValueError` -/
def OnlyValueErrors (classes : List (WriterClass F D P C)) : Prop :=
  ∀ cls ∈ classes, ∀ f d p e, cls.write f d p = .error e → e = .valueError

/-- the writer for a format is the one with the first class, that supports the format and whose library is available -/
def WriterFor (classes : List (WriterClass F D P C)) (f : F) (w : Writer F) : Prop :=
  w.2 = f ∧ (∃ cls, classes[w.1]? = some cls ∧ f ∈ cls.formats ∧ cls.create f = .ok ()) ∧
    ∀ k cls, k < w.1 → classes[k]? = some cls → f ∈ cls.formats → cls.create f ≠ .ok ()

theorem createWriter_spec (f : F) (classes : List (WriterClass F D P C)) (hc : OnlyMissingLibraries classes) :
    ∀ k, (∃ w, createWriter f k classes = .ok (w.1 + k, w.2) ∧ WriterFor classes f w) ∨
      createWriter f k classes = .error .valueError ∧ ∀ cls ∈ classes, f ∈ cls.formats → cls.create f ≠ .ok () := by
  induction classes with
  | nil => exact fun k => .inr ⟨rfl, fun _ h => by cases h⟩
  | cons cls classes ih =>
    intro k
    have ih := ih (fun c h => hc c (List.mem_cons_of_mem _ h)) (k + 1)
    have next : ¬(f ∈ cls.formats ∧ cls.create f = .ok ()) → createWriter f k (cls :: classes) = createWriter f (k + 1) classes →
        (∃ w, createWriter f k (cls :: classes) = .ok (w.1 + k, w.2) ∧ WriterFor (cls :: classes) f w) ∨
        createWriter f k (cls :: classes) = .error .valueError ∧
          ∀ c ∈ cls :: classes, f ∈ c.formats → c.create f ≠ .ok () := by
      intro hno he
      rw [he]
      rcases ih with ⟨w, h1, h2, h3, h4⟩ | ⟨h1, h2⟩
      · refine .inl ⟨(w.1 + 1, w.2), ?_, h2, h3, ?_⟩
        · rw [h1]
          show Except.ok (w.1 + (k + 1), w.2) = Except.ok (w.1 + 1 + k, w.2)
          rw [show w.1 + (k + 1) = w.1 + 1 + k by omega]
        · intro j c hj hjc hf
          cases j with
          | zero =>
            have : cls = c := Option.some.inj hjc
            subst this
            exact fun h => hno ⟨hf, h⟩
          | succ j => exact h4 j c (by simpa using hj) hjc hf
      · refine .inr ⟨h1, ?_⟩
        intro c hcm hf
        rcases List.mem_cons.mp hcm with rfl | hcm
        · exact fun h => hno ⟨hf, h⟩
        · exact h2 c hcm hf
    by_cases hf : f ∈ cls.formats
    · cases hcr : cls.create f with
      | ok u =>
        refine .inl ⟨(0, f), ?_, rfl, ⟨cls, rfl, hf, hcr⟩, fun j c hj => absurd hj (Nat.not_lt_zero j)⟩
        rw [createWriter, if_pos hf, hcr, Nat.zero_add]
      | error e =>
        have : e = .importError := hc cls List.mem_cons_self f e hcr
        subst this
        apply next
        · rw [hcr]
          simp
        · rw [createWriter, if_pos hf, hcr]
    · apply next
      · exact fun h => hf h.1
      · rw [createWriter, if_neg hf]

/-- the writers are unique -/
theorem writerFor_unique {classes : List (WriterClass F D P C)} {f : F} {w v : Writer F} (hw : WriterFor classes f w)
    (hv : WriterFor classes f v) : w = v := by
  obtain ⟨a1, ⟨c, a2, a3, a4⟩, a5⟩ := hw
  obtain ⟨b1, ⟨d, b2, b3, b4⟩, b5⟩ := hv
  have : w.1 = v.1 := by
    rcases lt_trichotomy w.1 v.1 with h | h | h
    · exact absurd a4 (b5 w.1 c h a2 a3)
    · exact h
    · exact absurd b4 (a5 v.1 d h b2 b3)
  exact Prod.ext this (a1.trans b1.symm)

theorem createWriter_iff (f : F) (classes : List (WriterClass F D P C)) (hc : OnlyMissingLibraries classes)
    (w : Writer F) : createWriter f 0 classes = .ok w ↔ WriterFor classes f w := by
  rcases createWriter_spec f classes hc 0 with ⟨v, h1, h2⟩ | ⟨h1, h2⟩
  · rw [h1]
    constructor
    · intro h
      have : v = w := by
        have := Except.ok.inj h
        simpa using this
      exact this ▸ h2
    · intro h
      rw [writerFor_unique h h2]
      rfl
  · rw [h1]
    constructor
    · intro h
      cases h
    · rintro ⟨_, ⟨cls, h3, h4, h5⟩, _⟩
      exact absurd h5 (h2 cls (List.mem_of_getElem? h3) h4)

theorem createWriter_error (f : F) (classes : List (WriterClass F D P C)) (hc : OnlyMissingLibraries classes)
    (e : PyExc) (h : createWriter f 0 classes = .error e) : e = .valueError := by
  rcases createWriter_spec f classes hc 0 with ⟨v, h1, h2⟩ | ⟨h1, h2⟩
  · rw [h1] at h
    cases h
  · rw [h1] at h
    cases h
    rfl

/-- the invariant of the state -/
structure SaveState.Valid (classes : List (WriterClass F D P C)) (mapping : Dict String (List F)) (s : SaveState F) :
    Prop where
  writers : ∀ f w, s.writers.get? f = some w → WriterFor classes f w
  ok : s.writers.Ok
  created : s.created.map Prod.snd = s.writers.keys
  extensions : ∀ e ws, s.extensions.get? e = some ws → ∀ w ∈ ws,
    ∃ fs, mapping.get? e = some fs ∧ w.2 ∈ fs ∧ WriterFor classes w.2 w

/-- nothing has been saved -/
def SaveState.initial : SaveState F := ⟨[], [], []⟩

theorem valid_initial (classes : List (WriterClass F D P C)) (mapping : Dict String (List F)) :
    (SaveState.initial : SaveState F).Valid classes mapping :=
  ⟨fun f w h => (by cases h), List.nodup_nil, rfl, fun e ws h => (by cases h)⟩

theorem getWriter_spec {classes : List (WriterClass F D P C)} {mapping : Dict String (List F)}
    (hc : OnlyMissingLibraries classes) {s : SaveState F} (hs : s.Valid classes mapping) (f : F) :
    (getWriter classes s f).1 = createWriter f 0 classes ∧ (getWriter classes s f).2.Valid classes mapping ∧
      (getWriter classes s f).2.extensions = s.extensions := by
  unfold getWriter
  cases hw : s.writers.get? f with
  | some w => exact ⟨((createWriter_iff f classes hc w).mpr (hs.writers f w hw)).symm, hs, rfl⟩
  | none =>
    cases hcr : createWriter f 0 classes with
    | error e => exact ⟨rfl, hs, rfl⟩
    | ok w =>
      have hwf := (createWriter_iff f classes hc w).mp hcr
      refine ⟨rfl, ⟨?_, Dict.ok_set hs.ok _ _, ?_, hs.extensions⟩, rfl⟩
      · intro g v hv
        dsimp only at hv
        rw [Dict.get?_set] at hv
        split at hv
        · next hg =>
          subst hg
          exact Option.some.inj hv ▸ hwf
        · exact hs.writers g v hv
      · dsimp only
        rw [List.map_append, hs.created, Dict.keys_set, if_neg ((Dict.get?_eq_none _ _).mp hw)]
        rw [← hwf.1]
        rfl

theorem call_error {classes : List (WriterClass F D P C)} (hv : OnlyValueErrors classes) {f : F} {w : Writer F}
    (hw : WriterFor classes f w) {d : D} {p : P} {e : PyExc} (h : Writer.call classes w d p = .error e) :
    e = .valueError := by
  obtain ⟨_, ⟨cls, h1, _⟩, _⟩ := hw
  rw [Writer.call, h1] at h
  exact hv cls (List.mem_of_getElem? h1) _ _ _ _ h

theorem tryCached_spec {classes : List (WriterClass F D P C)} {ws : List (Writer F)} (d : D) (p : P) :
    ∀ before : List (Writer F), (∀ c r, tryCached classes d p before ws = some (.ok (c, r)) →
      (∃ w ∈ ws, Writer.call classes w d p = .ok c) ∧ ∀ w ∈ r, w ∈ before ∨ w ∈ ws) ∧
      (∀ e, tryCached classes d p before ws = some (.error e) →
        e ≠ .valueError ∧ ∃ w ∈ ws, Writer.call classes w d p = .error e) ∧
      (tryCached classes d p before ws = none → ∀ w ∈ ws, Writer.call classes w d p = .error .valueError) := by
  induction ws with
  | nil =>
    intro before
    exact ⟨fun c r h => (by cases h), fun e h => (by cases h), fun _ w h => (by cases h)⟩
  | cons w ws ih =>
    intro before
    cases hw : Writer.call classes w d p with
    | ok c =>
      have hs : tryCached classes d p before (w :: ws) = some (.ok (c, w :: before ++ ws)) := by rw [tryCached, hw]
      rw [hs]
      refine ⟨?_, fun e h => (by simp at h), fun h => (by simp at h)⟩
      intro c' r h
      have h := Except.ok.inj (Option.some.inj h)
      have h1 : c = c' := congrArg Prod.fst h
      have h2 : w :: before ++ ws = r := congrArg Prod.snd h
      subst h1 h2
      refine ⟨⟨w, List.mem_cons_self, hw⟩, fun v hv => ?_⟩
      rcases List.mem_cons.mp hv with rfl | hv
      · exact .inr List.mem_cons_self
      · rcases List.mem_append.mp hv with hv | hv
        · exact .inl hv
        · exact .inr (List.mem_cons_of_mem _ hv)
    | error e =>
      by_cases he : e = .valueError
      · subst he
        have hs : tryCached classes d p before (w :: ws) = tryCached classes d p (before ++ [w]) ws := by
          rw [tryCached, hw]
        rw [hs]
        obtain ⟨h1, h2, h3⟩ := ih (before ++ [w])
        refine ⟨?_, ?_, ?_⟩
        · intro c r h
          obtain ⟨⟨v, hv, k1⟩, k2⟩ := h1 c r h
          refine ⟨⟨v, List.mem_cons_of_mem _ hv, k1⟩, fun u hu => ?_⟩
          rcases k2 u hu with hu | hu
          · rcases List.mem_append.mp hu with hu | hu
            · exact .inl hu
            · rw [List.mem_singleton] at hu
              exact .inr (hu ▸ List.mem_cons_self)
          · exact .inr (List.mem_cons_of_mem _ hu)
        · intro e h
          obtain ⟨k1, v, hv, k2⟩ := h2 e h
          exact ⟨k1, v, List.mem_cons_of_mem _ hv, k2⟩
        · intro h v hv
          rcases List.mem_cons.mp hv with rfl | hv
          · exact hw
          · exact h3 h v hv
      · have hs : tryCached classes d p before (w :: ws) = some (.error e) := by
          rw [tryCached, hw]
          cases e <;> first | rfl | exact absurd rfl he
        rw [hs]
        refine ⟨fun c r h => (by simp at h), ?_, fun h => (by simp at h)⟩
        intro e' h
        have : e = e' := Except.error.inj (Option.some.inj h)
        subst this
        exact ⟨he, w, List.mem_cons_self, hw⟩

theorem tryFormats_spec {classes : List (WriterClass F D P C)} {mapping : Dict String (List F)}
    (hc : OnlyMissingLibraries classes) (hv : OnlyValueErrors classes) (e : String) (d : D) (p : P) (all : List F)
    (hall : mapping.get? e = some all) (fs : List F) (hsub : ∀ f ∈ fs, f ∈ all) :
    ∀ s : SaveState F, s.Valid classes mapping →
      (tryFormats classes e d p fs s).2.Valid classes mapping ∧
      (tryFormats classes e d p fs s).1 =
        match fs.findSome? (fun f => match createWriter f 0 classes >>= fun w => Writer.call classes w d p with
          | .ok c => some c
          | .error _ => none) with
        | some c => .ok c
        | none => .error .importError := by
  induction fs with
  | nil => exact fun s hs => ⟨hs, rfl⟩
  | cons f fs ih =>
    intro s hs
    have ih := ih fun g hg => hsub g (List.mem_cons_of_mem _ hg)
    obtain ⟨g1, g2, g3⟩ := getWriter_spec hc hs f
    have hstep : ∀ x : PyExc, x = .valueError →
        ((getWriter classes s f).1 >>= fun w => Writer.call classes w d p >>= fun c => .ok (c, w) : Py (C × Writer F)) =
          .error x → tryFormats classes e d p (f :: fs) s = tryFormats classes e d p fs (getWriter classes s f).2 := by
      intro x hx h
      subst hx
      rw [tryFormats]
      dsimp only
      rw [h]
    rw [g1] at hstep
    cases hcr : createWriter f 0 classes with
    | error x =>
      have hx := createWriter_error f classes hc x hcr
      rw [hstep x hx (by rw [hcr]; rfl), List.findSome?_cons, hcr]
      exact ih _ g2
    | ok w =>
      have hwf := (createWriter_iff f classes hc w).mp hcr
      cases hw : Writer.call classes w d p with
      | error x =>
        have hx := call_error hv hwf hw
        have hb : ((.ok w : Py (Writer F)) >>= fun w => Writer.call classes w d p) = .error x := hw
        rw [hstep x hx (by rw [hcr]; show (Writer.call classes w d p >>= _) = _; rw [hw]; rfl), List.findSome?_cons, hcr, hb]
        exact ih _ g2
      | ok c =>
        have hb : ((.ok w : Py (Writer F)) >>= fun w => Writer.call classes w d p) = .ok c := hw
        have hs' : tryFormats classes e d p (f :: fs) s = (.ok c, { (getWriter classes s f).2 with
            extensions := (getWriter classes s f).2.extensions.set e
              (((getWriter classes s f).2.extensions.get? e).getD [] ++ [w]) }) := by
          have : ((getWriter classes s f).1 >>= fun w => Writer.call classes w d p >>= fun c => .ok (c, w) :
              Py (C × Writer F)) = .ok (c, w) := by
            rw [g1, hcr]
            show (Writer.call classes w d p >>= _) = _
            rw [hw]
            rfl
          rw [tryFormats]
          dsimp only
          rw [this]
        rw [hs', List.findSome?_cons, hcr, hb]
        refine ⟨⟨g2.writers, g2.ok, g2.created, ?_⟩, rfl⟩
        intro e' ws hws v hvw
        dsimp only at hws
        rw [Dict.get?_set] at hws
        split at hws
        · next he =>
          subst he
          rw [← Option.some.inj hws] at hvw
          rcases List.mem_append.mp hvw with hvw | hvw
          · cases hx : (getWriter classes s f).2.extensions.get? e' with
            | none =>
              rw [hx] at hvw
              cases hvw
            | some l =>
              rw [hx] at hvw
              exact g2.extensions e' l hx v hvw
          · rw [List.mem_singleton] at hvw
            subst hvw
            rw [hwf.1]
            exact ⟨all, hall, hsub f List.mem_cons_self, hwf⟩
        · exact g2.extensions e' ws hws v hvw

theorem autoWrite_valid {classes : List (WriterClass F D P C)} {mapping : Dict String (List F)}
    (hc : OnlyMissingLibraries classes) (hv : OnlyValueErrors classes) {s : SaveState F} (hs : s.Valid classes mapping)
    (e : String) (d : D) (p : P) : (autoWrite classes mapping s e d p).2.Valid classes mapping := by
  unfold autoWrite
  obtain ⟨t1, t2, t3⟩ := tryCached_spec (classes := classes) (ws := (s.extensions.get? e).getD []) d p []
  split
  · next c ws h =>
    refine ⟨hs.writers, hs.ok, hs.created, ?_⟩
    intro e' ws' hws v hvw
    dsimp only at hws
    rw [Dict.get?_set] at hws
    split at hws
    · next he =>
      subst he
      have := (t1 c ws h).2 v (Option.some.inj hws ▸ hvw)
      rcases this with h' | h'
      · cases h'
      · cases hx : s.extensions.get? e' with
        | none =>
          rw [hx] at h'
          cases h'
        | some l =>
          rw [hx] at h'
          exact hs.extensions e' l hx v h'
    · exact hs.extensions e' ws' hws v hvw
  · exact hs
  · split
    · next fs h => exact (tryFormats_spec hc hv e d p fs h fs (fun f h => h) s hs).1
    · exact hs

theorem save_valid {classes : List (WriterClass F D P C)} {mapping : Dict String (List F)}
    (hc : OnlyMissingLibraries classes) (hv : OnlyValueErrors classes) {s : SaveState F} (hs : s.Valid classes mapping)
    (f : Option F) (e : String) (d : D) (p : P) : (save classes mapping s f e d p).2.Valid classes mapping := by
  cases f with
  | none => exact autoWrite_valid hc hv hs e d p
  | some f => exact (getWriter_spec hc hs f).2.1

theorem saveAll_valid {classes : List (WriterClass F D P C)} {mapping : Dict String (List F)}
    (hc : OnlyMissingLibraries classes) (hv : OnlyValueErrors classes) (calls : List (SaveCall F D P)) :
    ∀ s : SaveState F, s.Valid classes mapping → (saveAll classes mapping s calls).Valid classes mapping := by
  induction calls with
  | nil => exact fun s hs => hs
  | cons c calls ih => exact fun s hs => ih _ (save_valid hc hv hs _ _ _ _)

/-- C47: No matter what has been saved before, saving with the format `AUTO` succeeds, if and only if the writer for a
format, that is associated with the extension of the file, can write the data set. The content of the file comes from
such a writer. Otherwise, an `ImportError` is raised, if the extension is known, and a `ValueError`, if it is not. -/
theorem C47_auto_partial (classes : List (WriterClass F D P C)) (hc : OnlyMissingLibraries classes)
    (hv : OnlyValueErrors classes) (mapping : Dict String (List F)) (history : List (SaveCall F D P)) (e : String) (d : D)
    (p : P) :
    let s := saveAll classes mapping .initial history
    ((∃ c, (save classes mapping s none e d p).1 = .ok c) ↔ ∃ fs, mapping.get? e = some fs ∧ ∃ f ∈ fs, ∃ w,
      WriterFor classes f w ∧ ∃ c, Writer.call classes w d p = .ok c) ∧
    (∀ c, (save classes mapping s none e d p).1 = .ok c → ∃ fs, mapping.get? e = some fs ∧ ∃ f ∈ fs, ∃ w,
      WriterFor classes f w ∧ Writer.call classes w d p = .ok c) ∧
    ∀ x, (save classes mapping s none e d p).1 = .error x →
      x = if (mapping.get? e).isSome then .importError else .valueError := by
  intro s
  have hs : s.Valid classes mapping := saveAll_valid hc hv history _ (valid_initial classes mapping)
  generalize s = s at hs
  show ((∃ c, (autoWrite classes mapping s e d p).1 = .ok c) ↔ _) ∧ (∀ c, (autoWrite classes mapping s e d p).1 = .ok c → _) ∧
    ∀ x, (autoWrite classes mapping s e d p).1 = .error x → _
  have hmem : ∀ w ∈ (s.extensions.get? e).getD [], ∃ fs, mapping.get? e = some fs ∧ w.2 ∈ fs ∧ WriterFor classes w.2 w := by
    intro w hw
    cases hx : s.extensions.get? e with
    | none =>
      rw [hx] at hw
      cases hw
    | some l =>
      rw [hx] at hw
      exact hs.extensions e l hx w hw
  obtain ⟨t1, t2, t3⟩ := tryCached_spec (classes := classes) (ws := (s.extensions.get? e).getD []) d p []
  unfold autoWrite
  cases ht : tryCached classes d p [] ((s.extensions.get? e).getD []) with
  | some r =>
    cases r with
    | ok r =>
      obtain ⟨w, hw, hcall⟩ := (t1 r.1 r.2 ht).1
      obtain ⟨fs, h1, h2, h3⟩ := hmem w hw
      refine ⟨⟨fun _ => ⟨fs, h1, w.2, h2, w, h3, r.1, hcall⟩, fun _ => ⟨r.1, rfl⟩⟩, ?_, fun x hx => by cases hx⟩
      intro c hcr
      have : r.1 = c := Except.ok.inj hcr
      exact ⟨fs, h1, w.2, h2, w, h3, this ▸ hcall⟩
    | error x =>
      obtain ⟨k1, w, hw, k2⟩ := t2 x ht
      obtain ⟨fs, h1, h2, h3⟩ := hmem w hw
      exact absurd (call_error hv h3 k2) k1
  | none =>
    dsimp only
    cases hm : mapping.get? e with
    | none =>
      refine ⟨⟨?_, ?_⟩, ?_, ?_⟩
      · rintro ⟨c, h⟩
        cases h
      · rintro ⟨fs, h, _⟩
        cases h
      · intro c h
        cases h
      · intro x h
        cases h
        rfl
    | some fs =>
      dsimp only
      rw [(tryFormats_spec hc hv e d p fs hm fs (fun f h => h) s hs).2]
      cases hf : fs.findSome? (fun f => match createWriter f 0 classes >>= fun w => Writer.call classes w d p with
          | .ok c => some c
          | .error _ => none) with
      | some c =>
        obtain ⟨f, hfm, hfc⟩ := List.exists_of_findSome?_eq_some hf
        have hk : ∃ w, WriterFor classes f w ∧ Writer.call classes w d p = .ok c := by
          cases hcr : createWriter f 0 classes with
          | error x =>
            rw [hcr] at hfc
            cases hfc
          | ok w =>
            rw [hcr] at hfc
            refine ⟨w, (createWriter_iff f classes hc w).mp hcr, ?_⟩
            have hfc : (match Writer.call classes w d p with | .ok c => some c | .error _ => none) = some c := hfc
            cases hw : Writer.call classes w d p with
            | error x =>
              rw [hw] at hfc
              cases hfc
            | ok c' =>
              rw [hw] at hfc
              rw [Option.some.inj hfc]
        obtain ⟨w, k1, k2⟩ := hk
        refine ⟨⟨fun _ => ⟨fs, rfl, f, hfm, w, k1, c, k2⟩, fun _ => ⟨c, rfl⟩⟩, ?_, fun x h => by cases h⟩
        intro c' h
        have : c = c' := Except.ok.inj h
        exact ⟨fs, rfl, f, hfm, w, k1, this ▸ k2⟩
      | none =>
        refine ⟨⟨?_, ?_⟩, ?_, ?_⟩
        · rintro ⟨c, h⟩
          cases h
        · rintro ⟨fs', h, f, hfm, w, k1, c, k2⟩
          have : fs = fs' := Option.some.inj h
          subst this
          have := (List.findSome?_eq_none_iff.mp hf) f hfm
          rw [(createWriter_iff f classes hc w).mpr k1] at this
          have this : (match Writer.call classes w d p with | .ok c => some c | .error _ => none) = none := this
          rw [k2] at this
          cases this
        · intro c h
          cases h
        · intro x h
          cases h
          rfl

/-- C47: Saving with another format than `AUTO` has the same outcome, no matter what has been saved before. It succeeds,
if and only if there is a writer for the format and this writer can write the data set. -/
theorem C47_format (classes : List (WriterClass F D P C)) (hc : OnlyMissingLibraries classes)
    (hv : OnlyValueErrors classes) (mapping : Dict String (List F)) (history : List (SaveCall F D P)) (f : F) (e : String)
    (d : D) (p : P) :
    let outcome := (save classes mapping (saveAll classes mapping .initial history) (some f) e d p).1
    (∀ c, outcome = .ok c ↔ ∃ w, WriterFor classes f w ∧ Writer.call classes w d p = .ok c) ∧
      ∀ x, outcome = .error x → x = .valueError := by
  intro outcome
  have hs := saveAll_valid (mapping := mapping) hc hv history _ (valid_initial classes mapping)
  have ho : outcome = createWriter f 0 classes >>= fun w => Writer.call classes w d p := by
    show ((getWriter classes _ f).1 >>= _) = _
    rw [(getWriter_spec hc hs f).1]
  rw [ho]
  cases hcr : createWriter f 0 classes with
  | error x =>
    refine ⟨fun c => ⟨fun h => (by cases h), ?_⟩, ?_⟩
    · rintro ⟨w, h1, _⟩
      rw [(createWriter_iff f classes hc w).mpr h1] at hcr
      cases hcr
    · intro y h
      cases h
      exact createWriter_error f classes hc x hcr
  | ok w =>
    have hw := (createWriter_iff f classes hc w).mp hcr
    refine ⟨fun c => ⟨fun h => ⟨w, hw, h⟩, ?_⟩, fun x h => call_error hv hw h⟩
    rintro ⟨v, h1, h2⟩
    rw [writerFor_unique h1 hw] at h2
    exact h2

/-- C47: The first data set, that is saved with the format `AUTO` in a new session, is written in the first of the
associated formats, with which this is possible. -/
theorem C47_first (classes : List (WriterClass F D P C)) (hc : OnlyMissingLibraries classes)
    (hv : OnlyValueErrors classes) (mapping : Dict String (List F)) (e : String) (d : D) (p : P) (fs gs : List F) (f : F)
    (hm : mapping.get? e = some (fs ++ f :: gs)) (w : Writer F) (hw : WriterFor classes f w) (c : C)
    (hcall : Writer.call classes w d p = .ok c)
    (hno : ∀ g ∈ fs, ∀ v, WriterFor classes g v → ∀ c, Writer.call classes v d p ≠ .ok c) :
    (save classes mapping .initial none e d p).1 = .ok c := by
  show (match mapping.get? e with | some formats => _ | none => _ : Py C × SaveState F).1 = _
  rw [hm]
  dsimp only
  rw [(tryFormats_spec hc hv e d p _ hm _ (fun f h => h) _ (valid_initial classes mapping)).2, List.findSome?_append]
  have h0 : fs.findSome? (fun f => match createWriter f 0 classes >>= fun w => Writer.call classes w d p with
      | .ok c => some c
      | .error _ => none) = none := by
    rw [List.findSome?_eq_none_iff]
    intro g hg
    cases hcr : createWriter g 0 classes with
    | error x => rfl
    | ok v =>
      have := hno g hg v ((createWriter_iff g classes hc v).mp hcr)
      show (match Writer.call classes v d p with | .ok c => some c | .error _ => none) = none
      cases hx : Writer.call classes v d p with
      | error x => rfl
      | ok c => exact absurd hx (this c)
  rw [h0, Option.none_or, List.findSome?_cons, (createWriter_iff f classes hc w).mpr hw]
  show (match (match (match Writer.call classes w d p with | .ok c => some c | .error _ => none) with
    | some c => some c | none => _) with | some c => .ok c | none => .error .importError : Py C) = .ok c
  rw [hcall]

/-- C47: A writer is created at most once for each format. -/
theorem C47_created (classes : List (WriterClass F D P C)) (hc : OnlyMissingLibraries classes)
    (hv : OnlyValueErrors classes) (mapping : Dict String (List F)) (history : List (SaveCall F D P)) :
    ((saveAll classes mapping .initial history).created.map Prod.snd).Nodup := by
  have hs := saveAll_valid (mapping := mapping) hc hv history _ (valid_initial classes mapping)
  rw [hs.created]
  exact hs.ok

/-- two formats; the first one can be used for numbers greater than zero -/
def exampleWriters : List (WriterClass Bool Nat Unit String) :=
  [⟨[true], fun _ => .ok (), fun _ n _ => if n = 0 then .error .valueError else .ok "first"⟩,
   ⟨[false], fun _ => .ok (), fun _ _ _ => .ok "second"⟩]

example : OnlyMissingLibraries exampleWriters ∧ OnlyValueErrors exampleWriters := by
  constructor
  · intro cls hc f e he
    simp only [exampleWriters, List.mem_cons, List.not_mem_nil, or_false] at hc
    rcases hc with rfl | rfl <;> simp_all
  · intro cls hc f d p e he
    simp only [exampleWriters, List.mem_cons, List.not_mem_nil, or_false] at hc
    rcases hc with rfl | rfl
    · by_cases h : d = 0
      · simp_all
      · simp [h] at he
    · simp at he

/-- C47: The writers, that are remembered, can change the format of the file. The same data set is saved in the first
format in a new session and in the second format, after another data set had to be saved in the second format. -/
theorem C47_content_violated :
    (save exampleWriters [(".x", [true, false])] .initial none ".x" 1 ()).1 = .ok "first" ∧
    (save exampleWriters [(".x", [true, false])] (saveAll exampleWriters [(".x", [true, false])] .initial
      [⟨none, ".x", 0, ()⟩]) none ".x" 1 ()).1 = .ok "second" := by
  decide +kernel

/-- C47: If a remembered writer raises another exception than `ValueError`, the other formats are not tried. So a data
set, that can be saved in a new session, cannot be saved any more. -/
theorem C47_other_exceptions_violated :
    ∃ classes : List (WriterClass Bool Nat Unit String), OnlyMissingLibraries classes ∧
      (save classes [(".x", [true, false])] .initial none ".x" 1 ()).1 = .ok "first" ∧
      (save classes [(".x", [true, false])] (saveAll classes [(".x", [true, false])] .initial
        [⟨none, ".x", 0, ()⟩]) none ".x" 1 ()).1 = .error .structError := by
  refine ⟨[⟨[true], fun _ => .ok (), fun _ n _ => if n = 0 then .error .valueError else .ok "first"⟩,
    ⟨[false], fun _ => .ok (), fun _ n _ => if n = 0 then .ok "second" else .error .structError⟩], ?_, ?_⟩
  · intro cls hc f e he
    simp only [List.mem_cons, List.not_mem_nil, or_false] at hc
    rcases hc with rfl | rfl <;> simp_all
  · decide +kernel

/-- C47: The documentation of `save` says, that a `ValueError` is raised, if the file cannot be written because of a
missing library. With the format `AUTO`, it is an `ImportError`. -/
theorem C47_missing_library_violated (d : D) (p : P) (f : F) (write : F → D → P → Py C) :
    (save [⟨[f], fun _ => .error .importError, write⟩] [(".x", [f])] .initial none ".x" d p).1 = .error .importError := by
  simp [save, autoWrite, tryCached, tryFormats, getWriter, createWriter, SaveState.initial, Dict.get?, Bind.bind, Except.bind]

end writing

end Persistence
end Verif
