import Verif.JackConnections
import Mathlib.Tactic.Common

/-
C95: The connections of the JACK client
-/

namespace Verif
namespace Jack
namespace World

/-! ### the specification -/

/-- the ports of a connection -/
def Resolves (w : World) (c : PortSpec × PortSpec) (e : Port × Port) : Prop :=
  findPort w.outports w.outputs c.1 = .ok e.1 ∧ findPort w.inports w.inputs c.2 = .ok e.2

/-- one of the ports belongs to this client -/
def Own (w : World) (e : Port × Port) : Prop := e.1 ∈ w.outports ∨ e.2 ∈ w.inports

/-- the same ports and the same state of the client -/
def SamePorts (v w : World) : Prop :=
  v.inputs = w.inputs ∧ v.outputs = w.outputs ∧ v.inports = w.inports ∧ v.outports = w.outports

/-! ### connecting -/

theorem connectPorts_active (w : World) (c : PortSpec × PortSpec) (e : Port × Port) (h : Resolves w c e) (ho : Own w e)
    (ha : w.active = true) :
    connectPorts w c = .ok { w with edges := if e ∈ w.edges then w.edges else w.edges ++ [e] } := by
  obtain ⟨h1, h2⟩ := h
  unfold connectPorts
  rw [h1, h2]
  show (if ¬ e.1 ∈ w.outports ∨ ¬ (e.1, e.2) ∈ w.edges then _ else _) = _
  by_cases he : e ∈ w.edges
  · have he' : (e.1, e.2) ∈ w.edges := he
    rw [if_pos he]
    by_cases k1 : e.1 ∈ w.outports
    · rw [if_neg (by simp [k1, he'])]
    · have k2 : e.2 ∈ w.inports := ho.resolve_left k1
      rw [if_pos (Or.inl k1), if_neg (by simp [k2, he'])]
  · have he' : ¬ (e.1, e.2) ∈ w.edges := he
    rw [if_pos (Or.inr he'), if_pos (Or.inr he'), if_neg he]
    unfold clientConnect
    rw [if_neg he', if_neg (by simp [ha])]

theorem connectPorts_inactive (w : World) (c : PortSpec × PortSpec) (e : Port × Port) (h : Resolves w c e) (ho : Own w e)
    (ha : w.active = false) (he : ¬ e ∈ w.edges) : connectPorts w c = .error .jackError := by
  obtain ⟨h1, h2⟩ := h
  have he' : ¬ (e.1, e.2) ∈ w.edges := he
  unfold connectPorts
  rw [h1, h2]
  show (if ¬ e.1 ∈ w.outports ∨ ¬ (e.1, e.2) ∈ w.edges then _ else _) = _
  rw [if_pos (Or.inr he'), if_pos (Or.inr he')]
  unfold clientConnect
  rw [if_neg he', if_pos ⟨ha, ho⟩]

/-- C95: Connecting ports of an active client establishes this connection, unless it exists already, and nothing else. One of
the ports has to belong to this client, see `C95_external_violated`. -/
theorem C95_connect_partial (w : World) (o i : PortSpec) (e : Port × Port) (h : Resolves w (o, i) e) (ho : Own w e)
    (ha : w.active = true) :
    ∃ v, connect w o i = .ok v ∧ (∀ d, d ∈ v.edges ↔ d ∈ w.edges ∨ d = e) ∧ v.stored = w.stored ∧ v.active = true ∧
      SamePorts v w := by
  unfold connect
  rw [connectPorts_active w (o, i) e h ho ha]
  refine ⟨_, rfl, ?_, rfl, ha, rfl, rfl, rfl, rfl⟩
  intro d
  show d ∈ (if e ∈ w.edges then w.edges else w.edges ++ [e]) ↔ _
  split
  · next he =>
    constructor
    · exact Or.inl
    · rintro (h | rfl)
      · exact h
      · exact he
  · simp

/-- C95: A connection of a port of an inactive client is stored. -/
theorem C95_connect_inactive (w : World) (o i : PortSpec) (e : Port × Port) (h : Resolves w (o, i) e) (ho : Own w e)
    (ha : w.active = false) (he : ¬ e ∈ w.edges) :
    connect w o i = .ok { w with stored := w.stored ++ [(o, i)] } := by
  unfold connect
  rw [connectPorts_inactive w (o, i) e h ho ha he]

/-- C95: A name, which is neither the short name nor the name of a port of the direction, raises the documented `ValueError`,
and the connection is not stored. -/
theorem C95_unknown (w : World) (o i : PortSpec) (s : String)
    (h : (o = .str s ∧ ∀ p ∈ w.outputs, s ≠ p.shortname ∧ s ≠ p.name) ∨
      ((∃ p, findPort w.outports w.outputs o = .ok p) ∧ i = .str s ∧ ∀ p ∈ w.inputs, s ≠ p.shortname ∧ s ≠ p.name)) :
    connect w o i = .error .valueError := by
  have key : ∀ own ports : List Port, (∀ p ∈ ports, s ≠ p.shortname ∧ s ≠ p.name) →
      findPort own ports (.str s) = .error .valueError := by
    intro own ports hp
    have e : ports.find? (fun p => decide (s = p.shortname ∨ s = p.name)) = none := by
      rw [List.find?_eq_none]
      intro p hq
      simpa using hp p hq
    unfold findPort
    dsimp only
    rw [e]
  unfold connect connectPorts
  rcases h with ⟨rfl, h⟩ | ⟨⟨p, hp⟩, rfl, h⟩
  · simp only [key _ _ h]
    rfl
  · simp only [key _ _ h, hp]
    rfl

/-- The hypothesis of `C95_unknown` is fulfilled by a misspelled name. -/
example (w : World) (h : w.outputs = [⟨"microphone", "system:microphone"⟩]) :
    connect w (.str "system:mikrophone") (.index 0) = .error .valueError :=
  C95_unknown w _ _ "system:mikrophone" (.inl ⟨rfl, by simp [h]⟩)

/-! ### activating -/

theorem connectAll_active (l : List (PortSpec × PortSpec)) : ∀ (w : World), w.active = true →
    (∀ c ∈ l, ∃ e, Resolves w c e ∧ Own w e) →
    ∃ v, connectAll w l = (v, none) ∧ (∀ d, d ∈ v.edges ↔ d ∈ w.edges ∨ ∃ c ∈ l, Resolves w c d) ∧ v.stored = w.stored ∧
      v.active = true ∧ SamePorts v w := by
  induction l with
  | nil =>
    intro w ha _
    exact ⟨w, rfl, fun d => by simp, rfl, ha, rfl, rfl, rfl, rfl⟩
  | cons c l ih =>
    intro w ha hl
    obtain ⟨e, h, ho⟩ := hl c List.mem_cons_self
    obtain ⟨u, hu⟩ : ∃ u, u = { w with edges := if e ∈ w.edges then w.edges else w.edges ++ [e] } := ⟨_, rfl⟩
    have hres : ∀ c d, Resolves u c d ↔ Resolves w c d := by
      intro c d
      rw [hu]
      exact Iff.rfl
    obtain ⟨v, v1, v2, v3, v4, v5⟩ := ih u (by rw [hu]; exact ha) (by
      intro c hc
      obtain ⟨e, h1, h2⟩ := hl c (List.mem_cons_of_mem _ hc)
      refine ⟨e, (hres c e).mpr h1, ?_⟩
      rw [hu]
      exact h2)
    refine ⟨v, ?_, ?_, ?_, v4, ?_⟩
    · unfold connectAll
      rw [connectPorts_active w c e h ho ha, ← hu]
      exact v1
    · intro d
      rw [v2]
      have hd : d ∈ u.edges ↔ d ∈ w.edges ∨ d = e := by
        rw [hu]
        show d ∈ (if e ∈ w.edges then w.edges else w.edges ++ [e]) ↔ _
        split
        · next he =>
          constructor
          · exact Or.inl
          · rintro (h | rfl)
            · exact h
            · exact he
        · simp
      have huniq : Resolves w c d ↔ d = e := by
        constructor
        · rintro ⟨g1, g2⟩
          obtain ⟨k1, k2⟩ := h
          rw [k1] at g1
          rw [k2] at g2
          exact Prod.ext (Except.ok.inj g1).symm (Except.ok.inj g2).symm
        · rintro rfl
          exact h
      rw [hd]
      simp only [hres, List.exists_mem_cons_iff, huniq]
      tauto
    · rw [v3, hu]
    · obtain ⟨k1, k2, k3, k4⟩ := v5
      rw [hu] at k1 k2 k3 k4
      exact ⟨k1, k2, k3, k4⟩

/-- C95: Activating the client establishes the stored connections. -/
theorem C95_activate (w : World) (h : ∀ c ∈ w.stored, ∃ e, Resolves w c e ∧ Own w e) :
    ∃ v, activate w = (v, none) ∧ v.active = true ∧ v.stored = [] ∧ SamePorts v w ∧
      ∀ d, d ∈ v.edges ↔ d ∈ w.edges ∨ ∃ c ∈ w.stored, Resolves w c d := by
  obtain ⟨v, v1, v2, v3, v4, v5⟩ := connectAll_active w.stored { w with active := true } rfl h
  refine ⟨{ v with stored := [] }, ?_, v4, rfl, v5, v2⟩
  unfold activate
  dsimp only
  rw [v1]

/-- C95: A connection, that has been requested while the client was inactive, is established, when the client is
activated. -/
theorem C95_connect_activate (w : World) (o i : PortSpec) (e : Port × Port) (h : Resolves w (o, i) e) (ho : Own w e)
    (ha : w.active = false) (he : ¬ e ∈ w.edges) (hs : ∀ c ∈ w.stored, ∃ e, Resolves w c e ∧ Own w e) :
    ∃ u v, connect w o i = .ok u ∧ activate u = (v, none) ∧ v.active = true ∧ e ∈ v.edges := by
  refine ⟨{ w with stored := w.stored ++ [(o, i)] }, ?_⟩
  obtain ⟨v, v1, v2, _, _, v3⟩ := C95_activate { w with stored := w.stored ++ [(o, i)] } (by
    intro c hc
    rcases List.mem_append.mp hc with hc | hc
    · exact hs c hc
    · rw [List.mem_singleton] at hc
      subst hc
      exact ⟨e, h, ho⟩)
  exact ⟨v, C95_connect_inactive w o i e h ho ha he, v1, v2, (v3 e).mpr (Or.inr ⟨(o, i), by simp, h⟩)⟩

/-! ### deactivating -/

theorem pyGet_natCast {β : Type} (l : List β) (k : Nat) : pyGet l (k : Int) = l[k]? := by
  unfold pyGet
  rw [if_pos (by omega)]
  simp

theorem findPort_index {own ports : List Port} {k : Nat} {p : Port} (h : own[k]? = some p) :
    findPort own ports (.index k) = .ok p := by
  show (match pyGet own (k : Int) with
    | some p => Except.ok p
    | none => .error Exc.indexError) = Except.ok p
  rw [pyGet_natCast, h]

/-- the connections, that are stored -/
def newConnections (w : World) : List (PortSpec × PortSpec) :=
  (w.outports.zipIdx.flatMap fun c =>
    (w.edges.filter fun e => decide (e.1 = c.1 ∧ ¬ e.2 ∈ w.inports)).map fun e => (PortSpec.index c.2, PortSpec.port e.2)) ++
  w.inports.zipIdx.flatMap fun c =>
    (w.edges.filter fun e => decide (e.2 = c.1)).map fun e => (PortSpec.port e.1, PortSpec.index c.2)

theorem mem_newConnections (w : World) (c : PortSpec × PortSpec) : c ∈ newConnections w ↔
    (∃ (k : Nat) (p q : Port), w.outports[k]? = some p ∧ (p, q) ∈ w.edges ∧ ¬ q ∈ w.inports ∧ c = (.index k, .port q)) ∨
    ∃ (k : Nat) (p q : Port), w.inports[k]? = some q ∧ (p, q) ∈ w.edges ∧ c = (.port p, .index k) := by
  unfold newConnections
  rw [List.mem_append, List.mem_flatMap, List.mem_flatMap]
  apply or_congr
  · constructor
    · rintro ⟨⟨p, k⟩, h1, h2⟩
      obtain ⟨e, h3, rfl⟩ := List.mem_map.mp h2
      obtain ⟨h4, h5⟩ := List.mem_filter.mp h3
      have h5 : e.1 = p ∧ ¬ e.2 ∈ w.inports := of_decide_eq_true h5
      refine ⟨k, p, e.2, List.mem_zipIdx_iff_getElem?.mp h1, ?_, h5.2, rfl⟩
      rw [← h5.1]
      exact h4
    · rintro ⟨k, p, q, h1, h2, h3, rfl⟩
      refine ⟨(p, k), List.mem_zipIdx_iff_getElem?.mpr h1, ?_⟩
      exact List.mem_map.mpr ⟨(p, q), List.mem_filter.mpr ⟨h2, decide_eq_true ⟨rfl, h3⟩⟩, rfl⟩
  · constructor
    · rintro ⟨⟨q, k⟩, h1, h2⟩
      obtain ⟨e, h3, rfl⟩ := List.mem_map.mp h2
      obtain ⟨h4, h5⟩ := List.mem_filter.mp h3
      have h5 : e.2 = q := of_decide_eq_true h5
      refine ⟨k, e.1, q, List.mem_zipIdx_iff_getElem?.mp h1, ?_, rfl⟩
      rw [← h5]
      exact h4
    · rintro ⟨k, p, q, h1, h2, rfl⟩
      refine ⟨(q, k), List.mem_zipIdx_iff_getElem?.mpr h1, ?_⟩
      exact List.mem_map.mpr ⟨(p, q), List.mem_filter.mpr ⟨h2, decide_eq_true rfl⟩, rfl⟩

theorem storeConnections_eq (w : World) (h : w.stored = []) : storeConnections w = { w with stored := newConnections w } := by
  show (if newConnections w ≠ [] then _ else _) = _
  by_cases hn : newConnections w = []
  · rw [if_neg (not_not.mpr hn), hn, ← h]
  · rw [if_pos hn]
    rfl

/-- the stored connections of the ports of this client are exactly their connections -/
theorem newConnections_resolve (w : World) :
    (∀ c ∈ newConnections w, ∃ e, Resolves w c e ∧ Own w e ∧ e ∈ w.edges) ∧
    ∀ e ∈ w.edges, Own w e → ∃ c ∈ newConnections w, Resolves w c e := by
  constructor
  · intro c hc
    rcases (mem_newConnections w c).mp hc with ⟨k, p, q, h1, h2, h3, rfl⟩ | ⟨k, p, q, h1, h2, rfl⟩
    · exact ⟨(p, q), ⟨findPort_index h1, rfl⟩, Or.inl (List.mem_of_getElem? h1), h2⟩
    · exact ⟨(p, q), ⟨rfl, findPort_index h1⟩, Or.inr (List.mem_of_getElem? h1), h2⟩
  · intro e he ho
    by_cases hi : e.2 ∈ w.inports
    · obtain ⟨k, hk⟩ := List.mem_iff_getElem?.mp hi
      exact ⟨(.port e.1, .index k), (mem_newConnections w _).mpr (Or.inr ⟨k, e.1, e.2, hk, he, rfl⟩), rfl, findPort_index hk⟩
    · obtain ⟨k, hk⟩ := List.mem_iff_getElem?.mp (ho.resolve_right hi)
      exact ⟨(.index k, .port e.2), (mem_newConnections w _).mpr (Or.inl ⟨k, e.1, e.2, hk, he, hi, rfl⟩), findPort_index hk, rfl⟩

/-- C95: Deactivating the client removes the connections of its ports and no others. -/
theorem C95_deactivate (w : World) : (deactivate w).active = false ∧ SamePorts (deactivate w) w ∧
    ∀ e, e ∈ (deactivate w).edges ↔ e ∈ w.edges ∧ ¬ Own w e := by
  have key : ∀ v : World, SamePorts v w → v.edges = w.edges → ∀ e, e ∈ (v.edges.filter fun e =>
      decide (¬ e.1 ∈ v.outports ∧ ¬ e.2 ∈ v.inports)) ↔ e ∈ w.edges ∧ ¬ Own w e := by
    intro v hv he e
    rw [List.mem_filter, decide_eq_true_iff, he, hv.2.2.1, hv.2.2.2]
    unfold Own
    tauto
  have hs : SamePorts (storeConnections w) w ∧ (storeConnections w).edges = w.edges := by
    unfold storeConnections
    dsimp only
    split
    · exact ⟨⟨rfl, rfl, rfl, rfl⟩, rfl⟩
    · exact ⟨⟨rfl, rfl, rfl, rfl⟩, rfl⟩
  exact ⟨rfl, hs.1, key _ hs.1 hs.2⟩

/-- C95: Deactivating and activating the client restores all connections. -/
theorem C95_reactivate (w : World) (h : w.stored = []) :
    ∃ v, activate (deactivate w) = (v, none) ∧ v.active = true ∧ v.stored = [] ∧ SamePorts v w ∧
      ∀ e, e ∈ v.edges ↔ e ∈ w.edges := by
  obtain ⟨r1, r2⟩ := newConnections_resolve w
  have hst : (deactivate w).stored = newConnections w := by
    unfold deactivate
    rw [storeConnections_eq w h]
  obtain ⟨d1, d2, d3⟩ := C95_deactivate w
  have hports : ∀ c e, Resolves (deactivate w) c e ↔ Resolves w c e := by
    intro c e
    unfold Resolves
    rw [d2.1, d2.2.1, d2.2.2.1, d2.2.2.2]
  have hown : ∀ e, Own (deactivate w) e ↔ Own w e := by
    intro e
    unfold Own
    rw [d2.2.2.1, d2.2.2.2]
  obtain ⟨v, v1, v2, v3, v4, v5⟩ := C95_activate (deactivate w) (by
    intro c hc
    rw [hst] at hc
    obtain ⟨e, e1, e2, _⟩ := r1 c hc
    exact ⟨e, (hports c e).mpr e1, (hown e).mpr e2⟩)
  refine ⟨v, v1, v2, v3, ⟨v4.1.trans d2.1, v4.2.1.trans d2.2.1, v4.2.2.1.trans d2.2.2.1, v4.2.2.2.trans d2.2.2.2⟩, ?_⟩
  intro e
  rw [v5 e, d3 e, hst]
  constructor
  · rintro (h | ⟨c, hc, h⟩)
    · exact h.1
    · obtain ⟨e', e1, _, e2⟩ := r1 c hc
      have h := (hports c e).mp h
      have : e = e' := by
        obtain ⟨k1, k2⟩ := h
        obtain ⟨k3, k4⟩ := e1
        rw [k3] at k1
        rw [k4] at k2
        exact Prod.ext (Except.ok.inj k1).symm (Except.ok.inj k2).symm
      rw [this]
      exact e2
  · intro he
    by_cases ho : Own w e
    · obtain ⟨c, hc, h⟩ := r2 e he ho
      exact Or.inr ⟨c, hc, (hports c e).mpr h⟩
    · exact Or.inl ⟨he, ho⟩

/-- C95: Deactivating an inactive client does not forget the stored connections. -/
theorem C95_deactivate_inactive (w : World) (ha : w.active = false) (h : ∀ e ∈ w.edges, ¬ Own w e) : deactivate w = w := by
  have hn : newConnections w = [] := by
    rw [List.eq_nil_iff_forall_not_mem]
    intro c hc
    obtain ⟨e, _, h1, h2⟩ := (newConnections_resolve w).1 c hc
    exact h e h2 h1
  have hs : storeConnections w = w := by
    show (if newConnections w ≠ [] then _ else _) = _
    rw [if_neg (not_not.mpr hn)]
  unfold deactivate
  rw [hs]
  have he : (w.edges.filter fun e => decide (¬ e.1 ∈ w.outports ∧ ¬ e.2 ∈ w.inports)) = w.edges := by
    rw [List.filter_eq_self]
    intro e he
    rw [decide_eq_true_iff]
    have := h e he
    unfold Own at this
    tauto
  dsimp only
  rw [he, ← ha]

/-! ### changing the output ports -/

/-- C95: If the signal is replaced by one with at least as many channels and other labels, the new ports have the connections
of the ports of the channels with the same index, and all other connections remain. Missing: signals with less channels
(`C95_channels_violated`), connections between ports of this client. -/
theorem C95_outputs_partial (w : World) (new : List Port) (ha : w.active = true) (hs : w.stored = [])
    (hlabels : (w.outports.map fun p => p.shortname) ≠ new.map fun p => p.shortname)
    (hown : ∀ e ∈ w.edges, ¬ (e.1 ∈ w.outports ∧ e.2 ∈ w.inports)) (hn : w.outports.length ≤ new.length) :
    ∃ v, updateOutputs w new = (v, none) ∧ v.active = true ∧ v.stored = [] ∧ v.outports = new ∧ v.inports = w.inports ∧
      ∀ e, e ∈ v.edges ↔ (e ∈ w.edges ∧ ¬ e.1 ∈ w.outports) ∨
        ∃ (k : Nat) (p : Port), w.outports[k]? = some p ∧ (p, e.2) ∈ w.edges ∧ new[k]? = some e.1 := by
  obtain ⟨u, hu⟩ : ∃ u, u = registerOutputs (storeConnections w) new := ⟨_, rfl⟩
  have hus : u.stored = newConnections w := by rw [hu, storeConnections_eq w hs]; rfl
  have huo : u.outports = new := by rw [hu]; rfl
  have hui : u.inports = w.inports := by rw [hu, storeConnections_eq w hs]; rfl
  have hua : u.active = true := by rw [hu, storeConnections_eq w hs]; exact ha
  have hue : ∀ e, e ∈ u.edges ↔ e ∈ w.edges ∧ ¬ e.1 ∈ w.outports := by
    intro e
    rw [hu, storeConnections_eq w hs]
    show e ∈ List.filter _ _ ↔ _
    rw [List.mem_filter, decide_eq_true_iff]
  obtain ⟨v, v1, v2, v3, v4, v5⟩ := connectAll_active u.stored u hua (by
    intro c hc
    rw [hus] at hc
    rcases (mem_newConnections w c).mp hc with ⟨k, p, q, h1, h2, h3, rfl⟩ | ⟨k, p, q, h1, h2, rfl⟩
    · have hk : k < w.outports.length := (List.getElem?_eq_some_iff.mp h1).1
      have hg : new[k]? = some new[k] := List.getElem?_eq_getElem (by omega)
      refine ⟨(new[k], q), ⟨findPort_index (by rw [huo]; exact hg), rfl⟩, Or.inl ?_⟩
      rw [huo]
      exact List.getElem_mem _
    · refine ⟨(p, q), ⟨rfl, findPort_index (by rw [hui]; exact h1)⟩, Or.inr ?_⟩
      rw [hui]
      exact List.mem_of_getElem? h1)
  refine ⟨{ v with stored := [] }, ?_, v4, rfl, v5.2.2.2.trans huo, v5.2.2.1.trans hui, ?_⟩
  · unfold updateOutputs
    rw [if_pos hlabels]
    dsimp only
    rw [← hu, v1]
  · intro e
    show e ∈ v.edges ↔ _
    rw [v2 e, hue e, hus]
    constructor
    · rintro (h | ⟨c, hc, g1, g2⟩)
      · exact Or.inl h
      · rcases (mem_newConnections w c).mp hc with ⟨k, p, q, h1, h2, h3, rfl⟩ | ⟨k, p, q, h1, h2, rfl⟩
        · right
          have hk : k < w.outports.length := (List.getElem?_eq_some_iff.mp h1).1
          have hg : new[k]? = some new[k] := List.getElem?_eq_getElem (by omega)
          rw [findPort_index (by rw [huo]; exact hg)] at g1
          have g2 : Except.ok q = (Except.ok e.2 : Except Exc Port) := g2
          refine ⟨k, p, h1, ?_, ?_⟩
          · rw [← Except.ok.inj g2]
            exact h2
          · rw [← Except.ok.inj g1]
            exact hg
        · left
          rw [findPort_index (by rw [hui]; exact h1)] at g2
          have g1 : Except.ok p = (Except.ok e.1 : Except Exc Port) := g1
          have he : e = (p, q) := Prod.ext (Except.ok.inj g1).symm (Except.ok.inj g2).symm
          rw [he]
          exact ⟨h2, fun h => hown _ h2 ⟨h, List.mem_of_getElem? h1⟩⟩
    · rintro (h | ⟨k, p, h1, h2, h3⟩)
      · exact Or.inl h
      · right
        refine ⟨(.index k, .port e.2), (mem_newConnections w _).mpr (Or.inl ⟨k, p, e.2, h1, h2, ?_, rfl⟩), ?_, rfl⟩
        · exact fun h => hown _ h2 ⟨List.mem_of_getElem? h1, h⟩
        · exact findPort_index (by rw [huo]; exact h3)

/-! ### examples and violations -/

/-- a port of the client -/
def own (s : String) : Port := ⟨s, "SuMPF:" ++ s⟩

/-- a port of another client -/
def system (s : String) : Port := ⟨s, "system:" ++ s⟩

/-- a client with two output ports and an input port and another client with two ports -/
def demoWorld (active : Bool) (edges : List (Port × Port)) : World where
  inputs := [own "capture", system "speaker"]
  outputs := [own "left", own "right", system "microphone"]
  inports := [own "capture"]
  outports := [own "left", own "right"]
  edges := edges
  active := active
  stored := []

/-- the hypotheses of `C95_connect_partial`, `C95_connect_inactive` and `C95_connect_activate` -/
example (a : Bool) : Resolves (demoWorld a []) (.index 1, .str "speaker") (own "right", system "speaker") ∧
    Resolves (demoWorld a []) (.str "system:microphone", .index (-1)) (system "microphone", own "capture") ∧
    Own (demoWorld a []) (own "right", system "speaker") ∧ Own (demoWorld a []) (system "microphone", own "capture") := by
  refine ⟨⟨rfl, rfl⟩, ⟨rfl, rfl⟩, Or.inl ?_, Or.inr ?_⟩
  · show own "right" ∈ [own "left", own "right"]
    simp
  · show own "capture" ∈ [own "capture"]
    simp

/-- `C95_reactivate` and `C95_outputs_partial` -/
example : let w := demoWorld true [(own "left", system "speaker"), (own "right", own "capture")]
    w.stored = [] ∧ (activate (deactivate w)).2 = none := by decide +kernel
example : let w := demoWorld true [(own "right", system "speaker"), (system "microphone", own "capture")]
    (∀ e ∈ w.edges, ¬ (e.1 ∈ w.outports ∧ e.2 ∈ w.inports)) ∧
    (updateOutputs w [own "a", own "b"]).1.edges =
      [(system "microphone", own "capture"), (own "b", system "speaker")] := by decide +kernel

/-- C95 is violated, when the channel of a connected port is missing in the new signal: an undocumented `IndexError` is
raised. -/
theorem C95_channels_violated :
    (updateOutputs (demoWorld true [(own "right", system "speaker")]) [own "left"]).2 = some .indexError := by
  decide +kernel

/-- C95 is violated, when two ports of other clients are connected twice: the connection is stored, although it exists, and
activating the client or starting a recording raises a `JackError`. -/
theorem C95_external_violated : ∃ u v,
    connect (demoWorld true []) (.str "system:microphone") (.str "system:speaker") = .ok u ∧
    connect u (.str "system:microphone") (.str "system:speaker") = .ok v ∧ (activate v).2 = some .jackError := by
  exact ⟨_, _, rfl, rfl, by decide +kernel⟩

/-- C95 is violated by indices, for which there are no ports: an `IndexError` is raised instead of the documented
`ValueError`. -/
theorem C95_index_violated : (match connect (demoWorld true []) (.index 2) (.index 0) with
    | .ok _ => none
    | .error e => some e) = some .indexError := by decide +kernel

end World
end Jack
end Verif
