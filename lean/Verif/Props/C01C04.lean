import Verif.Proofs.Adj
/-!
# C01 GetNodes, C02 NumNodes, C03 identifiers, C04 GetEdges / NumEdges, C07 edges by label

`Spec.run ops` is the abstract graph after the history `ops` (`Verif.Spec.Graph`): `nodes` and `edges` are the
objects created and not removed, oldest first. `run ops = some s` says that the model of the library ran the
same history without a panic and reached `s`.
-/
namespace LPG

/-- A history with removals in the middle, used to show that hypotheses can be met. -/
def demoOps : List Op :=
  [.newNode ["A"] [("x", .int 1)], .newNode ["A", "B"] [], .newNode [] [], .newEdge 0 1 "e" [],
   .newEdge 1 1 "f" [("w", .str "q")], .newEdge 1 2 "e" [], .newEdge 0 2 "g" [], .removeEdge 6,
   .detachRemove 0, .setLabels 1 ["C"], .setNodeProp 2 "x" (.int 7)]

/-! ## C01 -/

/-- The full property C01 for one history. -/
def C01_statement (ops : List Op) : Prop :=
  ∀ s, run ops = some s → s.getNodes = some (Spec.run ops).nodes

/-- C01 holds for the histories in which no node is created after the newest live node was removed.
Missing: the other histories, for which the property is false (`C01_false`). -/
theorem C01_partial (ops : List Op) (hv : Spec.ValidHistory ops) (hc : NoCreateAfterTailRemoval ops) :
    C01_statement ops := by
  intro s hs
  obtain ⟨d, h⟩ := NRep.runFrom Core.init NRep.init hv hc hs
  exact h.getNodes (Core.run hv hs)

example : Spec.ValidHistory demoOps ∧ NoCreateAfterTailRemoval demoOps ∧
    ((run demoOps).bind State.getNodes) = some [1, 2] := by decide +kernel

/-- In every history, also those that break the list, the iteration of `GetNodes` ends, and it never yields
a node twice nor out of creation order. -/
theorem C01_order_partial (ops : List Op) (hv : Spec.ValidHistory ops) (s : State) (hs : run ops = some s) :
    ∃ ns, s.getNodes = some ns ∧ ns.Nodup ∧ ns.Pairwise (· < ·) := by
  obtain ⟨ns, h1, h2, _⟩ := (Mono.init.runFrom Core.init hv hs).getNodes
  exact ⟨ns, h1, h2.imp (fun h => Nat.ne_of_lt h), h2⟩

/-- C01 fails: a node created after the newest one was removed is missing from the enumeration. -/
theorem C01_false_missing : Spec.ValidHistory [.newNode [] [], .newNode [] [], .detachRemove 1, .newNode [] []] ∧
    (run [.newNode [] [], .newNode [] [], .detachRemove 1, .newNode [] []]).bind State.getNodes = some [0] ∧
    (Spec.run [.newNode [] [], .newNode [] [], .detachRemove 1, .newNode [] []]).nodes = [0, 2] := by
  decide +kernel

/-- C01 fails: a removed node is enumerated. -/
theorem C01_false_removed :
    Spec.ValidHistory [.newNode [] [], .detachRemove 0, .newNode [] [], .detachRemove 1] ∧
    (run [.newNode [] [], .detachRemove 0, .newNode [] [], .detachRemove 1]).bind State.getNodes = some [1] ∧
    (Spec.run [.newNode [] [], .detachRemove 0, .newNode [] [], .detachRemove 1]).nodes = [] := by
  decide +kernel

/-- The full property C01 does not hold. -/
theorem C01_false : ¬ ∀ ops, Spec.ValidHistory ops → C01_statement ops := by
  intro h
  obtain ⟨h1, h2, h3⟩ := C01_false_missing
  cases hr : run [.newNode [] [], .newNode [] [], .detachRemove 1, .newNode [] []] with
  | none => rw [hr] at h2; cases h2
  | some s =>
    have := h _ h1 s hr
    rw [hr] at h2
    simp only [Option.bind_some] at h2
    rw [h2, h3] at this
    cases this

/-! ## C02 -/

/-- `NumNodes` is the number of live nodes, in every history. -/
theorem C02 (ops : List Op) (hv : Spec.ValidHistory ops) (s : State) (hs : run ops = some s) :
    s.numNodes = (Spec.run ops).nodes.length := (Core.run hv hs).count

example : Spec.ValidHistory [.newNode [] [], .newNode [] [], .detachRemove 1, .newNode [] []] ∧
    ((run [.newNode [] [], .newNode [] [], .detachRemove 1, .newNode [] []]).map State.numNodes) = some 2 := by
  decide +kernel

/-- created minus removed -/
def created (ops : List Op) : Nat := (ops.filter (fun op => match op with | .newNode _ _ => true | _ => false)).length
def removed (ops : List Op) : Nat := (ops.filter (fun op => match op with | .detachRemove _ => true | _ => false)).length

theorem Spec.count_runFrom {ops : List Op} : ∀ {σ : Spec}, σ.nodes.Nodup → (∀ n ∈ σ.nodes, n < σ.next) →
    σ.ValidFrom ops → (σ.runFrom ops).nodes.length + removed ops = σ.nodes.length + created ops := by
  induction ops with
  | nil => intro σ _ _ _; simp [Spec.runFrom, removed, created]
  | cons op ops ih =>
    intro σ hn hlt hv
    have hstep : (σ.step op).nodes.Nodup ∧ (∀ n ∈ (σ.step op).nodes, n < (σ.step op).next) ∧
        (σ.step op).nodes.length + removed [op] = σ.nodes.length + created [op] := by
      have hsame : (σ.step op).nodes = σ.nodes → (σ.step op).next ≥ σ.next → removed [op] = created [op] →
          (σ.step op).nodes.Nodup ∧ (∀ n ∈ (σ.step op).nodes, n < (σ.step op).next) ∧
          (σ.step op).nodes.length + removed [op] = σ.nodes.length + created [op] := by
        intro h1 h2 h3
        rw [h1]
        exact ⟨hn, fun n hh => Nat.lt_of_lt_of_le (hlt n hh) h2, by rw [h3]⟩
      cases op with
      | newNode ls ps =>
        refine ⟨?_, ?_, ?_⟩
        · show (σ.nodes ++ [σ.next]).Nodup
          rw [List.nodup_append]
          refine ⟨hn, by simp, ?_⟩
          intro a ha b hb; simp at hb; subst hb
          exact Nat.ne_of_lt (hlt a ha)
        · intro n hh
          simp [Spec.step] at hh ⊢
          rcases hh with hh | rfl
          · have := hlt n hh; omega
          · omega
        · simp [Spec.step, removed, created]
      | detachRemove n =>
        refine ⟨hn.filter _, fun m hm => hlt m (List.mem_filter.1 hm).1, ?_⟩
        have he : σ.nodes.filter (· ≠ n) = σ.nodes.erase n := by
          rw [List.Nodup.erase_eq_filter hn]
          apply List.filter_congr; intro x _; by_cases hx : x = n <;> simp [hx]
        have hpos : 0 < σ.nodes.length := List.length_pos_of_mem hv.1
        simp only [Spec.step, he, List.length_erase_of_mem hv.1, removed, created]
        simp; omega
      | newEdge a b l ps => exact hsame rfl (by simp [Spec.step]) rfl
      | setLabels n ls => exact hsame rfl (Nat.le_refl _) rfl
      | setNodeProp n k v => exact hsame rfl (Nat.le_refl _) rfl
      | removeNodeProp n k => exact hsame rfl (Nat.le_refl _) rfl
      | detach n => exact hsame rfl (Nat.le_refl _) rfl
      | setEdgeLabel e l => exact hsame rfl (Nat.le_refl _) rfl
      | setEdgeProp e k v => exact hsame rfl (Nat.le_refl _) rfl
      | removeEdgeProp e k => exact hsame rfl (Nat.le_refl _) rfl
      | removeEdge e => exact hsame rfl (Nat.le_refl _) rfl
      | addNodeIndex k t => exact hsame rfl (Nat.le_refl _) rfl
      | addEdgeIndex k t => exact hsame rfl (Nat.le_refl _) rfl
    obtain ⟨h1, h2, h3⟩ := hstep
    have := ih h1 h2 hv.2
    have e1 : removed (op :: ops) = removed [op] + removed ops := by
      simp only [removed, List.filter_cons, List.filter_nil]; split <;> simp <;> omega
    have e2 : created (op :: ops) = created [op] + created ops := by
      simp only [created, List.filter_cons, List.filter_nil]; split <;> simp <;> omega
    have e3 : (σ.runFrom (op :: ops)) = (σ.step op).runFrom ops := rfl
    rw [e1, e2, e3]; omega

/-- `NumNodes` is the number of calls of `NewNode` minus the number of calls of `DetachAndRemove`. -/
theorem C02_count (ops : List Op) (hv : Spec.ValidHistory ops) (s : State) (hs : run ops = some s) :
    s.numNodes = (created ops : Int) - removed ops := by
  have h1 := C02 ops hv s hs
  have h2 := Spec.count_runFrom (σ := Spec.new) (ops := ops) (by simp [Spec.new]) (by simp [Spec.new]) hv
  have h3 : (Spec.new).nodes.length = 0 := rfl
  rw [h1]
  have : Spec.run ops = Spec.new.runFrom ops := rfl
  rw [this]; omega

example : created demoOps = 3 ∧ removed demoOps = 1 ∧ (run demoOps).map State.numNodes = some 2 := by
  decide +kernel

/-! ## C03 -/

/-- The ids that the calls of a history return, in order. -/
def issuedIds : State → List Op → List Nat
  | _, [] => []
  | s, op :: ops =>
    match step s op with
    | none => []
    | some s' => (s.newId op).toList ++ issuedIds s' ops

theorem idBase_step {s s' : State} {op : Op} (hs : step s op = some s') :
    s'.idBase = s.idBase + (s.newId op).toList.length := by
  cases op with
  | newNode ls ps => obtain ⟨ixs, _, rfl⟩ := newNode_frame hs; rfl
  | newEdge a b l ps => obtain ⟨h1, h2, h3, _⟩ := newEdge_frame hs; rw [h3]; rfl
  | setLabels n ls => cases hs; rfl
  | setNodeProp n k v => obtain ⟨ixs, rfl⟩ := setNodeProp_frame hs; rfl
  | removeNodeProp n k => obtain ⟨ixs, rfl⟩ := removeNodeProp_frame hs; rfl
  | detach n =>
    obtain ⟨p0, p1, p2, im, om, ae, ix, rfl⟩ := detachNode_frame hs
    rfl
  | detachRemove n =>
    simp only [LPG.step, State.detachRemoveNode] at hs
    split at hs
    · cases hs
    · rename_i s1 h1
      obtain ⟨p0, p1, p2, im, om, ae, ix, rfl⟩ := detachNode_frame h1
      split at hs
      · cases hs
      · cases hs; rfl
  | setEdgeLabel e l =>
    simp only [LPG.step, State.setEdgeLabel] at hs
    split at hs
    · cases hs; rfl
    · obtain ⟨p1, p2, im, om, rfl⟩ := connect_frame hs
      rfl
  | setEdgeProp n k v => obtain ⟨ixs, rfl⟩ := setEdgeProp_frame hs; rfl
  | removeEdgeProp n k => obtain ⟨ixs, rfl⟩ := removeEdgeProp_frame hs; rfl
  | removeEdge e => cases hs; rfl
  | addNodeIndex k t => obtain ⟨ixs, rfl⟩ := addNodeIndex_frame hs; rfl
  | addEdgeIndex k t => obtain ⟨ixs, rfl⟩ := addEdgeIndex_frame hs; rfl

theorem issuedIds_increasing : ∀ (ops : List Op) (s : State),
    (issuedIds s ops).Pairwise (· < ·) ∧ ∀ i ∈ issuedIds s ops, s.idBase ≤ i := by
  intro ops
  induction ops with
  | nil => intro s; simp [issuedIds]
  | cons op ops ih =>
    intro s
    simp only [issuedIds]
    cases hs : step s op with
    | none => simp
    | some s' =>
      have hb := idBase_step hs
      obtain ⟨h1, h2⟩ := ih s'
      have hid : ∀ i, s.newId op = some i → i = s.idBase := by
        intro i hi; cases op <;> simp [State.newId] at hi <;> exact hi.symm
      cases hi : s.newId op with
      | none =>
        rw [hi] at hb; simp at hb
        simp only [Option.toList_none, List.nil_append]
        exact ⟨h1, fun i h => by have := h2 i h; omega⟩
      | some i =>
        have := hid i hi; subst this
        rw [hi] at hb; simp at hb
        simp only [Option.toList_some, List.singleton_append, List.pairwise_cons, List.mem_cons]
        exact ⟨⟨fun j hj => by have := h2 j hj; omega, h1⟩, by
          rintro j (rfl | hj)
          · exact Nat.le_refl _
          · have := h2 j hj; omega⟩

/-- The ids returned by `NewNode` and `NewEdge` in one history (with or without stale handles) are pairwise
different: no id is ever reused. -/
theorem C03_unique (ops : List Op) : (issuedIds State.new ops).Nodup :=
  (issuedIds_increasing ops State.new).1.imp (fun h => Nat.ne_of_lt h)

example : issuedIds State.new demoOps = [0, 1, 2, 3, 4, 5, 6] := by decide +kernel

/-- Live nodes and live edges have pairwise different ids. -/
theorem C03_live (ops : List Op) (hv : Spec.ValidHistory ops) (s : State) (hs : run ops = some s) :
    ((Spec.run ops).nodes ++ (Spec.run ops).edges).Nodup := by
  have c := Core.run hv hs
  rw [List.nodup_append]
  refine ⟨c.nNodup, c.eNodup, ?_⟩
  rintro a ha b hb rfl
  exact c.disj a ha hb

/-! ## C04 -/

/-- The full property C04 for one history. -/
def C04_statement (ops : List Op) : Prop :=
  ∀ s, run ops = some s → s.numEdges = (Spec.run ops).edges.length ∧
    ∃ es, s.getEdges = some es ∧ es.Perm (Spec.run ops).edges

/-- C04 holds for the histories that never remove an edge after its label was changed. Missing: the other
histories, for which the property is false (`C04_false`). -/
theorem C04_partial (ops : List Op) (hv : Spec.ValidHistory ops) (hc : NoRelabeledRemoval ops) :
    C04_statement ops := by
  intro s hs
  obtain ⟨R, h⟩ := AERep.runFrom Core.init AERep.init (by simp) hv hc hs
  exact ⟨h.numEdges, h.getEdges (Core.run hv hs)⟩

example : Spec.ValidHistory (demoOps ++ [.setEdgeLabel 5 "z"]) ∧ NoRelabeledRemoval (demoOps ++ [.setEdgeLabel 5 "z"]) ∧
    ((run (demoOps ++ [.setEdgeLabel 5 "z"])).bind State.getEdges) = some [5, 4] := by decide +kernel

/-- A history after which `GetEdges` yields a removed edge and misses a live one. -/
def badRelabel : List Op :=
  [.newNode [] [], .newEdge 0 0 "A" [], .newEdge 0 0 "B" [], .setEdgeLabel 1 "B", .removeEdge 1]

theorem C04_false_witness : Spec.ValidHistory badRelabel ∧
    (run badRelabel).bind State.getEdges = some [1] ∧ (Spec.run badRelabel).edges = [2] := by decide +kernel

theorem C04_false : ¬ ∀ ops, Spec.ValidHistory ops → C04_statement ops := by
  intro h
  obtain ⟨h1, h2, h3⟩ := C04_false_witness
  cases hr : run badRelabel with
  | none => rw [hr] at h2; cases h2
  | some s =>
    obtain ⟨_, es, h4, h5⟩ := h _ h1 s hr
    rw [hr] at h2
    simp only [Option.bind_some] at h2
    rw [h2] at h4; cases h4
    rw [h3] at h5
    have := h5.mem_iff (a := 1)
    simp at this

/-- After relabeling and removing edges `NumEdges` is wrong too: the removal of an edge whose new label is not
in use is not counted. -/
theorem C04_false_count :
    Spec.ValidHistory [.newNode [] [], .newEdge 0 0 "A" [], .newEdge 0 0 "A" [], .setEdgeLabel 1 "B", .removeEdge 1] ∧
    (run [.newNode [] [], .newEdge 0 0 "A" [], .newEdge 0 0 "A" [], .setEdgeLabel 1 "B", .removeEdge 1]).map
      State.numEdges = some 2 ∧
    (Spec.run [.newNode [] [], .newEdge 0 0 "A" [], .newEdge 0 0 "A" [], .setEdgeLabel 1 "B", .removeEdge 1]).edges
      = [2] := by decide +kernel

/-- Worse, a later `NewEdge` between live nodes can panic (nil pointer dereference). -/
theorem C04_false_panic :
    Spec.ValidHistory [.newNode [] [], .newEdge 0 0 "A" [], .newEdge 0 0 "B" [], .newEdge 0 0 "B" [],
      .setEdgeLabel 1 "B", .removeEdge 1, .setEdgeLabel 2 "A", .removeEdge 2, .newEdge 0 0 "C" []] ∧
    run [.newNode [] [], .newEdge 0 0 "A" [], .newEdge 0 0 "B" [], .newEdge 0 0 "B" [],
      .setEdgeLabel 1 "B", .removeEdge 1, .setEdgeLabel 2 "A", .removeEdge 2] ≠ none ∧
    run [.newNode [] [], .newEdge 0 0 "A" [], .newEdge 0 0 "B" [], .newEdge 0 0 "B" [],
      .setEdgeLabel 1 "B", .removeEdge 1, .setEdgeLabel 2 "A", .removeEdge 2, .newEdge 0 0 "C" []] = none := by
  refine ⟨by decide +kernel, ?_, ?_⟩
  · rw [← Option.isSome_iff_ne_none]; decide +kernel
  · rw [← Option.isNone_iff_eq_none]; decide +kernel

/-! ## C07 -/

/-- The full property C07 for one history. The label set is a list without repetitions, in any order. -/
def C07_statement (ops : List Op) : Prop :=
  ∀ s, run ops = some s → ∀ ls : List String, ls.Nodup →
    ∃ es, s.getEdgesWithAnyLabel ls = some es ∧
      es.Perm ((Spec.run ops).edges.filter (fun e => (Spec.run ops).label e ∈ ls))

/-- C07 holds for the histories that never change the label of an existing edge. Missing: histories with
relabeling, for which the property is false (`C07_false`). -/
theorem C07_partial (ops : List Op) (hv : Spec.ValidHistory ops) (hc : NoRelabel ops) : C07_statement ops := by
  intro s hs ls hls
  have h := AERep.init.runFrom_norelabel Core.init hv hc hs
  exact h.getEdgesWithAnyLabel (Core.run hv hs) hls

example : Spec.ValidHistory demoOps ∧ NoRelabel demoOps ∧
    ((run demoOps).bind (fun s => s.getEdgesWithAnyLabel ["zzz", "f"])) = some [4] := by decide +kernel

/-- C07 fails: a relabeled edge is found under its old label. -/
theorem C07_false : ¬ ∀ ops, Spec.ValidHistory ops → C07_statement ops := by
  intro h
  have w : Spec.ValidHistory [.newNode [] [], .newEdge 0 0 "A" [], .newEdge 0 0 "B" [], .setEdgeLabel 1 "C"] ∧
      (run [.newNode [] [], .newEdge 0 0 "A" [], .newEdge 0 0 "B" [], .setEdgeLabel 1 "C"]).bind
        (fun s => s.getEdgesWithAnyLabel ["C"]) = some [] ∧
      (let σ := Spec.run [.newNode [] [], .newEdge 0 0 "A" [], .newEdge 0 0 "B" [], .setEdgeLabel 1 "C"]
       σ.edges.filter (fun e => σ.label e ∈ ["C"])) = [1] := by decide +kernel
  obtain ⟨h1, h2, h3⟩ := w
  cases hr : run [.newNode [] [], .newEdge 0 0 "A" [], .newEdge 0 0 "B" [], .setEdgeLabel 1 "C"] with
  | none => rw [hr] at h2; cases h2
  | some s =>
    obtain ⟨es, h4, h5⟩ := h _ h1 s hr ["C"] (by simp)
    rw [hr] at h2
    simp only [Option.bind_some] at h2
    rw [h2] at h4; cases h4
    simp only at h3
    rw [h3] at h5
    have := h5.length_eq
    simp at this

end LPG
