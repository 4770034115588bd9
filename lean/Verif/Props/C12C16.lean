import Verif.Spec.Match
import Verif.Proofs.Find
import Verif.Props.C10C11
import Verif.Props.C07Exact
/-!
# C12, C13 lookup by property; C14, C15 FindNodes; C16 FindEdges
-/
namespace LPG
open State

/-! ## C12 -/

theorem nodeIx_run {ops : List Op} {s : State} (hv : Spec.ValidHistory ops) (hi : NodeIndexSafe ops)
    (hs : run ops = some s) : IxsRep s.nodeIx (s.nval (Spec.run ops)) :=
  nodeIx_runFrom Core.init (fun _ => NOk.init) (by intro k ix h; simp [State.new, AMap.get] at h) hv hi hs

/-- C12 for one history and one key. -/
def C12_statement (ops : List Op) (k : String) : Prop :=
  ∀ s, run ops = some s → ∃ ns, s.getNodesWithProperty k = some ns ∧
    ns.Perm ((Spec.run ops).nodes.filter (fun n => ((Spec.run ops).nprop n k).isSome))

/-- C12 for indexed keys, hash and btree, if indexes are created while `GetNodes` is right. -/
theorem C12_indexed_partial (ops : List Op) (hv : Spec.ValidHistory ops) (hi : NodeIndexSafe ops) (k : String)
    (hk : NodeIndexed ops k) : C12_statement ops k := by
  intro s hs
  have c := Core.run hv hs
  have h := nodeIx_run hv hi hs
  have hg := nodeIx_indexed hs (Or.inr hk)
  cases hix : AMap.get s.nodeIx k with
  | none => exact absurd hix hg
  | some ix =>
    refine ⟨ix.valueItr, by simp [State.getNodesWithProperty, hix], ?_⟩
    have r := h k ix hix
    rw [List.perm_ext_iff_of_nodup r.ids (c.nNodup.filter _)]
    intro n
    rw [r.mem, List.mem_filter]
    simp only [State.nval]
    constructor
    · rintro ⟨v, hn⟩
      split at hn
      · rename_i hmem
        exact ⟨hmem, by rw [← (c.nprops n hmem).2 k, hn]; rfl⟩
      · cases hn
    · rintro ⟨hmem, hsome⟩
      rw [if_pos hmem, (c.nprops n hmem).2 k]
      exact Option.isSome_iff_exists.1 hsome

/-- C12 whenever `GetNodes` is right. Missing: histories that create a node after the newest live node was removed
and then scan all nodes (`C12_false`). -/
theorem C12_partial (ops : List Op) (hv : Spec.ValidHistory ops) (hc : ListOk ops)
    (hi : NodeIndexSafe ops) (k : String) : C12_statement ops k := by
  intro s hs
  have c := Core.run hv hs
  cases hix : AMap.get s.nodeIx k with
  | none =>
    have hg := C01_safe_partial ops hv hc s hs
    refine ⟨_, by simp only [State.getNodesWithProperty, hix, hg, Option.map_some]; rfl, List.Perm.of_eq ?_⟩
    apply List.filter_congr
    intro n hn
    rw [State.nodeProperty, (c.nprops n hn).2 k]
  | some ix =>
    have r := nodeIx_run hv hi hs k ix hix
    refine ⟨ix.valueItr, by simp [State.getNodesWithProperty, hix], ?_⟩
    rw [List.perm_ext_iff_of_nodup r.ids (c.nNodup.filter _)]
    intro n
    rw [r.mem, List.mem_filter]
    simp only [State.nval]
    constructor
    · rintro ⟨v, hn⟩
      split at hn
      · rename_i hmem
        exact ⟨hmem, by rw [← (c.nprops n hmem).2 k, hn]; rfl⟩
      · cases hn
    · rintro ⟨hmem, hsome⟩
      rw [if_pos hmem, (c.nprops n hmem).2 k]
      exact Option.isSome_iff_exists.1 hsome

/-- hash and btree indexes, created early and late, with changes and removals of indexed properties -/
def indexOps : List Op :=
  [.addNodeIndex "h" .hash, .newNode ["A"] [("h", .int 1), ("b", .str "x")], .newNode ["A"] [("h", .native (.int 1))],
   .addNodeIndex "b" .btree, .setNodeProp 1 "b" (.str "w"), .newNode ["A", "B"] [("b", .str "x"), ("h", .nil)],
   .setNodeProp 0 "h" (.str "s"), .setNodeProp 0 "h" (.int 1), .removeNodeProp 2 "h", .newNode [] [("h", .int 2)],
   .detachRemove 3, .newNode ["B"] [("h", .int 1)]]

example : Spec.ValidHistory indexOps ∧ NodeIndexSafe indexOps ∧
    (run indexOps).bind (fun s => s.getNodesWithProperty "h") = some [1, 0, 4] ∧
    (run indexOps).bind (fun s => s.getNodesWithProperty "b") = some [1, 0, 2] := by decide +kernel

example : NodeIndexed indexOps "h" ∧ NodeIndexed indexOps "b" :=
  ⟨⟨.hash, by simp [indexOps]⟩, ⟨.btree, by simp [indexOps]⟩⟩

/-- C12 fails: an index created after the node list broke misses a live node, and so does the scan without an index. -/
theorem C12_false :
    (¬ ∀ ops k, Spec.ValidHistory ops → C12_statement ops k) := by
  intro h
  have w : Spec.ValidHistory [.newNode [] [], .newNode [] [], .detachRemove 1, .newNode [] [("x", .int 1)],
        .addNodeIndex "x" .btree] ∧
      (run [.newNode [] [], .newNode [] [], .detachRemove 1, .newNode [] [("x", .int 1)],
        .addNodeIndex "x" .btree]).bind (fun s => s.getNodesWithProperty "x") = some [] ∧
      (let σ := Spec.run [.newNode [] [], .newNode [] [], .detachRemove 1, .newNode [] [("x", .int 1)],
        .addNodeIndex "x" .btree]
       σ.nodes.filter (fun n => (σ.nprop n "x").isSome)) = [2] := by decide +kernel
  obtain ⟨h1, h2, h3⟩ := w
  revert h1 h2 h3
  generalize ([.newNode [] [], .newNode [] [], .detachRemove 1, .newNode [] [("x", .int 1)],
        .addNodeIndex "x" .btree] : List Op) = ops
  intro h1 h2 h3
  cases hr : run ops with
  | none => rw [hr] at h2; cases h2
  | some s =>
    obtain ⟨ns, h4, h5⟩ := h ops "x" h1 s hr
    rw [hr] at h2
    simp only [Option.bind_some] at h2
    rw [h2] at h4; cases h4
    rw [h3] at h5
    have := h5.length_eq
    simp at this

/-! ## C13 -/

theorem edgeIx_run {ops : List Op} {s : State} (hv : Spec.ValidHistory ops) (hi : EdgeIndexIntact ops)
    (hs : run ops = some s) : IxsRep s.edgeIx (s.eval (Spec.run ops)) :=
  edgeIx_runFrom Core.init (fun _ => AEx.init) (by intro k h; simp [State.new, AMap.get] at h)
    (by intro k ix h; simp [State.new, AMap.get] at h) hv hi hs

/-- C13 for one history and one key. -/
def C13_statement (ops : List Op) (k : String) : Prop :=
  ∀ s, run ops = some s → ∃ es, s.getEdgesWithProperty k = some es ∧
    es.Perm ((Spec.run ops).edges.filter (fun e => ((Spec.run ops).eprop e k).isSome))

theorem edgeIx_exact {s : State} {σ : Spec} (c : Core s σ) (h : IxsRep s.edgeIx (s.eval σ)) {k : String} {ix : Index}
    (hix : AMap.get s.edgeIx k = some ix) :
    ix.valueItr.Perm (σ.edges.filter (fun e => (σ.eprop e k).isSome)) := by
  have r := h k ix hix
  rw [List.perm_ext_iff_of_nodup r.ids (c.eNodup.filter _)]
  intro n
  rw [r.mem, List.mem_filter]
  simp only [State.eval]
  constructor
  · rintro ⟨v, hn⟩
    split at hn
    · rename_i hmem
      exact ⟨hmem, by rw [← (c.eprops n hmem).2 k, hn]; rfl⟩
    · cases hn
  · rintro ⟨hmem, hsome⟩
    rw [if_pos hmem, (c.eprops n hmem).2 k]
    exact Option.isSome_iff_exists.1 hsome

/-- C13 for indexed keys, if no edge with an indexed property is removed by `Edge.Remove` (detaching its nodes is
fine), and indexes are created before the first removal of a relabeled edge. -/
theorem C13_indexed_partial (ops : List Op) (hv : Spec.ValidHistory ops) (hi : EdgeIndexIntact ops) (k : String)
    (hk : EdgeIndexed ops k) : C13_statement ops k := by
  intro s hs
  have hg := edgeIx_indexed hs (Or.inr hk)
  cases hix : AMap.get s.edgeIx k with
  | none => exact absurd hix hg
  | some ix =>
    exact ⟨ix.valueItr, by simp [State.getEdgesWithProperty, hix],
      edgeIx_exact (Core.run hv hs) (edgeIx_run hv hi hs) hix⟩

/-- C13 for keys without an index, whenever `GetEdges` is right. -/
theorem C13_scan_partial (ops : List Op) (hv : Spec.ValidHistory ops) (hc : FiledOk ops) (k : String)
    (hk : ¬ EdgeIndexed ops k) : C13_statement ops k := by
  intro s hs
  have c := Core.run hv hs
  have hnone : AMap.get s.edgeIx k = none := Classical.byContradiction fun h => by
    rcases edgeIx_only hs h with h | h
    · simp [State.new, AMap.get] at h
    · exact hk h
  obtain ⟨_, es, h1, h2⟩ := C04_filed_partial ops hv hc s hs
  refine ⟨_, by simp only [State.getEdgesWithProperty, hnone, h1, Option.map_some]; rfl, (h2.filter _).trans
    (List.Perm.of_eq ?_)⟩
  apply List.filter_congr
  intro n hn
  rw [State.edgeProperty, (c.eprops n hn).2 k]

/-- edges with indexed properties, detached, changed and relabeled; an edge without the indexed property removed -/
def edgeIndexOps : List Op :=
  [.newNode [] [], .newNode [] [], .newNode [] [], .newEdge 0 1 "e" [("w", .int 3)], .addEdgeIndex "w" .btree,
   .newEdge 1 1 "e" [("w", .int 1), ("z", .nil)], .newEdge 1 2 "f" [("z", .int 1)], .newEdge 1 2 "f" [("w", .int 2)],
   .setEdgeLabel 6 "g", .removeEdge 5, .setEdgeProp 6 "w" (.int 9), .detach 0, .removeEdgeProp 4 "z",
   .addEdgeIndex "z" .hash, .newEdge 2 0 "g" [("w", .int 2), ("z", .str "")]]

example : Spec.ValidHistory edgeIndexOps ∧ EdgeIndexIntact edgeIndexOps ∧ FiledOk edgeIndexOps ∧
    (run edgeIndexOps).bind (fun s => s.getEdgesWithProperty "w") = some [4, 7, 6] ∧
    (run edgeIndexOps).bind (fun s => s.getEdgesWithProperty "z") = some [7] ∧
    (run edgeIndexOps).bind (fun s => s.getEdgesWithProperty "q") = some [] := by decide +kernel

example : EdgeIndexed edgeIndexOps "w" ∧ ¬ EdgeIndexed edgeIndexOps "q" :=
  ⟨⟨.btree, by simp [edgeIndexOps]⟩, by rintro ⟨t, h⟩; simp [edgeIndexOps] at h⟩

/-- C13 fails: a removed edge is still found through the index. -/
theorem C13_false : ¬ ∀ ops k, Spec.ValidHistory ops → C13_statement ops k := by
  intro h
  have w : Spec.ValidHistory [.newNode [] [], .addEdgeIndex "x" .hash, .newEdge 0 0 "A" [("x", .int 1)],
        .removeEdge 1] ∧
      (run [.newNode [] [], .addEdgeIndex "x" .hash, .newEdge 0 0 "A" [("x", .int 1)],
        .removeEdge 1]).bind (fun s => s.getEdgesWithProperty "x") = some [1] ∧
      (Spec.run [.newNode [] [], .addEdgeIndex "x" .hash, .newEdge 0 0 "A" [("x", .int 1)],
        .removeEdge 1]).edges = [] := by decide +kernel
  obtain ⟨h1, h2, h3⟩ := w
  revert h1 h2 h3
  generalize ([.newNode [] [], .addEdgeIndex "x" .hash, .newEdge 0 0 "A" [("x", .int 1)],
        .removeEdge 1] : List Op) = ops
  intro h1 h2 h3
  cases hr : run ops with
  | none => rw [hr] at h2; cases h2
  | some s =>
    obtain ⟨ns, h4, h5⟩ := h ops "x" h1 s hr
    rw [hr] at h2
    simp only [Option.bind_some] at h2
    rw [h2] at h4; cases h4
    rw [h3] at h5
    have := h5.length_eq
    simp at this

/-! ## C14 -/

/-- C14 for one history and one query: if the search returns, it lists exactly the matching live nodes. -/
def C14_statement (ops : List Op) (ls : List String) (req : AMap String Value) : Prop :=
  ∀ s, run ops = some s → ∀ ns, s.findNodes ls req = some ns →
    Lists ns (Spec.run ops).nodes ((Spec.run ops).NodeMatches ls req)

theorem nodeFilter_spec {s : State} {σ : Spec} (c : Core s σ) {n : Nat} (hn : n ∈ σ.nodes) (ls : List String)
    (req : AMap String Value) :
    nodeFilter ls req (s.nLabels n) (s.nProps n) = true ↔ σ.NodeMatches ls req n := by
  rw [nodeFilter_iff]
  unfold Spec.NodeMatches PropsMatch
  constructor
  · rintro ⟨h1, h2⟩
    exact ⟨fun l hl => ((c.labels n hn).2 l).1 (h1 l hl), fun k v h => by
      obtain ⟨w, a, b⟩ := h2 k v h
      exact ⟨w, by rw [← (c.nprops n hn).2 k]; exact a, b⟩⟩
  · rintro ⟨h1, h2⟩
    exact ⟨fun l hl => ((c.labels n hn).2 l).2 (h1 l hl), fun k v h => by
      obtain ⟨w, a, b⟩ := h2 k v h
      exact ⟨w, by rw [(c.nprops n hn).2 k]; exact a, b⟩⟩

/-- C14 for a non-empty set of labels. The conditions: node property indexes were created while `GetNodes` was right,
and the values compared are not wrappers of wrappers (`WithNativeValue` returning a `WithNativeValue`). Missing: the
queries with an empty set of labels (C01 for no properties, C15 otherwise), and the histories and values excluded by
these conditions (`C14_false`, `C14_false_native`). -/
theorem C14_partial (ops : List Op) (hv : Spec.ValidHistory ops) (hi : NodeIndexSafe ops) (ls : List String)
    (hls : ls ≠ []) (req : AMap String Value) (hreq : ∀ k v, (k, v) ∈ req → v.Flat)
    (hflat : ∀ n ∈ (Spec.run ops).nodes, ∀ k w, (Spec.run ops).nprop n k = some w → w.Flat) :
    C14_statement ops ls req := by
  intro s hs ns hf
  have c := Core.run hv hs
  have hix := nodeIx_run hv hi hs
  obtain ⟨ns0, h0, h0p⟩ := C10 ops hv s hs ls hls
  obtain ⟨xs, m, e1, _, e3, _⟩ := NodeMap.allLabels_nonempty s.byLabel (LblRep.run hv hs).ok s.nLabels ls hls
  have hlen : ¬ ls.length = 0 := by rw [List.length_eq_zero_iff]; exact hls
  have hxs : xs = ns0 := by simpa [State.getNodesWithAllLabels, e1] using h0
  subst hxs
  -- filtering a list of live nodes that contains all matches
  have fin : ∀ ys : List Nat, ys.Nodup → (∀ y ∈ ys, y ∈ (Spec.run ops).nodes) →
      (∀ n ∈ (Spec.run ops).nodes, (Spec.run ops).NodeMatches ls req n → n ∈ ys) →
      Lists (ys.filter (fun n => nodeFilter ls req (s.nLabels n) (s.nProps n))) (Spec.run ops).nodes
        ((Spec.run ops).NodeMatches ls req) := by
    intro ys hy1 hy2 hy3
    refine ⟨hy1.filter _, fun x => ?_⟩
    rw [List.mem_filter]
    constructor
    · rintro ⟨a, b⟩
      exact ⟨hy2 x a, (nodeFilter_spec c (hy2 x a) ls req).1 b⟩
    · rintro ⟨a, b⟩
      exact ⟨hy3 x a b, (nodeFilter_spec c a ls req).2 b⟩
  unfold State.findNodes at hf
  rw [if_neg (fun h => hlen h.1), if_neg hlen, e1] at hf
  split at hf
  · rename_i bl its hbl hits
    cases hbl
    obtain ⟨p1, p2⟩ := propIters_mem hits
    have hm : m ≠ -1 := by omega
    rcases choose_cases hf with ⟨_, rfl⟩ | ⟨b, hb, rfl⟩ | ⟨_, hm', _⟩
    · refine fin _ (h0p.nodup_iff.2 (c.nNodup.filter _)) ?_ ?_
      · intro y hy; exact (List.mem_filter.1 (h0p.mem_iff.1 hy)).1
      · intro n hn hmt
        refine h0p.mem_iff.2 (List.mem_filter.2 ⟨hn, ?_⟩)
        simpa using hmt.1
    · rcases (minIter_spec its none).1 b hb with hb | hb
      · obtain ⟨k, v, ix, q1, q2, q3⟩ := p1 b hb
        obtain ⟨r1, r2, r3, r4⟩ := (hix k ix q2).find (xs := b.1) (m := b.2) q3
        refine fin _ r1 ?_ ?_
        · intro y hy
          obtain ⟨w, hw⟩ := r3 y hy
          simp only [State.nval] at hw
          split at hw
          · assumption
          · cases hw
        · intro n hn hmt
          obtain ⟨w, a, b⟩ := hmt.2 k v q1
          refine r4 n w ?_ b (hreq k v q1) (hflat n hn k w a)
          simp only [State.nval]
          rw [if_pos hn, (c.nprops n hn).2 k]; exact a
      · cases hb
    · exact absurd hm' hm
  · cases hf

/-- Without an index on one of the properties asked for, C14 holds in every history, and the search always returns. -/
theorem C14_unindexed_partial (ops : List Op) (hv : Spec.ValidHistory ops) (ls : List String)
    (hls : ls ≠ []) (req : AMap String Value) (s : State) (hs : run ops = some s)
    (hreq : ∀ k v, (k, v) ∈ req → AMap.get s.nodeIx k = none) :
    ∃ ns, s.findNodes ls req = some ns ∧ Lists ns (Spec.run ops).nodes ((Spec.run ops).NodeMatches ls req) := by
  have c := Core.run hv hs
  obtain ⟨ns0, h0, h0p⟩ := C10 ops hv s hs ls hls
  obtain ⟨xs, m, e1, _, e3, _⟩ := NodeMap.allLabels_nonempty s.byLabel (LblRep.run hv hs).ok s.nLabels ls hls
  have hlen : ¬ ls.length = 0 := by rw [List.length_eq_zero_iff]; exact hls
  have hxs : xs = ns0 := by simpa [State.getNodesWithAllLabels, e1] using h0
  subst hxs
  have hp : ∀ r : AMap String Value, (∀ k v, (k, v) ∈ r → AMap.get s.nodeIx k = none) →
      propIters s.nodeIx r = some [] := by
    intro r
    induction r with
    | nil => intro _; rfl
    | cons p r ih =>
      intro h
      obtain ⟨k, v⟩ := p
      rw [propIters, h k v (by simp)]
      exact ih (fun k v hm => h k v (List.mem_cons_of_mem _ hm))
  have hm : m ≠ -1 := by omega
  refine ⟨xs.filter (fun n => nodeFilter ls req (s.nLabels n) (s.nProps n)), ?_, ?_⟩
  · unfold State.findNodes
    rw [if_neg (fun h => hlen h.1), if_neg hlen, e1, hp req hreq]
    simp [State.choose, minIter, hm]
  · refine ⟨(h0p.nodup_iff.2 (c.nNodup.filter _)).filter _, fun x => ?_⟩
    rw [List.mem_filter, h0p.mem_iff, List.mem_filter]
    constructor
    · rintro ⟨⟨a, _⟩, b⟩
      exact ⟨a, (nodeFilter_spec c a ls req).1 b⟩
    · rintro ⟨a, b⟩
      exact ⟨⟨a, by simpa using b.1⟩, (nodeFilter_spec c a ls req).2 b⟩

example : Spec.ValidHistory indexOps ∧ NodeIndexSafe indexOps ∧
    (run indexOps).bind (fun s => s.findNodes ["A"] [("h", .int 1), ("b", .str "x")]) = some [0] ∧
    (run indexOps).bind (fun s => s.findNodes ["B"] [("h", .native (.int 1))]) = some [4] ∧
    (run indexOps).bind (fun s => s.findNodes ["A"] [("zz", .int 1)]) = some [] := by decide +kernel

example : (∀ k v, (k, v) ∈ ([("h", .int 1), ("b", .str "x")] : AMap String Value) → v.Flat) ∧
    (∀ n ∈ (Spec.run indexOps).nodes, ∀ k w, (Spec.run indexOps).nprop n k = some w → w.Flat) := by
  constructor
  · intro k v h; simp at h; rcases h with ⟨_, rfl⟩ | ⟨_, rfl⟩ <;> trivial
  · intro n hn k w hw
    have : (Spec.run indexOps).nodes = [0, 1, 2, 4] := by decide +kernel
    rw [this] at hn
    simp at hn
    rcases hn with rfl | rfl | rfl | rfl <;>
      simp [Spec.run, Spec.runFrom, indexOps, Spec.step, Spec.new, upd, AMap.get, Spec.detach] at hw <;> grind [Value.Flat]

/-- C14 fails if an index was created after the node list broke: a matching node is missed. -/
theorem C14_false : ¬ ∀ ops ls req, Spec.ValidHistory ops → C14_statement ops ls req := by
  intro h
  have w : Spec.ValidHistory [.newNode [] [], .newNode [] [], .detachRemove 1, .newNode ["A"] [("x", .int 1)],
        .addNodeIndex "x" .btree] ∧
      (run [.newNode [] [], .newNode [] [], .detachRemove 1, .newNode ["A"] [("x", .int 1)],
        .addNodeIndex "x" .btree]).bind (fun s => s.findNodes ["A"] [("x", .int 1)]) = some [] ∧
      (2 ∈ (Spec.run [.newNode [] [], .newNode [] [], .detachRemove 1, .newNode ["A"] [("x", .int 1)],
        .addNodeIndex "x" .btree]).nodes) := by decide +kernel
  have hm : (Spec.run [.newNode [] [], .newNode [] [], .detachRemove 1, .newNode ["A"] [("x", .int 1)],
        .addNodeIndex "x" .btree]).NodeMatches ["A"] [("x", .int 1)] 2 := by
    refine ⟨by decide +kernel, ?_⟩
    intro k v hkv
    simp at hkv; obtain ⟨rfl, rfl⟩ := hkv
    exact ⟨.int 1, by rfl, by decide +kernel⟩
  revert w hm
  generalize ([.newNode [] [], .newNode [] [], .detachRemove 1, .newNode ["A"] [("x", .int 1)],
        .addNodeIndex "x" .btree] : List Op) = ops
  rintro ⟨h1, h2, h3⟩ hm
  cases hr : run ops with
  | none => rw [hr] at h2; cases h2
  | some s =>
    rw [hr] at h2
    simp only [Option.bind_some] at h2
    have := (h ops _ _ h1 s hr _ h2).2 2
    simp [h3, hm] at this

/-- C14 fails for doubly wrapped values with a hash index: the index removes one wrapper, the comparison all. -/
theorem C14_false_native :
    (run [.newNode ["A"] [("x", .native (.native (.int 1)))], .newNode ["A"] [], .addNodeIndex "x" .hash]).bind
      (fun s => s.findNodes ["A"] [("x", .int 1)]) = some [] ∧
    (run [.newNode ["A"] [("x", .native (.native (.int 1)))], .newNode ["A"] []]).bind
      (fun s => s.findNodes ["A"] [("x", .int 1)]) = some [0] ∧
    cmp (.int 1) (.native (.native (.int 1))) = some 0 := by decide +kernel

/-! ## C15 -/

/-- The full statement of C15. -/
def C15_statement : Prop := ∀ (ops : List Op), Spec.ValidHistory ops → ∀ s, run ops = some s →
  ∀ req : AMap String Value, req ≠ [] → ∃ ns, s.findNodes [] req = some ns ∧
    Lists ns (Spec.run ops).nodes ((Spec.run ops).NodeMatches [] req)

/-- A search without labels but with properties panics in every state. -/
theorem C15_panics (s : State) (req : AMap String Value) (h : req ≠ []) : s.findNodes [] req = none := by
  unfold State.findNodes
  have : ¬ req.length = 0 := by rw [List.length_eq_zero_iff]; exact h
  simp [this]

theorem C15_false : ¬ C15_statement := by
  intro h
  obtain ⟨ns, h1, _⟩ := h [] (by decide) State.new rfl [("x", .int 1)] (by simp)
  rw [C15_panics _ _ (by simp)] at h1
  cases h1

/-- What holds: the search without labels returns exactly for no properties, and then it is `GetNodes`. Missing:
everything else in C15 (`C15_panics`). -/
theorem C15_partial (ops : List Op) (hv : Spec.ValidHistory ops) (hc : ListOk ops) (s : State)
    (hs : run ops = some s) (req : AMap String Value) :
    (s.findNodes [] req ≠ none ↔ req = []) ∧
    (req = [] → ∃ ns, s.findNodes [] req = some ns ∧
      Lists ns (Spec.run ops).nodes ((Spec.run ops).NodeMatches [] req)) := by
  have hg := C01_safe_partial ops hv hc s hs
  have he : s.findNodes [] [] = some (Spec.run ops).nodes := by simp [State.findNodes, hg]
  constructor
  · constructor
    · intro h; exact Classical.byContradiction fun hr => h (C15_panics s req hr)
    · rintro rfl; rw [he]; simp
  · rintro rfl
    refine ⟨_, he, (Core.run hv hs).nNodup, fun x => ?_⟩
    simp [Spec.NodeMatches, PropsMatch]

example : Spec.ValidHistory demoOps ∧ ListOk demoOps ∧
    (run demoOps).bind (fun s => s.findNodes [] []) = some [1, 2] := by decide +kernel

/-! ## C16 -/

/-- C16 for one history and one query: if the search returns, it lists exactly the matching live edges. -/
def C16_statement (ops : List Op) (ls : List String) (req : AMap String Value) : Prop :=
  ∀ s, run ops = some s → ∀ es, s.findEdges ls req = some es →
    Lists es (Spec.run ops).edges ((Spec.run ops).EdgeMatches ls req)

theorem edgeFilter_spec {s : State} {σ : Spec} (c : Core s σ) {e : Nat} (he : e ∈ σ.edges) (ls : List String)
    (req : AMap String Value) :
    edgeFilter ls req (s.eLabel e) (s.eProps e) = true ↔ σ.EdgeMatches ls req e := by
  rw [edgeFilter_iff, (c.eattr e he).2.2]
  unfold Spec.EdgeMatches PropsMatch
  constructor
  · rintro ⟨h1, h2⟩
    exact ⟨h1, fun k v h => by
      obtain ⟨w, a, b⟩ := h2 k v h
      exact ⟨w, by rw [← (c.eprops e he).2 k]; exact a, b⟩⟩
  · rintro ⟨h1, h2⟩
    exact ⟨h1, fun k v h => by
      obtain ⟨w, a, b⟩ := h2 k v h
      exact ⟨w, by rw [(c.eprops e he).2 k]; exact a, b⟩⟩

theorem filter_lists {s : State} {σ : Spec} (c : Core s σ) (ls : List String) (req : AMap String Value)
    {ys : List Nat} (h1 : ys.Nodup) (h2 : ∀ y ∈ ys, y ∈ σ.edges)
    (h3 : ∀ e ∈ σ.edges, σ.EdgeMatches ls req e → e ∈ ys) :
    Lists (ys.filter (fun e => edgeFilter ls req (s.eLabel e) (s.eProps e))) σ.edges (σ.EdgeMatches ls req) := by
  refine ⟨h1.filter _, fun x => ?_⟩
  rw [List.mem_filter]
  constructor
  · rintro ⟨a, b⟩
    exact ⟨h2 x a, (edgeFilter_spec c (h2 x a) ls req).1 b⟩
  · rintro ⟨a, b⟩
    exact ⟨h3 x a b, (edgeFilter_spec c a ls req).2 b⟩

/-- C16 holds if one of the properties asked for has an index, or the graph has at most one edge. Missing: the
queries without an indexed property on graphs with two edges or more (`C16_unfiltered`: they return all edges),
the empty set of labels with properties (`C16_panics`), and the histories excluded by the conditions
(`C13_false`). -/
theorem C16_partial (ops : List Op) (hv : Spec.ValidHistory ops) (hi : EdgeIndexIntact ops)
    (hr : FiledOk ops) (ls : List String) (hls : ls ≠ []) (hnd : ls.Nodup) (req : AMap String Value)
    (hcase : (∃ k v, (k, v) ∈ req ∧ EdgeIndexed ops k) ∨ (Spec.run ops).edges.length ≤ 1)
    (hreq : ∀ k v, (k, v) ∈ req → v.Flat)
    (hflat : ∀ n ∈ (Spec.run ops).edges, ∀ k w, (Spec.run ops).eprop n k = some w → w.Flat) :
    C16_statement ops ls req := by
  intro s hs es hf
  have c := Core.run hv hs
  have hix := edgeIx_run hv hi hs
  obtain ⟨g, xs, hp, hae, hg⟩ := filed_run hv hr hs
  have hlen : ¬ ls.length = 0 := by rw [List.length_eq_zero_iff]; exact hls
  unfold State.findEdges at hf
  rw [if_neg (fun h => hlen h.1), if_neg hlen] at hf
  split at hf
  · rename_i byl its hbl hits
    obtain ⟨p1, p2⟩ := propIters_mem hits
    -- the best property iterator is fine
    have hbest : ∀ b, minIter its none = some b →
        Lists (b.1.filter (fun e => edgeFilter ls req (s.eLabel e) (s.eProps e))) (Spec.run ops).edges
          ((Spec.run ops).EdgeMatches ls req) := by
      intro b hb
      rcases (minIter_spec its none).1 b hb with hb | hb
      · obtain ⟨k, v, ix, q1, q2, q3⟩ := p1 b hb
        obtain ⟨r1, r2, r3, r4⟩ := (hix k ix q2).find (xs := b.1) (m := b.2) q3
        refine filter_lists c ls req r1 ?_ ?_
        · intro y hy
          obtain ⟨w, hw⟩ := r3 y hy
          simp only [State.eval] at hw
          split at hw
          · assumption
          · cases hw
        · intro n hn hmt
          obtain ⟨w, a, b⟩ := hmt.2 k v q1
          refine r4 n w ?_ b (hreq k v q1) (hflat n hn k w a)
          simp only [State.eval]
          rw [if_pos hn, (c.eprops n hn).2 k]; exact a
      · cases hb
    have hsz : 2 ≤ xs.length → s.allEdges.anySize s.eLabel ls = -1 := by
      intro hl
      unfold EdgeMap.anySize
      have hn := hae.n
      rw [if_neg (by omega), if_neg (by omega)]
    have hsz' : xs.length ≤ 1 → s.allEdges.anySize s.eLabel ls ≠ -1 := by
      intro hl
      unfold EdgeMap.anySize
      have hn := hae.n
      split
      · omega
      · split
        · split
          · omega
          · split <;> omega
        · omega
    rcases choose_cases hf with ⟨hne, rfl⟩ | ⟨b, hb, rfl⟩ | ⟨hb, heq, _⟩
    · -- at most one edge: the label iterator is exact
      have hle : xs.length ≤ 1 := Nat.le_of_not_lt fun hl => hne (hsz hl)
      have hae' : EMRep s.slot0 s.eLabel s.allEdges xs := hae.anyLabel hle
      obtain ⟨ys, y1, y2⟩ := hae'.enumAny (ls := ls) (fuel := s.idBase) hnd (by rw [hp.length_eq]; exact c.edges_length)
      have hbl' : s.getEdgesWithAnyLabel ls = some ys := y1
      rw [hbl'] at hbl; cases hbl
      refine filter_lists c ls req ?_ ?_ ?_
      · exact y2.nodup_iff.2 (hae'.nodup.filter _)
      · intro y hy; exact hp.mem_iff.1 (List.mem_filter.1 (y2.mem_iff.1 hy)).1
      · intro e he hm
        refine y2.mem_iff.2 (List.mem_filter.2 ⟨hp.mem_iff.2 he, ?_⟩)
        rcases hm.1 with h | h
        · exact absurd h hls
        · rw [(c.eattr e he).2.2]; simpa using h
    · exact hbest b hb
    · exfalso
      rcases hcase with ⟨k, v, hkv, hk⟩ | h
      · cases hgix : AMap.get s.edgeIx k with
        | none => exact edgeIx_indexed hs (Or.inr hk) hgix
        | some ix =>
          obtain ⟨r, hr1, hr2⟩ := p2 k v ix hkv hgix
          have := ((minIter_spec its none).2 hb).2 r hr1
          have h2 := ((hix k ix hgix).find (xs := r.1) (m := r.2) hr2).2.1
          omega
      · exact hsz' (by rw [hp.length_eq]; exact h) heq
  · cases hf

example : Spec.ValidHistory edgeIndexOps ∧ EdgeIndexIntact edgeIndexOps ∧ FiledOk edgeIndexOps ∧
    (run edgeIndexOps).bind (fun s => s.findEdges ["g", "x"] [("w", .int 2)]) = some [7] ∧
    (run edgeIndexOps).bind (fun s => s.findEdges ["g", "x"] [("w", .int 9), ("q", .int 1)]) = some [] := by
  decide +kernel

example : (∀ n ∈ (Spec.run edgeIndexOps).edges, ∀ k w, (Spec.run edgeIndexOps).eprop n k = some w → w.Flat) ∧
    (∃ k v, (k, v) ∈ ([("w", .int 2)] : AMap String Value) ∧ EdgeIndexed edgeIndexOps k) := by
  constructor
  · intro n hn k w hw
    have : (Spec.run edgeIndexOps).edges = [4, 6, 7] := by decide +kernel
    rw [this] at hn
    simp at hn
    rcases hn with rfl | rfl | rfl <;>
      simp [Spec.run, Spec.runFrom, edgeIndexOps, Spec.step, Spec.new, upd, AMap.get, Spec.detach, Spec.dropEdge] at hw <;> grind [Value.Flat]
  · exact ⟨"w", .int 2, by simp, .btree, by simp [edgeIndexOps]⟩

/-- Without an index on a property asked for, a search with labels on a graph with two edges or more returns all the
edges: neither the labels nor the properties are looked at. -/
theorem C16_unfiltered (ops : List Op) (hv : Spec.ValidHistory ops) (hr : FiledOk ops)
    (ls : List String) (hls : ls ≠ []) (hnd : ls.Nodup) (req : AMap String Value)
    (hreq : ∀ k v, (k, v) ∈ req → ¬ EdgeIndexed ops k) (h2 : 2 ≤ (Spec.run ops).edges.length)
    (s : State) (hs : run ops = some s) :
    ∃ es, s.findEdges ls req = some es ∧ es.Perm (Spec.run ops).edges := by
  have c := Core.run hv hs
  have ae := AEx.runFrom Core.init AEx.init hv hr hs
  obtain ⟨es, he1, he2⟩ := ae.getEdges c
  obtain ⟨el, hl1, _⟩ := ae.getEdgesWithAnyLabel c hnd
  have hnum := ae.numEdges
  have hlen : ¬ ls.length = 0 := by rw [List.length_eq_zero_iff]; exact hls
  have hp : ∀ r : AMap String Value, (∀ k v, (k, v) ∈ r → ¬ EdgeIndexed ops k) →
      propIters s.edgeIx r = some [] := by
    intro r
    induction r with
    | nil => intro _; rfl
    | cons p r ih =>
      intro h
      obtain ⟨k, v⟩ := p
      have hnone : AMap.get s.edgeIx k = none := Classical.byContradiction fun hh => by
        rcases edgeIx_only hs hh with h' | h'
        · simp [State.new, AMap.get] at h'
        · exact h k v (by simp) h'
      rw [propIters, hnone]
      exact ih (fun k v hm => h k v (List.mem_cons_of_mem _ hm))
  refine ⟨es, ?_, he2⟩
  have hsz : s.allEdges.anySize s.eLabel ls = -1 := by
    unfold EdgeMap.anySize
    have hn : s.allEdges.n = ((Spec.run ops).edges.length : Int) := hnum
    rw [if_neg (by omega), if_neg (by omega)]
  unfold State.findEdges
  rw [if_neg (fun h => hlen h.1), if_neg hlen, hl1, hp req hreq]
  simp [State.choose, minIter, hsz, he1]

example : Spec.ValidHistory demoOps ∧ FiledOk demoOps ∧ 2 ≤ (Spec.run demoOps).edges.length ∧
    (run demoOps).bind (fun s => s.findEdges ["nolabel"] [("w", .str "q")]) = some [5, 4] := by decide +kernel

/-- A search without labels but with properties panics. -/
theorem C16_panics (s : State) (req : AMap String Value) (h : req ≠ []) : s.findEdges [] req = none := by
  unfold State.findEdges
  have : ¬ req.length = 0 := by rw [List.length_eq_zero_iff]; exact h
  simp [this]

theorem C16_false : ¬ ∀ ops ls req, Spec.ValidHistory ops → C16_statement ops ls req := by
  intro h
  have w : Spec.ValidHistory [.newNode [] [], .newEdge 0 0 "A" [], .newEdge 0 0 "A" []] ∧
      (run [.newNode [] [], .newEdge 0 0 "A" [], .newEdge 0 0 "A" []]).bind (fun s => s.findEdges ["B"] []) =
        some [1, 2] := by decide +kernel
  have hm : ¬ (Spec.run [.newNode [] [], .newEdge 0 0 "A" [], .newEdge 0 0 "A" []]).EdgeMatches ["B"] [] 1 := by
    intro h
    have : (Spec.run [.newNode [] [], .newEdge 0 0 "A" [], .newEdge 0 0 "A" []]).label 1 = "A" := by decide +kernel
    rcases h.1 with h | h
    · cases h
    · rw [this] at h; simp at h
  revert w hm
  generalize ([.newNode [] [], .newEdge 0 0 "A" [], .newEdge 0 0 "A" []] : List Op) = ops
  rintro ⟨h1, h2⟩ hm
  cases hr : run ops with
  | none => rw [hr] at h2; cases h2
  | some s =>
    rw [hr] at h2
    simp only [Option.bind_some] at h2
    have := (h ops _ _ h1 s hr _ h2).2 1
    simp [hm] at this

end LPG
