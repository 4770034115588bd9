import Verif.Proofs.Stale
import Verif.Props.C12C16
/-!
# C60 calls on nodes and edges that were removed

Handles of removed nodes and edges stay usable in Go. The claim: a graph behaves as if the calls on removed objects had not
been made. It is true for the calls that `Tolerable` allows and false for the others.
-/
namespace LPG
open State

/-- The claim for one history: without its calls on removed objects it would give the same answers. -/
def C60_statement (ops : List Op) : Prop :=
  ∀ s, run ops = some s → ∃ s0, run (liveCalls ops) = some s0 ∧ EqAnswers (Spec.run (liveCalls ops)) s0 s

/-- C60 holds if the calls on removed objects are `Detach`, `SetLabels` with no labels, or `SetProperty` and
`RemoveProperty` with a key that never gets an index. Missing: the other calls (`C60_false_…`, `C60_remove_again`,
`C60_label`, `C60_index`, `C60_edge_again`). -/
theorem C60_partial (ops : List Op) (h : Tolerable ops) : C60_statement ops := by
  intro s hs
  have o := over_run h
  rw [hs] at o
  cases h0 : run (liveCalls ops) with
  | none => rw [h0] at o; exact o.elim
  | some s0 =>
    rw [h0] at o
    exact ⟨s0, rfl, Over.answers o (LblRep.run (valid_liveFrom ops Spec.new) h0)⟩

/-- These calls return if the history without them does. -/
theorem C60_returns (ops : List Op) (h : Tolerable ops) : run ops = none ↔ run (liveCalls ops) = none := by
  have o := over_run h
  cases h1 : run ops <;> cases h0 : run (liveCalls ops) <;> rw [h1, h0] at o <;> simp_all [OptRel]

/-- The searches that read properties of the objects they come across agree as well, while the enumeration they scan has
only live objects. -/
theorem C60_search_partial (ops : List Op) (h : Tolerable ops) (s s0 : State) (hs : run ops = some s)
    (h0 : run (liveCalls ops) = some s0) :
    (ListOk (liveCalls ops) → ∀ k, s.getNodesWithProperty k = s0.getNodesWithProperty k) ∧
    (FiledOk (liveCalls ops) → ∀ k, s.getEdgesWithProperty k = s0.getEdgesWithProperty k) ∧
    (NodeIndexSafe (liveCalls ops) → ∀ ls ps, s.findNodes ls ps = s0.findNodes ls ps) ∧
    (EdgeIndexIntact (liveCalls ops) → FiledOk (liveCalls ops) → ∀ ls, ls.Nodup → ∀ ps,
      s.findEdges ls ps = s0.findEdges ls ps) := by
  have o := over_run h
  rw [hs, h0] at o
  have o : Over _ _ _ s s0 := o
  have hv : Spec.ValidHistory (liveCalls ops) := valid_liveFrom ops Spec.new
  have c := Core.run hv h0
  refine ⟨?_, ?_, ?_, ?_⟩
  · exact fun hc k => o.nodesWithProperty k (Or.inl (C01_safe_partial _ hv hc s0 h0))
  · intro hc k
    obtain ⟨_, es, he, hp⟩ := C04_filed_partial _ hv hc s0 h0
    exact o.edgesWithProperty k (Or.inl ⟨es, he, fun e hm => hp.mem_iff.1 hm⟩)
  · exact fun hi ls ps => o.findNodes (LblRep.run hv h0) (nodeIx_run hv hi h0) ls ps
  · intro hi hr ls hnd ps
    have a := filed_run hv hr h0
    exact o.findEdges c a (edgeIx_run hv hi h0) ls hnd ps

/-- Nothing is assumed of histories without calls on removed objects. -/
theorem C60_valid (ops : List Op) (hv : Spec.ValidHistory ops) : Tolerable ops ∧ liveCalls ops = ops :=
  ⟨tolerable_valid ops Spec.new hv, liveFrom_valid ops Spec.new hv⟩

/-- a history with every kind of harmless call, before and after an index is created and objects are removed -/
def staleOps : List Op :=
  [.newNode ["A"] [("p", .int 1), ("q", .int 2)], .newNode ["A", "B"] [("p", .int 3)], .newEdge 0 1 "e" [("w", .int 1)],
   .newEdge 1 1 "e" [("w", .int 2)], .addNodeIndex "p" .hash, .addEdgeIndex "w" .btree, .newNode ["B"] [],
   .detachRemove 0, .setNodeProp 0 "q" (.int 7), .removeNodeProp 0 "q", .detach 0, .setLabels 0 [],
   .setEdgeProp 2 "v" (.int 5), .removeEdgeProp 2 "v", .setNodeProp 1 "p" (.int 4), .newEdge 4 1 "f" []]

example : Tolerable staleOps ∧ ¬ Spec.ValidHistory staleOps ∧ (liveCalls staleOps).length = 10 ∧
    ListOk (liveCalls staleOps) ∧ FiledOk (liveCalls staleOps) ∧
    NodeIndexSafe (liveCalls staleOps) ∧ EdgeIndexIntact (liveCalls staleOps) ∧
    (run staleOps).bind (fun s => s.getNodesWithAllLabels ["A"]) = some [1] ∧
    (run staleOps).bind (fun s => s.getNodes) = some [1, 4] ∧
    (run staleOps).bind (fun s => s.getNodesWithProperty "p") = some [1] := by decide +kernel

/-! ## The other calls -/

/-- A second `DetachAndRemove` of a node always makes `NumNodes` too small by one. -/
theorem C60_remove_again (ops : List Op) (hv : Spec.ValidHistory ops) (s : State) (hs : run ops = some s) (n : Nat)
    (_hn : n ∉ (Spec.run ops).nodes) (s' : State) (h : step s (.detachRemove n) = some s') :
    s'.numNodes = ((Spec.run ops).nodes.length : Int) - 1 := by
  have c := Core.run hv hs
  simp only [LPG.step, State.detachRemoveNode] at h
  split at h
  · cases h
  · rename_i s1 h1
    have e1 : s1.allNodes = s.allNodes := by
      obtain ⟨_, _, _, _, _, _, _, rfl⟩ := detachNode_frame h1
      rfl
    split at h
    · cases h
    · cases h
      have : ∀ (P : NPtr) (l : NList) (x : Nat), (NList.remove P l x).2.n = l.n - 1 := by
        intro P l x
        unfold NList.remove
        cases P.prev x <;> dsimp only <;> split <;> rfl
      simp only [State.numNodes, this, e1, c.count]

example : Spec.ValidHistory [.newNode [] [], .newNode [] [], .newNode [] [], .detachRemove 1] ∧
    1 ∉ (Spec.run [.newNode [] [], .newNode [] [], .newNode [] [], .detachRemove 1]).nodes ∧
    (run [.newNode [] [], .newNode [] [], .newNode [] [], .detachRemove 1, .detachRemove 1]).map
      (fun s => s.numNodes) = some 1 := by decide +kernel

/-- `SetLabels` on a removed node files it under every label it did not have: the label lookup returns it. -/
theorem C60_label (ops : List Op) (hv : Spec.ValidHistory ops) (s : State) (hs : run ops = some s) (n : Nat)
    (ls : List String) (l : String) (hl : l ∈ ls) (hold : l ∉ s.nodeGetLabels n) :
    ∃ s' ns, step s (.setLabels n ls) = some s' ∧ s'.getNodesWithAllLabels [l] = some ns ∧ n ∈ ns := by
  have r := LblRep.run hv hs
  obtain ⟨xs, m, h1, _, _, _, _, h2⟩ := NodeMap.allLabels_nonempty (s.byLabel.replace n (s.nLabels n) ls)
    (r.ok.replace n _ _) (upd s.nLabels n ls) [l] (by simp)
  refine ⟨_, xs, rfl, by simp [State.getNodesWithAllLabels, State.setLabels, h1], h2 n ?_⟩
  intro l' hl'
  simp only [List.mem_singleton] at hl'
  subst hl'
  rw [upd_same]
  exact ⟨hl, (NodeMap.mem_replace _ _ _ _ _ _).2 (Or.inr ⟨rfl, hl, hold⟩)⟩

example : Spec.ValidHistory [.newNode ["A"] [], .newNode ["A"] [], .detachRemove 0] ∧
    (run [.newNode ["A"] [], .newNode ["A"] [], .detachRemove 0, .setLabels 0 ["B"]]).bind
      (fun s => s.getNodesWithAllLabels ["B"]) = some [0] ∧
    (run [.newNode ["A"] [], .newNode ["A"] [], .detachRemove 0, .setLabels 0 ["B"]]).bind
      (fun s => s.getNodes) = some [1] := by decide +kernel

/-- `SetProperty` with an indexed key on a removed node puts the node into the index: the property lookup returns it. -/
theorem C60_index (ops : List Op) (hv : Spec.ValidHistory ops) (hi : NodeIndexSafe ops) (s : State)
    (hs : run ops = some s) (n : Nat) (hn : n ∉ (Spec.run ops).nodes) (k : String) (hk : NodeIndexed ops k) (v : Value)
    (s' : State) (h : step s (.setNodeProp n k v) = some s') :
    ∃ ns, s'.getNodesWithProperty k = some ns ∧ n ∈ ns := by
  have hix := nodeIx_run hv hi hs
  have hg := nodeIx_indexed hs (Or.inr hk)
  have hval : s.nval (Spec.run ops) k n = none := by simp only [State.nval]; rw [if_neg hn]
  cases h0 : AMap.get s.nodeIx k with
  | none => exact absurd h0 hg
  | some ix =>
    have r := hix k ix h0
    have hrem : ∀ v ixs, Indexes.remove s.nodeIx k v n = some ixs → AMap.get ixs k = some ix := by
      intro v ixs h1
      simp only [Indexes.remove, h0, Option.map_eq_some_iff] at h1
      obtain ⟨ix', h2, rfl⟩ := h1
      rw [r.remove_absent hval h2, AMap.get_set, if_pos rfl]
    simp only [LPG.step, State.setNodeProp] at h
    split at h
    · cases h
    · rename_i ixs h1
      have hget : AMap.get ixs k = some ix := by
        split at h1
        · cases h1; exact h0
        · exact hrem _ _ h1
      split at h
      · cases h
      · rename_i ixs2 h2
        cases h
        simp only [Indexes.add, hget, Option.map_eq_some_iff] at h2
        obtain ⟨ix', h3, rfl⟩ := h2
        refine ⟨ix'.valueItr, by simp [State.getNodesWithProperty, AMap.get_set], ?_⟩
        exact ((r.add hval h3).mem n).2 ⟨v, upd_same _ _ _⟩

example : Spec.ValidHistory [.newNode [] [("p", .int 1)], .newNode [] [("p", .int 2)], .addNodeIndex "p" .btree, .detachRemove 0] ∧
    NodeIndexSafe [.newNode [] [("p", .int 1)], .newNode [] [("p", .int 2)], .addNodeIndex "p" .btree, .detachRemove 0] ∧
    (run [.newNode [] [("p", .int 1)], .newNode [] [("p", .int 2)], .addNodeIndex "p" .btree, .detachRemove 0,
      .setNodeProp 0 "p" (.int 3)]).bind (fun s => s.getNodesWithProperty "p") = some [1, 0] := by decide +kernel

/-- A second `Remove` of an edge makes `NumEdges` too small by one if there are at least two edges and one of them is filed
under the label of the removed edge. -/
theorem C60_edge_again (ops : List Op) (hv : Spec.ValidHistory ops) (hr : FiledOk ops) (s : State)
    (hs : run ops = some s) (e e' : Nat) (_he : e ∉ (Spec.run ops).edges) (he' : e' ∈ (Spec.run ops).edges)
    (hl : s.edgeGetLabel e = foundUnder ops e') (h2 : 2 ≤ (Spec.run ops).edges.length) :
    ∃ s', step s (.removeEdge e) = some s' ∧ s'.numEdges = ((Spec.run ops).edges.length : Int) - 1 := by
  obtain ⟨xs, hp, r⟩ : AEx _ s (Spec.run ops) := AEx.runFrom Core.init AEx.init hv hr hs
  refine ⟨_, rfl, ?_⟩
  have hlen : 2 ≤ xs.length := by rw [hp.length_eq]; exact h2
  have hn := r.n
  have hle : s.eLabel e = Spec.new.filedFrom (fun _ => "") ops e' := by
    rw [foundUnder, if_neg (by omega)] at hl; exact hl
  cases hget : s.allEdges.lists.get (s.eLabel e) with
  | none =>
    have := r.getNone hlen _ hget
    have hm : e' ∈ xs.filter (fun x => Spec.new.filedFrom (fun _ => "") ops x = s.eLabel e) := List.mem_filter.2 ⟨hp.mem_iff.2 he', by simp [hle]⟩
    rw [this] at hm
    cases hm
  | some el =>
    have key : ∀ (P : Slot) (em : EdgeMap) (f : Nat → String) (l : EList), 2 ≤ em.n → em.lists.get (f e) = some l →
        (em.remove P f e).2.n = em.n - 1 := by
      intro P em f l h1 h3
      unfold EdgeMap.remove
      rw [if_neg (by omega), if_neg (by omega), h3]
      dsimp only
      generalize EList.remove P l e = q
      obtain ⟨q1, q2⟩ := q
      dsimp only
      split <;> split <;> (try split) <;> rfl
    have := key s.slot0 s.allEdges s.eLabel el (by omega) hget
    simp only [State.removeEdge, State.numEdges]
    show (s.allEdges.remove s.slot0 s.eLabel e).2.n = _
    rw [this, hn, hp.length_eq]

/-- edges 1, 2, 3 with one label; edge 1 is removed -/
def edgeAgainOps : List Op :=
  [.newNode [] [], .newEdge 0 0 "a" [], .newEdge 0 0 "a" [], .newEdge 0 0 "a" [], .newEdge 0 0 "b" [], .removeEdge 1]

example : Spec.ValidHistory edgeAgainOps ∧ FiledOk edgeAgainOps ∧ (Spec.run edgeAgainOps).edges = [2, 3, 4] ∧
    (run edgeAgainOps).bind (fun s => s.nodeEdges 0 .outgoing) = some [2, 3, 4] := by decide +kernel

/-- A second `Remove` of an edge empties the list of the edges with its label: live edges are lost to `GetEdges` and to
their nodes. -/
theorem C60_false_edge_again : ∃ ops e, Spec.ValidHistory ops ∧ e ∉ (Spec.run ops).edges ∧
    ¬ C60_statement (ops ++ [.removeEdge e]) := by
  refine ⟨edgeAgainOps, 1, by decide +kernel, by decide +kernel, fun h => ?_⟩
  have w : (run (edgeAgainOps ++ [.removeEdge 1])).bind (fun s => s.nodeEdges 0 .outgoing) = some [4] ∧
      (run (liveCalls (edgeAgainOps ++ [.removeEdge 1]))).bind (fun s => s.nodeEdges 0 .outgoing) = some [2, 3, 4] := by
    decide +kernel
  cases hr : run (edgeAgainOps ++ [.removeEdge 1]) with
  | none => rw [hr] at w; simp at w
  | some s =>
    obtain ⟨s0, h0, a⟩ := h s hr
    rw [hr, h0] at w
    simp only [Option.bind_some] at w
    rw [a.nodeEdges, w.2] at w
    exact absurd w.1 (by decide)

/-- A second `DetachAndRemove` can bring back another node that was removed in between, and lose a live one. -/
theorem C60_false_node_again :
    (run [.newNode [] [], .newNode [] [], .newNode [] [], .newNode [] [], .detachRemove 1, .detachRemove 2,
      .detachRemove 1]).bind (fun s => s.getNodes) = some [0, 2, 3] := by decide +kernel

/-- `SetLabel` on a removed edge puts it back among the edges of its nodes, but not of the graph. -/
theorem C60_false_set_label :
    (run [.newNode [] [], .newNode [] [], .newEdge 0 1 "a" [], .removeEdge 2, .setEdgeLabel 2 "b"]).bind
      (fun s => s.nodeEdges 0 .outgoing) = some [2] ∧
    (run [.newNode [] [], .newNode [] [], .newEdge 0 1 "a" [], .removeEdge 2, .setEdgeLabel 2 "b"]).bind
      (fun s => s.getEdges) = some [] := by decide +kernel

/-- `NewEdge` to a removed node succeeds: the graph then has an edge to a node it does not have. -/
theorem C60_false_new_edge :
    (run [.newNode [] [], .newNode [] [], .newNode [] [], .detachRemove 1, .newEdge 0 1 "a" []]).bind
      (fun s => s.getEdges.map (fun es => (es, es.map s.edgeGetTo))) = some ([3], [1]) ∧
    (run [.newNode [] [], .newNode [] [], .newNode [] [], .detachRemove 1, .newEdge 0 1 "a" []]).bind
      (fun s => s.getNodes) = some [0, 2] := by decide +kernel

/-- C60 is not true for all histories. -/
theorem C60_false : ¬ ∀ ops, C60_statement ops := by
  obtain ⟨ops, e, _, _, h⟩ := C60_false_edge_again
  exact fun hh => h (hh _)

end LPG
