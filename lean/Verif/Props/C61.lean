import Verif.Props.C12C16
import Verif.Props.C59
import Verif.Proofs.LivePropsScan
/-!
# C61: loops over the nodes or edges with a property that change the graph

`s.liveNodeHash k evs` runs a program that holds an iterator returned by `GetNodesWithProperty(k)` in the state `s`, with a hash
index for `k`; `s.liveEdgeHash` is the same for edges, and `s.liveNodeScan` for nodes without an index. `evs` says when the
program calls `Next` and when it calls operations of the graph. The log says what happened. Every loop body is covered.
-/
namespace LPG
open State

/-- The full property, for nodes: any valid calls between the calls of `Next`. -/
def C61_statement (k : String) (ops : List Op) (evs : List Event) : Prop :=
  ∀ s log s', run ops = some s → Spec.ValidHistory (ops ++ Seen.ops log) →
    (∀ it, s.liveNodeHash k evs = some (log, s', it) → VisitsHaving (fun σ n => σ.NHas k n) ops log) ∧
    (∀ it, s.liveNodeScan k evs = some (log, s', it) → VisitsHaving (fun σ n => σ.NHas k n) ops log)

/-- The same for edges. -/
def C61_edge_statement (k : String) (ops : List Op) (evs : List Event) : Prop :=
  ∀ s log s' it, run ops = some s → Spec.ValidHistory (ops ++ Seen.ops log) →
    s.liveEdgeHash k evs = some (log, s', it) → VisitsHaving (fun σ e => σ.EHas k e) ops log

variable {k : String} {ops : List Op} {evs : List Event} {s s' : State} {log : List Seen}

/-! ## With a hash index -/

theorem nodeHash_start {l : List (Nat × Nat)} (hv : Spec.ValidHistory ops) (hi : NodeIndexSafe ops) (hs : run ops = some s)
    (hc : hashCells s.nodeIx k = some l) : NHashInv k (fun n => (Spec.run ops).NHas k n) s (Spec.run ops) l.head? [] := by
  have c := Core.run hv hs
  have r := (nodeIx_run hv hi hs).krep hc
  refine ⟨c, by simp, l, r, ?_⟩
  have := CellInv.start l
  have e : (fun n => n ∈ l.map Prod.snd) = (fun n => (Spec.run ops).NHas k n) :=
    funext fun n => propext ((r.mem n).trans (nval_has c))
  rwa [e] at this

theorem edgeHash_krep {l : List (Nat × Nat)} (hv : Spec.ValidHistory ops) (hi : EdgeIndexIntact ops) (hs : run ops = some s)
    (hc : hashCells s.edgeIx k = some l) : KRep k s.edgeIx (s.zval (Spec.run ops) [] k) l :=
  ((edgeIx_run hv hi hs).krep hc).congr (fun x => by simp [State.zval, State.eval])

theorem zval_iff (c : Core s (Spec.run ops)) {e : Nat} : s.zval (Spec.run ops) [] k e ≠ none ↔ (Spec.run ops).EHas k e := by
  refine ⟨fun h => (zval_has c h).resolve_right (by simp), ?_⟩
  rintro ⟨h1, h2⟩
  simp only [State.zval]
  rw [if_pos (.inl h1), (c.eprops e h1).2 k]
  exact h2

theorem edgeHash_start {l : List (Nat × Nat)} (hv : Spec.ValidHistory ops) (hi : EdgeIndexIntact ops) (hs : run ops = some s)
    (hc : hashCells s.edgeIx k = some l) : EHashInv k (fun n => (Spec.run ops).EHas k n) s (Spec.run ops) l.head? [] := by
  have c := Core.run hv hs
  have r := edgeHash_krep hv hi hs hc
  refine ⟨c, by simp, l, [], by simp, r, ?_⟩
  have := CellInv.start l
  have e : (fun n => n ∈ l.map Prod.snd) = (fun n => (Spec.run ops).EHas k n) :=
    funext fun n => propext ((r.mem n).trans (zval_iff c))
  rwa [e] at this

/-- A body may remove the nodes visited before and take the property from them; it may give the property to nodes that were
not visited and do not have it; it may create nodes, with or without the property, and call anything else.
Missing: bodies that change the property of a node that has it, give it to a node visited before, or take it from a node that
was not visited. The property is false for each of these (`C61_false_set`, `C61_false_again`, `C61_false_ahead`). Also indexes
that were wrong from the start (C12), and btree indexes. -/
theorem C61_nodes_partial {it : Option (Nat × Nat)} (hs : run ops = some s) (hl : s.liveNodeHash k evs = some (log, s', it))
    (hv : Spec.ValidHistory (ops ++ Seen.ops log)) (hi : NodeIndexSafe ops) (hg : GentleNPropLoop k ops log) :
    VisitsHaving (fun σ n => σ.NHas k n) ops log := by
  obtain ⟨hv1, hv2⟩ := Spec.validFrom_append.1 hv
  rw [State.liveNodeHash, liveCells] at hl
  split at hl
  · cases hl
  · rename_i l hc
    obtain ⟨h1, h2, h3, -⟩ := live_loop (Inv := NHashInv k (fun n => (Spec.run ops).NHas k n)) (A := fun σ x => σ.NHas k x)
      (K := fun n => (Spec.run ops).NHas k n) (G := fun σ Y op => σ.GentleNProp k Y op)
      (by
        intro s σ it Y x it' hi ha
        obtain ⟨r, it1, h1, h2, -⟩ := hi.adv
        rw [ha] at h1
        cases h1
        exact h2 x rfl)
      (by
        intro s σ it Y it' hi ha
        obtain ⟨r, it1, h1, -, h2⟩ := hi.adv
        rw [ha] at h1
        cases h1
        exact h2 rfl)
      (fun s σ it Y op s' hi hv hg hs => hi.op hv hg hs) (nodeHash_start hv1 hi hs hc) List.nodup_nil hl hv2 hg
    refine ⟨by simpa using h1, ?_, ?_⟩
    · intro p x r hp; rw [Spec.run_append]; exact h2 p x r hp
    · intro p r hp e he; simpa using h3 p r hp e he

/-- The same for edges.
Missing: as for nodes; also loops after a history that called `Edge.Remove` for edges with the property, which leaves them in
the index (C13). The body may do this. -/
theorem C61_edges_partial {it : Option (Nat × Nat)} (hs : run ops = some s) (hl : s.liveEdgeHash k evs = some (log, s', it))
    (hv : Spec.ValidHistory (ops ++ Seen.ops log)) (hi : EdgeIndexIntact ops) (hg : GentleEPropLoop k ops log) :
    VisitsHaving (fun σ e => σ.EHas k e) ops log := by
  obtain ⟨hv1, hv2⟩ := Spec.validFrom_append.1 hv
  rw [State.liveEdgeHash, liveCells] at hl
  split at hl
  · cases hl
  · rename_i l hc
    obtain ⟨h1, h2, h3, -⟩ := live_loop (Inv := EHashInv k (fun n => (Spec.run ops).EHas k n)) (A := fun σ x => σ.EHas k x)
      (K := fun n => (Spec.run ops).EHas k n) (G := fun σ Y op => σ.GentleEProp k Y op)
      (by
        intro s σ it Y x it' hi ha
        obtain ⟨r, it1, h1, h2, -⟩ := hi.adv
        rw [ha] at h1
        cases h1
        exact h2 x rfl)
      (by
        intro s σ it Y it' hi ha
        obtain ⟨r, it1, h1, -, h2⟩ := hi.adv
        rw [ha] at h1
        cases h1
        exact h2 rfl)
      (fun s σ it Y op s' hi hv hg hs => hi.op hv hg hs) (edgeHash_start hv1 hi hs hc) List.nodup_nil hl hv2 hg
    refine ⟨by simpa using h1, ?_, ?_⟩
    · intro p x r hp; rw [Spec.run_append]; exact h2 p x r hp
    · intro p r hp e he; simpa using h3 p r hp e he

/-- Four nodes and three edges; three of the nodes and all edges have the property, and there are indexes for it. -/
def propLoopOps : List Op :=
  [.addNodeIndex "p" .hash, .newNode ["a"] [("p", .int 1)], .newNode [] [("p", .int 2), ("q", .str "x")], .newNode [] [],
   .newNode ["b"] [("p", .int 1)], .newEdge 0 1 "e" [("p", .int 1)], .newEdge 1 2 "f" [("p", .int 1)],
   .newEdge 3 0 "e" [("p", .int 5)], .addEdgeIndex "p" .hash]

/-- A loop over the nodes: it removes the first, gives the property to the third, takes it from the second, and makes a node. -/
def propLoopEvents : List Event :=
  [.next, .op (.detachRemove 0), .op (.setNodeProp 2 "p" (.int 7)), .next, .op (.removeNodeProp 1 "p"),
   .op (.newNode [] [("p", .int 9)]), .op (.setNodeProp 3 "q" (.int 9)), .next, .next, .next, .op (.detachRemove 7), .next]

example : ∃ s log s' it, run propLoopOps = some s ∧ s.liveNodeHash "p" propLoopEvents = some (log, s', it) ∧
    Spec.ValidHistory (propLoopOps ++ Seen.ops log) ∧ NodeIndexSafe propLoopOps ∧ GentleNPropLoop "p" propLoopOps log ∧
    Seen.visited log = [0, 1, 3, 2, 7] ∧ log.length = 12 := by
  refine ⟨_, _, _, _, rfl, rfl, ?_⟩
  decide +kernel

/-- A loop over the edges: it removes the first and makes one, then removes a node with an edge visited before. -/
example : ∃ s log s' it, run propLoopOps = some s ∧
    s.liveEdgeHash "p" [.next, .op (.removeEdge 4), .op (.newEdge 0 1 "g" [("p", .int 3)]), .next, .op (.detachRemove 3), .next,
      .next, .next] = some (log, s', it) ∧
    Spec.ValidHistory (propLoopOps ++ Seen.ops log) ∧ EdgeIndexIntact propLoopOps ∧ GentleEPropLoop "p" propLoopOps log ∧
    Seen.visited log = [4, 6, 5, 7] := by
  refine ⟨_, _, _, _, rfl, rfl, ?_⟩
  decide +kernel

/-! ## Where it is false -/

/-- The body removes the node that comes next: the loop ends, though there is another node with the property. -/
theorem C61_false_ahead : ∃ k ops evs, NodeIndexSafe ops ∧ ¬ C61_statement k ops evs := by
  refine ⟨"p", propLoopOps, [.next, .op (.detachRemove 1), .next, .next], by decide +kernel, ?_⟩
  intro h
  have := ((h _ [.item 0, .did (.detachRemove 1), .item 1, .last] _ rfl (by decide +kernel)).1 none rfl).all
    [.item 0, .did (.detachRemove 1), .item 1] [] rfl 3 (by decide +kernel)
  revert this
  decide +kernel

/-- And it yields the removed node. -/
theorem C61_false_removed : ∃ k ops evs, NodeIndexSafe ops ∧ ¬ C61_statement k ops evs := by
  refine ⟨"p", propLoopOps, [.next, .op (.detachRemove 1), .next], by decide +kernel, ?_⟩
  intro h
  have := ((h _ [.item 0, .did (.detachRemove 1), .item 1] _ rfl (by decide +kernel)).1 none rfl).alive
    [.item 0, .did (.detachRemove 1)] 1 [] rfl
  revert this
  decide +kernel

/-- The body changes the property of the node it is at: the loop visits the node again. -/
theorem C61_false_set : ∃ k ops evs, NodeIndexSafe ops ∧ ¬ C61_statement k ops evs := by
  refine ⟨"p", propLoopOps, [.next, .op (.setNodeProp 0 "p" (.int 4)), .next, .next, .next], by decide +kernel, ?_⟩
  intro h
  have := ((h _ [.item 0, .did (.setNodeProp 0 "p" (.int 4)), .item 1, .item 3, .item 0] _ rfl (by decide +kernel)).1
    none rfl).once
  revert this
  decide +kernel

/-- The body takes the property from a node and gives it back: the loop visits the node again. -/
theorem C61_false_again : ∃ k ops evs, NodeIndexSafe ops ∧ ¬ C61_statement k ops evs := by
  refine ⟨"p", propLoopOps, [.next, .op (.removeNodeProp 0 "p"), .op (.setNodeProp 0 "p" (.int 1)), .next, .next, .next],
    by decide +kernel, ?_⟩
  intro h
  have := ((h _ [.item 0, .did (.removeNodeProp 0 "p"), .did (.setNodeProp 0 "p" (.int 1)), .item 1, .item 3, .item 0] _ rfl
    (by decide +kernel)).1 none rfl).once
  revert this
  decide +kernel

/-- For edges, too: the body changes the property of the edge it is at. -/
theorem C61_false_edge : ∃ k ops evs, EdgeIndexIntact ops ∧ ¬ C61_edge_statement k ops evs := by
  refine ⟨"p", [.addEdgeIndex "p" .hash, .newNode [] [], .newEdge 0 0 "e" [("p", .int 1)], .newEdge 0 0 "e" [("p", .int 2)]],
    [.next, .op (.setEdgeProp 1 "p" (.int 4)), .next, .next], by decide +kernel, ?_⟩
  intro h
  have := (h _ [.item 1, .did (.setEdgeProp 1 "p" (.int 4)), .item 2, .item 1] _ _ rfl (by decide +kernel) rfl).once
  revert this
  decide +kernel

/-! ## Loops that set the property -/

theorem two_le {l : List (Nat × Nat)} {a b : Nat} (ha : a ∈ l.map Prod.snd) (hb : b ∈ l.map Prod.snd) (hab : a ≠ b) :
    2 ≤ l.length := by
  have := List.Subperm.length_le (List.subperm_of_subset (l₁ := [a, b]) (l₂ := l.map Prod.snd) (by simp [hab]) (by
    intro x hx
    simp only [List.mem_cons, List.not_mem_nil, or_false] at hx
    rcases hx with rfl | rfl <;> assumption))
  simpa using this

/-- With a hash index, if two nodes have the property, a loop that sets the property of every node it visits never ends:
however many rounds, no call panics and `Next` returns true. The new values may be the old ones. -/
theorem C61_forever {l : List (Nat × Nat)} (f : Nat → Value) (hf : ∀ n, hkey (unwrap1 (f n)) ≠ none)
    (hv : Spec.ValidHistory ops) (hi : NodeIndexSafe ops) (hs : run ops = some s) (hc : hashCells s.nodeIx k = some l)
    {a b : Nat} (ha : (Spec.run ops).NHas k a) (hb : (Spec.run ops).NHas k b) (hab : a ≠ b) (m : Nat) :
    ∃ xs s' it', xs.length = m ∧ s.liveNodeHash k (someRounds (fun n => .setNodeProp n k (f n)) xs) =
      some (someLog (fun n => .setNodeProp n k (f n)) xs, s', it') := by
  have c := Core.run hv hs
  have r := (nodeIx_run hv hi hs).krep hc
  have mem : ∀ n, n ∈ l.map Prod.snd ↔ (Spec.run ops).NHas k n := fun n => (r.mem n).trans (nval_has c)
  obtain ⟨xs, s', it', h1, h2⟩ := nodeHash_forever hf c r (two_le ((mem a).2 ha) ((mem b).2 hb) hab) m
  refine ⟨xs, s', it', h1, ?_⟩
  rw [State.liveNodeHash, liveCells, hc]
  exact h2

/-- The same for edges. -/
theorem C61_edges_forever {l : List (Nat × Nat)} (f : Nat → Value) (hf : ∀ n, hkey (unwrap1 (f n)) ≠ none)
    (hv : Spec.ValidHistory ops) (hi : EdgeIndexIntact ops) (hs : run ops = some s) (hc : hashCells s.edgeIx k = some l)
    {a b : Nat} (ha : (Spec.run ops).EHas k a) (hb : (Spec.run ops).EHas k b) (hab : a ≠ b) (m : Nat) :
    ∃ xs s' it', xs.length = m ∧ s.liveEdgeHash k (someRounds (fun n => .setEdgeProp n k (f n)) xs) =
      some (someLog (fun n => .setEdgeProp n k (f n)) xs, s', it') := by
  have c := Core.run hv hs
  have r := edgeHash_krep hv hi hs hc
  have mem : ∀ n, n ∈ l.map Prod.snd ↔ (Spec.run ops).EHas k n := fun n => (r.mem n).trans (zval_iff c)
  obtain ⟨xs, s', it', h1, h2⟩ := edgeHash_forever hf c r (two_le ((mem a).2 ha) ((mem b).2 hb) hab) m
  refine ⟨xs, s', it', h1, ?_⟩
  rw [State.liveEdgeHash, liveCells, hc]
  exact h2

example : ∃ s, run propLoopOps = some s ∧ Spec.ValidHistory propLoopOps ∧ NodeIndexSafe propLoopOps ∧
    EdgeIndexIntact propLoopOps ∧ (hashCells s.nodeIx "p").map (List.map Prod.snd) = some [0, 1, 3] ∧
    ((hashCells s.edgeIx "p").map List.length) = some 3 ∧ (Spec.run propLoopOps).NHas "p" 1 ∧
    (Spec.run propLoopOps).EHas "p" 4 := by
  refine ⟨_, rfl, ?_⟩
  decide +kernel

/-! ## Without an index -/

/-- Without an index the body may also change the property, take it from nodes not visited yet, and give it back. The loop
visits the nodes in the order of creation, each at most once, and none that lacks the property.
Missing: nodes that are created after the newest one was removed, and bodies that remove nodes not visited yet; the list of
all nodes is wrong for them (C57). -/
theorem C61_scan_partial {it : NodeIt} (hs : run ops = some s) (hl : s.liveNodeScan k evs = some (log, s', it))
    (hv : Spec.ValidHistory (ops ++ Seen.ops log)) (hc : ListOk (ops ++ Seen.ops log))
    (hr : RemovesVisited [] log) : VisitsKeeping k ops log := by
  obtain ⟨hv1, hv2⟩ := Spec.validFrom_append.1 hv
  rw [State.liveNodeScan] at hl
  split at hl
  · cases hl
  · obtain ⟨evs', log', h1, h2⟩ := scan_live (Core.run hv1 hs) hl hv2
    have h3 : VisitsNodes ops log' := C57_partial hs h1 (by rw [h2.ops]; exact hv) (by rw [h2.ops]; exact hc)
      (h2.removes (by simp) hr)
    refine ⟨h3.order.sublist h2.visited, ?_, ?_⟩
    · intro p x r hp
      obtain ⟨p2, r2, h4, h5, h6⟩ := h2.split_item hp
      have h7 := h3.alive p2 x r2 h4
      rw [h5] at h7
      refine ⟨h7, ?_⟩
      rw [Spec.run_append] at h7 ⊢
      exact h6 h7
    · intro p r hp n hn
      obtain ⟨p2, r2, h4, h5⟩ := h2.split_last hp
      have h6 := h3.all p2 r2 h4 n (by simpa [Seen.ops] using (hn [] p rfl).1)
      rcases h5.find h6 with h7 | ⟨q, t, h7, h8⟩
      · exact h7
      · have h9 := hn q t h7
        rw [Spec.run_append] at h9
        exact absurd h9.2 (h8 h9.1)

/-- Whatever the body removes, the loop visits every node that keeps the property, and each node at most once.
Missing: graphs whose list of nodes was wrong when the loop began (C01). -/
theorem C61_scan_survivors_partial {it : NodeIt} (hs : run ops = some s) (hl : s.liveNodeScan k evs = some (log, s', it))
    (hv : Spec.ValidHistory (ops ++ Seen.ops log)) (hc : ListOk ops) :
    (Seen.visited log).Pairwise (· < ·) ∧
    ∀ p r, log = p ++ .last :: r → ∀ n, (∀ q t, p = q ++ t → (Spec.run (ops ++ Seen.ops q)).NHas k n) → n ∈ Seen.visited p := by
  obtain ⟨hv1, hv2⟩ := Spec.validFrom_append.1 hv
  rw [State.liveNodeScan] at hl
  split at hl
  · cases hl
  · obtain ⟨evs', log', h1, h2⟩ := scan_live (Core.run hv1 hs) hl hv2
    have h3 : VisitsSurvivors ops log' := C57_survivors_partial hs h1 (by rw [h2.ops]; exact hv) hc
    refine ⟨h3.order.sublist h2.visited, ?_⟩
    intro p r hp n hn
    obtain ⟨p2, r2, h4, h5⟩ := h2.split_last hp
    have h6 := h3.all p2 r2 h4 n (by simpa [Seen.ops] using (hn [] p rfl).1)
      (by rw [h5.ops]; exact (hn p [] (by simp)).1)
    rcases h5.find h6 with h7 | ⟨q, t, h7, h8⟩
    · exact h7
    · have h9 := hn q t h7
      rw [Spec.run_append] at h9
      exact absurd h9.2 (h8 h9.1)

/-- A loop over the nodes with the property `q`, which has no index: it changes the property where it is, takes it from a node
ahead, gives it to another, and removes a node. -/
example : ∃ s log s' it, run (propLoopOps ++ [.setNodeProp 0 "q" (.int 1), .setNodeProp 3 "q" (.int 1)]) = some s ∧
    s.liveNodeScan "q" [.next, .op (.setNodeProp 0 "q" (.int 2)), .op (.removeNodeProp 1 "q"), .op (.setNodeProp 2 "q" (.int 2)),
      .next, .op (.detachRemove 0), .next, .next] = some (log, s', it) ∧
    Spec.ValidHistory (propLoopOps ++ [.setNodeProp 0 "q" (.int 1), .setNodeProp 3 "q" (.int 1)] ++ Seen.ops log) ∧
    ListOk (propLoopOps ++ [.setNodeProp 0 "q" (.int 1), .setNodeProp 3 "q" (.int 1)] ++ Seen.ops log) ∧
    RemovesVisited [] log ∧ Seen.visited log = [0, 2, 3] := by
  refine ⟨_, _, _, _, rfl, rfl, ?_⟩
  decide +kernel

end LPG
