import Verif.Proofs.WorldTotal
/-!
# C51: every graph of a program with several graphs is right

`Shows` (Verif.Spec.World) lists the queries. The abstract graphs `WSpec.run ops` are changed by the calls on their own
graph only.
-/
namespace LPG
open World

/-- In a program with any number of graphs that uses live handles, each graph whose own history satisfies the exact
condition of C01 (`ListOk`) and the condition of C04 (`FiledOk`) answers every query with what the calls on this graph have
built. Calls on other graphs, even on spoiled ones, do not matter.
Partial: the two conditions are those of C01 and C04. -/
theorem C51_partial {ops : List (Nat × Op)} {W : World} (hv : WSpec.ValidHistory ops) (h : World.run ops = some W) {g : Nat}
    (hc : WSpec.Clean g ops) : Shows (W.view g) (WSpec.run ops g) := by
  have r := Rep.init.runFrom hv h
  obtain ⟨d, R, l, _⟩ := Rep.init.lists (Lists.init g) hv hc h
  exact r.shows l

/-- Without conditions: each live node of each graph has its labels, its properties and its edges, each live edge has its
ends, label and properties. -/
theorem C51_always {ops : List (Nat × Op)} {W : World} (hv : WSpec.ValidHistory ops) (h : World.run ops = some W) (g : Nat) :
    (∀ n ∈ (WSpec.run ops g).nodes, W.nodeGraph n = some g ∧
      (∀ l, l ∈ (W.view g).nodeGetLabels n ↔ l ∈ (WSpec.run ops g).labels n) ∧
      (∀ k, (W.view g).nodeProperty n k = (WSpec.run ops g).nprop n k) ∧
      (∃ es, (W.view g).nodeEdges n .outgoing = some es ∧
        es.Perm ((WSpec.run ops g).edges.filter (fun e => (WSpec.run ops g).src e = n))) ∧
      (∃ es, (W.view g).nodeEdges n .incoming = some es ∧
        es.Perm ((WSpec.run ops g).edges.filter (fun e => (WSpec.run ops g).dst e = n)))) ∧
    (∀ e ∈ (WSpec.run ops g).edges, W.edgeGraph e = some g ∧
      (W.view g).edgeGetFrom e = (WSpec.run ops g).src e ∧ (W.view g).edgeGetTo e = (WSpec.run ops g).dst e ∧
      (W.view g).edgeGetLabel e = (WSpec.run ops g).label e ∧
      (∀ k, (W.view g).edgeProperty e k = (WSpec.run ops g).eprop e k)) := by
  have r := Rep.init.runFrom hv h
  have c := r.core g
  exact ⟨fun n hn => ⟨r.ownN g n hn, (c.labels n hn).2, (c.nprops n hn).2, c.out_enum hn, c.inc_enum hn⟩,
    fun e he => ⟨r.ownE g e he, (c.eattr e he).1, (c.eattr e he).2.1, (c.eattr e he).2.2, (c.eprops e he).2⟩⟩

/-- Without conditions: the enumeration of the nodes of each graph is the one of C01 for the calls on this graph. -/
theorem C51_listing {ops : List (Nat × Op)} {W : World} (hv : WSpec.ValidHistory ops) (h : World.run ops = some W) (g : Nat) :
    (W.view g).getNodes = some (WSpec.listing g ops).nodes :=
  ((Showing.init g).runFrom Rep.init hv h).shows.getNodes ((Rep.init.runFrom hv h).core g)

/-- Without conditions: all nodes and edges that belong to a graph, also those that were removed, have the labels,
properties and ends that the calls on this graph gave to them. -/
theorem C51_kept {ops : List (Nat × Op)} {W : World} (hv : WSpec.ValidHistory ops) (h : World.run ops = some W) (g : Nat) :
    (∀ n, W.nodeGraph n = some g → (∀ l, l ∈ (W.view g).nodeGetLabels n ↔ l ∈ (WSpec.run ops g).labels n) ∧
      ∀ k, (W.view g).nodeProperty n k = (WSpec.run ops g).nprop n k) ∧
    (∀ e, W.edgeGraph e = some g → (W.view g).edgeGetFrom e = (WSpec.run ops g).src e ∧
      (W.view g).edgeGetTo e = (WSpec.run ops g).dst e ∧ (W.view g).edgeGetLabel e = (WSpec.run ops g).label e ∧
      ∀ k, (W.view g).edgeProperty e k = (WSpec.run ops g).eprop e k) := by
  have k := (Ordered.init.runFrom Rep.init hv h).kept g
  exact ⟨fun n hn => ⟨(k.labels n hn).2, (k.nprops n hn).2⟩,
    fun e he => ⟨(k.eattr e he).1, (k.eattr e he).2.1, (k.eattr e he).2.2, (k.eprops e he).2⟩⟩

/-- A valid program never meets a foreign node. -/
theorem C51_noForeign {ops : List (Nat × Op)} {W W' : World} {g : Nat} {op : Op} {b : Bool}
    (hv : WSpec.ValidHistory (ops ++ [(g, op)])) (h : World.run ops = some W) (hs : W.step g op = some (W', b)) :
    b = false ∧ W.target g op = some g := by
  have split : ∀ {l : List (Nat × Op)} {ω : WSpec}, ω.ValidFrom (l ++ [(g, op)]) → ω.ValidFrom l ∧ (ω.runFrom l g).Valid op := by
    intro l
    induction l with
    | nil => intro ω h; exact ⟨trivial, h.1⟩
    | cons p l ih => obtain ⟨k, o⟩ := p; intro ω h; exact ⟨⟨h.1, (ih h.2).1⟩, (ih h.2).2⟩
  obtain ⟨h1, h2⟩ := split hv
  have r := Rep.init.runFrom h1 h
  exact ⟨(r.step h2 hs).1, (r.target h2).1⟩

theorem clean_absent {g : Nat} : ∀ {ops : List (Nat × Op)} {ω : WSpec} {d : ListFlags} {R : Nat → String}, (∀ p ∈ ops, p.1 ≠ g) →
    ω.CleanFrom g d R ops
  | [], _, _, _, _ => trivial
  | (h, op) :: ops, ω, d, R, ha => by
    have hn : h ≠ g := ha (h, op) (by simp)
    refine ⟨fun e => absurd e hn, ?_⟩
    simp only [if_neg hn]
    exact clean_absent (fun p hp => ha p (by simp [hp]))

/-- A program returns from all its calls, if no graph it uses is spoiled by C01/C04 and the values given to properties with an
index suit the index. -/
theorem C51_returns_partial {ops : List (Nat × Op)} (hv : WSpec.ValidHistory ops) (hc : ∀ p ∈ ops, WSpec.Clean p.1 ops)
    (hn : ∀ g k ty, (g, Op.addNodeIndex k ty) ∈ ops → Indexable (WSpec.NodeValue ops k) ty)
    (he : ∀ g k ty, (g, Op.addEdgeIndex k ty) ∈ ops → Indexable (WSpec.EdgeValue ops k) ty) : World.run ops ≠ none := by
  refine world_total (Pn := WSpec.NodeValue ops) (Pe := WSpec.EdgeValue ops) ⟨Rep.init, Ordered.init, fun g => ⟨_, _, Lists.init g, ?_⟩⟩ hv
    (fun g => SafeIx.init _ _) (fun p hp k v h => ⟨p, hp, h⟩) (fun p hp k v h => ⟨p, hp, h⟩) hn he
  by_cases h : ∃ p ∈ ops, p.1 = g
  · obtain ⟨p, hp, rfl⟩ := h
    exact hc p hp
  · exact clean_absent (fun p hp e => h ⟨p, hp, e⟩)

/-- Two graphs with indexes of both types. -/
def indexedGraphs : List (Nat × Op) :=
  [(0, .addNodeIndex "k" .hash), (1, .addNodeIndex "k" .btree), (0, .newNode ["A"] [("k", .str "v")]), (1, .newNode ["B"] [("k", .str "w")]),
   (0, .newNode [] []), (1, .newEdge 1 1 "e" [("x", .int 1)]), (1, .addEdgeIndex "x" .btree), (0, .newEdge 0 2 "e" [("x", .int 2)]),
   (0, .setNodeProp 2 "k" (.str "u")), (1, .detachRemove 1)]

theorem indexedGraphs_nodes {k : String} {v : Value} (h : WSpec.NodeValue indexedGraphs k v) : k = "k" ∧ ∃ x, v = .str x := by
  obtain ⟨p, hp, h⟩ := h
  simp only [indexedGraphs, List.mem_cons, List.not_mem_nil, or_false] at hp
  rcases hp with rfl | rfl | rfl | rfl | rfl | rfl | rfl | rfl | rfl | rfl <;> simp [Op.nodeVals] at h <;>
    exact ⟨h.1, _, h.2⟩

theorem indexedGraphs_edges {k : String} {v : Value} (h : WSpec.EdgeValue indexedGraphs k v) : k = "x" ∧ ∃ x, v = .int x := by
  obtain ⟨p, hp, h⟩ := h
  simp only [indexedGraphs, List.mem_cons, List.not_mem_nil, or_false] at hp
  rcases hp with rfl | rfl | rfl | rfl | rfl | rfl | rfl | rfl | rfl | rfl <;> simp [Op.edgeVals] at h <;>
    exact ⟨h.1, _, h.2⟩

theorem indexable_str {P : Value → Prop} (h : ∀ v, P v → ∃ x, v = .str x) (ty : IndexType) : Indexable P ty := by
  cases ty with
  | btree =>
    intro v w hv hw
    obtain ⟨x, rfl⟩ := h v hv
    obtain ⟨y, rfl⟩ := h w hw
    simp [cmp]
  | hash =>
    intro v hv
    obtain ⟨x, rfl⟩ := h v hv
    simp [unwrap1, hkey]

theorem indexable_int {P : Value → Prop} (h : ∀ v, P v → ∃ x, v = .int x) (ty : IndexType) : Indexable P ty := by
  cases ty with
  | btree =>
    intro v w hv hw
    obtain ⟨x, rfl⟩ := h v hv
    obtain ⟨y, rfl⟩ := h w hw
    simp [cmp]
  | hash =>
    intro v hv
    obtain ⟨x, rfl⟩ := h v hv
    simp [unwrap1, hkey]

example : World.run indexedGraphs ≠ none :=
  C51_returns_partial (by decide +kernel) (by decide +kernel)
    (fun _ k ty _ => indexable_str (fun _ h => (indexedGraphs_nodes h).2) ty)
    (fun _ k ty _ => indexable_int (fun _ h => (indexedGraphs_edges h).2) ty)

/-- Two graphs: graph 1 loses its newest node and a relabelled edge and then grows, so that it is spoiled; graph 0 is
not, though it grows in between. -/
def spoiledNeighbour : List (Nat × Op) :=
  [(0, .newNode ["A"] [("k", .str "v")]), (1, .newNode ["B"] []), (0, .newNode ["A"] []), (1, .newNode [] []),
   (0, .newEdge 0 2 "e" []), (1, .newEdge 1 1 "f" []), (1, .newEdge 1 1 "f" []), (1, .setEdgeLabel 5 "g"), (1, .removeEdge 5),
   (1, .detachRemove 3), (0, .newNode [] []), (1, .newNode [] []), (0, .newEdge 7 0 "e" []), (0, .setLabels 2 ["C"]),
   (0, .detachRemove 0)]

example : WSpec.ValidHistory spoiledNeighbour ∧ WSpec.Clean 0 spoiledNeighbour ∧ ¬ WSpec.Clean 1 spoiledNeighbour ∧
    (World.run spoiledNeighbour).map (fun W => (W.view 0).getNodes) = some (some [2, 7]) ∧
    (WSpec.run spoiledNeighbour 0).nodes = [2, 7] ∧ (WSpec.run spoiledNeighbour 1).nodes = [1, 8] ∧
    (World.run spoiledNeighbour).map (fun W => (W.view 1).getNodes) = some (some [1]) ∧
    (WSpec.listing 1 spoiledNeighbour).nodes = [1] ∧ (World.run spoiledNeighbour).map (fun W => W.nodeGraph 3) = some (some 1) ∧
    (World.run spoiledNeighbour).map (fun W => W.edgeGraph 5) = some (some 1) ∧ (WSpec.run spoiledNeighbour 1).label 5 = "g" := by
  decide +kernel

/-- Graph 0 is emptied and filled again, and its only edge is relabelled and removed; both are allowed. -/
def refilledGraph : List (Nat × Op) :=
  [(0, .newNode ["A"] []), (1, .newNode ["B"] []), (0, .detachRemove 0), (0, .newNode ["C"] []), (1, .newNode [] []),
   (0, .newNode ["D"] []), (0, .newEdge 2 4 "e" []), (0, .setEdgeLabel 5 "f"), (0, .removeEdge 5), (0, .newEdge 4 2 "g" [])]

example : WSpec.ValidHistory refilledGraph ∧ WSpec.Clean 0 refilledGraph ∧ World.run refilledGraph ≠ none ∧
    (WSpec.run refilledGraph 0).nodes = [2, 4] ∧ (WSpec.run refilledGraph 0).edges = [6] := by
  decide +kernel

end LPG
