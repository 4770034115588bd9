import Verif.Proofs.CloneLive
import Verif.Props.C38Several
import Verif.Props.C64
/-!
# C37, C38, C64 with the iterators as they are

The loops of `CopyGraph`, `CopyGraphf` and `CopySubgraph` read the lists of edges while the copies are made. The theorems say
that they do the same as with lists of the edges that were made before the loop, so that all theorems about
`copyGraph`, `copyGraphf` and `copySubgraph` are about the loops as they are.
-/
namespace LPG
open World CopyF

/-- The nodes of a graph and what is known of their edges. -/
theorem roots {W : World} {ω : WSpec} (r : Rep W ω) (o : Ordered W ω) (s : Nat) : Roots W (ω s).nodes := by
  refine ⟨fun n hn => r.inv.nodeLt n s (r.ownN s n hn), fun n hn => ?_⟩
  obtain ⟨xs, h1, h2⟩ := (r.core s).out_enum hn
  refine ⟨xs, h1, fun e he => ?_⟩
  rw [h2.mem_iff] at he
  simp only [List.mem_filter, decide_eq_true_eq] at he
  have hE := r.ownE s e he.1
  have ha : W.heap.eFrom e = (ω s).src e ∧ W.heap.eTo e = (ω s).dst e :=
    ⟨((o.kept s).eattr e hE).1, ((o.kept s).eattr e hE).2.1⟩
  exact ⟨r.inv.eLt hE, by rw [ha.1]; exact he.2, by rw [ha.2]; exact ((r.core s).ends e he.1).2⟩

/-- `CopySubgraph`, after any program, for any node of any graph, to any graph (that of the node, too), with any map: the loop
over the outgoing edges of each node does the same as with a list of the edges that is made before the loop. -/
theorem C38_live {ops : List (Nat × Op)} {W : World} (hv : WSpec.ValidHistory ops) (hr : World.run ops = some W)
    {s : Nat} (t : Nat) (f : String → Value → Value) (m : AMap Nat Nat) {n : Nat} (hn : n ∈ (WSpec.run ops s).nodes) :
    copySubgraphLive t f (W, m) n = copySubgraph t f (W, m) n := by
  have r := Rep.init.runFrom hv hr
  exact (copySubgraphLive_same (roots r (Ordered.init.runFrom Rep.init hv hr) s) _ (Nat.lt_succ_self _) hn
    (Behind.start r.inv.edgeLt m) (fun _ h => h)).1

/-- the calls of `CopySubgraph` for the nodes of a list, one after the other, with the same map -/
def copySubgraphsLive (t : Nat) (f : String → Value → Value) (st : World × AMap Nat Nat) :
    List Nat → Option (World × AMap Nat Nat)
  | [] => some st
  | n :: ns => (copySubgraphLive t f st n).bind (fun st => copySubgraphsLive t f st ns)

/-- The same for several calls of `CopySubgraph` with one map. -/
theorem C38_live_several {ops : List (Nat × Op)} {W : World} (hv : WSpec.ValidHistory ops) (hr : World.run ops = some W)
    {s : Nat} (t : Nat) (f : String → Value → Value) (m : AMap Nat Nat) {ns : List Nat}
    (hn : ∀ n ∈ ns, n ∈ (WSpec.run ops s).nodes) : copySubgraphsLive t f (W, m) ns = copySubgraphs t f (W, m) ns := by
  have r := Rep.init.runFrom hv hr
  have o := roots r (Ordered.init.runFrom Rep.init hv hr) s
  have loop : ∀ (ns : List Nat) (W1 : World) (m1 : AMap Nat Nat), (∀ n ∈ ns, n ∈ (WSpec.run ops s).nodes) → Behind W m W1 m1 →
      Grows m m1 → copySubgraphsLive t f (W1, m1) ns = copySubgraphs t f (W1, m1) ns := by
    intro ns
    induction ns with
    | nil => intro W1 m1 _ _ _; rfl
    | cons n ns ih =>
      intro W1 m1 hn b g
      obtain ⟨h1, h2⟩ := copySubgraphLive_same (t := t) (f := f) o _ (Nat.lt_succ_self _) (hn n (by simp)) b g
      rw [copySubgraphsLive, copySubgraphs, h1]
      cases hc : copySubgraph t f (W1, m1) n with
      | none => rfl
      | some st =>
        obtain ⟨b2, g2⟩ := h2 _ hc
        exact ih st.1 st.2 (fun x hx => hn x (by simp [hx])) b2 (fun x hx => g2 x (g x hx))
  exact loop ns W m hn (Behind.start r.inv.edgeLt m) (fun _ h => h)

/-- `CopyGraphf` for functions that leave the lists of edges of the source as they are, if these can be enumerated. -/
theorem C64_live {s : State} {es : List Nat} (he : s.getEdges = some es) {ω : Type} {I : ω → Prop} {src : ω → State} {c : Funcs ω}
    {w : ω} {ns : List Nat} (k : Keeps I ns es s src c)
    (hl : ∀ w, I w → (src w).allEdges = s.allEdges ∧ ∀ e ∈ es, (src w).slot0 e = s.slot0 e) (hI : I w) :
    copyGraphfLive src c w = copyGraphf src c w := by
  unfold copyGraphfLive copyGraphf
  cases hn : CopyF.nodes src c w (src w).allNodes.head [] with
  | none => rfl
  | some q =>
    have hI1 : I q.1 := by
      refine CopyF.nodes.partial_correctness src c (motive := fun w _ _ r => I w → I r.1) ?_ _ _ _ _ hn hI
      intro g ih w o m r h hI
      cases o with
      | none => cases h; exact hI
      | some n =>
        obtain ⟨⟨w', o⟩, h1, h2⟩ := Option.bind_eq_some_iff.1 h
        exact ih _ _ _ _ h2 (k.node n m w w' o hI h1)
    simp only [Option.bind_eq_bind, Option.bind_some]
    rw [(k.same _ hI1).edges, he, (hl _ hI1).1]
    simp only [Option.bind_some]
    rw [edgesLive_same (I := I) (E := fun e => e ∈ es) (P := s.slot0) (em := s.allEdges)
      ⟨hl, fun e w w' _ hw _ _ h => k.edge e _ w w' hw h⟩ es (fun _ h => h) (EdgeMap.enum_yields he) hI1]

/-- `CopyGraphf` between two graphs of a program with the functions of `CopyGraph`, except that they leave out some nodes and
edges, spoiled graphs or not. -/
theorem C64_filter_live {ops : List (Nat × Op)} {W : World} (hv : WSpec.ValidHistory ops) (hr : World.run ops = some W)
    {s t : Nat} (hst : s ≠ t) (f : String → Value → Value) (keep keepEdge : Nat → Bool) :
    copyGraphfLive (fun W => W.view s) (cloneFuncs t f keep keepEdge) W =
    copyGraphf (fun W => W.view s) (cloneFuncs t f keep keepEdge) W := by
  have hw : walk W.heap.nptr.next W.heap.idBase (W.root s).allNodes.head = some (WSpec.listing s ops).nodes := worldListing hv hr s
  have r := Rep.init.runFrom hv hr
  have c0 : Copying False False (fun _ _ => True) (fun _ _ => True) f s t W (WSpec.run ops) W (WSpec.run ops) [] [] :=
    Copying.start r (Ordered.init.runFrom Rep.init hv hr) False.elim False.elim False.elim
  obtain ⟨_, k2⟩ := cloneF_nodes (keep := keep) (keepEdge := keepEdge) hst (listed_nodes r.inv (worldListing hv hr s))
    (fun _ _ _ _ _ => trivial) _ _ _ [] hw (by simpa using walk_nodup hw) (fun _ h => h) rfl c0
  have hh : (W.view s).allNodes.head = (W.root s).allNodes.head := rfl
  unfold copyGraphfLive copyGraphf
  rw [hh]
  cases hn : CopyF.nodes (fun W => W.view s) (cloneFuncs t f keep keepEdge) W (W.root s).allNodes.head [] with
  | none => rfl
  | some q =>
    obtain ⟨ω1, c1, _⟩ := k2 q hn
    simp only [Option.bind_eq_bind, Option.bind_some]
    have cl := r.inv.closed s
    have k : Leaves (fun W' => ∃ ω es, Copying False False (fun _ _ => True) (fun _ _ => True) f s t W (WSpec.run ops) W' ω q.2 es)
        (W.E s) W.heap.slot0 (W.root s).allEdges (fun W => W.view s) (cloneFuncs t f keep keepEdge) q.2 := by
      refine ⟨fun W' hI => ?_, fun e W1 W2 he hI h1 h2 hc => ?_⟩
      · obtain ⟨ω, es, c⟩ := hI
        obtain ⟨a, _, _⟩ := c.frame s hst
        exact ⟨a.allEdges, fun e he => (a.edge e he).2.2.2.2.1⟩
      · obtain ⟨ω, es, c⟩ := hI
        simp only [cloneFuncs] at hc
        split at hc
        · obtain ⟨p, hp, rfl⟩ := Option.map_eq_some_iff.1 hc
          have hat := c.src.eattr e he
          have e1 : (WSpec.run ops s).src e ∈ q.2.map Prod.fst := by
            rw [← hat.1]
            exact Classical.byContradiction fun hx => by
              have := isNone_iff.2 hx
              rw [show (W1.view s).eFrom e = W1.heap.eFrom e from rfl, this] at h1
              cases h1
          have e2 : (WSpec.run ops s).dst e ∈ q.2.map Prod.fst := by
            rw [← hat.2.1]
            exact Classical.byContradiction fun hx => by
              have := isNone_iff.2 hx
              rw [show (W1.view s).eTo e = W1.heap.eTo e from rfl, this] at h2
              cases h2
          obtain ⟨ω', c'⟩ := (c.edge (fun _ _ _ => trivial) he e1 e2).2 p hp
          exact ⟨ω', _, c'⟩
        · cases hc
          exact ⟨ω, es, c⟩
    have hI1 : ∃ ω es, Copying False False (fun _ _ => True) (fun _ _ => True) f s t W (WSpec.run ops) q.1 ω q.2 es := ⟨ω1, [], c1⟩
    have hroot : (q.1.view s).allEdges = (W.root s).allEdges := (k.same _ hI1).1
    have hsame : (q.1.view s).getEdges = (W.view s).getEdges := (c1.same r.inv hst).getEdges
    rw [hsame, hroot]
    cases he : (W.view s).getEdges with
    | some es =>
      simp only [Option.bind_some]
      rw [edgesLive_same k es (listed_edges r.inv he) (EdgeMap.enum_yields he) hI1]
    | none =>
      cases hx : edgesLive (fun W => W.view s) (cloneFuncs t f keep keepEdge) q.2 q.1 (W.root s).allEdges.mapIterator with
      | none => rfl
      | some W' =>
        obtain ⟨zs, y⟩ := edgesLive_ends k cl.sl0 cl.all hx hI1 (EdgeMap.mapIterator_in cl.all)
        exact absurd he (EdgeMap.yields_enum cl.sl0 cl.all (fun x hx => r.inv.eLt hx) y)

/-- `CopyGraph` between two graphs of a program, spoiled or not: the loop over the edges of the source does the same as with a
list of the edges that is made before the loop; in particular it does not return exactly if that one does not. -/
theorem C37_live {ops : List (Nat × Op)} {W : World} (hv : WSpec.ValidHistory ops) (hr : World.run ops = some W)
    {s t : Nat} (hst : s ≠ t) (f : String → Value → Value) : W.copyGraphLive s t f = W.copyGraph s t f := by
  rw [copyGraph_eq]
  exact C64_filter_live hv hr hst f _ _

/-- Two graphs. In graph 0 there is a cycle, a node with two outgoing edges with different labels, and a loop; its edges have
two labels. -/
def liveCopy : List (Nat × Op) :=
  [(0, .newNode ["A"] []), (0, .newNode ["B"] []), (0, .newEdge 0 1 "x" []), (0, .newEdge 0 0 "y" []), (0, .newEdge 1 0 "x" []),
   (1, .newNode ["C"] [])]

/-- The iterator over the outgoing edges of node 0 goes through both lists; the copy of the graph to itself may begin at either
node. -/
theorem copyLive_example : WSpec.ValidHistory liveCopy ∧ 0 ∈ (WSpec.run liveCopy 0).nodes ∧ 1 ∈ (WSpec.run liveCopy 0).nodes ∧
    ((World.run liveCopy).bind (fun W => ((W.heap.outgoing 0).mapNext W.heap.slot1 (W.heap.outgoing 0).mapIterator).bind (fun a =>
      ((W.heap.outgoing 0).mapNext W.heap.slot1 a.2).bind (fun b => ((W.heap.outgoing 0).mapNext W.heap.slot1 b.2).map (fun c =>
        [a.1, b.1, c.1]))))) = some [some 2, some 3, none] :=
  ⟨by decide +kernel, by decide +kernel, by decide +kernel, by decide +kernel⟩

end LPG
