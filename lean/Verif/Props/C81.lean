import Verif.Props.C79
import Verif.Props.C80Indexes
/-!
# C81: copies in a program that recovers from every panic

`CopyGraph` and `CopySubgraph` as in C79, in the worlds of C80: some graphs may have lost edges or indexes to earlier panics, and the
copy may panic again.
-/
namespace LPG
open World State

/-- A world of such a program, with its indexes. -/
theorem SurvivedAll.rep {W : World} {hist : List (Nat × Option Op)} (h : SurvivedAll W hist) :
    Rep W (WSpec.runLost hist) ∧ Ordered W (WSpec.runLost hist) ∧ ∀ k, Showing W (WSpec.runLost hist) k (WSpec.listingLost k hist) := by
  obtain ⟨W0, _, hd, _⟩ := h.sound
  have hb := hd.bared
  have b0 : W0.heap.idBase = W.heap.idBase := show (W0.view 0).idBase = (W.view 0).idBase by rw [hb.view 0]; rfl
  have b1 : W0.heap.eFrom = W.heap.eFrom := show (W0.view 0).eFrom = (W.view 0).eFrom by rw [hb.view 0]; rfl
  refine ⟨⟨⟨h.full, ?_, ?_, ?_⟩, fun g => ?_, fun g n hn => ?_, fun g e he => ?_⟩, ⟨fun g => ?_, fun g => ?_, fun g => ?_⟩, fun k => ⟨?_, ?_⟩⟩
  · rw [← hb.nodes, ← b0]; exact hd.rep.inv.nodeLt
  · rw [← hb.edges, ← b0]; exact hd.rep.inv.edgeLt
  · rw [← hb.edges, ← hb.nodes, ← b1]; exact hd.rep.inv.known
  · have c := hd.core g
    exact ⟨c.next, c.nNodup, c.eNodup, c.nLt, c.eLt, c.disj, c.labels, c.nprops, c.eattr, c.eprops, c.ends, c.out, c.inc, c.count⟩
  · rw [(hb.same g).1]; exact hd.rep.ownN g n hn
  · rw [(hb.same g).2]; exact hd.rep.ownE g e he
  · have := hd.ordered.nodes g
    rw [hb.view] at this
    exact this
  · exact hd.all g
  · have k := hd.ordered.kept g
    rw [← (hb.same g).1, ← (hb.same g).2, hb.view] at k
    exact ⟨k.labels, k.nprops, k.eattr, k.eprops⟩
  · have := (hd.shows k).shows
    rw [hb.view] at this
    exact this
  · rw [(hb.same k).1]; exact (hd.shows k).own

/-- What all copies have in common: the target holds the new graph, its enumeration of nodes is the old one with the copies created
in it, and the queries of all other graphs have the answers that they had. -/
structure CopiedLost (hist : List (Nat × Option Op)) (t : Nat) (W W' : World) (σ' : Spec) (m : AMap Nat Nat) : Prop where
  holds : Holds (W'.view t) σ'
  nodes : (W'.view t).getNodes = some ((m.map Prod.snd).foldl Listing.create (WSpec.listingLost t hist)).nodes
  others : ∀ g, g ≠ t → SameAnswers (W.N g) (W.E g) (W.view g) (W'.view g)
  /-- lookups in the indexes of other graphs -/
  lookups : ∀ g, g ≠ t → (∀ k v, (W'.view g).nodesByValue k v = (W.view g).nodesByValue k v) ∧
    ∀ k v, (W'.view g).edgesByValue k v = (W.view g).edgesByValue k v
  /-- different nodes have different copies -/
  distinct : (m.map Prod.snd).Nodup

theorem SurvivedAll.copyStart {W : World} {hist : List (Nat × Option Op)} (h : SurvivedAll W hist) (s t : Nat)
    (f : String → Value → Value) {m0 : List (Nat × Nat)} (hk : (m0.map Prod.fst).Nodup)
    (hm : ∀ p ∈ m0, p.2 ∈ (WSpec.runLost hist t).nodes) :
    CopyingInto m0 ((W.view t).getEdges ≠ none) False anyValue anyValue f s t
      (W.bareAt t) (WSpec.runLost hist) (W.bareAt t) (WSpec.runLost hist) [] [] := by
  obtain ⟨r, o, _⟩ := h.rep
  refine CopyingInto.start (r.bareAt t) (o.bareAt t) (fun ht => ht.elim) (fun _ => ?_) (fun h => ?_) hk hm
  · rw [view_bareAt]
    exact ⟨(fun k ix h => nomatch h), (fun k ix h => nomatch h)⟩
  · rw [view_bareAt]; exact h

theorem World.Left.copiedLost {W W' : World} {hist : List (Nat × Option Op)} (h0 : SurvivedAll W hist)
    {m0 : List (Nat × Nat)} {f : String → Value → Value} {s t : Nat} {ω : WSpec} {m : AMap Nat Nat} {es : List Nat}
    (h : Left m0 ((W.view t).getEdges ≠ none) False f s t (W.bareAt t) (WSpec.runLost hist) W' ω m es) :
    CopiedLost hist t W W' (ω t) m ∧ CopyInto m0 f (WSpec.runLost hist s) (WSpec.runLost hist t) (ω t) m es := by
  obtain ⟨r, _, hl⟩ := h0.rep
  have hsh : Showing (W.bareAt t) (WSpec.runLost hist) t (WSpec.listingLost t hist) := by
    refine ⟨?_, (hl t).own⟩
    rw [view_bareAt]; exact (hl t).shows
  have look : ∀ {s s' : State}, s'.nodeIx = s.nodeIx → s'.edgeIx = s.edgeIx →
      (∀ k v, s'.nodesByValue k v = s.nodesByValue k v) ∧ ∀ k v, s'.edgesByValue k v = s.edgesByValue k v :=
    fun e1 e2 => ⟨fun k v => by simp only [State.nodesByValue, e1], fun k v => by simp only [State.edgesByValue, e2]⟩
  cases h with
  | made c =>
    refine ⟨⟨?_, ?_, fun g hg => ?_, fun g hg => ?_, ?_⟩, c.copy⟩
    · have := (c.rep.core t).holds
      rw [view_bareAt] at this
      exact ⟨this.numNodes, this.labels, this.nprop, this.ends, this.label, this.eprop, this.outgoing, this.incoming, this.distinct,
        this.closed⟩
    · have := c.getNodes hsh
      rw [view_bareAt] at this
      exact this
    · have := c.same (r.bareAt t).inv hg
      rw [view_bareAt_other _ hg, view_bareAt_other _ hg] at this
      exact this
    · have ag := (c.frame g hg).1
      rw [view_bareAt_other _ hg, view_bareAt_other _ hg] at ag
      exact look ag.nodeIx ag.edgeIx
    · have := (c.rep.core t).nNodup
      rw [c.copy.nodes, List.nodup_append] at this
      exact this.2.1
  | @lost W1 _ _ _ c hnil =>
    have vt : (W1.store t (W1.view t).leftNewEdge).view t = (W1.view t).leftNewEdge := view_lost W1 t
    have ct : Core (W1.view t).bare (ω t) := by
      have := c.rep.core t
      rw [view_bareAt] at this
      exact this
    have ag : ∀ g, g ≠ t → Agree (W.N g) (W.E g) (W.view g) ((W1.store t (W1.view t).leftNewEdge).view g) := by
      intro g hg
      have ag := (c.frame g hg).1
      rw [view_bareAt_other _ hg, view_bareAt_other _ hg] at ag
      have e1 : (W1.store t (W1.view t).leftNewEdge).view g = { W1.view g with idBase := W1.heap.idBase + 1 } := by
        simp [view, store, leftNewEdge, upd_other _ _ hg]
      rw [e1]
      exact ⟨ag.allNodes, ag.allEdges, ag.byLabel, ag.nodeIx, ag.edgeIx, ag.node, ag.edge⟩
    refine ⟨⟨?_, ?_, fun g hg => ?_, fun g hg => look (ag g hg).nodeIx (ag g hg).edgeIx, ?_⟩, c.copy⟩
    · rw [vt]
      have := ct.lost.holds
      exact ⟨this.numNodes, this.labels, this.nprop, this.ends, this.label, this.eprop, this.outgoing, this.incoming, this.distinct,
        this.closed⟩
    · rw [vt]
      have n1 := (c.shown _ hsh).shows
      rw [view_bareAt] at n1
      exact NShows.getNodes (s := (W1.view t).leftNewEdge.bare) ct.lost (n1.later (Nat.le_succ _))
    · refine (ag g hg).answers (r.inv.closed g) (fun x hx => r.inv.nodeLt x g hx) (fun x hx => r.inv.edgeLt x (edge_of hx).1) ?_
      exact Nat.le_succ_of_le c.base
    · have := (c.rep.core t).nNodup
      rw [c.copy.nodes, List.nodup_append] at this
      exact this.2.1

/-- the edges of graph `s` that `CopyGraph` goes through and whose two ends `GetNodes` shows -/
def copyEdgesLost (hist : List (Nat × Option Op)) (W : World) (s : Nat) : List Nat :=
  ((W.view s).getEdges.getD []).filter (fun e => (WSpec.runLost hist s).src e ∈ (WSpec.listingLost s hist).nodes ∧
    (WSpec.runLost hist s).dst e ∈ (WSpec.listingLost s hist).nodes)

theorem copyGraph_lost {W : World} {hist : List (Nat × Option Op)} (h0 : SurvivedAll W hist)
    {s t : Nat} (hst : s ≠ t) (o : MapOrder) (f : String → Value → Value) :
    (W.tryCopyGraph o s t f = none → (W.view s).getEdges = none) ∧ ∀ r, W.tryCopyGraph o s t f = some r → ∃ σ' m' es',
      CopiedLost hist t W r.1 σ' m' ∧ CopyOf f (WSpec.runLost hist s) (WSpec.runLost hist t) σ' m' es' ∧
      m'.map Prod.fst <+: (WSpec.listingLost s hist).nodes ∧ es' <+: copyEdgesLost hist W s ∧
      (r.2.2 = false → r.2.1 = m' ∧ m'.map Prod.fst = (WSpec.listingLost s hist).nodes ∧ es' = copyEdgesLost hist W s) ∧
      (r.2.2 = true → (es' = [] ∧ ∃ p, m' = r.2.1 ++ [p]) ∨
        m' = r.2.1 ∧ m'.map Prod.fst = (WSpec.listingLost s hist).nodes ∧ ((W.view t).getEdges ≠ none → es' ≠ [])) := by
  obtain ⟨r0, _, hl⟩ := h0.rep
  have hn := (C80_holds h0 s).2
  have hw : walk (W.bareAt t).heap.nptr.next (W.bareAt t).heap.idBase ((W.bareAt t).root s).allNodes.head =
      some (WSpec.listingLost s hist).nodes := by
    have e1 : (W.bareAt t).root s = W.root s := by simp [bareAt, upd_other _ _ hst]
    rw [e1]; exact hn
  have e1 : ((W.bareAt t).root s).allNodes.head = (W.root s).allNodes.head := by simp [bareAt, upd_other _ _ hst]
  obtain ⟨⟨W1, m1, b⟩, h1, ω1, m2, h2, h3, h4⟩ := tryCopyNodes_left o hst _ _ _ [] hw (by simpa using walk_nodup hw)
    (listed_nodes (g := s) r0.inv hn) rfl (h0.copyStart s t f (m0 := []) (by simp) (by simp))
  rw [e1] at h1
  simp only [List.nil_append] at h2 h3 h4
  unfold tryCopyGraph
  rw [h1]
  cases b with
  | true =>
    obtain ⟨k1, p, k2⟩ := h4 rfl
    refine ⟨by simp, fun r h => ?_⟩
    cases h
    obtain ⟨g1, g2⟩ := (Left.made h2).copiedLost h0
    refine ⟨_, m2, [], g1, g2, k1, by simp, (fun h => nomatch h), fun _ => .inl ⟨rfl, p, k2⟩⟩
  | false =>
    obtain ⟨rfl, k2⟩ := h3 rfl
    have hsame : (W1.view s).getEdges = (W.view s).getEdges := by
      have := (h2.same (r0.bareAt t).inv hst).getEdges
      rw [view_bareAt_other _ hst, view_bareAt_other _ hst] at this
      exact this
    simp only [hsame]
    cases he : (W.view s).getEdges with
    | none => simp
    | some es =>
      have he' : ((W.bareAt t).view s).getEdges = some es := by rw [view_bareAt_other _ hst]; exact he
      obtain ⟨⟨W2, b⟩, j1, ω2, es', j2, j3, j4, j5⟩ := tryCopyEdges_left o es (listed_edges (g := s) (r0.bareAt t).inv he') h2
      simp only [List.nil_append] at j2 j3
      simp only [j1]
      refine ⟨by simp, fun r h => ?_⟩
      cases h
      obtain ⟨g1, g2⟩ := j2.copiedLost h0
      have e2 : copyEdgesLost hist W s = es.filter (fun e => (WSpec.runLost hist s).src e ∈ m2.map Prod.fst ∧
          (WSpec.runLost hist s).dst e ∈ m2.map Prod.fst) := by
        simp only [copyEdgesLost, he, Option.getD_some, k2]
      rw [e2]
      exact ⟨_, m2, es', g1, g2, by rw [k2]; exact List.prefix_refl _, j4, fun h => ⟨rfl, k2, (j3 h).1⟩,
        fun h => .inr ⟨rfl, k2, j5 h⟩⟩

/-- When `CopyGraph` panics, the target holds its old content and copies of the first nodes that the source shows, or of all of them
and of the first edges. Every other graph, the source included, answers all queries and lookups as before. The map `m` that the call
was building lacks the last copied node if a node made the index panic; this copy is in the target. If the target can enumerate its
edges, then at least one edge was copied when an edge made the call panic. -/
theorem C81 {W W' : World} {hist : List (Nat × Option Op)} (h0 : SurvivedAll W hist) {s t : Nat}
    (hst : s ≠ t) {o : MapOrder} {f : String → Value → Value} {m : AMap Nat Nat} (h : W.tryCopyGraph o s t f = some (W', m, true)) :
    ∃ σ' m' es', CopiedLost hist t W W' σ' m' ∧ CopyOf f (WSpec.runLost hist s) (WSpec.runLost hist t) σ' m' es' ∧
      m'.map Prod.fst <+: (WSpec.listingLost s hist).nodes ∧ es' <+: copyEdgesLost hist W s ∧
      ((es' = [] ∧ ∃ p, m' = m ++ [p]) ∨
        m' = m ∧ m'.map Prod.fst = (WSpec.listingLost s hist).nodes ∧ ((W.view t).getEdges ≠ none → es' ≠ [])) := by
  obtain ⟨σ', m', es', h1, h2, h3, h4, -, h5⟩ := (copyGraph_lost h0 hst o f).2 _ h
  exact ⟨σ', m', es', h1, h2, h3, h4, h5 rfl⟩

/-- `CopyGraph` between two graphs returns or panics, unless the edges of the source cannot be enumerated. -/
theorem C81_returns {W : World} {hist : List (Nat × Option Op)} (h0 : SurvivedAll W hist) {s t : Nat}
    (hst : s ≠ t) (he : (W.view s).getEdges ≠ none) (o : MapOrder) (f : String → Value → Value) : W.tryCopyGraph o s t f ≠ none :=
  fun h => he ((copyGraph_lost h0 hst o f).1 h)

/-- When it returns, everything that the source shows was copied. -/
theorem C81_fine {W W' : World} {hist : List (Nat × Option Op)} (h0 : SurvivedAll W hist) {s t : Nat}
    (hst : s ≠ t) {o : MapOrder} {f : String → Value → Value} {m : AMap Nat Nat} (h : W.tryCopyGraph o s t f = some (W', m, false)) :
    ∃ σ', CopiedLost hist t W W' σ' m ∧ CopyOf f (WSpec.runLost hist s) (WSpec.runLost hist t) σ' m (copyEdgesLost hist W s) ∧
      m.map Prod.fst = (WSpec.listingLost s hist).nodes := by
  obtain ⟨σ', m', es', h1, h2, h3, h4, h6, -⟩ := (copyGraph_lost h0 hst o f).2 _ h
  obtain ⟨rfl, k2, rfl⟩ := h6 rfl
  exact ⟨σ', h1, h2, k2⟩

/-- `CopySubgraph` with a map that holds `m0` returns or panics. When it panics, the target holds its old content and copies of
nodes that can be reached from `n`, each once, and of edges that leave these, each once. When it returns, these are all of them.
Every other graph answers all queries and lookups as before. Both graphs may be one. -/
theorem C81_sub {W : World} {hist : List (Nat × Option Op)} (h0 : SurvivedAll W hist)
    {s t n : Nat} (hn : n ∈ (WSpec.runLost hist s).nodes) {m0 : AMap Nat Nat} (hk : (m0.map Prod.fst).Nodup)
    (hm : ∀ p ∈ m0, p.2 ∈ (WSpec.runLost hist t).nodes) (o : MapOrder) (f : String → Value → Value) :
    ∃ W' m b, tryCopySubgraph o t f (W, m0) n = some ((W', m), b) ∧ ∃ σ' m' es', CopiedLost hist t W W' σ' m' ∧
      CopyInto m0 f (WSpec.runLost hist s) (WSpec.runLost hist t) σ' m' es' ∧ ((m0 ++ m').map Prod.fst).Nodup ∧
      (b = false → m = m0 ++ m' ∧ (∀ x, x ∈ m'.map Prod.fst ↔ (WSpec.runLost hist s).ReachOff (m0.map Prod.fst) n x) ∧ es'.Nodup ∧
        ∀ e, e ∈ es' ↔ e ∈ (WSpec.runLost hist s).edges ∧ (WSpec.runLost hist s).src e ∈ m'.map Prod.fst) ∧
      (b = true → (∀ p ∈ m', (WSpec.runLost hist s).ReachOff (m0.map Prod.fst) n p.1) ∧ es'.Nodup ∧
        (∀ e ∈ es', e ∈ (WSpec.runLost hist s).edges ∧ (WSpec.runLost hist s).src e ∈ m'.map Prod.fst) ∧
        ∃ m1, m = m0 ++ m1 ∧ ((∃ p, m' = m1 ++ [p]) ∨ m1 = m' ∧ ((W.view t).getEdges ≠ none → es' ≠ []))) := by
  have r0 := h0.rep.1.bareAt t
  obtain ⟨⟨⟨W', m⟩, b⟩, h1, ω', m2, es2, h2, h3⟩ := tryCopySubgraph_left o r0 (fun e he => ((r0.core s).ends e he).2) _ (Nat.lt_succ_self _) hn
    (h0.copyStart s t f hk hm)
  simp only [List.append_nil, List.nil_append] at h1 h2 h3
  cases b with
  | true =>
    obtain ⟨g1, g2, m3, g3, g4⟩ := h3 rfl
    obtain ⟨k1, k2⟩ := g1.copiedLost h0
    exact ⟨W', m, true, h1, _, m2, es2, k1, k2, g1.keys, (fun h => nomatch h), fun _ => ⟨g2.reach, g2.nodup, g2.edges, m3, g3, g4⟩⟩
  | false =>
    obtain ⟨g1, g2, g3⟩ := h2 rfl
    obtain ⟨k1, k2⟩ := (Left.made g2).copiedLost h0
    refine ⟨W', m, false, h1, _, m2, es2, k1, k2, g2.keys, fun _ => ⟨g1, fun x => ⟨fun hx => ?_, fun hx => ?_⟩, g3.nodup, g3.edges⟩,
      (fun h => nomatch h)⟩
    · obtain ⟨p, hp, rfl⟩ := List.mem_map.1 hx
      exact g3.reach p hp
    · have off : ∀ y, y ∉ m0.map Prod.fst → y ∈ (m0 ++ m2).map Prod.fst → y ∈ m2.map Prod.fst := by
        intro y h1 h2
        rw [List.map_append, List.mem_append] at h2
        exact h2.resolve_left h1
      induction hx with
      | refl h => exact off _ h g3.here
      | tail _ he hs h ih => exact off _ h (g3.targets _ ((g3.edges _).2 ⟨he, hs ▸ ih⟩))

/-! ## An example -/

/-- two graphs; graph `0` has an index -/
def recoveredCopyOps : List (Nat × Op) :=
  [(0, .addNodeIndex "k" .btree), (0, .newNode ["A"] [("k", .int 1)]), (1, .newNode ["B"] [("k", .str "y")])]

/-- The program recovers from the panic of its fourth call, `NewNode` in graph `0`. Then `CopyGraph` of graph `1` to graph `0` panics
at its first node. Graph `0` lists its first node, the node of the fourth call and the copy. -/
theorem C81_example : ∃ W hist W', SurvivedAll W hist ∧ W.tryCopyGraph .listed 1 0 (fun _ v => v) = some (W', [], true) ∧
    (W.view 0).getNodes = some [0, 2] ∧ (W'.view 0).getNodes = some [0, 2, 3] ∧ (W'.view 0).nLabels 3 = ["B"] ∧
    (W'.view 0).getNodesWithProperty "k" = some [0] := by
  cases hr : World.run recoveredCopyOps with
  | none => exact absurd hr (by decide +kernel)
  | some W0 =>
    obtain ⟨hist, h1, h2⟩ := C80_histories recoveredCopyOps (by decide +kernel) W0 hr
    obtain ⟨W, b, hs⟩ := C80_returns h1 (g := 0) (op := .newNode [] [("k", .str "x")]) (by rw [h2]; decide +kernel) .listed
    obtain ⟨eff, _, _, h3⟩ := C80 h1 (by rw [h2]; decide +kernel) hs
    have a1 : ((World.run recoveredCopyOps).bind (fun W => W.recoverStep .listed 0 (.newNode [] [("k", .str "x")]))).map (fun r =>
        ((r.1.root 1).allNodes.head, (r.1.tryCloneNode .listed 0 1 (fun _ v => v)).2.2, (r.1.view 0).getNodes)) =
        some (some 1, true, some [0, 2]) := by decide +kernel
    have a2 : ((World.run recoveredCopyOps).bind (fun W => W.recoverStep .listed 0 (.newNode [] [("k", .str "x")]))).map (fun r =>
        (((r.1.tryCloneNode .listed 0 1 (fun _ v => v)).1.view 0).getNodes,
          ((r.1.tryCloneNode .listed 0 1 (fun _ v => v)).1.view 0).nLabels 3,
          ((r.1.tryCloneNode .listed 0 1 (fun _ v => v)).1.view 0).getNodesWithProperty "k")) =
        some (some [0, 2, 3], ["B"], some [0]) := by decide +kernel
    rw [hr, Option.bind_some, hs] at a1 a2
    simp only [Option.map_some, Option.some.injEq, Prod.mk.injEq] at a1 a2
    obtain ⟨b1, b2, b3⟩ := a1
    obtain ⟨b4, b5, b6⟩ := a2
    refine ⟨W, _, (W.tryCloneNode .listed 0 1 (fun _ v => v)).1, h3, ?_, b3, b4, b5, b6⟩
    unfold tryCopyGraph
    rw [b1, tryCopyNodes_cons, b2]
    rfl

end LPG
