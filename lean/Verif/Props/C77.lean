import Verif.Props.C76
import Verif.Proofs.LiveMany
/-!
# C77: nested loops: what an iterator sees does not depend on the other iterators
-/
namespace LPG
open FState

/-- Each iterator of a program sees what it would see in a program of its own: one that makes it after the operations called so
far, and then has the same operations and the same calls of its own `Next`, but no other iterator. So C57, C58, C59 and C61 hold
for each. -/
theorem C77_each {evs1 evs2 : List (Ev Source)} {c : Source} {log : List Saw} {f : FState} {its : List AnyIt}
    (h : program (evs1 ++ .make c :: evs2) = some (log, f, its)) :
    ∃ log1 log2, log = log1 ++ .made :: log2 ∧ (∃ z, program evs1 = some (log1, z)) ∧
      OneLoop (Ev.ops evs1) (Ev.only (Ev.makes evs1) evs2) (Saw.only (Ev.makes evs1) log2) c := by
  obtain ⟨log1, s1, its1, it, log2, h1, h2, h3, h4⟩ := liveMany_split h
  obtain ⟨h5, h6⟩ := liveMany_ops (R := FState.runFrom) (fun _ => rfl) (fun _ _ _ _ => FState.runFrom_cons_ok) h1
  have h7 : its1.length = Ev.makes evs1 := by simpa using h6
  obtain ⟨it', -, h8⟩ := liveMany_only (i := Ev.makes evs1) (it := it) h3 (by rw [← h7]; simp)
  exact ⟨log1, log2, h4, ⟨_, h1⟩, FState.oneLoop h5 h2 h8⟩

/-- The graph at the end is the one that the operations alone leave, whichever iterators there are. -/
theorem C77_graph {evs : List (Ev Source)} {log : List Saw} {f : FState} {its : List AnyIt}
    (h : program evs = some (log, f, its)) : run (Ev.ops evs) = some f.h.abs ∧ its.length = Ev.makes evs := by
  obtain ⟨h5, h6⟩ := liveMany_ops (R := FState.runFrom) (fun _ => rfl) (fun _ _ _ _ => FState.runFrom_cons_ok) h
  exact ⟨(run_all h5).2.1, by simpa using h6⟩

/-- The call that makes the iterator is one that C76 covers. -/
def CanMake (ops : List Op) (f : FState) : Source → Prop
  | .nodes => True
  | .labels ls => ls ≠ []
  | .edges m _ => CanOpen m ops f.h
  | .both n _ => n ∈ (Spec.run ops).nodes
  | .nodeProp k => f.h.base.nodeIx.kind k ≠ some .btree
  | .edgeProp k => f.h.base.edgeIx.kind k ≠ some .btree ∧ (AMap.get f.h.base.edgeIx k = none → f.h.abs.getEdges ≠ none)

/-- `Next` of each iterator returns at any time. -/
theorem C77_next {evs1 evs2 : List (Ev Source)} {c : Source} {log log1 : List Saw} {f f1 : FState} {its its1 : List AnyIt}
    (h1 : program evs1 = some (log1, f1, its1)) (hc : CanMake (Ev.ops evs1) f1 c)
    (h : program (evs1 ++ .make c :: evs2) = some (log, f, its)) (hv : Spec.ValidHistory (Ev.ops evs1 ++ Ev.ops evs2)) :
    ∃ it, its[Ev.makes evs1]? = some it ∧ f.adv it ≠ none := by
  obtain ⟨log1', s1, its1', it, log2, h1', h2, h3, h4⟩ := liveMany_split h
  cases h1.symm.trans h1'
  obtain ⟨h5, h6⟩ := liveMany_ops (R := FState.runFrom) (fun _ => rfl) (fun _ _ _ _ => FState.runFrom_cons_ok) h1
  have h7 : its1.length = Ev.makes evs1 := by simpa using h6
  obtain ⟨h9, -⟩ := liveMany_ops (R := FState.runFrom) (fun _ => rfl) (fun _ _ _ _ => FState.runFrom_cons_ok) h3
  obtain ⟨it', hi, hl⟩ := liveMany_only (i := Ev.makes evs1) (it := it) h3 (by rw [← h7]; simp)
  refine ⟨it', hi, ?_⟩
  obtain ⟨r1, r2, r3, w⟩ := run_all h5
  obtain ⟨q1, q2, q3, -⟩ := runFrom_all w h9
  have ho : Event.ops (Ev.only (Ev.makes evs1) evs2 ++ [.next]) = Ev.ops evs2 := by
    rw [Event.ops_append, Ev.ops_only]; simp [Event.ops]
  have hv1 := (Spec.validFrom_append.1 hv).1
  have hv2 : Spec.ValidHistory (Ev.ops evs1 ++ Event.ops (Ev.only (Ev.makes evs1) evs2 ++ [.next])) := by rw [ho]; exact hv
  have some_ne {S ι : Type} {a : Option S} {x : Option (List Seen × S × ι)} {s : S}
      (u : Undisturbed a (Ev.only (Ev.makes evs1) evs2 ++ [.next]) x) (ha : a = some s) : x ≠ none := by
    obtain ⟨_, _, h⟩ := u.returns s ha
    rw [h]; simp
  have e1 : run (Ev.ops evs1 ++ Event.ops (Ev.only (Ev.makes evs1) evs2 ++ [.next])) = some f.h.abs := by
    rw [run_append_eq r2, ho]; exact q2
  have e2 : HState.run (Ev.ops evs1 ++ Event.ops (Ev.only (Ev.makes evs1) evs2 ++ [.next])) = some f.h := by
    rw [HState.run_append_eq r1, ho]; exact q1
  have e3 : LState.run (Ev.ops evs1 ++ Event.ops (Ev.only (Ev.makes evs1) evs2 ++ [.next])) = some f.lab := by
    rw [LState.run_append_eq r3, ho]; exact q3
  cases c with
  | nodes =>
    cases h2
    obtain ⟨jt, rfl, hj⟩ := sim_nodes w hl
    have := live_next hj (some_ne (C76_nodes r2) e1)
    simp only [FState.adv, ne_eq, Option.map_eq_none_iff]
    exact this
  | labels ls =>
    obtain ⟨lt, hm2, rfl⟩ := Option.map_eq_some_iff.1 h2
    obtain ⟨jt, rfl, hj⟩ := sim_labels w hl
    have hm3 : f1.lab.openLabels ls = some lt := hm2
    have u := some_ne (C76_labels r3 hv1 hc) e3
    rw [LState.liveLabels, hm3] at u
    have := live_next hj u
    simp only [FState.adv, ne_eq, Option.map_eq_none_iff]
    cases jt <;> exact this
  | edges m k =>
    obtain ⟨lt, hm2, rfl⟩ := Option.map_eq_some_iff.1 h2
    obtain ⟨jt, rfl, hj⟩ := sim_edges hl
    have u := some_ne (C76_edges (kd := k) r1 hv1 hc) e2
    rw [HState.liveEdges, hm2] at u
    have := live_next hj u
    simpa [FState.adv] using this
  | both n k =>
    obtain ⟨lt, hm2, rfl⟩ := Option.map_eq_some_iff.1 h2
    obtain ⟨jt, rfl, hj⟩ := sim_both hl
    have u := some_ne (C76_both (kd := k) r1 hv1 hc) e2
    rw [HState.liveBoth, hm2] at u
    have := live_next hj u
    simpa [FState.adv] using this
  | nodeProp k =>
    simp only [FState.make] at h2
    split at h2
    · rename_i hg
      cases h2
      obtain ⟨jt, rfl, hj⟩ := sim_nodeScan w hl
      have hg : AMap.get f1.h.abs.nodeIx k = none := hg
      have u := some_ne (C76_node_scan r2 hv2 hg) e1
      rw [State.liveNodeScan, hg] at u
      have := live_next hj u
      simp only [FState.adv, ne_eq, Option.map_eq_none_iff, scanNodes_base]
      exact this
    · obtain ⟨l, hk, rfl⟩ := Option.map_eq_some_iff.1 h2
      obtain ⟨jt, rfl, hj⟩ := sim_nodeCells w hl
      have hk : hashCells (State.nodeIx f1.h.abs) k = some l := hk
      have u := some_ne (C76_node_index r2 (by rw [hk]; simp)) e1
      rw [State.liveNodeHash, liveCells, hk] at u
      have := live_next hj u
      simp only [FState.adv, ne_eq, Option.map_eq_none_iff]
      cases jt <;> exact this
  | edgeProp k =>
    simp only [FState.make] at h2
    split at h2
    · rename_i hg
      obtain ⟨lt, hm2, rfl⟩ := Option.map_eq_some_iff.1 h2
      obtain ⟨jt, rfl, hj⟩ := sim_edgeScan hl
      have u := some_ne (C76_edge_scan r1 hv2 hg (hc.2 hg)) e2
      rw [HState.liveEdgeScan, hg, hm2] at u
      have := live_next hj u
      simpa [FState.adv] using this
    · obtain ⟨l, hk, rfl⟩ := Option.map_eq_some_iff.1 h2
      obtain ⟨jt, rfl, hj⟩ := sim_edgeCells w hl
      have hk : hashCells (State.edgeIx f1.h.abs) k = some l := hk
      have u := some_ne (C76_edge_index r2 (by rw [hk]; simp)) e1
      rw [State.liveEdgeHash, liveCells, hk] at u
      have := live_next hj u
      simp only [FState.adv, ne_eq, Option.map_eq_none_iff]
      cases jt <;> exact this

/-- Making an iterator returns. -/
theorem C77_make {evs : List (Ev Source)} {c : Source} {log : List Saw} {f : FState} {its : List AnyIt}
    (h : program evs = some (log, f, its)) (hv : Spec.ValidHistory (Ev.ops evs)) (hc : CanMake (Ev.ops evs) f c) :
    f.make c ≠ none := by
  obtain ⟨h5, -⟩ := liveMany_ops (R := FState.runFrom) (fun _ => rfl) (fun _ _ _ _ => FState.runFrom_cons_ok) h
  obtain ⟨r1, r2, r3, w⟩ := run_all h5
  cases c with
  | nodes => simp [FState.make]
  | labels ls =>
    obtain ⟨it, h1, -⟩ := LblInv.start (LState.Ok.run hv r3) hc
    have h1 : (LState.mk f.h.base f.lbl).openLabels ls = some it := h1
    simp [FState.make, h1]
  | edges m k =>
    obtain ⟨it, h1, -⟩ := openEdges_real (kd := k) (CanOpen.only hc r1 hv)
    simp [FState.make, h1]
  | both n k =>
    obtain ⟨it1, h1, -⟩ := openEdges_real (m := .inc n) (kd := k) (CanOpen.only (m := .inc n) hc r1 hv)
    obtain ⟨it2, h2, -⟩ := openEdges_real (m := .out n) (kd := k) (CanOpen.only (m := .out n) hc r1 hv)
    simp [FState.make, HState.openBoth, h1, h2]
  | nodeProp k =>
    simp only [FState.make]
    have hc : f.h.base.nodeIx.kind k ≠ some .btree := hc
    unfold Indexes.kind at hc
    unfold hashCells
    cases hg : AMap.get f.h.base.nodeIx k with
    | none => simp
    | some ix => cases ix <;> simp [hg, Index.kind] at hc ⊢
  | edgeProp k =>
    simp only [FState.make]
    obtain ⟨hc, hc2⟩ := hc
    unfold Indexes.kind at hc
    unfold hashCells
    cases hg : AMap.get f.h.base.edgeIx k with
    | none =>
      obtain ⟨it, h1, -⟩ := openEdges_real (m := .all) (kd := .all) (CanOpen.only (m := .all) (hc2 hg) r1 hv)
      simp [h1]
    | some ix => cases ix <;> simp [hg, Index.kind] at hc ⊢

/-- `GetNodes` in a program with other iterators: the nodes are visited in order and at most once, and when the iteration ends,
every node that was listed when the iterator was made and that still exists was visited. -/
theorem C77_nodes {evs1 evs2 : List (Ev Source)} {log : List Saw} {f : FState} {its : List AnyIt} {s : State} {ns : List Nat}
    (h : program (evs1 ++ .make .nodes :: evs2) = some (log, f, its)) (hv : Spec.ValidHistory (Ev.ops evs1 ++ Ev.ops evs2))
    (hs : run (Ev.ops evs1) = some s) (hn : s.getNodes = some ns) :
    ∃ log1 log2, log = log1 ++ .made :: log2 ∧ VisitsListed ns (Ev.ops evs1) (Saw.only (Ev.makes evs1) log2) := by
  obtain ⟨log1, log2, h1, -, s', s'', it, h2, h3⟩ := C77_each h
  cases hs.symm.trans h2
  obtain ⟨h4, -⟩ := (C76_nodes hs).happened _ _ _ h3
  exact ⟨log1, log2, h1, C57_listed hs h3 (by rw [h4.ops, Ev.ops_only]; exact hv) hn⟩

/-- The edges of a node or of the graph, in a program with other iterators, whose bodies are as in C58. -/
theorem C77_edges {evs1 evs2 : List (Ev Source)} {m : Sel} {k : Want} {log : List Saw} {f : FState} {its : List AnyIt}
    (h : program (evs1 ++ .make (.edges m k) :: evs2) = some (log, f, its))
    (hv : Spec.ValidHistory (Ev.ops evs1 ++ Ev.ops evs2)) (hm : (Spec.run (Ev.ops evs1)).Has m) (hk : k.Set)
    (hf : EdgesFiled m k (Ev.ops evs1) (Ev.ops evs2)) :
    ∃ log1 log2, log = log1 ++ .made :: log2 ∧ (GentleLoop m k (Ev.ops evs1) (Saw.only (Ev.makes evs1) log2) →
      VisitsEdges m k (Ev.ops evs1) (Saw.only (Ev.makes evs1) log2)) := by
  obtain ⟨log1, log2, h1, -, h0, h', it, h2, h3⟩ := C77_each h
  have h5 : Seen.ops (Saw.only (Ev.makes evs1) log2) = Ev.ops evs2 := by
    have h4 := h3
    unfold HState.liveEdges at h4
    split at h4
    · cases h4
    · rw [(live_happened (R := HState.runFrom) (stp := HState.step) (fun _ => rfl) (fun _ _ _ _ => HState.runFrom_cons_ok) h4).1.ops,
        Ev.ops_only]
  exact ⟨log1, log2, h1, fun hg => C58_partial h2 h3 (by rw [h5]; exact hv) hm hk (by rw [h5]; exact hf) hg⟩

/-- Two nested loops, whose inner body removes the edge that it is at, and whose outer body creates a node. In between there is
a loop with a label that the inner body does not touch. -/
def nestedEvents : List (Ev Source) :=
  [.op (.newNode ["L"] []), .op (.newNode ["M"] []), .op (.newEdge 0 1 "A" []), .op (.newEdge 0 1 "B" []), .op (.newEdge 1 0 "A" []),
    .make .nodes, .next 0, .make (.edges (.out 0) .all), .next 1, .op (.removeEdge 2), .make (.labels ["M"]), .next 1,
    .op (.removeEdge 3), .next 2, .next 1, .op (.newNode ["M"] []), .next 0, .make (.edges (.out 1) .all), .next 3,
    .op (.removeEdge 4), .next 2, .next 3, .next 0, .next 0, .next 2]

theorem C77_example : Spec.ValidHistory (Ev.ops nestedEvents) ∧
    (program nestedEvents).map (fun r => Seen.visited (Saw.only 0 r.1)) = some [0, 1, 5] ∧
    (program nestedEvents).map (fun r => Seen.visited (Saw.only 1 r.1)) = some [2, 3] ∧
    (program nestedEvents).map (fun r => Seen.visited (Saw.only 2 r.1)) = some [1] ∧
    (program nestedEvents).map (fun r => Seen.visited (Saw.only 3 r.1)) = some [4] ∧
    (program nestedEvents).map (fun r => r.2.1.h.abs.getEdges) = some (some []) := by
  refine ⟨by decide +kernel, by decide +kernel, by decide +kernel, by decide +kernel, by decide +kernel, by decide +kernel⟩

end LPG
