import Verif.Proofs.Gone
import Verif.Props.C49C50
/-!
# C43 edges cannot be attached to removed nodes
-/
namespace LPG
open State

/-- C43 for one history: `NewEdge` with a removed node does not return an edge. -/
def C43_statement (ops : List Op) : Prop :=
  ∀ s n m l ps, run ops = some s → Op.detachRemove n ∈ ops →
    s.newEdge n m l ps = none ∧ s.newEdge m n l ps = none

/-- C43 fails: the edge is created, `GetEdges` lists it and the removed node has it as an outgoing edge. -/
theorem C43_false_witness :
    Spec.ValidHistory [.newNode [] [], .newNode [] [], .detachRemove 0] ∧
    ((run [.newNode [] [], .newNode [] [], .detachRemove 0]).bind (fun s =>
      (s.newEdge 0 1 "e" []).map (fun s => (s.getNodes, s.getEdges, s.nodeEdges 0 .outgoing, s.nodeEdges 1 .incoming)))) =
      some (some [1], some [2], some [2], some [2]) := by decide +kernel

theorem C43_false : ¬ ∀ ops, Spec.ValidHistory ops → C43_statement ops := by
  intro h
  obtain ⟨h1, h2⟩ := C43_false_witness
  cases hr : run [.newNode [] [], .newNode [] [], .detachRemove 0] with
  | none => rw [hr] at h2; cases h2
  | some s =>
    have := (h _ h1 s 0 1 "e" [] hr (by simp)).1
    rw [hr] at h2
    simp [this] at h2

theorem EdgeMap.add_count {P P' : Slot} {label : Nat → String} {m m' : EdgeMap} {e : Nat}
    (h : m.add P label e = some (P', m')) : m'.n = m.n + 1 := by
  unfold EdgeMap.add at h
  split at h
  · rename_i h0
    cases h
    show (1 : Int) = m.n + 1
    omega
  · split at h
    · rename_i h1
      split at h
      · cases h
      · cases h
        show (2 : Int) = m.n + 1
        omega
    · cases h
      show (m.doAdd P (label e) e).2.n + 1 = m.n + 1
      rfl

/-- The check is missing altogether: after every history, unless `GetEdges` cannot be run because it would yield a nil edge,
`NewEdge` accepts every pair of nodes ever created, live or removed, and the new edge is counted and has these ends. (If
`GetEdges` cannot be run, `NewEdge` panics whatever the nodes are, `C49_operation`.) -/
theorem C43_never_rejects (ops : List Op) (hv : Spec.ValidHistory ops) (s : State) (hs : run ops = some s)
    (hr : s.getEdges ≠ none) (a b : Nat) (l : String) :
    ∃ s', s.newEdge a b l [] = some s' ∧ s'.numEdges = s.numEdges + 1 ∧
      s'.eFrom s.idBase = a ∧ s'.eTo s.idBase = b ∧ s'.eLabel s.idBase = l := by
  have c := Core.run hv hs
  have g : Gone s (Spec.run ops) := Gone.init.runFrom Core.init hv hs
  obtain ⟨p0, m, hadd⟩ := add_of_getEdges hr (s.allocEdge a b l []).slot0 (s.allocEdge a b l []).eLabel s.idBase
  have hadd : (s.allocEdge a b l []).allEdges.add (s.allocEdge a b l []).slot0 (s.allocEdge a b l []).eLabel s.idBase =
    some (p0, m) := hadd
  have hnx := c.next
  have hnn : (Spec.run ops).next ∉ (Spec.run ops).edges := fun hh => Nat.lt_irrefl _ (c.eLt _ hh)
  have c1 := (c.allocEdge a b l []).withSlot0 p0 m (s.allocEdge a b l []).nodeIx (s.allocEdge a b l []).edgeIx
  obtain ⟨s2, h2⟩ := Gone.connect_total (e := s.idBase) c1 (fun n hn => g n hn) (by rw [hnx]; exact hnn)
  have h2' : ({ s.allocEdge a b l [] with slot0 := p0, allEdges := m } : State).connect s.idBase = some s2 := h2
  obtain ⟨q1, q2, im, om, hq⟩ := connect_frame h2
  refine ⟨{ s2 with edgeIx := s2.edgeIx }, ?_, ?_, ?_, ?_, ?_⟩
  · rw [newEdge_eq, hadd]
    simp only [h2', Indexes.addAll]
  · rw [hq]
    exact EdgeMap.add_count hadd
  · rw [hq]; simp [State.allocEdge]
  · rw [hq]; simp [State.allocEdge]
  · rw [hq]; simp [State.allocEdge]

/-- a history that removed a relabeled edge, so that `GetEdges` is wrong, and a node -/
def brokenOps : List Op :=
  [.newNode [] [], .newNode [] [], .newEdge 0 0 "A" [], .newEdge 0 0 "B" [], .newEdge 0 0 "B" [], .setEdgeLabel 2 "B",
   .removeEdge 2, .detachRemove 1]

example : Spec.ValidHistory brokenOps ∧ ¬ FiledOk brokenOps ∧
    ((run brokenOps).map (fun s => (s.getEdges, s.numEdges))) = some (some [2], 2) ∧
    ((run brokenOps).bind (fun s => (s.newEdge 0 1 "z" []).bind (fun s => s.nodeEdges 1 .any))) = some [5] := by
  refine ⟨by decide +kernel, by decide +kernel, by decide +kernel, by decide +kernel⟩

example : Spec.ValidHistory demoOps ∧ FiledOk demoOps ∧ Op.detachRemove 0 ∈ demoOps ∧
    ((run demoOps).bind (fun s => (s.newEdge 0 0 "z" []).bind (fun s => s.nodeEdges 0 .any))) = some [7, 7] := by
  refine ⟨by decide +kernel, by decide +kernel, ?_, by decide +kernel⟩
  simp [demoOps]

end LPG
