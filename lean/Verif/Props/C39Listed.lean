import Verif.Props.C39C41
import Verif.Props.C36Listed
/-!
# C39 after every history

What `Encode` followed by `Decode` gives for graphs whose enumeration of the nodes is wrong (C01).
-/
namespace LPG
open Json

/-- The node itself, if it is enumerated in `v`; otherwise the first enumerated node. -/
def writtenAs (v : List Nat) (n : Nat) : Nat := if n ∈ v then n else v.head?.getD 0

/-- The graph that is written when the nodes `v` are enumerated: these nodes with their labels and properties, removed or not, and the
edges. Edges within the nodes are written only for the nodes that are enumerated. An edge from or to a node that is not
enumerated is written as if from or to the first enumerated node. -/
def Spec.written (σ : Spec) (v : List Nat) (separately : Bool) : Spec :=
  { σ with
    nodes := v
    edges := if separately then σ.edges else σ.edges.filter (fun e => σ.src e ∈ v)
    src := fun e => writtenAs v (σ.src e)
    dst := fun e => writtenAs v (σ.dst e) }

theorem num_writtenAs {v : List Nat} (hv : v.Nodup) (n : Nat) :
    num (v.zipIdx 0) n = num (v.zipIdx 0) (writtenAs v n) := by
  unfold writtenAs
  split
  · rfl
  · rename_i hn
    have h0 : num (v.zipIdx 0) n = 0 := by
      have : AMap.get (v.zipIdx 0) n = none := by
        cases h : AMap.get (v.zipIdx 0) n with
        | none => rfl
        | some i =>
          have := List.mem_map_of_mem (f := Prod.fst) (AMap.mem_of_get h)
          rw [List.zipIdx_map_fst] at this
          exact absurd this hn
      rw [num, this]; rfl
    rw [h0]
    cases v with
    | nil => rfl
    | cons a v => exact (zip_get hv (a, 0) (by simp)).symm

/-- After every history, `Encode` followed by `Decode` into a new graph gives a copy of the graph `Spec.written`: of the
nodes that are enumerated, where edges from and to other nodes are moved to the first of them. Missing: as in
`C39_partial`, the edges written separately after a removal of an edge that is filed under another label (C04) or in a graph
without nodes, and properties that the functions for properties do not keep. -/
theorem C39_listing_partial {ops : List Op} (hv : Spec.ValidHistory ops) {s : State} (hs : run ops = some s) {c : Codec}
    (hr : c.separately = true → FiledOk ops) {order : AMap Nat Nat → AMap Nat Nat} (ho : ∀ m, (order m).Perm m)
    (hi : InverseOn c ((Spec.run ops).written (listingAfter ops).nodes c.separately))
    (hne : c.separately = true → (listingAfter ops).nodes ≠ []) :
    C39_statement c order s ((Spec.run ops).written (listingAfter ops).nodes c.separately) := by
  have k := Core.run hv hs
  have kp := Kept.run hs
  have hnd : (listingAfter ops).nodes.Nodup := (C01_shown ops hv s hs).2.2.imp (fun h => Nat.ne_of_lt h)
  have hgn := C01_listing ops hv s hs
  have hsub : ∀ e ∈ ((Spec.run ops).written (listingAfter ops).nodes c.separately).edges, e ∈ (Spec.run ops).edges := by
    intro e he
    simp only [Spec.written] at he
    split at he
    · exact he
    · exact (List.mem_filter.1 he).1
  refine Written.copy (σ := (Spec.run ops).written (listingAfter ops).nodes c.separately) ⟨hgn, hnd, fun n _ => kp.labels n, fun n _ => ⟨keys_run hv hs n, kp.nprops n⟩, ?_, ?_, ?_, ?_, ?_, ?_,
    ?_, ?_⟩ ho hi hne
  · simp only [Spec.written]
    split
    · exact k.eNodup
    · exact k.eNodup.filter _
  · intro e he
    rw [(k.eattr e (hsub e he)).1]
    exact num_writtenAs hnd _
  · intro e he
    rw [(k.eattr e (hsub e he)).2.1]
    exact num_writtenAs hnd _
  · intro e he
    exact (k.eattr e (hsub e he)).2.2
  · intro e he
    exact k.eprops e (hsub e he)
  · intro e he
    have hh : (listingAfter ops).nodes ≠ [] := by
      intro h0
      cases hsep : c.separately with
      | true => exact hne hsep h0
      | false =>
        simp only [Spec.written, hsep, h0] at he
        simp at he
    have : ∀ n, writtenAs (listingAfter ops).nodes n ∈ (listingAfter ops).nodes := by
      intro n
      unfold writtenAs
      split
      · assumption
      · cases h1 : (listingAfter ops).nodes with
        | nil => exact absurd h1 hh
        | cons a v => simp
    exact ⟨this _, this _⟩
  · intro n hn
    obtain ⟨o, h1, h2⟩ := outgoing_run hv hs n
    have hm : ∀ e, e ∈ o ↔ e ∈ (Spec.run ops).edges ∧ (Spec.run ops).src e = n := by
      intro e; rw [h2.mem_iff, Spec.outEdges, List.mem_filter]; simp
    refine ⟨o, h1, fun e he => ?_, fun hsep => h2.trans (List.Perm.of_eq ?_)⟩
    · simp only [Spec.written]
      split
      · exact ((hm e).1 he).1
      · rw [List.mem_filter]
        exact ⟨((hm e).1 he).1, by rw [((hm e).1 he).2]; exact decide_eq_true hn⟩
    · simp only [Spec.written, Spec.outEdges, hsep]
      simp only [Bool.false_eq_true, if_false, List.filter_filter]
      refine List.filter_congr fun e he => ?_
      have hn : n ∈ (listingAfter ops).nodes := hn
      by_cases h3 : (Spec.run ops).src e ∈ (listingAfter ops).nodes
      · simp [writtenAs, h3]
      · have : (Spec.run ops).src e ≠ n := fun h => h3 (h ▸ hn)
        simp [h3, this]
  · intro hsep
    obtain ⟨es, h1, h2⟩ := (filed_run hv (hr hsep) hs).getEdges k
    exact ⟨es, h1, by simpa [Spec.written, hsep] using h2⟩

/-- the removed node 3 is written, the lost node 7 is not, and the edge from 4 to 7 comes back as an edge from the copy of
4 to the copy of 3 -/
example : Spec.ValidHistory tangledOps ∧
    (let τ := (Spec.run tangledOps).written (listingAfter tangledOps).nodes false
     (τ.nodes, τ.edges.map (fun e => (τ.src e, τ.dst e))) = ([3, 4, 5], [(4, 3)])) ∧
    (((run tangledOps).bind (fun s => encode (plain false) id s)).bind (fun o => decode (plain false) State.new o.1)).map
      (fun r => (r.1, r.2.numNodes, r.2.getEdges.map (fun es => es.map (fun e => (r.2.eFrom e, r.2.eTo e))))) =
      some (none, 3, some [(1, 0)]) := by decide +kernel

end LPG
