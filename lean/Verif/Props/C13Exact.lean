import Verif.Props.C12C16
import Verif.Props.C07Exact
import Verif.Proofs.IndexExact
import Verif.Proofs.Stale
/-!
# C12 and C13: what the lookups by property yield when the property fails

`leftInIndex`, `NodeIndexSafe` and `EdgeIndexSafe` (`Verif.Spec.IndexExact`) speak about the operations and the
abstract graph only.
-/
namespace LPG
open State

/-! ## C12 -/

/-- an index created after the graph was emptied and filled again; the list breaks later -/
def lateIndexOps : List Op :=
  [.newNode [] [], .detachRemove 0, .newNode [] [("x", .int 3)], .addNodeIndex "x" .btree, .newNode [] [("x", .int 1)],
   .detachRemove 2, .newNode [] [("x", .int 2)]]

example : Spec.ValidHistory lateIndexOps ∧ NodeIndexSafe lateIndexOps ∧ ¬ ListOk lateIndexOps ∧
    (run lateIndexOps).bind (fun s => s.getNodesWithProperty "x") = some [3, 1] ∧
    (run lateIndexOps).bind State.getNodes = some [1] := by decide +kernel

example : NodeIndexed lateIndexOps "x" := ⟨.btree, by simp [lateIndexOps]⟩

theorem nodeIx_only {ops : List Op} {k : String} : ∀ {s s' : State}, LPG.runFrom s ops = some s' →
    AMap.get s'.nodeIx k ≠ none → AMap.get s.nodeIx k ≠ none ∨ NodeIndexed ops k := by
  induction ops with
  | nil => intro s s' hs h; simp [LPG.runFrom] at hs; subst hs; exact Or.inl h
  | cons op ops ih =>
    intro s s' hs h
    rw [LPG.runFrom] at hs
    split at hs
    · cases hs
    · rename_i s1 h1
      rcases ih hs h with h | ⟨t, h⟩
      · rcases nodeIx_keys h1 k h with h | h
        · exact Or.inl h
        · right
          cases op <;> simp [Op.nodeIndexKey] at h
          subst h; exact ⟨_, List.mem_cons_self⟩
      · exact Or.inr ⟨t, List.mem_cons_of_mem _ h⟩

/-- After every history, whatever it did to the list of nodes: a new index has the nodes that `GetNodes` yields and
that have the property, and no others. -/
theorem C12_created (ops : List Op) (hv : Spec.ValidHistory ops) (k : String) (t : IndexType)
    (hk : ¬ NodeIndexed ops k) (s : State) (hs : run (ops ++ [.addNodeIndex k t]) = some s) :
    ∃ ns xs, s.getNodes = some ns ∧ s.getNodesWithProperty k = some xs ∧
      xs.Perm (ns.filter (fun n => (s.nodeProperty n k).isSome)) := by
  obtain ⟨s1, hs1, hs2⟩ := run_split hs
  obtain ⟨ns, h1, h2, _⟩ := (Mono.init.runFrom Core.init hv hs1).getNodes
  have hnone : AMap.get s1.nodeIx k = none := Classical.byContradiction fun h => by
    rcases nodeIx_only (s := State.new) hs1 h with h | h
    · simp [State.new, AMap.get] at h
    · exact hk h
  simp only [runFrom, LPG.step, State.addNodeIndex, hnone, h1] at hs2
  split at hs2
  · cases hs2
  · rename_i s2 h2'
    cases hs2
    split at h2'
    · cases h2'
    · rename_i ix hix
      cases h2'
      have hnd : ns.Nodup := h2.imp (fun h => Nat.ne_of_lt h)
      have a := (IRep.new t).addObjects hnd (by simp) hix
      refine ⟨ns, ix.valueItr, h1, by simp [State.getNodesWithProperty, AMap.get_set], ?_⟩
      rw [List.perm_ext_iff_of_nodup a.ids (hnd.filter _)]
      intro n
      rw [a.mem, List.mem_filter]
      simp only [State.nodeProperty]
      constructor
      · rintro ⟨v, hn⟩
        split at hn
        · rename_i hmem; exact ⟨hmem, by rw [hn]; rfl⟩
        · cases hn
      · rintro ⟨hmem, hsome⟩
        rw [if_pos hmem]; exact Option.isSome_iff_exists.1 hsome

/-- A node created when the newest live node has been removed and others are left is in no index that is created
later, as long as the oldest of the old nodes is there. -/
theorem C12_lost (p q : List Op) (ls : List String) (ps : Props) (k : String) (t : IndexType)
    (hv : Spec.ValidHistory (p ++ .newNode ls ps :: q)) (hc : ListOk p) (hg : (flagsAfter p).gone = true)
    (m : Nat) (hm : (Spec.run p).nodes.head? = some m)
    (hl : m ∈ (Spec.run (p ++ .newNode ls ps :: q)).nodes) (hk : ¬ NodeIndexed (p ++ .newNode ls ps :: q) k)
    (s : State) (hs : run (p ++ .newNode ls ps :: q ++ [.addNodeIndex k t]) = some s) :
    ∃ xs, s.getNodesWithProperty k = some xs ∧ ∀ n ∈ xs, n < (Spec.run p).next := by
  obtain ⟨ns, xs, h1, h2, h3⟩ := C12_created _ hv k t hk s hs
  obtain ⟨s1, hs1, hs2⟩ := run_split hs
  have h4 := C01_lost p q ls ps hv hc hg m hm hl s1 hs1
  simp only [runFrom] at hs2
  split at hs2
  · cases hs2
  · rename_i s2 h5
    cases hs2
    have hN := step_nodeList h5
    simp only at hN
    have h6 : s.getNodes = s1.getNodes := by
      obtain ⟨ixs, rfl⟩ := addNodeIndex_frame h5
      rfl
    rw [h6, h4] at h1
    refine ⟨xs, h2, fun n hn => ?_⟩
    have := (List.mem_filter.1 (h3.mem_iff.1 hn)).1
    rw [← Option.some.inj h1] at this
    simpa using (List.mem_filter.1 this).2

example : (let p : List Op := [.newNode [] [("x", .int 1)], .newNode [] [], .detachRemove 1]
    let q : List Op := [.newNode [] [("x", .int 3)]]
    Spec.ValidHistory (p ++ .newNode [] [("x", .int 2)] :: q) ∧ ListOk p ∧ (flagsAfter p).gone = true ∧
    (Spec.run p).nodes.head? = some 0 ∧
    (run (p ++ .newNode [] [("x", .int 2)] :: q ++ [.addNodeIndex "x" .hash])).bind
      (fun s => s.getNodesWithProperty "x") = some [0]) := by decide +kernel

/-! ## C13 -/

/-- What the lookup by an indexed property of edges yields, also when edges with the property were removed by
`Edge.Remove`: the live edges that have it, and every edge that was removed by `Edge.Remove` while it had it. -/
theorem C13_left (ops : List Op) (hv : Spec.ValidHistory ops) (hi : EdgeIndexSafe ops) (k : String)
    (hk : EdgeIndexed ops k) (s : State) (hs : run ops = some s) :
    ∃ es, s.getEdgesWithProperty k = some es ∧
      es.Perm ((Spec.run ops).edges.filter (fun e => ((Spec.run ops).eprop e k).isSome) ++ leftInIndex ops k) := by
  have c := Core.run hv hs
  have h0 : LeftRep State.new Spec.new (fun _ => []) :=
    ⟨by intro k ix h; simp [State.new, AMap.get] at h, by simp, by simp, by simp, by simp⟩
  have h := LeftRep.runFrom (K := []) Core.init (fun _ => AEx.init (g := fun _ => ""))
    (by intro k; simp [State.new, AMap.get]) h0 hv hi hs
  have hL : (fun k => ([] : List Nat) ++ Spec.new.leftFrom [] k ops) = leftInIndex ops := by
    funext k; simp [leftInIndex]
  rw [hL] at h
  have hg := edgeIx_indexed hs (Or.inr hk)
  cases hix : AMap.get s.edgeIx k with
  | none => exact absurd hix hg
  | some ix =>
    refine ⟨ix.valueItr, by simp [State.getEdgesWithProperty, hix], ?_⟩
    have r := h.ix k ix hix
    have hnd : ((Spec.run ops).edges.filter (fun e => ((Spec.run ops).eprop e k).isSome) ++ leftInIndex ops k).Nodup := by
      rw [List.nodup_append]
      refine ⟨c.eNodup.filter _, h.nodup k, ?_⟩
      rintro a ha b hb rfl
      exact (h.dead k a hb).1 (List.mem_filter.1 ha).1
    rw [List.perm_ext_iff_of_nodup r.ids hnd]
    intro e
    rw [r.mem, List.mem_append, List.mem_filter]
    simp only [State.evalL]
    constructor
    · rintro ⟨v, hn⟩
      split at hn
      · rename_i hmem
        by_cases he : e ∈ (Spec.run ops).edges
        · exact Or.inl ⟨he, by rw [← (c.eprops e he).2 k, hn]; rfl⟩
        · exact Or.inr (hmem.resolve_left he)
      · cases hn
    · rintro (⟨hmem, hsome⟩ | hmem)
      · have hmem' : e ∈ (Spec.new.runFrom ops).edges := hmem
        rw [if_pos (Or.inl hmem'), (c.eprops e hmem).2 k]
        exact Option.isSome_iff_exists.1 hsome
      · rw [if_pos (Or.inr hmem)]
        exact Option.isSome_iff_exists.1 (h.has k e hmem)

/-- edges with an indexed property removed by `Edge.Remove`, before and after the index was created -/
def leftOps : List Op :=
  [.newNode [] [], .newEdge 0 0 "A" [("x", .int 1)], .removeEdge 1, .addEdgeIndex "x" .btree,
   .newEdge 0 0 "A" [("x", .int 5)], .newEdge 0 0 "A" [("x", .int 4)], .newEdge 0 0 "B" [("x", .int 3)],
   .setEdgeLabel 2 "C", .setEdgeLabel 2 "A", .removeEdge 2, .newEdge 0 0 "B" [("y", .int 3)], .removeEdge 5,
   .removeEdge 4, .removeEdgeProp 3 "x"]

example : Spec.ValidHistory leftOps ∧ EdgeIndexSafe leftOps ∧ leftInIndex leftOps "x" = [2, 4] ∧
    (Spec.run leftOps).edges = [3] ∧
    (run leftOps).bind (fun s => s.getEdgesWithProperty "x") = some [4, 2] := by decide +kernel

example : EdgeIndexed leftOps "x" := ⟨.btree, by simp [leftOps]⟩

/-- C13 holds for an indexed key exactly if no edge that had the property was removed by `Edge.Remove` since the
index was created. -/
theorem C13_iff (ops : List Op) (hv : Spec.ValidHistory ops) (hi : EdgeIndexSafe ops) (k : String)
    (hk : EdgeIndexed ops k) (s : State) (hs : run ops = some s) : C13_statement ops k ↔ leftInIndex ops k = [] := by
  obtain ⟨es, h1, h2⟩ := C13_left ops hv hi k hk s hs
  constructor
  · intro h
    obtain ⟨es', h3, h4⟩ := h s hs
    rw [h1] at h3; cases h3
    have := (h2.symm.trans h4).length_eq
    rw [List.length_append] at this
    exact List.length_eq_zero_iff.1 (by omega)
  · intro h s' hs'
    rw [hs] at hs'; cases hs'
    rw [h, List.append_nil] at h2
    exact ⟨es, h1, h2⟩

end LPG
