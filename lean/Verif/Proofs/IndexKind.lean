import Verif.Spec.IndexTrack
import Verif.Proofs.Total
/-!
# The type of an index is the type asked for first
-/
namespace LPG
open State

theorem nodeIx_type_step {s s' : State} {op : Op} (hs : LPG.step s op = some s') (k : String) :
    s'.nodeIx.kind k = (s.nodeIx.kind k).or (nodeIndexType [op] k) := by
  cases op with
  | addNodeIndex k' t =>
    simp only [nodeIndexType]
    have hs0 := hs
    simp only [LPG.step, State.addNodeIndex] at hs
    by_cases hk : k' = k
    · subst hk
      rw [if_pos rfl]
      split at hs
      · rename_i ix hg
        cases hs
        simp [Indexes.kind, hg]
      · rename_i hg
        split at hs
        · cases hs
        · split at hs
          · cases hs
          · rename_i ix hix
            cases hs
            simp only [Indexes.kind, hg, AMap.get_set, if_true, Option.map_some, addObjects_kind hix]
            cases t <;> rfl
    · rw [if_neg hk, Option.or_none]
      rcases nodeIx_kind hs0 k with h | ⟨t', h, _⟩
      · exact h
      · cases h; exact absurd rfl hk
  | _ =>
    rcases nodeIx_kind hs k with h | ⟨t', h, _⟩
    · rw [h]; simp [nodeIndexType]
    · cases h

theorem nodeIndexType_cons (op : Op) (ops : List Op) (k : String) :
    nodeIndexType (op :: ops) k = (nodeIndexType [op] k).or (nodeIndexType ops k) := by
  cases op <;> simp [nodeIndexType]
  split <;> simp

theorem nodeIx_type {ops : List Op} {k : String} : ∀ {s s' : State}, LPG.runFrom s ops = some s' →
    s'.nodeIx.kind k = (s.nodeIx.kind k).or (nodeIndexType ops k) := by
  induction ops with
  | nil => intro s s' hs; simp [LPG.runFrom] at hs; subst hs; simp [nodeIndexType]
  | cons op ops ih =>
    intro s s' hs
    rw [LPG.runFrom] at hs
    split at hs
    · cases hs
    · rename_i s1 h1
      rw [ih hs, nodeIx_type_step h1 k, nodeIndexType_cons op ops, Option.or_assoc]

theorem detachEdges_kind : ∀ {es : List Nat} {s s' : State}, s.detachEdges es = some s' →
    ∀ k, s'.edgeIx.kind k = s.edgeIx.kind k
  | [], _, _, h, k => by simp [State.detachEdges] at h; subst h; rfl
  | e :: es, s, s', h, k => by
    rw [State.detachEdges] at h
    split at h
    · cases h
    · rename_i s1 h1
      rw [detachEdges_kind h k]
      unfold State.detachEdge at h1
      simp only at h1
      split at h1
      · cases h1
      · rename_i ixs h2
        cases h1
        exact Indexes.removeAll_kind h2 k

theorem detachNode_kind {s s' : State} {n : Nat} (h : s.detachNode n = some s') (k : String) :
    s'.edgeIx.kind k = s.edgeIx.kind k := by
  unfold State.detachNode at h
  split at h
  · cases h
  · split at h
    · cases h
    · rename_i s1 h1
      simp only at h
      split at h
      · cases h
      · split at h
        · cases h
        · rename_i s2 h2
          cases h
          have a := detachEdges_kind h2 k
          have b := detachEdges_kind h1 k
          exact a.trans b

theorem edgeIx_type_step {s s' : State} {op : Op} (hs : LPG.step s op = some s') (k : String) :
    s'.edgeIx.kind k = (s.edgeIx.kind k).or (edgeIndexType [op] k) := by
  cases op with
  | addEdgeIndex k' t =>
    simp only [edgeIndexType]
    simp only [LPG.step, State.addEdgeIndex] at hs
    split at hs
    · rename_i ix hg
      cases hs
      split
      · rename_i hk; subst hk; simp [Indexes.kind, hg]
      · simp
    · rename_i hg
      split at hs
      · cases hs
      · split at hs
        · cases hs
        · rename_i ix hix
          cases hs
          simp only [Indexes.kind, AMap.get_set]
          by_cases hk : k' = k
          · subst hk
            simp only [hg, if_true, Option.map_some, addObjects_kind hix]
            cases t <;> rfl
          · rw [if_neg hk, if_neg (Ne.symm hk), Option.or_none]
  | newNode ls ps => obtain ⟨ixs, hix, rfl⟩ := newNode_frame hs; simp [edgeIndexType]
  | newEdge a b l ps =>
    obtain ⟨_, _, _, _, _, _, _, _, _, _, _, hix⟩ := newEdge_frame hs
    simp [edgeIndexType, Indexes.addAll_kind hix k]
  | setLabels n ls => cases hs; simp [edgeIndexType, State.setLabels]
  | setNodeProp n k v => obtain ⟨ixs, rfl⟩ := setNodeProp_frame hs; simp [edgeIndexType]
  | removeNodeProp n k => obtain ⟨ixs, rfl⟩ := removeNodeProp_frame hs; simp [edgeIndexType]
  | detach n => simp [edgeIndexType, detachNode_kind hs k]
  | detachRemove n =>
    simp only [LPG.step, State.detachRemoveNode] at hs
    split at hs
    · cases hs
    · rename_i s1 h1
      split at hs
      · cases hs
      · cases hs; simp [edgeIndexType, detachNode_kind h1 k]
  | setEdgeLabel e l =>
    simp only [LPG.step, State.setEdgeLabel] at hs
    split at hs
    · cases hs; simp [edgeIndexType]
    · obtain ⟨p1, p2, im, om, rfl⟩ := connect_frame hs
      simp [edgeIndexType, State.withEdges, State.disconnect]
  | setEdgeProp n k' v =>
    simp only [LPG.step, State.setEdgeProp] at hs
    split at hs
    · cases hs
    · rename_i ixs1 h1
      split at hs
      · cases hs
      · rename_i ixs2 h2
        cases hs
        simp only [edgeIndexType, Option.or_none]
        refine (Indexes.add_kind h2 k).trans ?_
        split at h1
        · cases h1; rfl
        · exact Indexes.remove_kind h1 k
  | removeEdgeProp n k' =>
    simp only [LPG.step, State.removeEdgeProp] at hs
    split at hs
    · cases hs; simp [edgeIndexType]
    · split at hs
      · cases hs
      · rename_i ixs1 h1
        cases hs
        simp only [edgeIndexType, Option.or_none]
        exact Indexes.remove_kind h1 k
  | removeEdge e => cases hs; simp [edgeIndexType, State.removeEdge, State.dropEdge, State.disconnect]
  | addNodeIndex k t => obtain ⟨ixs, rfl⟩ := addNodeIndex_frame hs; simp [edgeIndexType]

theorem edgeIndexType_cons (op : Op) (ops : List Op) (k : String) :
    edgeIndexType (op :: ops) k = (edgeIndexType [op] k).or (edgeIndexType ops k) := by
  cases op <;> simp [edgeIndexType]
  split <;> simp

theorem edgeIx_type {ops : List Op} {k : String} : ∀ {s s' : State}, LPG.runFrom s ops = some s' →
    s'.edgeIx.kind k = (s.edgeIx.kind k).or (edgeIndexType ops k) := by
  induction ops with
  | nil => intro s s' hs; simp [LPG.runFrom] at hs; subst hs; simp [edgeIndexType]
  | cons op ops ih =>
    intro s s' hs
    rw [LPG.runFrom] at hs
    split at hs
    · cases hs
    · rename_i s1 h1
      rw [ih hs, edgeIx_type_step h1 k, edgeIndexType_cons op ops, Option.or_assoc]

/-- An index exists exactly for the properties asked for, with the type asked for first. -/
theorem nodeIx_type_run {ops : List Op} {s : State} (hs : run ops = some s) (k : String) :
    s.nodeIx.kind k = nodeIndexType ops k := by
  rw [nodeIx_type (s := State.new) hs]; simp [Indexes.kind, State.new, AMap.get]

theorem edgeIx_type_run {ops : List Op} {s : State} (hs : run ops = some s) (k : String) :
    s.edgeIx.kind k = edgeIndexType ops k := by
  rw [edgeIx_type (s := State.new) hs]; simp [Indexes.kind, State.new, AMap.get]

end LPG
