import Verif.Proofs.Mono
/-! Labels and properties of removed nodes stay as they were. -/
namespace LPG
open State

/-- The labels and properties of all nodes, removed or not, are those of the abstract graph. -/
structure Kept (s : State) (σ : Spec) : Prop where
  next : s.idBase = σ.next
  nprops : ∀ n k, (s.nProps n).get k = σ.nprop n k
  labels : ∀ n l, l ∈ s.nLabels n ↔ l ∈ σ.labels n

theorem Kept.init : Kept State.new Spec.new := ⟨rfl, fun _ _ => rfl, fun _ _ => Iff.rfl⟩

theorem Kept.step {s s' : State} {σ : Spec} {op : Op} (h : Kept s σ) (hs : LPG.step s op = some s') :
    Kept s' (σ.step op) := by
  obtain ⟨h0, h1, h2⟩ := h
  cases op with
  | newNode ls ps =>
    obtain ⟨ixs, _, rfl⟩ := newNode_frame hs
    refine ⟨by simp [Spec.step, h0], fun n k => ?_, fun n l => ?_⟩
    · simp only [Spec.step, upd_apply, h0]; split
      · rfl
      · exact h1 n k
    · simp only [Spec.step, upd_apply, h0]; split
      · exact List.mem_eraseDups
      · exact h2 n l
  | newEdge a b l ps =>
    obtain ⟨_, _, e0, e1, e2, _⟩ := newEdge_frame hs
    exact ⟨by simp [Spec.step, e0, h0], by rw [e2]; exact h1, by rw [e1]; exact h2⟩
  | setLabels n ls =>
    cases hs
    refine ⟨h0, h1, fun m l => ?_⟩
    simp only [State.setLabels, Spec.step, upd_apply]; split
    · rfl
    · exact h2 m l
  | setNodeProp n k v =>
    obtain ⟨ixs, rfl⟩ := setNodeProp_frame hs
    refine ⟨h0, fun m k' => ?_, h2⟩
    simp only [Spec.step, upd_apply]; split
    · rw [AMap.get_set, upd_apply]; split
      · rfl
      · exact h1 n k'
    · exact h1 m k'
  | removeNodeProp n k =>
    obtain ⟨ixs, rfl⟩ := removeNodeProp_frame hs
    refine ⟨h0, fun m k' => ?_, h2⟩
    simp only [Spec.step, upd_apply]; split
    · rw [AMap.get_del, upd_apply]; split
      · rfl
      · exact h1 n k'
    · exact h1 m k'
  | detach n => obtain ⟨_, _, _, _, _, _, _, rfl⟩ := detachNode_frame hs; exact ⟨h0, h1, h2⟩
  | detachRemove n =>
    simp only [LPG.step, State.detachRemoveNode] at hs
    split at hs
    · cases hs
    · rename_i s1 hd
      obtain ⟨_, _, _, _, _, _, _, rfl⟩ := detachNode_frame hd
      split at hs
      · cases hs
      · cases hs; exact ⟨h0, h1, h2⟩
  | setEdgeLabel e l =>
    simp only [LPG.step, State.setEdgeLabel] at hs
    split at hs
    · cases hs; exact ⟨h0, h1, h2⟩
    · obtain ⟨_, _, _, _, rfl⟩ := connect_frame hs; exact ⟨h0, h1, h2⟩
  | setEdgeProp e k v => obtain ⟨ixs, rfl⟩ := setEdgeProp_frame hs; exact ⟨h0, h1, h2⟩
  | removeEdgeProp e k => obtain ⟨ixs, rfl⟩ := removeEdgeProp_frame hs; exact ⟨h0, h1, h2⟩
  | removeEdge e => cases hs; exact ⟨h0, h1, h2⟩
  | addNodeIndex k t => obtain ⟨ixs, rfl⟩ := addNodeIndex_frame hs; exact ⟨h0, h1, h2⟩
  | addEdgeIndex k t => obtain ⟨ixs, rfl⟩ := addEdgeIndex_frame hs; exact ⟨h0, h1, h2⟩

theorem Kept.runFrom {ops : List Op} : ∀ {s s' : State} {σ : Spec}, Kept s σ → LPG.runFrom s ops = some s' →
    Kept s' (σ.runFrom ops) := by
  induction ops with
  | nil => intro s s' σ h hs; simp [LPG.runFrom] at hs; subst hs; exact h
  | cons op ops ih =>
    intro s s' σ h hs
    rw [LPG.runFrom] at hs
    split at hs
    · cases hs
    · rename_i s1 h1
      exact ih (h.step h1) hs

theorem Kept.run {ops : List Op} {s : State} (hs : LPG.run ops = some s) : Kept s (Spec.run ops) :=
  Kept.init.runFrom hs

/-- No property map has a key twice, whether the node was removed or not. -/
theorem keysFrom {ops : List Op} : ∀ {s s' : State} {σ : Spec}, (∀ n, (AMap.keys (s.nProps n)).Nodup) → σ.ValidFrom ops →
    LPG.runFrom s ops = some s' → ∀ n, (AMap.keys (s'.nProps n)).Nodup := by
  induction ops with
  | nil => intro s s' σ h _ hs; simp [LPG.runFrom] at hs; subst hs; exact h
  | cons op ops ih =>
    intro s s' σ h hv hs
    rw [LPG.runFrom] at hs
    split at hs
    · cases hs
    · rename_i s1 h1
      refine ih ?_ hv.2 hs
      have hv := hv.1
      cases op with
      | newNode ls ps =>
        obtain ⟨ixs, _, rfl⟩ := newNode_frame h1
        intro n
        simp only [upd_apply]; split
        · exact hv
        · exact h n
      | newEdge a b l ps => obtain ⟨_, _, _, _, e2, _⟩ := newEdge_frame h1; rw [e2]; exact h
      | setLabels n ls => cases h1; exact h
      | setNodeProp n k v =>
        obtain ⟨ixs, rfl⟩ := setNodeProp_frame h1
        intro m
        simp only [upd_apply]; split
        · exact AMap.nodup_set (h n) _ _
        · exact h m
      | removeNodeProp n k =>
        obtain ⟨ixs, rfl⟩ := removeNodeProp_frame h1
        intro m
        simp only [upd_apply]; split
        · exact AMap.nodup_del (h n) _
        · exact h m
      | detach n => obtain ⟨_, _, _, _, _, _, _, rfl⟩ := detachNode_frame h1; exact h
      | detachRemove n =>
        simp only [LPG.step, State.detachRemoveNode] at h1
        split at h1
        · cases h1
        · rename_i s1 hd
          obtain ⟨_, _, _, _, _, _, _, rfl⟩ := detachNode_frame hd
          split at h1
          · cases h1
          · cases h1; exact h
      | setEdgeLabel e l =>
        simp only [LPG.step, State.setEdgeLabel] at h1
        split at h1
        · cases h1; exact h
        · obtain ⟨_, _, _, _, rfl⟩ := connect_frame h1; exact h
      | setEdgeProp e k v => obtain ⟨ixs, rfl⟩ := setEdgeProp_frame h1; exact h
      | removeEdgeProp e k => obtain ⟨ixs, rfl⟩ := removeEdgeProp_frame h1; exact h
      | removeEdge e => cases h1; exact h
      | addNodeIndex k t => obtain ⟨ixs, rfl⟩ := addNodeIndex_frame h1; exact h
      | addEdgeIndex k t => obtain ⟨ixs, rfl⟩ := addEdgeIndex_frame h1; exact h

theorem keys_run {ops : List Op} {s : State} (hv : Spec.ValidHistory ops) (hs : LPG.run ops = some s) (n : Nat) :
    (AMap.keys (s.nProps n)).Nodup :=
  keysFrom (fun _ => by simp [State.new, AMap.keys]) hv hs n

end LPG
