import Verif.Proofs.BTree
import Verif.Proofs.NodeListExact
import Verif.Proofs.FiledEdges
import Verif.Spec.IndexConditions
/-!
# The property indexes of a graph
-/
namespace LPG

/-- every index contains exactly the objects that have its property -/
def IxsRep (ixs : Indexes) (val : String → Nat → Option Value) : Prop :=
  ∀ key ix, AMap.get ixs key = some ix → IRep ix (val key)

theorem IxsRep.congr {ixs : Indexes} {val val' : String → Nat → Option Value} (h : IxsRep ixs val)
    (he : ∀ k x, val' k x = val k x) : IxsRep ixs val' := by
  have : val' = val := funext fun k => funext fun x => he k x
  rw [this]; exact h

theorem IxsRep.add {ixs ixs' : Indexes} {val : String → Nat → Option Value} {key : String} {v : Value} {id : Nat}
    (h : IxsRep ixs val) (hid : val key id = none) (ha : Indexes.add ixs key v id = some ixs') :
    IxsRep ixs' (fun k x => if k = key ∧ x = id then some v else val k x) := by
  unfold Indexes.add at ha
  split at ha
  · rename_i hg
    cases ha
    intro k ix hk
    have hne : k ≠ key := by rintro rfl; rw [hg] at hk; cases hk
    have := h k ix hk
    simpa [hne] using this
  · rename_i ix hg
    simp only [Option.map_eq_some_iff] at ha
    obtain ⟨ix', h1, rfl⟩ := ha
    intro k jx hk
    rw [AMap.get_set] at hk
    split at hk
    · rename_i hkk
      cases hk
      subst hkk
      have := (h k ix hg).add hid h1
      have e : (fun x => if k = k ∧ x = id then some v else val k x) = upd (val k) id (some v) := by
        funext x; simp [upd]
      show IRep _ (fun x => if k = k ∧ x = id then some v else val k x)
      rw [e]; exact this
    · rename_i hne
      have := h k jx hk
      simpa [hne] using this

theorem IxsRep.remove {ixs ixs' : Indexes} {val : String → Nat → Option Value} {key : String} {v : Value} {id : Nat}
    (h : IxsRep ixs val) (hid : val key id = some v) (ha : Indexes.remove ixs key v id = some ixs') :
    IxsRep ixs' (fun k x => if k = key ∧ x = id then none else val k x) := by
  unfold Indexes.remove at ha
  split at ha
  · rename_i hg
    cases ha
    intro k ix hk
    have hne : k ≠ key := by rintro rfl; rw [hg] at hk; cases hk
    have := h k ix hk
    simpa [hne] using this
  · rename_i ix hg
    simp only [Option.map_eq_some_iff] at ha
    obtain ⟨ix', h1, rfl⟩ := ha
    intro k jx hk
    rw [AMap.get_set] at hk
    split at hk
    · rename_i hkk
      cases hk
      subst hkk
      have := (h k ix hg).remove hid h1
      have e : (fun x => if k = k ∧ x = id then none else val k x) = upd (val k) id none := by
        funext x; simp [upd]
      show IRep _ (fun x => if k = k ∧ x = id then none else val k x)
      rw [e]; exact this
    · rename_i hne
      have := h k jx hk
      simpa [hne] using this

theorem IxsRep.addAll {id : Nat} : ∀ {ps : Props} {ixs ixs' : Indexes} {val : String → Nat → Option Value},
    IxsRep ixs val → (AMap.keys ps).Nodup → (∀ k ∈ AMap.keys ps, val k id = none) →
    Indexes.addAll id ps ixs = some ixs' →
    IxsRep ixs' (fun k x => if x = id then (match ps.get k with | some v => some v | none => val k x) else val k x)
  | [], ixs, ixs', val, h, _, _, ha => by
    cases ha
    exact h.congr (by intro k x; simp)
  | (k0, v0) :: ps, ixs, ixs', val, h, hn, hv, ha => by
    rw [Indexes.addAll] at ha
    split at ha
    · cases ha
    · rename_i ixs1 h1
      have hn' : k0 ∉ AMap.keys ps ∧ (AMap.keys ps).Nodup := List.nodup_cons.1 hn
      have a1 := h.add (hv k0 (by simp [AMap.keys])) h1
      have a2 := IxsRep.addAll a1 hn'.2 (by
        intro k hk
        have hne : k ≠ k0 := by rintro rfl; exact hn'.1 hk
        simp only [hne, false_and, if_false]
        exact hv k (by simp only [AMap.keys, List.map_cons, List.mem_cons]; exact Or.inr hk)) ha
      refine a2.congr ?_
      intro k x
      by_cases hx : x = id
      · by_cases hk : k = k0
        · subst hk
          have : AMap.get ps k = none := AMap.not_mem_keys.1 hn'.1
          simp [hx, AMap.get, this]
        · simp [hx, AMap.get, hk, Ne.symm hk]
      · simp [hx]

theorem IxsRep.removeAll {id : Nat} : ∀ {ps : Props} {ixs ixs' : Indexes} {val : String → Nat → Option Value},
    IxsRep ixs val → (AMap.keys ps).Nodup → (∀ k v, ps.get k = some v → val k id = some v) →
    Indexes.removeAll id ps ixs = some ixs' →
    IxsRep ixs' (fun k x => if x = id then (match ps.get k with | some _ => none | none => val k x) else val k x)
  | [], ixs, ixs', val, h, _, _, ha => by
    cases ha
    exact h.congr (by intro k x; simp)
  | (k0, v0) :: ps, ixs, ixs', val, h, hn, hv, ha => by
    rw [Indexes.removeAll] at ha
    split at ha
    · cases ha
    · rename_i ixs1 h1
      have hn' : k0 ∉ AMap.keys ps ∧ (AMap.keys ps).Nodup := List.nodup_cons.1 hn
      have a1 := h.remove (hv k0 v0 (by simp [AMap.get])) h1
      have a2 := IxsRep.removeAll a1 hn'.2 (by
        intro k v hk
        have hne : k ≠ k0 := by rintro rfl; exact hn'.1 (AMap.mem_keys.2 ⟨v, hk⟩)
        simp only [hne, false_and, if_false]
        exact hv k v (by simp [AMap.get, Ne.symm hne, hk])) ha
      refine a2.congr ?_
      intro k x
      by_cases hx : x = id
      · by_cases hk : k = k0
        · subst hk
          have : AMap.get ps k = none := AMap.not_mem_keys.1 hn'.1
          simp [hx, AMap.get, this]
        · simp [hx, AMap.get, hk, Ne.symm hk]
      · simp [hx]

theorem IRep.addObjects {key : String} {props : Nat → Props} : ∀ {xs : List Nat} {ix ix' : Index}
    {val : Nat → Option Value}, IRep ix val → xs.Nodup → (∀ x ∈ xs, val x = none) →
    Index.addObjects key props xs ix = some ix' →
    IRep ix' (fun x => if x ∈ xs then (props x).get key else val x)
  | [], ix, ix', val, h, _, _, ha => by
    cases ha
    have e : (fun x => if x ∈ ([] : List Nat) then (props x).get key else val x) = val := by funext x; simp
    rw [e]; exact h
  | y :: xs, ix, ix', val, h, hn, hv, ha => by
    have hn' := List.nodup_cons.1 hn
    rw [Index.addObjects] at ha
    split at ha
    · rename_i hg
      have := IRep.addObjects h hn'.2 (fun x hx => hv x (by simp [hx])) ha
      have e : (fun x => if x ∈ y :: xs then (props x).get key else val x) =
          (fun x => if x ∈ xs then (props x).get key else val x) := by
        funext x
        by_cases hx : x ∈ xs
        · simp [hx]
        · by_cases hxy : x = y
          · subst hxy; simp [hx, hg, hv x (by simp)]
          · simp [hx, hxy]
      rw [e]; exact this
    · rename_i v hg
      split at ha
      · cases ha
      · rename_i ix1 h1
        have a1 := h.add (hv y (by simp)) h1
        have := IRep.addObjects a1 hn'.2 (by
          intro x hx
          have : x ≠ y := by rintro rfl; exact hn'.1 hx
          rw [upd_other _ _ this]; exact hv x (by simp [hx])) ha
        have e : (fun x => if x ∈ y :: xs then (props x).get key else val x) =
            (fun x => if x ∈ xs then (props x).get key else upd val y (some v) x) := by
          funext x
          by_cases hx : x ∈ xs
          · simp [hx]
          · by_cases hxy : x = y
            · subst hxy; simp [hx, hg]
            · simp [hx, hxy, upd]
        rw [e]; exact this

/-! ## Node property indexes -/

/-- the value of a property of a live node -/
def State.nval (s : State) (σ : Spec) (k : String) (n : Nat) : Option Value :=
  if n ∈ σ.nodes then (s.nProps n).get k else none

theorem nval_congr {s s' : State} {σ σ' : Spec} (h1 : s'.nProps = s.nProps) (h2 : σ'.nodes = σ.nodes)
    (h : IxsRep s.nodeIx (s.nval σ)) (h3 : s'.nodeIx = s.nodeIx) : IxsRep s'.nodeIx (s'.nval σ') := by
  have : s'.nval σ' = s.nval σ := by funext k n; simp only [State.nval, h1, h2]
  rw [h3, this]; exact h

theorem setProp_ix {ixs ixs1 ixs' : Indexes} {val : String → Nat → Option Value} {key : String} {v : Value} {id : Nat}
    (h : IxsRep ixs val)
    (h1 : (match val key id with | none => some ixs | some old => Indexes.remove ixs key old id) = some ixs1)
    (h2 : Indexes.add ixs1 key v id = some ixs') :
    IxsRep ixs' (fun k x => if k = key ∧ x = id then some v else val k x) := by
  cases hv : val key id with
  | none =>
    rw [hv] at h1
    cases h1
    exact h.add hv h2
  | some old =>
    rw [hv] at h1
    have a1 := h.remove hv h1
    have a2 := a1.add (by simp) h2
    refine a2.congr ?_
    intro k x
    by_cases hk : k = key ∧ x = id <;> simp [hk]

/-- `good`: if an index is created, the list of nodes is exact. -/
theorem nodeIx_step {s s' : State} {σ : Spec} {op : Op} (c : Core s σ) (h : IxsRep s.nodeIx (s.nval σ))
    (hv : σ.Valid op) (hs : LPG.step s op = some s')
    (good : ∀ k t, op = .addNodeIndex k t → s.getNodes = some σ.nodes) :
    IxsRep s'.nodeIx (s'.nval (σ.step op)) := by
  cases op with
  | newNode ls ps =>
    obtain ⟨ixs, hix, rfl⟩ := newNode_frame hs
    have hnx := c.next
    have hnn : σ.next ∉ σ.nodes := fun hh => Nat.lt_irrefl _ (c.nLt _ hh)
    have a := h.addAll hv (by intro k _; simp only [State.nval]; rw [if_neg]; rw [hnx]; exact hnn) hix
    refine IxsRep.congr a ?_
    intro k x
    simp only [State.nval, Spec.step, List.mem_append, List.mem_singleton, upd_apply]
    by_cases hx : x = s.idBase
    · have : x ∉ σ.nodes := by rw [hx, hnx]; exact hnn
      simp only [hx, hnx, if_true, or_true]
      rw [hnx] at hx
      subst hx
      simp only [if_neg this]
      cases AMap.get ps k <;> rfl
    · have : x ≠ σ.next := by rw [← hnx]; exact hx
      simp [hx, this]
  | newEdge a b l ps =>
    obtain ⟨h1, h2, h3, h4, h5, h6, h7, _⟩ := newEdge_frame hs
    exact nval_congr h5 rfl h h7
  | setLabels n ls => cases hs; exact h
  | setNodeProp n k v =>
    simp only [LPG.step, State.setNodeProp] at hs
    split at hs
    · cases hs
    · rename_i ixs1 h1
      split at hs
      · cases hs
      · rename_i ixs2 h2
        cases hs
        have hval : s.nval σ k n = (s.nProps n).get k := by
          simp only [State.nval]; rw [if_pos (show n ∈ σ.nodes from hv)]
        have h1' : (match s.nval σ k n with | none => some s.nodeIx | some old => Indexes.remove s.nodeIx k old n) =
            some ixs1 := by
          rw [hval]
          revert h1
          cases AMap.get (s.nProps n) k <;> exact id
        refine (setProp_ix h h1' h2).congr ?_
        intro k' x
        simp only [State.nval, Spec.step, upd_apply]
        by_cases hx : x = n
        · subst hx
          have hx : x ∈ σ.nodes := hv
          simp only [hx, if_true, and_true, AMap.get_set]
        · simp [hx]
  | removeNodeProp n k =>
    simp only [LPG.step, State.removeNodeProp] at hs
    have hn : n ∈ σ.nodes := hv
    split at hs
    · cases hs; exact h
    · rename_i old hold
      split at hs
      · cases hs
      · rename_i ixs1 h1
        cases hs
        have hval : s.nval σ k n = some old := by
          simp only [State.nval]; rw [if_pos hn]; exact hold
        refine (h.remove hval h1).congr ?_
        intro k' x
        simp only [State.nval, Spec.step, upd_apply]
        by_cases hx : x = n
        · subst hx
          simp only [hn, if_true, and_true, AMap.get_del]
        · simp [hx]
  | detach n =>
    obtain ⟨p0, p1, p2, im, om, ae, ix, rfl⟩ := detachNode_frame hs
    exact h
  | detachRemove n =>
    simp only [LPG.step, State.detachRemoveNode] at hs
    have hn : n ∈ σ.nodes := hv
    split at hs
    · cases hs
    · rename_i s1 h1
      obtain ⟨p0, p1, p2, im, om, ae, ix, rfl⟩ := detachNode_frame h1
      split at hs
      · cases hs
      · rename_i ixs2 h2
        cases hs
        have a := h.removeAll (c.nprops n hn).1 (by
          intro k v hk; simp only [State.nval]; rw [if_pos hn]; exact hk) h2
        refine IxsRep.congr a ?_
        intro k x
        simp only [State.nval, Spec.step, List.mem_filter, State.withEdges]
        by_cases hx : x = n
        · subst hx
          simp only [hn, if_true]
          cases hgx : AMap.get (s.nProps x) k <;> simp [hgx]
        · simp [hx]
  | setEdgeLabel e l =>
    simp only [LPG.step, State.setEdgeLabel] at hs
    split at hs
    · cases hs; exact h
    · obtain ⟨p1, p2, im, om, rfl⟩ := connect_frame hs
      exact h
  | setEdgeProp n k v => obtain ⟨ixs, rfl⟩ := setEdgeProp_frame hs; exact h
  | removeEdgeProp n k => obtain ⟨ixs, rfl⟩ := removeEdgeProp_frame hs; exact h
  | removeEdge e => cases hs; exact h
  | addNodeIndex k t =>
    have hg := good k t rfl
    simp only [LPG.step, State.addNodeIndex] at hs
    split at hs
    · cases hs; exact h
    · rw [hg] at hs
      simp only at hs
      split at hs
      · cases hs
      · rename_i ix hix
        cases hs
        intro k' jx hk
        rw [AMap.get_set] at hk
        split at hk
        · rename_i hkk
          cases hk
          subst hkk
          exact (IRep.new t).addObjects c.nNodup (by simp) hix
        · exact h k' jx hk
  | addEdgeIndex k t => obtain ⟨ixs, rfl⟩ := addEdgeIndex_frame hs; exact h

/-- While all operations were safe (`b`) the node list represents the live nodes. -/
theorem nodeIx_runFrom {ops : List Op} : ∀ {s s' : State} {σ : Spec} {f : ListFlags} {b : Bool}, Core s σ →
    (b = true → NOk s σ f) → IxsRep s.nodeIx (s.nval σ) → σ.ValidFrom ops →
    σ.NodeIndexSafe f b ops → LPG.runFrom s ops = some s' → IxsRep s'.nodeIx (s'.nval (σ.runFrom ops)) := by
  induction ops with
  | nil => intro s s' σ f b _ _ h _ _ hs; simp [LPG.runFrom] at hs; subst hs; exact h
  | cons op ops ih =>
    intro s s' σ f b c hr h hv hd hs
    rw [LPG.runFrom] at hs
    split at hs
    · cases hs
    · rename_i s1 h1
      refine ih (c.step hv.1 h1) ?_ (nodeIx_step c h hv.1 h1 ?_) hv.2 hd.2 hs
      · intro hb
        simp only [Bool.and_eq_true, decide_eq_true_eq] at hb
        exact (hr hb.1).step c hv.1 h1 hb.2
      · rintro k t rfl
        exact (hr (hd.1 rfl)).getNodes c

/-! ## Edge property indexes -/

/-- the value of a property of a live edge -/
def State.eval (s : State) (σ : Spec) (k : String) (e : Nat) : Option Value :=
  if e ∈ σ.edges then (s.eProps e).get k else none

theorem eval_congr {s s' : State} {σ σ' : Spec} (h1 : s'.eProps = s.eProps) (h2 : σ'.edges = σ.edges)
    (h : IxsRep s.edgeIx (s.eval σ)) (h3 : s'.edgeIx = s.edgeIx) : IxsRep s'.edgeIx (s'.eval σ') := by
  have : s'.eval σ' = s.eval σ := by funext k n; simp only [State.eval, h1, h2]
  rw [h3, this]; exact h

theorem edgeIx_detachEdge {s s' : State} {σ : Spec} {e : Nat} (c : Core s σ) (h : IxsRep s.edgeIx (s.eval σ))
    (he : e ∈ σ.edges) (hs : s.detachEdge e = some s') : IxsRep s'.edgeIx (s'.eval (σ.dropEdge e)) := by
  unfold State.detachEdge at hs
  simp only at hs
  split at hs
  · cases hs
  · rename_i ixs h2
    cases hs
    have a := h.removeAll (c.eprops e he).1 (by
      intro k v hk; simp only [State.eval]; rw [if_pos he]; exact hk) h2
    refine IxsRep.congr a ?_
    intro k x
    simp only [State.eval, Spec.dropEdge, List.mem_filter, State.dropEdge, State.disconnect]
    by_cases hx : x = e
    · subst hx
      simp only [he, if_true]
      cases hgx : AMap.get (s.eProps x) k <;> simp [hgx]
    · simp [hx]

theorem edgeIx_detach {s s' : State} {σ : Spec} {n : Nat} (c : Core s σ) (h : IxsRep s.edgeIx (s.eval σ))
    (hn : n ∈ σ.nodes) (hs : s.detachNode n = some s') : IxsRep s'.edgeIx (s'.eval (σ.detach n)) :=
  detachNode_ind (Q := fun s σ => IxsRep s.edgeIx (s.eval σ)) (good := fun _ => True)
    (fun _ _ _ _ c h he _ hs => edgeIx_detachEdge c h he hs) (fun _ _ _ _ h => h) c h hn (fun _ _ _ => trivial) hs

/-- `good`: if an index is created, the list of edges is exact; `hrem`: an edge that is removed by itself has no
indexed property. -/
theorem edgeIx_step {s s' : State} {σ : Spec} {op : Op} (c : Core s σ) (h : IxsRep s.edgeIx (s.eval σ))
    (hv : σ.Valid op) (hs : LPG.step s op = some s')
    (hrem : ∀ e, op = .removeEdge e → ∀ k, AMap.get s.edgeIx k ≠ none → (s.eProps e).get k = none)
    (good : ∀ k t, op = .addEdgeIndex k t → ∃ es, s.getEdges = some es ∧ es.Perm σ.edges) :
    IxsRep s'.edgeIx (s'.eval (σ.step op)) := by
  cases op with
  | newNode ls ps =>
    obtain ⟨ixs, hix, rfl⟩ := newNode_frame hs
    exact h
  | newEdge a b l ps =>
    obtain ⟨_, _, _, _, _, _, _, h8, _, _, _, hix⟩ := newEdge_frame hs
    have hnx := c.next
    have hnn : σ.next ∉ σ.edges := fun hh => Nat.lt_irrefl _ (c.eLt _ hh)
    have a := h.addAll hv.2.2 (by intro k _; simp only [State.eval]; rw [if_neg]; rw [hnx]; exact hnn) hix
    refine IxsRep.congr a ?_
    intro k x
    simp only [State.eval, Spec.step, List.mem_append, List.mem_singleton, h8, upd_apply]
    by_cases hx : x = s.idBase
    · have : x ∉ σ.edges := by rw [hx, hnx]; exact hnn
      simp only [hx, hnx, if_true, or_true]
      rw [hnx] at hx
      subst hx
      simp only [if_neg this]
      cases AMap.get ps k <;> rfl
    · have : x ≠ σ.next := by rw [← hnx]; exact hx
      simp [hx, this]
  | setLabels n ls => cases hs; exact h
  | setNodeProp n k v => obtain ⟨ixs, rfl⟩ := setNodeProp_frame hs; exact h
  | removeNodeProp n k => obtain ⟨ixs, rfl⟩ := removeNodeProp_frame hs; exact h
  | detach n => exact edgeIx_detach c h hv hs
  | detachRemove n =>
    simp only [LPG.step, State.detachRemoveNode] at hs
    split at hs
    · cases hs
    · rename_i s1 h1
      have a := edgeIx_detach c h hv h1
      split at hs
      · cases hs
      · cases hs; exact a
  | setEdgeLabel e l =>
    simp only [LPG.step, State.setEdgeLabel] at hs
    split at hs
    · cases hs; exact h
    · obtain ⟨p1, p2, im, om, rfl⟩ := connect_frame hs
      exact h
  | setEdgeProp n k v =>
    simp only [LPG.step, State.setEdgeProp] at hs
    split at hs
    · cases hs
    · rename_i ixs1 h1
      split at hs
      · cases hs
      · rename_i ixs2 h2
        cases hs
        have hval : s.eval σ k n = (s.eProps n).get k := by
          simp only [State.eval]; rw [if_pos (show n ∈ σ.edges from hv)]
        have h1' : (match s.eval σ k n with | none => some s.edgeIx | some old => Indexes.remove s.edgeIx k old n) =
            some ixs1 := by
          rw [hval]
          revert h1
          cases AMap.get (s.eProps n) k <;> exact id
        refine (setProp_ix h h1' h2).congr ?_
        intro k' x
        simp only [State.eval, Spec.step, upd_apply]
        by_cases hx : x = n
        · subst hx
          have hx : x ∈ σ.edges := hv
          simp only [hx, if_true, and_true, AMap.get_set]
        · simp [hx]
  | removeEdgeProp n k =>
    simp only [LPG.step, State.removeEdgeProp] at hs
    have hn : n ∈ σ.edges := hv
    split at hs
    · cases hs; exact h
    · rename_i old hold
      split at hs
      · cases hs
      · rename_i ixs1 h1
        cases hs
        have hval : s.eval σ k n = some old := by
          simp only [State.eval]; rw [if_pos hn]; exact hold
        refine (h.remove hval h1).congr ?_
        intro k' x
        simp only [State.eval, Spec.step, upd_apply]
        by_cases hx : x = n
        · subst hx
          simp only [hn, if_true, and_true, AMap.get_del]
        · simp [hx]
  | removeEdge e =>
    cases hs
    intro k ix hk
    have hk' : AMap.get s.edgeIx k = some ix := hk
    have hnone := hrem e rfl k (by rw [hk']; simp)
    have a := h k ix hk'
    have e2 : State.eval (s.removeEdge e) (σ.step (.removeEdge e)) k = s.eval σ k := by
      funext x
      simp only [State.eval, Spec.step, Spec.dropEdge, List.mem_filter, State.removeEdge, State.dropEdge,
        State.disconnect]
      by_cases hx : x = e
      · subst hx; simp [hnone]
      · simp [hx]
    rw [e2]; exact a
  | addNodeIndex k t => obtain ⟨ixs, rfl⟩ := addNodeIndex_frame hs; exact h
  | addEdgeIndex k t =>
    obtain ⟨es, hg, hp⟩ := good k t rfl
    simp only [LPG.step, State.addEdgeIndex] at hs
    split at hs
    · cases hs; exact h
    · rw [hg] at hs
      simp only at hs
      split at hs
      · cases hs
      · rename_i ix hix
        cases hs
        intro k' jx hk
        rw [AMap.get_set] at hk
        split at hk
        · rename_i hkk
          cases hk
          subst hkk
          have a := (IRep.new t).addObjects (hp.nodup_iff.2 c.eNodup) (by simp) hix
          have e2 : (fun x => if x ∈ es then (s.eProps x).get k' else none) = s.eval σ k' := by
            funext x; simp only [State.eval, hp.mem_iff]
          rw [e2] at a; exact a
        · exact h k' jx hk

/-! ### Which keys are indexed -/

theorem Indexes.add_keys {ixs ixs' : Indexes} {key : String} {v : Value} {id : Nat}
    (h : Indexes.add ixs key v id = some ixs') (k : String) : AMap.get ixs' k ≠ none ↔ AMap.get ixs k ≠ none := by
  unfold Indexes.add at h
  split at h
  · cases h; rfl
  · rename_i ix hg
    simp only [Option.map_eq_some_iff] at h
    obtain ⟨ix', _, rfl⟩ := h
    rw [AMap.get_set]
    split
    · rename_i hk; rw [hk, hg]; simp
    · rfl

theorem Indexes.remove_keys {ixs ixs' : Indexes} {key : String} {v : Value} {id : Nat}
    (h : Indexes.remove ixs key v id = some ixs') (k : String) : AMap.get ixs' k ≠ none ↔ AMap.get ixs k ≠ none := by
  unfold Indexes.remove at h
  split at h
  · cases h; rfl
  · rename_i ix hg
    simp only [Option.map_eq_some_iff] at h
    obtain ⟨ix', _, rfl⟩ := h
    rw [AMap.get_set]
    split
    · rename_i hk; rw [hk, hg]; simp
    · rfl

theorem Indexes.addAll_keys {id : Nat} : ∀ {ps : Props} {ixs ixs' : Indexes},
    Indexes.addAll id ps ixs = some ixs' → ∀ k, AMap.get ixs' k ≠ none ↔ AMap.get ixs k ≠ none
  | [], _, _, h, k => by cases h; rfl
  | (k0, v0) :: ps, ixs, ixs', h, k => by
    rw [Indexes.addAll] at h
    split at h
    · cases h
    · rename_i ixs1 h1
      rw [Indexes.addAll_keys h k, Indexes.add_keys h1 k]

theorem Indexes.removeAll_keys {id : Nat} : ∀ {ps : Props} {ixs ixs' : Indexes},
    Indexes.removeAll id ps ixs = some ixs' → ∀ k, AMap.get ixs' k ≠ none ↔ AMap.get ixs k ≠ none
  | [], _, _, h, k => by cases h; rfl
  | (k0, v0) :: ps, ixs, ixs', h, k => by
    rw [Indexes.removeAll] at h
    split at h
    · cases h
    · rename_i ixs1 h1
      rw [Indexes.removeAll_keys h k, Indexes.remove_keys h1 k]

theorem detachEdges_keys : ∀ {es : List Nat} {s s' : State}, s.detachEdges es = some s' →
    ∀ k, AMap.get s'.edgeIx k ≠ none ↔ AMap.get s.edgeIx k ≠ none
  | [], _, _, h, k => by simp [State.detachEdges] at h; subst h; rfl
  | e :: es, s, s', h, k => by
    rw [State.detachEdges] at h
    split at h
    · cases h
    · rename_i s1 h1
      rw [detachEdges_keys h k]
      unfold State.detachEdge at h1
      simp only at h1
      split at h1
      · cases h1
      · rename_i ixs h2
        cases h1
        exact Indexes.removeAll_keys h2 k

theorem detachNode_keys {s s' : State} {n : Nat} (h : s.detachNode n = some s') (k : String) :
    AMap.get s'.edgeIx k ≠ none ↔ AMap.get s.edgeIx k ≠ none := by
  unfold State.detachNode at h
  split at h
  · cases h
  · split at h
    · cases h
    · rename_i s1 h1
      simp only at h
      split at h
      · cases h
      · split at h
        · cases h
        · rename_i s2 h2
          cases h
          have a := detachEdges_keys h2 k
          have b := detachEdges_keys h1 k
          exact a.trans b

theorem edgeIx_keys {s s' : State} {op : Op} (hs : LPG.step s op = some s') (k : String)
    (h : AMap.get s'.edgeIx k ≠ none) : AMap.get s.edgeIx k ≠ none ∨ k ∈ op.edgeIndexKey := by
  cases op with
  | newNode ls ps => obtain ⟨ixs, hix, rfl⟩ := newNode_frame hs; exact Or.inl h
  | newEdge a b l ps =>
    obtain ⟨_, _, _, _, _, _, _, _, _, _, _, hix⟩ := newEdge_frame hs
    exact Or.inl ((Indexes.addAll_keys hix k).1 h)
  | setLabels n ls => cases hs; exact Or.inl h
  | setNodeProp n k v => obtain ⟨ixs, rfl⟩ := setNodeProp_frame hs; exact Or.inl h
  | removeNodeProp n k => obtain ⟨ixs, rfl⟩ := removeNodeProp_frame hs; exact Or.inl h
  | detach n => exact Or.inl ((detachNode_keys hs k).1 h)
  | detachRemove n =>
    simp only [LPG.step, State.detachRemoveNode] at hs
    split at hs
    · cases hs
    · rename_i s1 h1
      split at hs
      · cases hs
      · cases hs; exact Or.inl ((detachNode_keys h1 k).1 h)
  | setEdgeLabel e l =>
    simp only [LPG.step, State.setEdgeLabel] at hs
    split at hs
    · cases hs; exact Or.inl h
    · obtain ⟨p1, p2, im, om, rfl⟩ := connect_frame hs
      exact Or.inl h
  | setEdgeProp n k' v =>
    simp only [LPG.step, State.setEdgeProp] at hs
    split at hs
    · cases hs
    · rename_i ixs1 h1
      split at hs
      · cases hs
      · rename_i ixs2 h2
        cases hs
        have a := (Indexes.add_keys h2 k).1 h
        split at h1
        · cases h1; exact Or.inl a
        · exact Or.inl ((Indexes.remove_keys h1 k).1 a)
  | removeEdgeProp n k' =>
    simp only [LPG.step, State.removeEdgeProp] at hs
    split at hs
    · cases hs; exact Or.inl h
    · split at hs
      · cases hs
      · rename_i ixs1 h1
        cases hs
        exact Or.inl ((Indexes.remove_keys h1 k).1 h)
  | removeEdge e => cases hs; exact Or.inl h
  | addNodeIndex k t => obtain ⟨ixs, rfl⟩ := addNodeIndex_frame hs; exact Or.inl h
  | addEdgeIndex k' t =>
    simp only [LPG.step, State.addEdgeIndex] at hs
    split at hs
    · cases hs; exact Or.inl h
    · split at hs
      · cases hs
      · split at hs
        · cases hs
        · cases hs
          rw [AMap.get_set] at h
          split at h
          · rename_i hk; right; simp [Op.edgeIndexKey, hk]
          · exact Or.inl h

/-- While no edge was removed that was filed under another label (`b`) the graph-wide edge map represents the live
edges. -/
theorem edgeIx_runFrom {ops : List Op} : ∀ {s s' : State} {σ : Spec} {g : Nat → String} {b : Bool} {K : List String},
    Core s σ → (b = true → AEx g s σ) → (∀ k, AMap.get s.edgeIx k ≠ none → k ∈ K) →
    IxsRep s.edgeIx (s.eval σ) → σ.ValidFrom ops →
    σ.EdgeIndexIntact g b K ops → LPG.runFrom s ops = some s' → IxsRep s'.edgeIx (s'.eval (σ.runFrom ops)) := by
  induction ops with
  | nil => intro s s' σ g b K _ _ _ h _ _ hs; simp [LPG.runFrom] at hs; subst hs; exact h
  | cons op ops ih =>
    intro s s' σ g b K c hr hK h hv hd hs
    rw [LPG.runFrom] at hs
    split at hs
    · cases hs
    · rename_i s1 h1
      refine ih (c.step hv.1 h1) ?_ ?_ (edgeIx_step c h hv.1 h1 ?_ ?_) hv.2 hd.2.2 hs
      · intro hb
        simp only [Bool.and_eq_true, decide_eq_true_eq] at hb
        exact (hr hb.1).step c hv.1 h1 hb.2
      · intro k hk
        rcases edgeIx_keys h1 k hk with h' | h'
        · exact List.mem_append.2 (Or.inr (hK k h'))
        · exact List.mem_append.2 (Or.inl h')
      · rintro e rfl k hk
        have he : e ∈ σ.edges := hv.1
        rw [(c.eprops e he).2 k]
        exact hd.1 e (by simp [Op.removesEdge]) k (hK k hk)
      · rintro k t rfl
        exact (hr (hd.2.1 (by simp [Op.edgeIndexKey]))).getEdges c

end LPG
