import Verif.Model.Queries
import Verif.Proofs.Indexes
import Verif.Proofs.Filter
import Verif.Proofs.LabelIndex
/-!
# Property lookup and searches
-/
namespace LPG
open State

/-! ## Keys of the node indexes -/

theorem nodeIx_mono {s s' : State} {op : Op} (hs : LPG.step s op = some s') (k : String)
    (h : AMap.get s.nodeIx k ≠ none) : AMap.get s'.nodeIx k ≠ none := by
  cases op with
  | newNode ls ps =>
    obtain ⟨ixs, hix, rfl⟩ := newNode_frame hs
    exact (Indexes.addAll_keys hix k).2 h
  | newEdge a b l ps =>
    obtain ⟨_, _, _, _, _, _, _, _, _, _, h11, _⟩ := newEdge_frame hs
    first | (rw [h11]; exact h) | (simp_all; done)
  | setLabels n ls => cases hs; exact h
  | setNodeProp n k' v =>
    simp only [LPG.step, State.setNodeProp] at hs
    split at hs
    · cases hs
    · rename_i ixs1 h1
      split at hs
      · cases hs
      · rename_i ixs2 h2
        cases hs
        refine (Indexes.add_keys h2 k).2 ?_
        split at h1
        · cases h1; exact h
        · exact (Indexes.remove_keys h1 k).2 h
  | removeNodeProp n k' =>
    simp only [LPG.step, State.removeNodeProp] at hs
    split at hs
    · cases hs; exact h
    · split at hs
      · cases hs
      · rename_i ixs1 h1
        cases hs
        exact (Indexes.remove_keys h1 k).2 h
  | detach n =>
    obtain ⟨p0, p1, p2, im, om, ae, ix, rfl⟩ := detachNode_frame hs
    exact h
  | detachRemove n =>
    simp only [LPG.step, State.detachRemoveNode] at hs
    split at hs
    · cases hs
    · rename_i s1 h1
      obtain ⟨p0, p1, p2, im, om, ae, ix, rfl⟩ := detachNode_frame h1
      split at hs
      · cases hs
      · rename_i ixs h2
        cases hs
        exact (Indexes.removeAll_keys h2 k).2 h
  | setEdgeLabel e l =>
    simp only [LPG.step, State.setEdgeLabel] at hs
    split at hs
    · cases hs; exact h
    · obtain ⟨p1, p2, im, om, rfl⟩ := connect_frame hs
      exact h
  | setEdgeProp n k v => obtain ⟨ixs, rfl⟩ := setEdgeProp_frame hs; exact h
  | removeEdgeProp n k => obtain ⟨ixs, rfl⟩ := removeEdgeProp_frame hs; exact h
  | removeEdge e => cases hs; exact h
  | addNodeIndex k' t =>
    simp only [LPG.step, State.addNodeIndex] at hs
    split at hs
    · cases hs; exact h
    · split at hs
      · cases hs
      · split at hs
        · cases hs
        · cases hs
          rw [AMap.get_set]
          split
          · simp
          · exact h
  | addEdgeIndex k t => obtain ⟨ixs, rfl⟩ := addEdgeIndex_frame hs; exact h

theorem edgeIx_mono {s s' : State} {op : Op} (hs : LPG.step s op = some s') (k : String)
    (h : AMap.get s.edgeIx k ≠ none) : AMap.get s'.edgeIx k ≠ none := by
  cases op with
  | newNode ls ps => obtain ⟨ixs, hix, rfl⟩ := newNode_frame hs; exact h
  | newEdge a b l ps =>
    obtain ⟨_, _, _, _, _, _, _, _, _, _, _, hix⟩ := newEdge_frame hs
    exact (Indexes.addAll_keys hix k).2 h
  | setLabels n ls => cases hs; exact h
  | setNodeProp n k v => obtain ⟨ixs, rfl⟩ := setNodeProp_frame hs; exact h
  | removeNodeProp n k => obtain ⟨ixs, rfl⟩ := removeNodeProp_frame hs; exact h
  | detach n => exact (detachNode_keys hs k).2 h
  | detachRemove n =>
    simp only [LPG.step, State.detachRemoveNode] at hs
    split at hs
    · cases hs
    · rename_i s1 h1
      split at hs
      · cases hs
      · cases hs; exact (detachNode_keys h1 k).2 h
  | setEdgeLabel e l =>
    simp only [LPG.step, State.setEdgeLabel] at hs
    split at hs
    · cases hs; exact h
    · obtain ⟨p1, p2, im, om, rfl⟩ := connect_frame hs
      exact h
  | setEdgeProp n k' v =>
    simp only [LPG.step, State.setEdgeProp] at hs
    split at hs
    · cases hs
    · rename_i ixs1 h1
      split at hs
      · cases hs
      · rename_i ixs2 h2
        cases hs
        refine (Indexes.add_keys h2 k).2 ?_
        split at h1
        · cases h1; exact h
        · exact (Indexes.remove_keys h1 k).2 h
  | removeEdgeProp n k' =>
    simp only [LPG.step, State.removeEdgeProp] at hs
    split at hs
    · cases hs; exact h
    · split at hs
      · cases hs
      · rename_i ixs1 h1
        cases hs
        exact (Indexes.remove_keys h1 k).2 h
  | removeEdge e => cases hs; exact h
  | addNodeIndex k t => obtain ⟨ixs, rfl⟩ := addNodeIndex_frame hs; exact h
  | addEdgeIndex k' t =>
    simp only [LPG.step, State.addEdgeIndex] at hs
    split at hs
    · cases hs; exact h
    · split at hs
      · cases hs
      · split at hs
        · cases hs
        · cases hs
          rw [AMap.get_set]
          split
          · simp
          · exact h

theorem addNodeIndex_key {s s' : State} {k : String} {t : IndexType} (hs : s.addNodeIndex k t = some s') :
    AMap.get s'.nodeIx k ≠ none := by
  simp only [State.addNodeIndex] at hs
  split at hs
  · rename_i h; cases hs; rw [h]; simp
  · split at hs
    · cases hs
    · split at hs
      · cases hs
      · cases hs; rw [AMap.get_set]; simp

theorem addEdgeIndex_key {s s' : State} {k : String} {t : IndexType} (hs : s.addEdgeIndex k t = some s') :
    AMap.get s'.edgeIx k ≠ none := by
  simp only [State.addEdgeIndex] at hs
  split at hs
  · rename_i h; cases hs; rw [h]; simp
  · split at hs
    · cases hs
    · split at hs
      · cases hs
      · cases hs; rw [AMap.get_set]; simp

theorem nodeIx_indexed {ops : List Op} {k : String} : ∀ {s s' : State}, LPG.runFrom s ops = some s' →
    (AMap.get s.nodeIx k ≠ none ∨ ∃ t, Op.addNodeIndex k t ∈ ops) → AMap.get s'.nodeIx k ≠ none := by
  induction ops with
  | nil => intro s s' hs h; simp [LPG.runFrom] at hs; subst hs; simpa using h
  | cons op ops ih =>
    intro s s' hs h
    rw [LPG.runFrom] at hs
    split at hs
    · cases hs
    · rename_i s1 h1
      refine ih hs ?_
      rcases h with h | ⟨t, h⟩
      · exact Or.inl (nodeIx_mono h1 k h)
      · rcases List.mem_cons.1 h with rfl | h
        · exact Or.inl (addNodeIndex_key h1)
        · exact Or.inr ⟨t, h⟩

theorem edgeIx_indexed {ops : List Op} {k : String} : ∀ {s s' : State}, LPG.runFrom s ops = some s' →
    (AMap.get s.edgeIx k ≠ none ∨ ∃ t, Op.addEdgeIndex k t ∈ ops) → AMap.get s'.edgeIx k ≠ none := by
  induction ops with
  | nil => intro s s' hs h; simp [LPG.runFrom] at hs; subst hs; simpa using h
  | cons op ops ih =>
    intro s s' hs h
    rw [LPG.runFrom] at hs
    split at hs
    · cases hs
    · rename_i s1 h1
      refine ih hs ?_
      rcases h with h | ⟨t, h⟩
      · exact Or.inl (edgeIx_mono h1 k h)
      · rcases List.mem_cons.1 h with rfl | h
        · exact Or.inl (addEdgeIndex_key h1)
        · exact Or.inr ⟨t, h⟩

theorem edgeIx_only {ops : List Op} {k : String} : ∀ {s s' : State}, LPG.runFrom s ops = some s' →
    AMap.get s'.edgeIx k ≠ none → AMap.get s.edgeIx k ≠ none ∨ ∃ t, Op.addEdgeIndex k t ∈ ops := by
  induction ops with
  | nil => intro s s' hs h; simp [LPG.runFrom] at hs; subst hs; exact Or.inl h
  | cons op ops ih =>
    intro s s' hs h
    rw [LPG.runFrom] at hs
    split at hs
    · cases hs
    · rename_i s1 h1
      rcases ih hs h with h' | ⟨t, h'⟩
      · rcases edgeIx_keys h1 k h' with h' | h'
        · exact Or.inl h'
        · cases op <;> simp [Op.edgeIndexKey] at h'
          subst h'
          exact Or.inr ⟨_, List.mem_cons_self⟩
      · exact Or.inr ⟨t, List.mem_cons_of_mem _ h'⟩

/-! ## `find` -/

/-- the value is not a native wrapper around a native wrapper -/
def Value.Flat : Value → Prop
  | .native (.native _) => False
  | _ => True

instance (v : Value) : Decidable v.Flat := by unfold Value.Flat; split <;> infer_instance

theorem hkey_eq {v w : Value} (h : cmp v w = some 0) (hv : v.Flat) (hw : w.Flat)
    (hkv : hkey (unwrap1 v) ≠ none) (hkw : hkey (unwrap1 w) ≠ none) : hkey (unwrap1 w) = hkey (unwrap1 v) := by
  have hv' : ∀ x, unwrap1 v ≠ .native x := by
    intro x hx
    cases v with
    | native y => simp only [unwrap1] at hx; subst hx; exact hv
    | _ => simp [unwrap1] at hx
  have hw' : ∀ x, unwrap1 w ≠ .native x := by
    intro x hx
    cases w with
    | native y => simp only [unwrap1] at hx; subst hx; exact hw
    | _ => simp [unwrap1] at hx
  have h1 : cmp (unwrap1 v) (unwrap1 w) = some 0 := by
    have e1 : ∀ a b, cmp (unwrap1 a) b = cmp a b := by
      intro a b; cases a <;> simp [unwrap1]
    have e2 : ∀ a b, cmp a (unwrap1 b) = cmp a b := by
      intro a b; cases b <;> simp [unwrap1]
    rw [e1, e2]; exact h
  generalize unwrap1 v = a at *
  generalize unwrap1 w = b at *
  cases a <;> cases b <;> simp_all [hkey, cmp, cmpStr, cmpInt] <;> grind

theorem IRep.find {ix : Index} {val : Nat → Option Value} {v : Value} {xs : List Nat} {m : Int} (h : IRep ix val)
    (hf : ix.find v = some (xs, m)) : xs.Nodup ∧ (xs.length : Int) = m ∧
      (∀ id ∈ xs, ∃ w, val id = some w) ∧
      ∀ id w, val id = some w → cmp v w = some 0 → v.Flat → w.Flat → id ∈ xs := by
  cases ix with
  | btree t =>
    obtain ⟨h1, h2, h3, h4⟩ := BRep.find h hf
    exact ⟨h1, h2, h3, fun id w a b _ _ => h4 id w a b⟩
  | hash t =>
    obtain ⟨h1, h2, h3⟩ := HRep.find h hf
    refine ⟨h1, h2, ?_, ?_⟩
    · intro id hx
      obtain ⟨w, hw, _⟩ := (h3 id).1 hx
      exact ⟨w, hw⟩
    · intro id w hw hc fv fw
      have hr : HRep t val := h
      refine (h3 id).2 ⟨w, hw, ?_⟩
      obtain ⟨k, fs, c, d1, d2, d3⟩ := hr.full id w hw
      refine hkey_eq hc fv fw ?_ (by rw [d1]; simp)
      intro hkv
      simp only [Index.find] at hf
      unfold HashIx.find at hf
      rw [hkv] at hf
      split at hf
      · rename_i hi
        have := hr.init (by simpa using hi) id
        rw [this] at hw; cases hw
      · cases hf

theorem propIters_mem {ixs : Indexes} : ∀ {ps : AMap String Value} {its : List (List Nat × Int)},
    propIters ixs ps = some its →
    (∀ r ∈ its, ∃ k v ix, (k, v) ∈ ps ∧ AMap.get ixs k = some ix ∧ ix.find v = some r) ∧
    ∀ k v ix, (k, v) ∈ ps → AMap.get ixs k = some ix → ∃ r ∈ its, ix.find v = some r
  | [], its, h => by simp [propIters] at h; subst h; simp
  | (k0, v0) :: ps, its, h => by
    rw [propIters] at h
    split at h
    · rename_i hg
      obtain ⟨h1, h2⟩ := propIters_mem h
      constructor
      · intro r hr
        obtain ⟨k, v, ix, a, b⟩ := h1 r hr
        exact ⟨k, v, ix, List.mem_cons_of_mem _ a, b⟩
      · intro k v ix hm hk
        rcases List.mem_cons.1 hm with e | hm
        · cases e; rw [hg] at hk; cases hk
        · exact h2 k v ix hm hk
    · rename_i ix0 hg
      split at h
      · rename_i r rs hf hrs
        cases h
        obtain ⟨h1, h2⟩ := propIters_mem hrs
        constructor
        · intro r' hr
          rcases List.mem_cons.1 hr with rfl | hr
          · exact ⟨k0, v0, ix0, by simp, hg, hf⟩
          · obtain ⟨k, v, ix, a, b⟩ := h1 r' hr
            exact ⟨k, v, ix, List.mem_cons_of_mem _ a, b⟩
        · intro k v ix hm hk
          rcases List.mem_cons.1 hm with e | hm
          · cases e; rw [hg] at hk; cases hk; exact ⟨r, by simp, hf⟩
          · obtain ⟨r', a, b⟩ := h2 k v ix hm hk
            exact ⟨r', List.mem_cons_of_mem _ a, b⟩
      · cases h

theorem minIter_cons (r : List Nat × Int) (rs : List (List Nat × Int)) (best : Option (List Nat × Int)) :
    minIter (r :: rs) best = if r.2 = -1 then minIter rs best
      else minIter rs (some (match best with
        | none => r
        | some b => if b.2 > r.2 then r else b)) := by
  cases best <;> simp only [minIter]

theorem minIter_spec : ∀ (its : List (List Nat × Int)) (best : Option (List Nat × Int)),
    (∀ r, minIter its best = some r → r ∈ its ∨ best = some r) ∧
    (minIter its best = none → best = none ∧ ∀ r ∈ its, r.2 = -1)
  | [], best => by simp [minIter]
  | r0 :: its, best => by
    rw [minIter_cons]
    split
    · rename_i h0
      obtain ⟨h1, h2⟩ := minIter_spec its best
      refine ⟨fun r hr => (h1 r hr).imp (List.mem_cons_of_mem _) id, fun h => ⟨(h2 h).1, ?_⟩⟩
      intro r hr
      rcases List.mem_cons.1 hr with rfl | hr
      · exact h0
      · exact (h2 h).2 r hr
    · cases best with
      | none =>
        obtain ⟨h1, h2⟩ := minIter_spec its (some r0)
        refine ⟨fun r hr => ?_, fun h => ?_⟩
        · rcases h1 r hr with h | h
          · exact Or.inl (List.mem_cons_of_mem _ h)
          · cases h; simp
        · have := (h2 h).1; cases this
      | some b =>
        obtain ⟨h1, h2⟩ := minIter_spec its (some (if b.2 > r0.2 then r0 else b))
        refine ⟨fun r hr => ?_, fun h => ?_⟩
        · rcases h1 r hr with h | h
          · exact Or.inl (List.mem_cons_of_mem _ h)
          · split at h
            · cases h; simp
            · exact Or.inr h
        · have := (h2 h).1; cases this

theorem choose_cases {bl : List Nat × Int} {best : Option (List Nat × Int)} {f : Nat → Bool} {all : Option (List Nat)}
    {r : List Nat} (h : choose bl best f all = some r) :
    (bl.2 ≠ -1 ∧ r = bl.1.filter f) ∨ (∃ b, best = some b ∧ r = b.1.filter f) ∨
      (best = none ∧ bl.2 = -1 ∧ all = some r) := by
  unfold choose at h
  cases best with
  | none =>
    by_cases h1 : bl.2 = -1
    · simp [h1] at h; exact Or.inr (Or.inr ⟨rfl, h1, h⟩)
    · simp [h1] at h; exact Or.inl ⟨h1, h.symm⟩
  | some b =>
    simp only at h
    split at h
    · rename_i hu
      simp at hu
      cases h; exact Or.inl ⟨hu.1, rfl⟩
    · cases h; exact Or.inr (Or.inl ⟨b, rfl, rfl⟩)

end LPG
