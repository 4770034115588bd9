import Verif.Proofs.Recover
/-!
# How the property indexes change when panics are recovered
-/
namespace LPG

variable {o : MapOrder}
open State

/-- additions, panicking or not, and removals -/
inductive IxNext : Index → Index → Prop
  | refl (ix : Index) : IxNext ix ix
  | add {ix ix' : Index} (v : Value) (id : Nat) : IxNext ix ix' → IxNext ix (ix'.tryAdd v id).1
  | remove {ix ix' ix'' : Index} (v : Value) (id : Nat) : IxNext ix ix' → ix'.remove v id = some ix'' → IxNext ix ix''

theorem IxNext.trans {a b c : Index} (h1 : IxNext a b) (h2 : IxNext b c) : IxNext a c := by
  induction h2 with
  | refl => exact h1
  | add v id _ ih => exact .add v id ih
  | remove v id _ h ih => exact .remove v id ih h

/-- the index of a key goes on, or there was none -/
def IxsNext (ixs ixs' : Indexes) : Prop :=
  (∀ k ix, AMap.get ixs k = some ix → ∃ ix', AMap.get ixs' k = some ix' ∧ IxNext ix ix') ∧
  (∀ k ix', AMap.get ixs k = none → AMap.get ixs' k = some ix' → ∃ t, IxNext (Index.new t) ix')

theorem IxsNext.refl (ixs : Indexes) : IxsNext ixs ixs :=
  ⟨fun _ ix h => ⟨ix, h, .refl ix⟩, fun k ix' h1 h2 => by rw [h1] at h2; cases h2⟩

theorem IxsNext.trans {a b c : Indexes} (h1 : IxsNext a b) (h2 : IxsNext b c) : IxsNext a c := by
  constructor
  · intro k ix hk
    obtain ⟨ix1, h3, h4⟩ := h1.1 k ix hk
    obtain ⟨ix2, h5, h6⟩ := h2.1 k ix1 h3
    exact ⟨ix2, h5, h4.trans h6⟩
  · intro k ix' hk hk'
    cases hb : AMap.get b k with
    | none => exact h2.2 k ix' hb hk'
    | some ix1 =>
      obtain ⟨t, ht⟩ := h1.2 k ix1 hk hb
      obtain ⟨ix2, h5, h6⟩ := h2.1 k ix1 hb
      rw [hk'] at h5
      cases h5
      exact ⟨t, ht.trans h6⟩

theorem IxsNext.set {ixs : Indexes} {k : String} {ix ix' : Index} (hg : AMap.get ixs k = some ix) (h : IxNext ix ix') :
    IxsNext ixs (AMap.set ixs k ix') := by
  constructor
  · intro k' jx hk
    rw [AMap.get_set]
    split
    · rename_i he
      subst he
      rw [hg] at hk
      cases hk
      exact ⟨ix', rfl, h⟩
    · exact ⟨jx, hk, .refl jx⟩
  · intro k' jx hk hk'
    rw [AMap.get_set] at hk'
    split at hk'
    · rename_i he
      subst he
      rw [hg] at hk
      cases hk
    · rw [hk] at hk'
      cases hk'

theorem IxsNext.tryAdd (ixs : Indexes) (k : String) (v : Value) (id : Nat) : IxsNext ixs (Indexes.tryAdd ixs k v id).1 := by
  unfold Indexes.tryAdd
  cases hg : AMap.get ixs k with
  | none => exact .refl ixs
  | some ix => exact .set hg (.add v id (.refl ix))

theorem IxsNext.remove {ixs ixs' : Indexes} {k : String} {v : Value} {id : Nat} (h : Indexes.remove ixs k v id = some ixs') :
    IxsNext ixs ixs' := by
  unfold Indexes.remove at h
  split at h
  · cases h; exact .refl _
  · rename_i ix hg
    simp only [Option.map_eq_some_iff] at h
    obtain ⟨ix', h1, rfl⟩ := h
    exact .set hg (.remove v id (.refl ix) h1)

theorem IxsNext.tryAddAll (id : Nat) : ∀ (ps : Props) (ixs : Indexes), IxsNext ixs (Indexes.tryAddAll id ps ixs).1
  | [], ixs => .refl ixs
  | (k, v) :: ps, ixs => by
    rw [Indexes.tryAddAll]
    split
    · exact .tryAdd ixs k v id
    · exact (IxsNext.tryAdd ixs k v id).trans (IxsNext.tryAddAll id ps _)

theorem IxsNext.tryRemoveAll (id : Nat) : ∀ (ps : Props) (ixs : Indexes), IxsNext ixs (Indexes.tryRemoveAll id ps ixs).1
  | [], ixs => .refl ixs
  | (k, v) :: ps, ixs => by
    rw [Indexes.tryRemoveAll]
    split
    · exact .refl ixs
    · rename_i ixs1 h1
      exact (IxsNext.remove h1).trans (IxsNext.tryRemoveAll id ps _)

theorem IxNext.tryAddObjects (key : String) (props : Nat → Props) : ∀ (xs : List Nat) (ix : Index),
    IxNext ix (Index.tryAddObjects key props xs ix).1
  | [], ix => .refl ix
  | x :: xs, ix => by
    rw [Index.tryAddObjects]
    split
    · exact IxNext.tryAddObjects key props xs ix
    · rename_i v _
      simp only
      split
      · exact .add v x (.refl ix)
      · exact (IxNext.add v x (.refl ix)).trans (IxNext.tryAddObjects key props xs _)

theorem IxsNext.new {ixs : Indexes} {k : String} {t : IndexType} {ix : Index} (hg : AMap.get ixs k = none)
    (h : IxNext (Index.new t) ix) : IxsNext ixs (AMap.set ixs k ix) := by
  constructor
  · intro k' jx hk
    rw [AMap.get_set]
    split
    · rename_i he
      subst he
      rw [hg] at hk
      cases hk
    · exact ⟨jx, hk, .refl jx⟩
  · intro k' jx hk hk'
    rw [AMap.get_set] at hk'
    split at hk'
    · cases hk'
      exact ⟨t, h⟩
    · rw [hk] at hk'
      cases hk'

/-- the fields that a detached edge does not change, and its index -/
theorem tryDetachEdge_frame (s : State) (e : Nat) : (s.tryDetachEdge o e).1.idBase = s.idBase ∧
    (s.tryDetachEdge o e).1.nProps = s.nProps ∧ (s.tryDetachEdge o e).1.eProps = s.eProps ∧
    (s.tryDetachEdge o e).1.nodeIx = s.nodeIx ∧ IxsNext s.edgeIx (s.tryDetachEdge o e).1.edgeIx := by
  refine ⟨rfl, rfl, rfl, rfl, ?_⟩
  exact IxsNext.tryRemoveAll e (o.order e (s.eProps e)) s.edgeIx

theorem tryDetachEdges_frame (es : List Nat) : ∀ s : State, (s.tryDetachEdges o es).1.idBase = s.idBase ∧
    (s.tryDetachEdges o es).1.nProps = s.nProps ∧ (s.tryDetachEdges o es).1.eProps = s.eProps ∧
    (s.tryDetachEdges o es).1.nodeIx = s.nodeIx ∧ IxsNext s.edgeIx (s.tryDetachEdges o es).1.edgeIx := by
  induction es with
  | nil => intro s; exact ⟨rfl, rfl, rfl, rfl, .refl _⟩
  | cons e es ih =>
    intro s
    rw [State.tryDetachEdges]
    obtain ⟨h1, h2, h3, h4, h5⟩ := tryDetachEdge_frame s e
    split
    · exact ⟨h1, h2, h3, h4, h5⟩
    · obtain ⟨g1, g2, g3, g4, g5⟩ := ih (s.tryDetachEdge o e).1
      exact ⟨g1.trans h1, g2.trans h2, g3.trans h3, g4.trans h4, h5.trans g5⟩

theorem tryDetachNode_frame {s s' : State} {n : Nat} {b : Bool} (h : s.tryDetachNode o n = some (s', b)) :
    s'.idBase = s.idBase ∧ s'.nProps = s.nProps ∧ s'.eProps = s.eProps ∧ s'.nodeIx = s.nodeIx ∧
    IxsNext s.edgeIx s'.edgeIx := by
  unfold State.tryDetachNode at h
  split at h
  · cases h
  · rename_i es _
    obtain ⟨h1, h2, h3, h4, h5⟩ := tryDetachEdges_frame es s
    simp only at h
    split at h
    · have h := Option.some.inj h
      rw [h] at h1 h2 h3 h4 h5
      exact ⟨h1, h2, h3, h4, h5⟩
    · split at h
      · cases h
      · rename_i zs _
        obtain ⟨g1, g2, g3, g4, g5⟩ := tryDetachEdges_frame zs
          { (s.tryDetachEdges o es).1 with incoming := upd (s.tryDetachEdges o es).1.incoming n EdgeMap.empty }
        split at h
        · have h := Option.some.inj h
          rw [h] at g1 g2 g3 g4 g5
          exact ⟨g1.trans h1, g2.trans h2, g3.trans h3, g4.trans h4, h5.trans g5⟩
        · cases h
          exact ⟨g1.trans h1, g2.trans h2, g3.trans h3, g4.trans h4, h5.trans g5⟩

/-- what a call that sets or removes no property of an object that was there does to properties and indexes -/
structure PropFrame (s s' : State) : Prop where
  id : s.idBase ≤ s'.idBase
  np : ∀ n < s.idBase, s'.nProps n = s.nProps n
  ep : ∀ e < s.idBase, s'.eProps e = s.eProps e
  ni : IxsNext s.nodeIx s'.nodeIx
  ei : IxsNext s.edgeIx s'.edgeIx

theorem connect_props {s s' : State} {e : Nat} (h : s.connect e = some s') : s'.idBase = s.idBase ∧ s'.nProps = s.nProps ∧
    s'.eProps = s.eProps ∧ s'.nodeIx = s.nodeIx ∧ s'.edgeIx = s.edgeIx := by
  obtain ⟨p1, p2, im, om, rfl⟩ := connect_frame h
  exact ⟨rfl, rfl, rfl, rfl, rfl⟩

theorem tryStep_frame {s s' : State} {op : Op} {b : Bool} (h : tryStep o s op = some (s', b))
    (h1 : ∀ n k v, op ≠ .setNodeProp n k v) (h2 : ∀ n k, op ≠ .removeNodeProp n k)
    (h3 : ∀ n k v, op ≠ .setEdgeProp n k v) (h4 : ∀ n k, op ≠ .removeEdgeProp n k) : PropFrame s s' := by
  cases op with
  | newNode ls ps =>
    cases Option.some.inj h
    refine ⟨Nat.le_succ _, fun n hn => upd_other _ _ (Nat.ne_of_lt hn), fun _ _ => rfl, ?_, .refl _⟩
    exact IxsNext.tryAddAll s.idBase ps s.nodeIx
  | newEdge x y l ps =>
    simp only [tryStep, State.tryNewEdge] at h
    split at h
    · cases h
    · split at h
      · cases h
      · rename_i s2 hc
        obtain ⟨c1, c2, c3, c4, c5⟩ := connect_props hc
        cases Option.some.inj h
        refine ⟨?_, ?_, ?_, ?_, ?_⟩
        · show s.idBase ≤ s2.idBase
          rw [c1]; exact Nat.le_succ _
        · intro n _
          show s2.nProps n = _
          rw [c2]
        · intro e he
          show s2.eProps e = _
          rw [c3]
          exact upd_other _ _ (Nat.ne_of_lt he)
        · show IxsNext _ s2.nodeIx
          rw [c4]; exact .refl _
        · have := IxsNext.tryAddAll s.idBase ps s2.edgeIx
          rw [c5] at this
          show IxsNext _ (Indexes.tryAddAll s.idBase ps s2.edgeIx).1
          rw [c5]
          exact this
  | setLabels n ls =>
    cases Option.some.inj h
    exact ⟨Nat.le_refl _, fun _ _ => rfl, fun _ _ => rfl, .refl _, .refl _⟩
  | setNodeProp n k v => exact (h1 _ _ _ rfl).elim
  | removeNodeProp n k => exact (h2 _ _ rfl).elim
  | detach n =>
    obtain ⟨g1, g2, g3, g4, g5⟩ := tryDetachNode_frame h
    exact ⟨Nat.le_of_eq g1.symm, fun _ _ => by rw [g2], fun _ _ => by rw [g3], by rw [g4]; exact .refl _, g5⟩
  | detachRemove n =>
    simp only [tryStep, State.tryDetachRemoveNode] at h
    split at h
    · cases h
    · rename_i s1 hd
      obtain ⟨g1, g2, g3, g4, g5⟩ := tryDetachNode_frame hd
      cases Option.some.inj h
      exact ⟨Nat.le_of_eq g1.symm, fun _ _ => by rw [g2], fun _ _ => by rw [g3], by rw [g4]; exact .refl _, g5⟩
    · rename_i s1 hd
      obtain ⟨g1, g2, g3, g4, g5⟩ := tryDetachNode_frame hd
      cases Option.some.inj h
      refine ⟨Nat.le_of_eq g1.symm, fun _ _ => by show s1.nProps _ = _; rw [g2], fun _ _ => by show s1.eProps _ = _; rw [g3], ?_, g5⟩
      show IxsNext _ (Indexes.tryRemoveAll n (o.order n (s1.nProps n)) s1.nodeIx).1
      rw [g4]
      exact IxsNext.tryRemoveAll _ _ _
  | setEdgeLabel e l =>
    simp only [tryStep, Option.map_eq_some_iff] at h
    obtain ⟨s1, hs1, hh⟩ := h
    cases hh
    unfold State.setEdgeLabel at hs1
    split at hs1
    · cases hs1
      exact ⟨Nat.le_refl _, fun _ _ => rfl, fun _ _ => rfl, .refl _, .refl _⟩
    · obtain ⟨c1, c2, c3, c4, c5⟩ := connect_props hs1
      exact ⟨by rw [c1]; exact Nat.le_refl _, fun _ _ => by rw [c2]; rfl, fun _ _ => by rw [c3]; rfl, by rw [c4]; exact .refl _, by rw [c5]; exact .refl _⟩
  | setEdgeProp n k v => exact (h3 _ _ _ rfl).elim
  | removeEdgeProp n k => exact (h4 _ _ rfl).elim
  | removeEdge e =>
    cases Option.some.inj h
    exact ⟨Nat.le_refl _, fun _ _ => rfl, fun _ _ => rfl, .refl _, .refl _⟩
  | addNodeIndex k t =>
    simp only [tryStep, State.tryAddNodeIndex] at h
    split at h
    · cases h; exact ⟨Nat.le_refl _, fun _ _ => rfl, fun _ _ => rfl, .refl _, .refl _⟩
    · rename_i hg
      split at h
      · cases h
      · rename_i ns _
        cases h
        exact ⟨Nat.le_refl _, fun _ _ => rfl, fun _ _ => rfl, .new hg (IxNext.tryAddObjects k s.nProps ns _), .refl _⟩
  | addEdgeIndex k t =>
    simp only [tryStep, State.tryAddEdgeIndex] at h
    split at h
    · cases h; exact ⟨Nat.le_refl _, fun _ _ => rfl, fun _ _ => rfl, .refl _, .refl _⟩
    · rename_i hg
      split at h
      · cases h
      · rename_i ns _
        cases h
        exact ⟨Nat.le_refl _, fun _ _ => rfl, fun _ _ => rfl, .refl _, .new hg (IxNext.tryAddObjects k s.eProps ns _)⟩

theorem trySetNodeProp_next (s : State) (n : Nat) (k : String) (v : Value) :
    IxsNext s.nodeIx (s.trySetNodeProp n k v).1.nodeIx := by
  unfold State.trySetNodeProp
  simp only
  cases AMap.get (s.nProps n) k with
  | none => exact .tryAdd _ _ _ _
  | some old =>
    simp only
    cases hr : Indexes.remove s.nodeIx k old n with
    | none => exact .refl _
    | some ixs => exact (IxsNext.remove hr).trans (.tryAdd _ _ _ _)

theorem trySetEdgeProp_next (s : State) (n : Nat) (k : String) (v : Value) :
    IxsNext s.edgeIx (s.trySetEdgeProp n k v).1.edgeIx := by
  unfold State.trySetEdgeProp
  simp only
  cases AMap.get (s.eProps n) k with
  | none => exact .tryAdd _ _ _ _
  | some old =>
    simp only
    cases hr : Indexes.remove s.edgeIx k old n with
    | none => exact .refl _
    | some ixs => exact (IxsNext.remove hr).trans (.tryAdd _ _ _ _)

theorem tryRemoveNodeProp_next (s : State) (n : Nat) (k : String) :
    IxsNext s.nodeIx (s.tryRemoveNodeProp n k).1.nodeIx := by
  unfold State.tryRemoveNodeProp State.removeNodeProp
  cases AMap.get (s.nProps n) k with
  | none => exact .refl _
  | some old =>
    simp only
    cases hr : Indexes.remove s.nodeIx k old n with
    | none => exact .refl _
    | some ixs => exact IxsNext.remove hr

theorem tryRemoveEdgeProp_next (s : State) (n : Nat) (k : String) :
    IxsNext s.edgeIx (s.tryRemoveEdgeProp n k).1.edgeIx := by
  unfold State.tryRemoveEdgeProp State.removeEdgeProp
  cases AMap.get (s.eProps n) k with
  | none => exact .refl _
  | some old =>
    simp only
    cases hr : Indexes.remove s.edgeIx k old n with
    | none => exact .refl _
    | some ixs => exact IxsNext.remove hr

theorem trySetNodeProp_other (s : State) (n : Nat) (k : String) (v : Value) : (s.trySetNodeProp n k v).1.edgeIx = s.edgeIx ∧
    (s.trySetNodeProp n k v).1.idBase = s.idBase ∧ (s.trySetNodeProp n k v).1.eProps = s.eProps := by
  unfold State.trySetNodeProp
  simp only
  split <;> exact ⟨rfl, rfl, rfl⟩

theorem trySetEdgeProp_other (s : State) (n : Nat) (k : String) (v : Value) : (s.trySetEdgeProp n k v).1.nodeIx = s.nodeIx ∧
    (s.trySetEdgeProp n k v).1.idBase = s.idBase ∧ (s.trySetEdgeProp n k v).1.nProps = s.nProps := by
  unfold State.trySetEdgeProp
  simp only
  split <;> exact ⟨rfl, rfl, rfl⟩

theorem tryRemoveNodeProp_other (s : State) (n : Nat) (k : String) : (s.tryRemoveNodeProp n k).1.edgeIx = s.edgeIx ∧
    (s.tryRemoveNodeProp n k).1.idBase = s.idBase ∧ (s.tryRemoveNodeProp n k).1.eProps = s.eProps := by
  unfold State.tryRemoveNodeProp State.removeNodeProp
  cases AMap.get (s.nProps n) k with
  | none => exact ⟨rfl, rfl, rfl⟩
  | some old =>
    simp only
    cases Indexes.remove s.nodeIx k old n <;> exact ⟨rfl, rfl, rfl⟩

theorem tryRemoveEdgeProp_other (s : State) (n : Nat) (k : String) : (s.tryRemoveEdgeProp n k).1.nodeIx = s.nodeIx ∧
    (s.tryRemoveEdgeProp n k).1.idBase = s.idBase ∧ (s.tryRemoveEdgeProp n k).1.nProps = s.nProps := by
  unfold State.tryRemoveEdgeProp State.removeEdgeProp
  cases AMap.get (s.eProps n) k with
  | none => exact ⟨rfl, rfl, rfl⟩
  | some old =>
    simp only
    cases Indexes.remove s.edgeIx k old n <;> exact ⟨rfl, rfl, rfl⟩

/-- what any call does to the indexes -/
theorem tryStep_next {s s' : State} {op : Op} {b : Bool} (h : tryStep o s op = some (s', b)) :
    s.idBase ≤ s'.idBase ∧ IxsNext s.nodeIx s'.nodeIx ∧ IxsNext s.edgeIx s'.edgeIx := by
  have easy : PropFrame s s' → s.idBase ≤ s'.idBase ∧ IxsNext s.nodeIx s'.nodeIx ∧ IxsNext s.edgeIx s'.edgeIx :=
    fun f => ⟨f.id, f.ni, f.ei⟩
  cases op with
  | setNodeProp n k v =>
    have h := congrArg Prod.fst (Option.some.inj h)
    obtain ⟨h1, h2, _⟩ := trySetNodeProp_other s n k v
    have h3 := trySetNodeProp_next s n k v
    rw [h] at h1 h2 h3
    exact ⟨Nat.le_of_eq h2.symm, h3, by rw [h1]; exact .refl _⟩
  | removeNodeProp n k =>
    have h := congrArg Prod.fst (Option.some.inj h)
    obtain ⟨h1, h2, _⟩ := tryRemoveNodeProp_other s n k
    have h3 := tryRemoveNodeProp_next s n k
    rw [h] at h1 h2 h3
    exact ⟨Nat.le_of_eq h2.symm, h3, by rw [h1]; exact .refl _⟩
  | setEdgeProp n k v =>
    have h := congrArg Prod.fst (Option.some.inj h)
    obtain ⟨h1, h2, _⟩ := trySetEdgeProp_other s n k v
    have h3 := trySetEdgeProp_next s n k v
    rw [h] at h1 h2 h3
    exact ⟨Nat.le_of_eq h2.symm, by rw [h1]; exact .refl _, h3⟩
  | removeEdgeProp n k =>
    have h := congrArg Prod.fst (Option.some.inj h)
    obtain ⟨h1, h2, _⟩ := tryRemoveEdgeProp_other s n k
    have h3 := tryRemoveEdgeProp_next s n k
    rw [h] at h1 h2 h3
    exact ⟨Nat.le_of_eq h2.symm, by rw [h1]; exact .refl _, h3⟩
  | _ => exact easy (tryStep_frame h (by simp) (by simp) (by simp) (by simp))

theorem tryRunFrom_next {ops : List (MapOrder × Op)} : ∀ {s s' : State}, tryRunFrom s ops = some s' →
    s.idBase ≤ s'.idBase ∧ IxsNext s.nodeIx s'.nodeIx ∧ IxsNext s.edgeIx s'.edgeIx := by
  induction ops with
  | nil => intro s s' h; cases h; exact ⟨Nat.le_refl _, .refl _, .refl _⟩
  | cons op ops ih =>
    intro s s' h
    rw [tryRunFrom] at h
    split at h
    · cases h
    · rename_i s1 b h1
      obtain ⟨a1, a2, a3⟩ := tryStep_next h1
      obtain ⟨b1, b2, b3⟩ := ih h
      exact ⟨Nat.le_trans a1 b1, a2.trans b2, a3.trans b3⟩

theorem nodup_upd {f : Nat → Props} {x : Nat} {ps : Props} (h : ∀ n, (AMap.keys (f n)).Nodup) (hp : (AMap.keys ps).Nodup) :
    ∀ n, (AMap.keys (upd f x ps n)).Nodup := by
  intro n
  rw [upd_apply]
  split
  · exact hp
  · exact h n

theorem PropsOk.step {s s' : State} {σ : Spec} {op : Op} {b : Bool} (h : s.PropsOk) (hv : σ.Valid op)
    (hs : tryStep o s op = some (s', b)) : s'.PropsOk := by
  have same : s'.nProps = s.nProps → s'.eProps = s.eProps → s'.PropsOk := by
    intro h1 h2
    unfold State.PropsOk
    rw [h1, h2]
    exact h
  cases op with
  | newNode ls ps =>
    cases Option.some.inj hs
    exact ⟨nodup_upd h.1 hv, h.2⟩
  | newEdge x y l ps =>
    simp only [tryStep, State.tryNewEdge] at hs
    split at hs
    · cases hs
    · split at hs
      · cases hs
      · rename_i s2 hc
        obtain ⟨_, c2, c3, _⟩ := connect_props hc
        cases Option.some.inj hs
        unfold State.PropsOk
        simp only [c2, c3]
        exact ⟨h.1, nodup_upd h.2 hv.2.2⟩
  | setLabels n ls => cases Option.some.inj hs; exact h
  | setNodeProp n k v =>
    have hs := congrArg Prod.fst (Option.some.inj hs)
    unfold State.trySetNodeProp at hs
    simp only at hs
    split at hs
    · cases hs; exact h
    · cases hs; exact ⟨nodup_upd h.1 (AMap.nodup_set (h.1 n) _ _), h.2⟩
  | removeNodeProp n k =>
    have hs := congrArg Prod.fst (Option.some.inj hs)
    unfold State.tryRemoveNodeProp State.removeNodeProp at hs
    cases hg : AMap.get (s.nProps n) k with
    | none => rw [hg] at hs; cases hs; exact h
    | some old =>
      rw [hg] at hs
      simp only at hs
      cases hr : Indexes.remove s.nodeIx k old n with
      | none => rw [hr] at hs; cases hs; exact h
      | some ixs => rw [hr] at hs; cases hs; exact ⟨nodup_upd h.1 (AMap.nodup_del (h.1 n) _), h.2⟩
  | detach n =>
    obtain ⟨_, g2, g3, _⟩ := tryDetachNode_frame hs
    exact same g2 g3
  | detachRemove n =>
    simp only [tryStep, State.tryDetachRemoveNode] at hs
    split at hs
    · cases hs
    · rename_i s1 hd
      obtain ⟨_, g2, g3, _⟩ := tryDetachNode_frame hd
      cases Option.some.inj hs
      exact same g2 g3
    · rename_i s1 hd
      obtain ⟨_, g2, g3, _⟩ := tryDetachNode_frame hd
      cases Option.some.inj hs
      exact same g2 g3
  | setEdgeLabel e l =>
    simp only [tryStep, Option.map_eq_some_iff] at hs
    obtain ⟨s1, hs1, hh⟩ := hs
    cases hh
    unfold State.setEdgeLabel at hs1
    split at hs1
    · cases hs1; exact h
    · obtain ⟨_, c2, c3, _⟩ := connect_props hs1
      exact same c2 c3
  | setEdgeProp n k v =>
    have hs := congrArg Prod.fst (Option.some.inj hs)
    unfold State.trySetEdgeProp at hs
    simp only at hs
    split at hs
    · cases hs; exact h
    · cases hs; exact ⟨h.1, nodup_upd h.2 (AMap.nodup_set (h.2 n) _ _)⟩
  | removeEdgeProp n k =>
    have hs := congrArg Prod.fst (Option.some.inj hs)
    unfold State.tryRemoveEdgeProp State.removeEdgeProp at hs
    cases hg : AMap.get (s.eProps n) k with
    | none => rw [hg] at hs; cases hs; exact h
    | some old =>
      rw [hg] at hs
      simp only at hs
      cases hr : Indexes.remove s.edgeIx k old n with
      | none => rw [hr] at hs; cases hs; exact h
      | some ixs => rw [hr] at hs; cases hs; exact ⟨h.1, nodup_upd h.2 (AMap.nodup_del (h.2 n) _)⟩
  | removeEdge e => cases Option.some.inj hs; exact h
  | addNodeIndex k t =>
    simp only [tryStep, State.tryAddNodeIndex] at hs
    split at hs
    · cases hs; exact h
    · split at hs
      · cases hs
      · cases hs; exact h
  | addEdgeIndex k t =>
    simp only [tryStep, State.tryAddEdgeIndex] at hs
    split at hs
    · cases hs; exact h
    · split at hs
      · cases hs
      · cases hs; exact h

end LPG
