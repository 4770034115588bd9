import Verif.Proofs.RecoverStuck
import Verif.Props.C68
import Verif.Model.Queries
/-!
# C69: a value that a hash index cannot hold stays
-/
namespace LPG

theorem noKey_iff : ∀ v : Value, NoKey v ↔ hkey v = none
  | .nil => by constructor <;> intro h <;> cases h
  | .int i => by constructor <;> intro h <;> cases h
  | .str s => by constructor <;> intro h <;> cases h
  | .ints l => ⟨fun _ => rfl, fun _ => .ints l⟩
  | .strs l => ⟨fun _ => rfl, fun _ => .strs l⟩
  | .list l => ⟨fun _ => rfl, fun _ => .list l⟩
  | .other t true => by constructor <;> intro h <;> cases h
  | .other t false => ⟨fun _ => rfl, fun _ => .other t⟩
  | .native v => by
    have ih := noKey_iff v
    have : hkey (.native v) = none ↔ hkey v = none := by simp [hkey]
    rw [this, ← ih]
    constructor
    · intro h; cases h; assumption
    · exact .native

theorem noKey_unhashable (v : Value) : NoKey v ↔ Unhashable v := by
  unfold Unhashable
  cases v with
  | native w =>
    show _ ↔ hkey w = none
    rw [← noKey_iff w]
    constructor
    · intro h; cases h; assumption
    · exact .native
  | _ => exact noKey_iff _

theorem Reached.cells {s : State} {ops : List Op} (h : Reached s ops) : AllCells s.nodeIx ∧ AllCells s.edgeIx := by
  induction h with
  | new => exact ⟨fun _ _ hk => (by cases hk), fun _ _ hk => (by cases hk)⟩
  | call _ _ hs _ _ ih =>
    obtain ⟨_, h1, h2⟩ := tryStep_next hs
    exact ⟨h1.allCells ih.1, h2.allCells ih.2⟩

/-- A hash index of `k`, and a value that it cannot hold. `SetProperty` panics, after it has set the property. From then on,
whatever the program does and recovers from, the property has that value, `SetProperty` and `RemoveProperty` of it panic and
change nothing, `DetachAndRemove` of the node panics, and `GetNodesWithProperty` yields the node, even if it was removed. -/
theorem C69_node {s : State} {ops : List Op} (h : Reached s ops) {k : String} {ix : HashIx}
    (hi : AMap.get s.nodeIx k = some (.hash ix)) {n : Nat} (hn : n ∈ (Spec.run ops).nodes)
    (ho : ∀ w, (Spec.run ops).nprop n k = some w → ¬ NoKey w) {v : Value} (hv : NoKey v) (o : MapOrder) :
    ∃ s1, tryStep o s (.setNodeProp n k v) = some (s1, true) ∧ ∀ prog s2, tryRunFrom s1 prog = some s2 →
      s2.nodeProperty n k = some v ∧ (∀ o w, tryStep o s2 (.setNodeProp n k w) = some (s2, true)) ∧
      (∀ o, tryStep o s2 (.removeNodeProp n k) = some (s2, true)) ∧
      (∀ o s3 b, tryStep o s2 (.detachRemove n) = some (s3, b) → b = true) ∧
      ∃ ns, s2.getNodesWithProperty k = some ns ∧ n ∈ ns := by
  obtain ⟨hvh, hr⟩ := C68_history h
  have c : Core s.bare (Spec.run ops) := Core.run hvh hr
  have hlt : n < s.idBase := by
    have := c.nLt n hn
    rw [← c.next] at this
    exact this
  have hp : AMap.get (s.nProps n) k = (Spec.run ops).nprop n k := (c.nprops n hn).2 k
  have hv' := (noKey_unhashable v).1 hv
  have hash : s.nodeIx.Has k (fun ix => ∃ h, ix = .hash h) := ⟨_, hi, ix, rfl⟩
  obtain ⟨ixs, h1, h2, h3⟩ : ∃ ixs, (match AMap.get (s.nProps n) k with
      | none => some s.nodeIx
      | some old => Indexes.remove s.nodeIx k old n) = some ixs ∧ AllCells ixs ∧ ixs.Has k (fun ix => ∃ h, ix = .hash h) := by
    cases hg : AMap.get (s.nProps n) k with
    | none => exact ⟨s.nodeIx, rfl, h.cells.1, hash⟩
    | some old =>
      have hold : ¬ Unhashable old := fun hu => ho old (hp ▸ hg) ((noKey_unhashable old).2 hu)
      obtain ⟨ixs, hrm⟩ := remove_hashable (id := n) hash hold
      refine ⟨ixs, hrm, (IxsNext.remove hrm).allCells h.cells.1, ?_⟩
      unfold Indexes.remove at hrm
      rw [hi] at hrm
      simp only [Option.map_eq_some_iff] at hrm
      obtain ⟨ix', h5, rfl⟩ := hrm
      obtain ⟨h', _, rfl⟩ := Index.remove_is_hash h5
      exact ⟨.hash h', by rw [AMap.get_set, if_pos rfl], h', rfl⟩
  obtain ⟨g1, g2, g3⟩ := tryAdd_unhashable (id := n) h3 h2 hv'
  have ht : s.trySetNodeProp n k v = ({ s with nProps := upd s.nProps n ((s.nProps n).set k v), nodeIx := (Indexes.tryAdd ixs k v n).1 }, true) := by
    unfold State.trySetNodeProp
    simp only
    split
    · rename_i h4
      have h4 := h1.symm.trans h4
      cases h4
    · rename_i ixs' h4
      have h4 := h1.symm.trans h4
      cases h4
      rw [g1]
  refine ⟨_, congrArg some ht, ?_⟩
  intro prog s2 hrun
  have hst : StuckNode s2 n k v := by
    refine StuckNode.run ?_ hrun
    refine ⟨hlt, ?_, hv', g2⟩
    show AMap.get (upd s.nProps n ((s.nProps n).set k v) n) k = some v
    rw [upd_same, AMap.get_set, if_pos rfl]
  obtain ⟨_, hnx, _⟩ := tryRunFrom_next hrun
  obtain ⟨jx, hj, hor⟩ := hnx.has IxNext.orphan g3
  refine ⟨hst.val, fun _ => hst.set, fun _ => hst.unset, fun o s3 b => hst.drop, jx.valueItr, ?_, hor.mem⟩
  unfold State.getNodesWithProperty
  rw [hj]

/-- The same for a property of an edge. -/
theorem C69_edge {s : State} {ops : List Op} (h : Reached s ops) {k : String} {ix : HashIx}
    (hi : AMap.get s.edgeIx k = some (.hash ix)) {e : Nat} (he : e ∈ (Spec.run ops).edges)
    (ho : ∀ w, (Spec.run ops).eprop e k = some w → ¬ NoKey w) {v : Value} (hv : NoKey v) (o : MapOrder) :
    ∃ s1, tryStep o s (.setEdgeProp e k v) = some (s1, true) ∧ ∀ prog s2, tryRunFrom s1 prog = some s2 →
      s2.edgeProperty e k = some v ∧ (∀ o w, tryStep o s2 (.setEdgeProp e k w) = some (s2, true)) ∧
      (∀ o, tryStep o s2 (.removeEdgeProp e k) = some (s2, true)) ∧
      ∃ es, s2.getEdgesWithProperty k = some es ∧ e ∈ es := by
  obtain ⟨hvh, hr⟩ := C68_history h
  have c : Core s.bare (Spec.run ops) := Core.run hvh hr
  have hlt : e < s.idBase := by
    have := c.eLt e he
    rw [← c.next] at this
    exact this
  have hp : AMap.get (s.eProps e) k = (Spec.run ops).eprop e k := (c.eprops e he).2 k
  have hv' := (noKey_unhashable v).1 hv
  have hash : s.edgeIx.Has k (fun ix => ∃ h, ix = .hash h) := ⟨_, hi, ix, rfl⟩
  obtain ⟨ixs, h1, h2, h3⟩ : ∃ ixs, (match AMap.get (s.eProps e) k with
      | none => some s.edgeIx
      | some old => Indexes.remove s.edgeIx k old e) = some ixs ∧ AllCells ixs ∧ ixs.Has k (fun ix => ∃ h, ix = .hash h) := by
    cases hg : AMap.get (s.eProps e) k with
    | none => exact ⟨s.edgeIx, rfl, h.cells.2, hash⟩
    | some old =>
      have hold : ¬ Unhashable old := fun hu => ho old (hp ▸ hg) ((noKey_unhashable old).2 hu)
      obtain ⟨ixs, hrm⟩ := remove_hashable (id := e) hash hold
      refine ⟨ixs, hrm, (IxsNext.remove hrm).allCells h.cells.2, ?_⟩
      unfold Indexes.remove at hrm
      rw [hi] at hrm
      simp only [Option.map_eq_some_iff] at hrm
      obtain ⟨ix', h5, rfl⟩ := hrm
      obtain ⟨h', _, rfl⟩ := Index.remove_is_hash h5
      exact ⟨.hash h', by rw [AMap.get_set, if_pos rfl], h', rfl⟩
  obtain ⟨g1, g2, g3⟩ := tryAdd_unhashable (id := e) h3 h2 hv'
  have ht : s.trySetEdgeProp e k v = ({ s with eProps := upd s.eProps e ((s.eProps e).set k v), edgeIx := (Indexes.tryAdd ixs k v e).1 }, true) := by
    unfold State.trySetEdgeProp
    simp only
    split
    · rename_i h4
      have h4 := h1.symm.trans h4
      cases h4
    · rename_i ixs' h4
      have h4 := h1.symm.trans h4
      cases h4
      rw [g1]
  refine ⟨_, congrArg some ht, ?_⟩
  intro prog s2 hrun
  have hst : StuckEdge s2 e k v := by
    refine StuckEdge.run ?_ hrun
    refine ⟨hlt, ?_, hv', g2⟩
    show AMap.get (upd s.eProps e ((s.eProps e).set k v) e) k = some v
    rw [upd_same, AMap.get_set, if_pos rfl]
  obtain ⟨_, _, hnx⟩ := tryRunFrom_next hrun
  obtain ⟨jx, hj, hor⟩ := hnx.has IxNext.orphan g3
  refine ⟨hst.val, fun _ => hst.set, fun _ => hst.unset, jx.valueItr, ?_, hor.mem⟩
  unfold State.getEdgesWithProperty
  rw [hj]

/-- The program of `C68_example`, and what it sees when it has also removed node 1. -/
theorem C69_example : ((tryRun (recoverOps ++ [.detachRemove 1, .newNode [] []])).bind (fun s => s.getNodes),
    (tryRun (recoverOps ++ [.detachRemove 1, .newNode [] []])).bind (fun s => s.getNodesWithProperty "k")) =
    (some [0], some [0, 1]) := by decide +kernel

end LPG
