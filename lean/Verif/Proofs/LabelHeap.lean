import Verif.Model.LabelHeap
import Verif.Proofs.Sets
import Verif.Proofs.LiveAnyLoop
/-!
# The label index with references refines the one with values
-/
namespace LPG

/-- Both label indexes have the same content. -/
structure LMap.Sim (h : LMap) (nm : NodeMap) : Prop where
  gone : ∀ l, h.m.get l = none ↔ nm.m.get l = none
  rep : ∀ l a s, h.m.get l = some a → nm.m.get l = some s → (h.sets a).Rep s
  lt : ∀ l a, h.m.get l = some a → a < h.free
  inj : ∀ l l' a, h.m.get l = some a → h.m.get l' = some a → l = l'
  nolabels : h.nolabels.Rep nm.nolabels

namespace LMap

theorem Sim.empty : Sim LMap.empty NodeMap.empty :=
  ⟨by simp [LMap.empty, NodeMap.empty], by simp [LMap.empty], by simp [LMap.empty], by simp [LMap.empty], FastSet.Rep.new⟩

theorem Sim.at {h : LMap} {nm : NodeMap} (w : Sim h nm) {l : String} {a : Nat} (ha : h.m.get l = some a) :
    ∃ s, nm.m.get l = some s ∧ (h.sets a).Rep s := by
  cases hs : nm.m.get l with
  | none => rw [(w.gone l).2 hs] at ha; cases ha
  | some s => exact ⟨s, rfl, w.rep l a s ha hs⟩

/-- One set changes. -/
theorem Sim.put {h : LMap} {nm : NodeMap} (w : Sim h nm) {l : String} {a : Nat} (ha : h.m.get l = some a) {f : FastSet Nat}
    {s : FSet Nat} (hf : f.Rep s) : Sim { h with sets := upd h.sets a f } { nm with m := nm.m.set l s } := by
  refine ⟨?_, ?_, w.lt, w.inj, w.nolabels⟩
  · intro l'
    simp only [AMap.get_set]
    by_cases hl : l' = l
    · subst hl; simp [ha]
    · simp [hl, w.gone l']
  · intro l' a' s' ha' hs'
    simp only [AMap.get_set] at ha' hs' ⊢
    by_cases hl : l' = l
    · subst hl
      rw [ha] at ha'; cases ha'
      rw [if_pos rfl] at hs'; cases hs'
      rw [upd_same]; exact hf
    · rw [if_neg hl] at hs'
      have : a' ≠ a := by rintro rfl; exact hl (w.inj _ _ _ ha' ha)
      rw [upd_other _ _ this]
      exact w.rep _ _ _ ha' hs'

theorem Sim.addTo {h : LMap} {nm : NodeMap} (w : Sim h nm) (n : Nat) (l : String) : Sim (h.addTo n l) (nm.addTo n l) := by
  unfold LMap.addTo NodeMap.addTo
  cases ha : h.m.get l with
  | none =>
    rw [(w.gone l).1 ha]
    dsimp only
    refine ⟨?_, ?_, ?_, ?_, w.nolabels⟩
    · intro l'
      simp only [AMap.get_set]
      by_cases hl : l' = l
      · simp [hl]
      · simp [hl, w.gone l']
    · intro l' a' s' ha' hs'
      simp only [AMap.get_set] at ha' hs' ⊢
      by_cases hl : l' = l
      · rw [if_pos hl] at ha' hs'; cases ha'; cases hs'
        rw [upd_same]
        exact (FastSet.Rep.new.add n n).1
      · rw [if_neg hl] at ha' hs'
        rw [upd_other _ _ (Nat.ne_of_lt (w.lt _ _ ha'))]
        exact w.rep _ _ _ ha' hs'
    · intro l' a' ha'
      simp only [AMap.get_set] at ha' ⊢
      split at ha'
      · cases ha'; exact Nat.lt_succ_self _
      · exact Nat.lt_succ_of_lt (w.lt _ _ ha')
    · intro l1 l2 a' h1 h2
      simp only [AMap.get_set] at h1 h2
      split at h1 <;> split at h2
      · simp_all
      · cases h1; exact absurd (w.lt _ _ h2) (Nat.lt_irrefl _)
      · cases h2; exact absurd (w.lt _ _ h1) (Nat.lt_irrefl _)
      · exact w.inj _ _ _ h1 h2
  | some a =>
    obtain ⟨s, hs, hr⟩ := w.at ha
    rw [hs]
    exact w.put ha (hr.add n n).1

theorem Sim.removeFrom {h : LMap} {nm : NodeMap} (w : Sim h nm) (n : Nat) (l : String) :
    Sim (h.removeFrom n l) (nm.removeFrom n l) := by
  unfold LMap.removeFrom NodeMap.removeFrom
  cases ha : h.m.get l with
  | none => rw [(w.gone l).1 ha]; exact w
  | some a =>
    obtain ⟨s, hs, hr⟩ := w.at ha
    rw [hs]
    have hr' := (hr.remove n).1
    have hsz := hr'.size
    dsimp only
    rw [hsz]
    split
    · refine ⟨?_, ?_, ?_, ?_, w.nolabels⟩
      · intro l'
        simp only [AMap.get_del]
        split
        · simp
        · exact w.gone l'
      · intro l' a' s' ha' hs'
        simp only [AMap.get_del] at ha' hs' ⊢
        split at ha'
        · cases ha'
        · rename_i hl
          rw [if_neg hl] at hs'
          have : a' ≠ a := by rintro rfl; exact hl (w.inj _ _ _ ha' ha)
          rw [upd_other _ _ this]
          exact w.rep _ _ _ ha' hs'
      · intro l' a' ha'
        simp only [AMap.get_del] at ha'
        split at ha'
        · cases ha'
        · exact w.lt _ _ ha'
      · intro l1 l2 a' h1 h2
        simp only [AMap.get_del] at h1 h2
        split at h1
        · cases h1
        · split at h2
          · cases h2
          · exact w.inj _ _ _ h1 h2
    · exact w.put ha hr'

theorem Sim.foldAdd {n : Nat} : ∀ {ls : List String} {h : LMap} {nm : NodeMap}, Sim h nm →
    Sim (ls.foldl (fun h l => h.addTo n l) h) (ls.foldl (fun nm l => nm.addTo n l) nm)
  | [], _, _, w => w
  | l :: ls, _, _, w => Sim.foldAdd (ls := ls) (w.addTo n l)

theorem Sim.foldRemove {n : Nat} : ∀ {ls : List String} {h : LMap} {nm : NodeMap}, Sim h nm →
    Sim (ls.foldl (fun h l => h.removeFrom n l) h) (ls.foldl (fun nm l => nm.removeFrom n l) nm)
  | [], _, _, w => w
  | l :: ls, _, _, w => Sim.foldRemove (ls := ls) (w.removeFrom n l)

theorem Sim.nol {h : LMap} {nm : NodeMap} (w : Sim h nm) {f : FastSet Nat} {s : FSet Nat} (hf : f.Rep s) :
    Sim { h with nolabels := f } { nm with nolabels := s } := ⟨w.gone, w.rep, w.lt, w.inj, hf⟩

theorem Sim.add {h : LMap} {nm : NodeMap} (w : Sim h nm) (n : Nat) (ls : List String) : Sim (h.add n ls) (nm.add n ls) := by
  unfold LMap.add NodeMap.add
  split
  · exact w.nol (w.nolabels.add n n).1
  · exact w.foldAdd

theorem Sim.remove {h : LMap} {nm : NodeMap} (w : Sim h nm) (n : Nat) (ls : List String) :
    Sim (h.remove n ls) (nm.remove n ls) := by
  unfold LMap.remove NodeMap.remove
  split
  · exact w.nol (w.nolabels.remove n).1
  · exact w.foldRemove

theorem Sim.replace {h : LMap} {nm : NodeMap} (w : Sim h nm) (n : Nat) (old new : List String) :
    Sim (h.replace n old new) (nm.replace n old new) := by
  unfold LMap.replace NodeMap.replace
  split
  · exact w
  · have w1 : Sim (if old.length = 0 then { h with nolabels := (h.nolabels.remove n).1 } else h)
        (if old.length = 0 then { nm with nolabels := FSet.remove nm.nolabels n } else nm) := by
      split
      · exact w.nol (w.nolabels.remove n).1
      · exact w
    dsimp only
    split
    · exact w1.nol (w1.nolabels.add n n).1
    · exact w1.foldRemove.foldAdd

end LMap

/-- The state and the invariants that hold between calls. -/
structure LState.Ok (h : LState) (σ : Spec) : Prop where
  core : Core h.base σ
  lbl : LblRep h.base σ
  sim : h.lbl.Sim h.base.byLabel

namespace LState

theorem byLabel_step {s s' : State} {op : Op} (hs : LPG.step s op = some s') :
    s'.byLabel = match op with
      | .newNode ls _ => s.byLabel.add s.idBase (newStringSet ls)
      | .setLabels n ls => s.byLabel.replace n (s.nLabels n) ls
      | .detachRemove n => s.byLabel.remove n (s.nLabels n)
      | _ => s.byLabel := by
  cases op with
  | newNode ls ps => obtain ⟨ixs, _, rfl⟩ := newNode_frame hs; rfl
  | newEdge a b l ps => obtain ⟨h1, h2, h3, h4, h5, h6, _⟩ := newEdge_frame hs; exact h6
  | setLabels n ls => cases hs; rfl
  | setNodeProp n k v => obtain ⟨ixs, rfl⟩ := setNodeProp_frame hs; rfl
  | removeNodeProp n k => obtain ⟨ixs, rfl⟩ := removeNodeProp_frame hs; rfl
  | detach n => obtain ⟨p0, p1, p2, im, om, ae, ix, rfl⟩ := detachNode_frame hs; rfl
  | detachRemove n =>
    simp only [LPG.step, State.detachRemoveNode] at hs
    split at hs
    · cases hs
    · rename_i s1 h1
      obtain ⟨p0, p1, p2, im, om, ae, ix, rfl⟩ := detachNode_frame h1
      split at hs
      · cases hs
      · cases hs; rfl
  | setEdgeLabel e l =>
    simp only [LPG.step, State.setEdgeLabel] at hs
    split at hs
    · cases hs; rfl
    · obtain ⟨p1, p2, im, om, rfl⟩ := connect_frame hs; rfl
  | setEdgeProp n k v => obtain ⟨ixs, rfl⟩ := setEdgeProp_frame hs; rfl
  | removeEdgeProp n k => obtain ⟨ixs, rfl⟩ := removeEdgeProp_frame hs; rfl
  | removeEdge e => cases hs; rfl
  | addNodeIndex k t => obtain ⟨ixs, rfl⟩ := addNodeIndex_frame hs; rfl
  | addEdgeIndex k t => obtain ⟨ixs, rfl⟩ := addEdgeIndex_frame hs; rfl

theorem sim_step {h h' : LState} {op : Op} (w : h.lbl.Sim h.base.byLabel) (hs : h.step op = some h') :
    h'.lbl.Sim h'.base.byLabel ∧ LPG.step h.base op = some h'.base := by
  unfold LState.step at hs
  split at hs
  · cases hs
  · rename_i s h1
    cases hs
    refine ⟨?_, h1⟩
    dsimp only
    rw [byLabel_step h1]
    cases op <;> first | exact w | exact w.add _ _ | exact w.replace _ _ _ | exact w.remove _ _

theorem Ok.init : Ok LState.new Spec.new := ⟨Core.init, LblRep.init, LMap.Sim.empty⟩

theorem Ok.step {h h' : LState} {σ : Spec} {op : Op} (o : h.Ok σ) (hv : σ.Valid op) (hs : h.step op = some h') :
    h'.Ok (σ.step op) := by
  obtain ⟨h1, h2⟩ := sim_step o.sim hs
  exact ⟨o.core.step hv h2, o.lbl.step o.core hv h2, h1⟩

theorem Ok.runFrom {ops : List Op} : ∀ {h h' : LState} {σ : Spec}, h.Ok σ → σ.ValidFrom ops → h.runFrom ops = some h' →
    h'.Ok (σ.runFrom ops) := by
  induction ops with
  | nil => intro h h' σ o _ hs; simp only [LState.runFrom, Option.some.injEq] at hs; subst hs; exact o
  | cons op ops ih =>
    intro h h' σ o hv hs
    rw [LState.runFrom] at hs
    split at hs
    · cases hs
    · rename_i h1 hs1
      exact ih (o.step hv.1 hs1) hv.2 hs

theorem Ok.run {ops : List Op} {h : LState} (hv : Spec.ValidHistory ops) (hs : LState.run ops = some h) : h.Ok (Spec.run ops) :=
  Ok.runFrom Ok.init hv hs

theorem runFrom_base (ops : List Op) : ∀ h : LState, (h.runFrom ops).map LState.base = LPG.runFrom h.base ops := by
  induction ops with
  | nil => intro h; rfl
  | cons op ops ih =>
    intro h
    rw [LState.runFrom, LPG.runFrom]
    unfold LState.step
    cases LPG.step h.base op with
    | none => rfl
    | some s => exact ih _

end LState

end LPG
