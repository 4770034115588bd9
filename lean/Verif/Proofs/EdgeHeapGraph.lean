import Verif.Proofs.EdgeHeap
import Verif.Model.Graph

namespace LPG
namespace HState

/-- Every edge map is well formed. -/
structure Wf (h : HState) : Prop where
  inc : ∀ n, (h.incoming n).Wf
  out : ∀ n, (h.outgoing n).Wf
  all : h.allEdges.Wf

/-- The state of `Verif.Model.Graph`. -/
def abs (h : HState) : State :=
  { h.base with incoming := fun n => (h.incoming n).abs, outgoing := fun n => (h.outgoing n).abs,
                allEdges := h.allEdges.abs }

theorem upd_abs (f : Nat → HMap) (k : Nat) (v : HMap) : (fun n => (upd f k v n).abs) = upd (fun n => (f n).abs) k v.abs := by
  funext n; simp only [upd_apply]; split <;> rfl

theorem upd_wf {f : Nat → HMap} {k : Nat} {v : HMap} (hf : ∀ n, (f n).Wf) (hv : v.Wf) : ∀ n, (upd f k v n).Wf := by
  intro n; simp only [upd_apply]; split
  · exact hv
  · exact hf n

/-- Two results that agree up to `abs`, the first well formed. -/
def Same (r : Option HState) (t : Option State) : Prop := (∀ h, r = some h → h.Wf) ∧ r.map abs = t

theorem Same.none : Same none none := ⟨fun h hh => (by cases hh), rfl⟩

theorem Same.some {h : HState} {s : State} (w : h.Wf) (e : h.abs = s) : Same (some h) (some s) :=
  ⟨fun h' hh => (by cases hh; exact w), by rw [Option.map_some, e]⟩

theorem Same.cases {r : Option HState} {t : Option State} (h : Same r t) :
    (r = Option.none ∧ t = Option.none) ∨ ∃ x, r = Option.some x ∧ t = Option.some x.abs ∧ x.Wf := by
  obtain ⟨h1, h2⟩ := h
  cases r with
  | none => exact Or.inl ⟨rfl, h2.symm⟩
  | some x => exact Or.inr ⟨x, rfl, h2.symm, h1 x rfl⟩

theorem Wf.new : HState.new.Wf := ⟨fun _ => HMap.Wf.empty, fun _ => HMap.Wf.empty, HMap.Wf.empty⟩

theorem abs_new : HState.new.abs = State.new := rfl

theorem add_cases {P : Slot} {label : Nat → String} {m : HMap} (w : m.Wf) (e : Nat) :
    (m.add P label e = none ∧ m.abs.add P label e = none) ∨
      ∃ p m', m.add P label e = some (p, m') ∧ m.abs.add P label e = some (p, m'.abs) ∧ m'.Wf := by
  obtain ⟨h1, h2⟩ := HMap.add_abs (P := P) (label := label) w e
  cases hq : m.add P label e with
  | none => rw [hq] at h2; exact Or.inl ⟨rfl, h2.symm⟩
  | some r => rw [hq] at h2; exact Or.inr ⟨r.1, r.2, rfl, h2.symm, h1 r hq⟩

theorem connect_abs {h : HState} (w : h.Wf) (e : Nat) : Same (h.connect e) (h.abs.connect e) := by
  unfold HState.connect State.connect
  rcases add_cases (P := h.base.slot2) (label := h.base.eLabel) (w.inc (h.base.eTo e)) e with ⟨h1, h2⟩ | ⟨p, m, h1, h2, h3⟩
  · have h2' : (h.abs.incoming (h.abs.eTo e)).add h.abs.slot2 h.abs.eLabel e = none := h2
    simp only [h1, h2']; exact Same.none
  · have h2' : (h.abs.incoming (h.abs.eTo e)).add h.abs.slot2 h.abs.eLabel e = some (p, m.abs) := h2
    simp only [h1, h2']
    rcases add_cases (P := h.base.slot1) (label := h.base.eLabel) (w.out (h.base.eFrom e)) e with ⟨h4, h5⟩ | ⟨p1, m1, h4, h5, h6⟩
    · have h5' : (h.abs.outgoing (h.abs.eFrom e)).add h.abs.slot1 h.abs.eLabel e = none := h5
      simp only [h4, h5']; exact Same.none
    · have h5' : (h.abs.outgoing (h.abs.eFrom e)).add h.abs.slot1 h.abs.eLabel e = some (p1, m1.abs) := h5
      simp only [h4, h5']
      refine Same.some ⟨upd_wf w.inc h3, upd_wf w.out h6, w.all⟩ ?_
      simp only [abs, upd_abs]

theorem disconnect_abs {h : HState} (w : h.Wf) (e : Nat) : (h.disconnect e).Wf ∧ (h.disconnect e).abs = h.abs.disconnect e := by
  obtain ⟨h1, h2, h3⟩ := HMap.remove_abs (P := h.base.slot2) (label := h.base.eLabel) (w.inc (h.base.eTo e)) e
  obtain ⟨h4, h5, h6⟩ := HMap.remove_abs (P := h.base.slot1) (label := h.base.eLabel) (w.out (h.base.eFrom e)) e
  unfold HState.disconnect State.disconnect
  refine ⟨⟨upd_wf w.inc h1, upd_wf w.out h4, w.all⟩, ?_⟩
  simp only [abs, upd_abs, h2, h3, h5, h6]

theorem dropEdge_abs {h : HState} (w : h.Wf) (e : Nat) : (h.dropEdge e).Wf ∧ (h.dropEdge e).abs = h.abs.dropEdge e := by
  obtain ⟨h1, h2, h3⟩ := HMap.remove_abs (P := h.base.slot0) (label := h.base.eLabel) w.all e
  unfold HState.dropEdge State.dropEdge
  refine ⟨⟨w.inc, w.out, h1⟩, ?_⟩
  simp only [abs, h2, h3]

theorem removeEdge_abs {h : HState} (w : h.Wf) (e : Nat) : (h.removeEdge e).Wf ∧ (h.removeEdge e).abs = h.abs.removeEdge e := by
  obtain ⟨w1, e1⟩ := disconnect_abs w e
  obtain ⟨w2, e2⟩ := dropEdge_abs w1 e
  exact ⟨w2, by rw [HState.removeEdge, e2, e1, State.removeEdge]⟩

theorem newNode_abs {h : HState} (w : h.Wf) (ls : List String) (ps : Props) : Same (h.newNode ls ps) (h.abs.newNode ls ps) := by
  unfold HState.newNode State.newNode
  have e1 : h.abs.nodeIx = h.base.nodeIx := rfl
  have e2 : h.abs.idBase = h.base.idBase := rfl
  simp only [e1, e2]
  cases hq : Indexes.addAll h.base.idBase ps h.base.nodeIx with
  | none => exact Same.none
  | some ixs =>
    refine Same.some (h := { h with base := _, incoming := _, outgoing := _ })
      ⟨upd_wf w.inc HMap.Wf.empty, upd_wf w.out HMap.Wf.empty, w.all⟩ ?_
    simp only [abs, upd_abs, HMap.abs_empty]

theorem newEdge_tail {h : HState} (w : h.Wf) (e : Nat) (ps : Props) : Same
    (match h.allEdges.add h.base.slot0 h.base.eLabel e with
      | none => none
      | some (p0, m) =>
        match HState.connect { h with base := { h.base with slot0 := p0 }, allEdges := m } e with
        | none => none
        | some h =>
          match Indexes.addAll e ps h.base.edgeIx with
          | none => none
          | some ixs => some { h with base := { h.base with edgeIx := ixs } })
    (match h.abs.allEdges.add h.abs.slot0 h.abs.eLabel e with
      | none => none
      | some (p0, m) =>
        match State.connect { h.abs with slot0 := p0, allEdges := m } e with
        | none => none
        | some s =>
          match Indexes.addAll e ps s.edgeIx with
          | none => none
          | some ixs => some { s with edgeIx := ixs }) := by
  rcases add_cases (P := h.base.slot0) (label := h.base.eLabel) w.all e with ⟨h1, h2⟩ | ⟨p, m, h1, h2, h3⟩
  · have h2' : h.abs.allEdges.add h.abs.slot0 h.abs.eLabel e = none := h2
    simp only [h1, h2']; exact Same.none
  · have h2' : h.abs.allEdges.add h.abs.slot0 h.abs.eLabel e = some (p, m.abs) := h2
    simp only [h1, h2']
    have hc := connect_abs (h := { h with base := { h.base with slot0 := p }, allEdges := m }) ⟨w.inc, w.out, h3⟩ e
    have he : HState.abs { h with base := { h.base with slot0 := p }, allEdges := m } = { h.abs with slot0 := p, allEdges := m.abs } := rfl
    rw [he] at hc
    rcases hc.cases with ⟨h4, h5⟩ | ⟨x, h4, h5, h6⟩
    · simp only [h4, h5]; exact Same.none
    · simp only [h4, h5]
      have : x.abs.edgeIx = x.base.edgeIx := rfl
      simp only [this]
      cases Indexes.addAll e ps x.base.edgeIx with
      | none => exact Same.none
      | some ixs => exact Same.some ⟨h6.inc, h6.out, h6.all⟩ rfl

theorem newEdge_abs {h : HState} (w : h.Wf) (a b : Nat) (l : String) (ps : Props) :
    Same (h.newEdge a b l ps) (h.abs.newEdge a b l ps) := by
  unfold HState.newEdge State.newEdge
  exact newEdge_tail (h := { h with base := { h.base with
    idBase := h.base.idBase + 1,
    eFrom := upd h.base.eFrom h.base.idBase a, eTo := upd h.base.eTo h.base.idBase b, eLabel := upd h.base.eLabel h.base.idBase l,
    eProps := upd h.base.eProps h.base.idBase ps,
    slot0 := upd h.base.slot0 h.base.idBase ⟨none, none⟩, slot1 := upd h.base.slot1 h.base.idBase ⟨none, none⟩,
    slot2 := upd h.base.slot2 h.base.idBase ⟨none, none⟩ } }) ⟨w.inc, w.out, w.all⟩ h.base.idBase ps

theorem detachEdge_abs {h : HState} (w : h.Wf) (e : Nat) : Same (h.detachEdge e) (h.abs.detachEdge e) := by
  obtain ⟨w1, e1⟩ := disconnect_abs w e
  obtain ⟨w2, e2⟩ := dropEdge_abs w1 e
  unfold HState.detachEdge State.detachEdge
  rw [← e1, ← e2]
  obtain ⟨x, hx⟩ : ∃ x, (h.disconnect e).dropEdge e = x := ⟨_, rfl⟩
  rw [hx] at w2 ⊢
  have e3 : x.abs.eProps = x.base.eProps := rfl
  have e4 : x.abs.edgeIx = x.base.edgeIx := rfl
  simp only [e3, e4]
  cases Indexes.removeAll e (x.base.eProps e) x.base.edgeIx with
  | none => exact Same.none
  | some ixs => exact Same.some ⟨w2.inc, w2.out, w2.all⟩ rfl

theorem detachEdges_abs : ∀ (es : List Nat) {h : HState}, h.Wf → Same (h.detachEdges es) (h.abs.detachEdges es)
  | [], h, w => by simp only [HState.detachEdges, State.detachEdges]; exact Same.some w rfl
  | e :: es, h, w => by
    simp only [HState.detachEdges, State.detachEdges]
    rcases (detachEdge_abs w e).cases with ⟨h1, h2⟩ | ⟨x, h1, h2, h3⟩
    · simp only [h1, h2]; exact Same.none
    · simp only [h1, h2]; exact detachEdges_abs es h3

theorem detachNode_abs {h : HState} (w : h.Wf) (n : Nat) : Same (h.detachNode n) (h.abs.detachNode n) := by
  unfold HState.detachNode State.detachNode
  have e1 : (h.abs.incoming n).enum h.abs.slot2 h.abs.idBase = (h.incoming n).enum h.base.slot2 h.base.idBase :=
    (HMap.enum_abs (w.inc n)).symm
  simp only [e1]
  cases (h.incoming n).enum h.base.slot2 h.base.idBase with
  | none => exact Same.none
  | some es =>
    simp only
    rcases (detachEdges_abs es w).cases with ⟨h1, h2⟩ | ⟨x, h1, h2, h3⟩
    · simp only [h1, h2]; exact Same.none
    · simp only [h1, h2]
      have e2 : (x.abs.outgoing n).enum x.abs.slot1 x.abs.idBase = (x.outgoing n).enum x.base.slot1 x.base.idBase :=
        (HMap.enum_abs (h3.out n)).symm
      simp only [e2]
      cases (x.outgoing n).enum x.base.slot1 x.base.idBase with
      | none => exact Same.none
      | some es2 =>
        simp only
        have h4 : HState.Wf { x with incoming := upd x.incoming n (x.incoming n).clear } :=
          ⟨upd_wf h3.inc (h3.inc n).clear, h3.out, h3.all⟩
        have h5 : HState.abs { x with incoming := upd x.incoming n (x.incoming n).clear } = { x.abs with incoming := upd x.abs.incoming n EdgeMap.empty } := by
          simp only [abs, upd_abs, HMap.abs_clear]
        have h6 := detachEdges_abs es2 h4
        rw [h5] at h6
        rcases h6.cases with ⟨h7, h8⟩ | ⟨y, h7, h8, h9⟩
        · simp only [h7, h8]; exact Same.none
        · simp only [h7, h8]
          refine Same.some ⟨h9.inc, upd_wf h9.out (h9.out n).clear, h9.all⟩ ?_
          simp only [abs, upd_abs, HMap.abs_clear]

theorem detachRemoveNode_abs {h : HState} (w : h.Wf) (n : Nat) : Same (h.detachRemoveNode n) (h.abs.detachRemoveNode n) := by
  unfold HState.detachRemoveNode State.detachRemoveNode
  rcases (detachNode_abs w n).cases with ⟨h1, h2⟩ | ⟨x, h1, h2, h3⟩
  · simp only [h1, h2]; exact Same.none
  · simp only [h1, h2]
    have e1 : x.abs.nProps = x.base.nProps := rfl
    have e2 : x.abs.nodeIx = x.base.nodeIx := rfl
    simp only [e1, e2]
    cases Indexes.removeAll n (x.base.nProps n) x.base.nodeIx with
    | none => exact Same.none
    | some ixs => exact Same.some ⟨h3.inc, h3.out, h3.all⟩ rfl

theorem setEdgeLabel_abs {h : HState} (w : h.Wf) (e : Nat) (l : String) : Same (h.setEdgeLabel e l) (h.abs.setEdgeLabel e l) := by
  unfold HState.setEdgeLabel State.setEdgeLabel
  have e1 : h.abs.eLabel = h.base.eLabel := rfl
  rw [e1]
  split
  · exact Same.some w rfl
  · obtain ⟨w1, e2⟩ := disconnect_abs w e
    have hc := connect_abs (h := { h.disconnect e with base := { (h.disconnect e).base with eLabel := upd (h.disconnect e).base.eLabel e l } })
      ⟨w1.inc, w1.out, w1.all⟩ e
    rw [← e2]
    exact hc

theorem addEdgeIndex_abs {h : HState} (w : h.Wf) (k : String) (t : IndexType) : Same (h.addEdgeIndex k t) (h.abs.addEdgeIndex k t) := by
  unfold HState.addEdgeIndex State.addEdgeIndex
  have e1 : h.abs.edgeIx = h.base.edgeIx := rfl
  have e2 : h.abs.getEdges = h.allEdges.enum h.base.slot0 h.base.idBase := (HMap.enum_abs w.all).symm
  have e3 : h.abs.eProps = h.base.eProps := rfl
  simp only [e1, e2, e3]
  cases AMap.get h.base.edgeIx k with
  | some _ => exact Same.some w rfl
  | none =>
    simp only
    cases h.allEdges.enum h.base.slot0 h.base.idBase with
    | none => exact Same.none
    | some es =>
      simp only
      cases Index.addObjects k h.base.eProps es (Index.new t) with
      | none => exact Same.none
      | some ix => exact Same.some ⟨w.inc, w.out, w.all⟩ rfl

/-- An operation that does not look at the edge maps. -/
theorem base_abs {h : HState} (w : h.Wf) {f : State → Option State}
    (hf : ∀ (b : State) i o a, f { b with incoming := i, outgoing := o, allEdges := a } = (f b).map (fun b => { b with incoming := i, outgoing := o, allEdges := a })) :
    Same ((f h.base).map (fun b => { h with base := b })) (f h.abs) := by
  have := hf h.base (fun n => (h.incoming n).abs) (fun n => (h.outgoing n).abs) h.allEdges.abs
  have e : h.abs = { h.base with incoming := fun n => (h.incoming n).abs, outgoing := fun n => (h.outgoing n).abs, allEdges := h.allEdges.abs } := rfl
  rw [e, this]
  cases f h.base with
  | none => exact Same.none
  | some b => exact Same.some ⟨w.inc, w.out, w.all⟩ rfl

theorem step_abs {h : HState} (w : h.Wf) (op : Op) : Same (h.step op) (LPG.step h.abs op) := by
  cases op with
  | newNode ls ps => exact newNode_abs w _ _
  | newEdge a b l ps => exact newEdge_abs w _ _ _ _
  | detach n => exact detachNode_abs w n
  | detachRemove n => exact detachRemoveNode_abs w n
  | setEdgeLabel e l => exact setEdgeLabel_abs w e l
  | removeEdge e => exact Same.some (removeEdge_abs w e).1 (removeEdge_abs w e).2
  | addEdgeIndex k t => exact addEdgeIndex_abs w k t
  | setLabels n ls => exact base_abs w (f := fun s => LPG.step s (.setLabels n ls)) (fun b i o a => rfl)
  | setNodeProp n k v =>
    refine base_abs w (f := fun s => LPG.step s (.setNodeProp n k v)) (fun b i o a => ?_)
    simp only [LPG.step, State.setNodeProp]
    repeat' split
    all_goals simp_all
  | removeNodeProp n k =>
    refine base_abs w (f := fun s => LPG.step s (.removeNodeProp n k)) (fun b i o a => ?_)
    simp only [LPG.step, State.removeNodeProp]
    repeat' split
    all_goals simp_all
  | setEdgeProp n k v =>
    refine base_abs w (f := fun s => LPG.step s (.setEdgeProp n k v)) (fun b i o a => ?_)
    simp only [LPG.step, State.setEdgeProp]
    repeat' split
    all_goals simp_all
  | removeEdgeProp n k =>
    refine base_abs w (f := fun s => LPG.step s (.removeEdgeProp n k)) (fun b i o a => ?_)
    simp only [LPG.step, State.removeEdgeProp]
    repeat' split
    all_goals simp_all
  | addNodeIndex k t =>
    refine base_abs w (f := fun s => LPG.step s (.addNodeIndex k t)) (fun b i o a => ?_)
    simp only [LPG.step, State.addNodeIndex, State.getNodes]
    repeat' split
    all_goals simp_all

theorem runFrom_abs : ∀ (ops : List Op) {h : HState}, h.Wf → Same (h.runFrom ops) (LPG.runFrom h.abs ops)
  | [], h, w => by simp only [HState.runFrom, LPG.runFrom]; exact Same.some w rfl
  | op :: ops, h, w => by
    simp only [HState.runFrom, LPG.runFrom]
    rcases (step_abs w op).cases with ⟨h1, h2⟩ | ⟨x, h1, h2, h3⟩
    · simp only [h1, h2]; exact Same.none
    · simp only [h1, h2]; exact runFrom_abs ops h3

theorem run_abs (ops : List Op) : Same (HState.run ops) (LPG.run ops) := runFrom_abs ops Wf.new

end HState
end LPG
