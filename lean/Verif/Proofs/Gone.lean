import Verif.Proofs.Total

/-! The edge maps of everything that is not a live node stay empty. -/
namespace LPG
open State

/-- Ids that are not live nodes have no edges hanging off them. -/
def Gone (s : State) (σ : Spec) : Prop :=
  ∀ n, n ∉ σ.nodes → s.incoming n = EdgeMap.empty ∧ s.outgoing n = EdgeMap.empty

theorem Gone.init : Gone State.new Spec.new := fun _ _ => ⟨rfl, rfl⟩

/-- The incoming maps agree away from `I`, the outgoing maps away from `O`. -/
def SameOff (I O : Nat → Prop) (s s' : State) : Prop :=
  ∀ n, (¬ I n → s'.incoming n = s.incoming n) ∧ (¬ O n → s'.outgoing n = s.outgoing n)

theorem SameOff.rfl {I O : Nat → Prop} {s : State} : SameOff I O s s := fun _ => ⟨fun _ => Eq.refl _, fun _ => Eq.refl _⟩

theorem SameOff.trans {I O : Nat → Prop} {a b c : State} (h1 : SameOff I O a b) (h2 : SameOff I O b c) :
    SameOff I O a c :=
  fun n => ⟨fun hn => ((h2 n).1 hn).trans ((h1 n).1 hn), fun hn => ((h2 n).2 hn).trans ((h1 n).2 hn)⟩

theorem SameOff.gone {s s' : State} {σ σ' : Spec} (h : SameOff (· ∈ σ.nodes) (· ∈ σ.nodes) s s') (g : Gone s σ)
    (e : σ'.nodes = σ.nodes) : Gone s' σ' := fun n hn => by
  rw [e] at hn
  exact ⟨((h n).1 hn).trans (g n hn).1, ((h n).2 hn).trans (g n hn).2⟩

theorem SameOff.disconnect {s : State} {I O : Nat → Prop} {e : Nat} (h1 : O (s.eFrom e)) (h2 : I (s.eTo e)) :
    SameOff I O s (s.disconnect e) := fun n =>
  ⟨fun hn => upd_other _ _ (fun hh => hn (hh ▸ h2)), fun hn => upd_other _ _ (fun hh => hn (hh ▸ h1))⟩

theorem SameOff.connect {s s' : State} {I O : Nat → Prop} {e : Nat} (h1 : O (s.eFrom e)) (h2 : I (s.eTo e))
    (h : s.connect e = some s') : SameOff I O s s' := by
  unfold State.connect at h
  split at h
  · cases h
  · simp only at h
    split at h
    · cases h
    · cases h
      intro n
      exact ⟨fun hn => upd_other _ _ (fun hh => hn (hh ▸ h2)), fun hn => upd_other _ _ (fun hh => hn (hh ▸ h1))⟩

theorem SameOff.detachEdge {s s' : State} {I O : Nat → Prop} {e : Nat} (h1 : O (s.eFrom e)) (h2 : I (s.eTo e))
    (h : s.detachEdge e = some s') : SameOff I O s s' := by
  unfold State.detachEdge at h
  simp only at h
  split at h
  · cases h
  · cases h
    exact SameOff.disconnect (s := s) h1 h2

theorem SameOff.detachEdges {I O : Nat → Prop} {es : List Nat} : ∀ {s s' : State},
    (∀ e ∈ es, O (s.eFrom e) ∧ I (s.eTo e)) → s.detachEdges es = some s' → SameOff I O s s' := by
  induction es with
  | nil => intro s s' _ h; simp [State.detachEdges] at h; subst h; exact SameOff.rfl
  | cons e es ih =>
    intro s s' hm h
    rw [State.detachEdges] at h
    split at h
    · cases h
    · rename_i s1 h1
      refine (SameOff.detachEdge (hm e (by simp)).1 (hm e (by simp)).2 h1).trans (ih ?_ h)
      obtain ⟨_, _, _, _, _, _, _, rfl⟩ := detachEdge_frame h1
      intro x hx
      exact hm x (by simp [hx])

theorem detachNode_gone {s s' : State} {σ : Spec} {n : Nat} (c : Core s σ) (hn : n ∈ σ.nodes)
    (hs : s.detachNode n = some s') :
    SameOff (· ∈ σ.nodes) (· ∈ σ.nodes) s s' ∧ s'.incoming n = EdgeMap.empty ∧ s'.outgoing n = EdgeMap.empty := by
  obtain ⟨ys, _, hy, hnone, hsome⟩ := detachNode_decomp c hn
  cases h1 : s.detachEdges ys with
  | none => rw [hnone h1] at hs; cases hs
  | some s1 =>
    obtain ⟨c1, _, zs, _, hz, _, he⟩ := hsome s1 h1
    rw [he] at hs
    split at hs
    · cases hs
    · rename_i s2 h2
      cases hs
      have hends : ∀ e ∈ σ.edges, s.eFrom e ∈ σ.nodes ∧ s.eTo e = σ.dst e ∧ s.eTo e ∈ σ.nodes := fun e he => by
        rw [(c.eattr e he).1, (c.eattr e he).2.1]; exact ⟨(c.ends e he).1, rfl, (c.ends e he).2⟩
      have o1 := SameOff.detachEdges (I := (· ∈ σ.nodes)) (O := (· ∈ σ.nodes))
        (fun e he => ⟨(hends e ((hy e).1 he).1).1, (hends e ((hy e).1 he).1).2.2⟩) h1
      obtain ⟨_, _, _, _, _, _, _, hf⟩ := detachEdges_frame h1
      have hfr : s1.eFrom = s.eFrom := by rw [hf]; rfl
      have hto : s1.eTo = s.eTo := by rw [hf]; rfl
      have o2 := SameOff.detachEdges (I := fun m => m ∈ σ.nodes ∧ m ≠ n) (O := (· ∈ σ.nodes))
        (s := { s1 with incoming := upd s1.incoming n EdgeMap.empty }) (fun e he => by
          simp only [hfr, hto]
          have a := (hz e).1 he
          have b := hends e a.1.1
          exact ⟨b.1, b.2.2, by rw [b.2.1]; exact a.1.2⟩) h2
      refine ⟨fun m => ⟨fun hm => ?_, fun hm => ?_⟩, ?_, by simp⟩
      · have hmn : m ≠ n := fun hh => hm (hh ▸ hn)
        exact (((o2 m).1 (fun hh => hm hh.1)).trans (upd_other _ _ hmn)).trans ((o1 m).1 hm)
      · have hmn : m ≠ n := fun hh => hm (hh ▸ hn)
        exact (upd_other _ _ hmn).trans (((o2 m).2 hm).trans ((o1 m).2 hm))
      · exact ((o2 n).1 (fun hh => hh.2 rfl)).trans (by simp)

theorem Gone.step {s s' : State} {σ : Spec} {op : Op} (g : Gone s σ) (c : Core s σ) (hv : σ.Valid op)
    (hs : LPG.step s op = some s') : Gone s' (σ.step op) := by
  have hends : ∀ e ∈ σ.edges, s.eFrom e ∈ σ.nodes ∧ s.eTo e ∈ σ.nodes := fun e he => by
    rw [(c.eattr e he).1, (c.eattr e he).2.1]; exact c.ends e he
  cases op with
  | newNode ls ps =>
    obtain ⟨ixs, _, rfl⟩ := newNode_frame hs
    intro n hn
    have h1 : n ∉ σ.nodes := fun h => hn (by simp [Spec.step, h])
    have h2 : n ≠ s.idBase := by rintro rfl; exact hn (by simp [Spec.step, c.next])
    exact ⟨(upd_other _ _ h2).trans (g n h1).1, (upd_other _ _ h2).trans (g n h1).2⟩
  | newEdge a b l ps =>
    simp only [LPG.step, newEdge_eq] at hs
    split at hs
    · cases hs
    · rename_i p0 m _
      split at hs
      · cases hs
      · rename_i s1 h1
        split at hs
        · cases hs
        · cases hs
          have := SameOff.connect (I := (· ∈ σ.nodes)) (O := (· ∈ σ.nodes)) (by simp [State.allocEdge]; exact hv.1)
            (by simp [State.allocEdge]; exact hv.2.1) h1
          exact SameOff.gone (s := s) (σ := σ) (fun n => ⟨(this n).1, (this n).2⟩) g rfl
  | setLabels n ls => cases hs; exact g
  | setNodeProp n k v => obtain ⟨_, rfl⟩ := setNodeProp_frame hs; exact g
  | removeNodeProp n k =>
    simp only [LPG.step, State.removeNodeProp] at hs
    split at hs
    · cases hs; exact g
    · split at hs
      · cases hs
      · cases hs; exact g
  | detach n => exact (detachNode_gone c hv hs).1.gone g rfl
  | detachRemove n =>
    simp only [LPG.step, State.detachRemoveNode] at hs
    split at hs
    · cases hs
    · rename_i s1 h1
      obtain ⟨o, i1, i2⟩ := detachNode_gone c hv h1
      split at hs
      · cases hs
      · cases hs
        intro m hm
        by_cases hmn : m = n
        · subst hmn; exact ⟨i1, i2⟩
        · have : m ∉ σ.nodes := fun h => hm (by simp [Spec.step, h, hmn])
          exact ⟨((o m).1 this).trans (g m this).1, ((o m).2 this).trans (g m this).2⟩
  | setEdgeLabel e l =>
    simp only [LPG.step, State.setEdgeLabel] at hs
    split at hs
    · cases hs; exact g
    · have o1 := SameOff.disconnect (s := s) (I := (· ∈ σ.nodes)) (O := (· ∈ σ.nodes)) (hends e hv).1 (hends e hv).2
      have o2 := SameOff.connect (I := (· ∈ σ.nodes)) (O := (· ∈ σ.nodes))
        (s := { s.disconnect e with eLabel := upd (s.disconnect e).eLabel e l }) (hends e hv).1 (hends e hv).2 hs
      exact SameOff.gone (fun n => ⟨fun h => ((o2 n).1 h).trans ((o1 n).1 h), fun h => ((o2 n).2 h).trans ((o1 n).2 h)⟩) g rfl
  | setEdgeProp e k v => obtain ⟨_, rfl⟩ := setEdgeProp_frame hs; exact g
  | removeEdgeProp e k =>
    simp only [LPG.step, State.removeEdgeProp] at hs
    split at hs
    · cases hs; exact g
    · split at hs
      · cases hs
      · cases hs; exact g
  | removeEdge e =>
    cases hs
    exact SameOff.gone (s := s) (SameOff.disconnect (hends e hv).1 (hends e hv).2) g rfl
  | addNodeIndex k t => obtain ⟨_, rfl⟩ := addNodeIndex_frame hs; exact g
  | addEdgeIndex k t => obtain ⟨_, rfl⟩ := addEdgeIndex_frame hs; exact g

theorem Gone.runFrom {ops : List Op} : ∀ {s s' : State} {σ : Spec}, Gone s σ → Core s σ → σ.ValidFrom ops →
    LPG.runFrom s ops = some s' → Gone s' (σ.runFrom ops) := by
  induction ops with
  | nil => intro s s' σ g _ _ hs; simp [LPG.runFrom] at hs; subst hs; exact g
  | cons op ops ih =>
    intro s s' σ g c hv hs
    rw [LPG.runFrom] at hs
    split at hs
    · cases hs
    · rename_i s1 h1
      exact ih (g.step c hv.1 h1) (c.step hv.1 h1) hv.2 hs

theorem EdgeMap.add_empty (P : Slot) (f : Nat → String) (e : Nat) :
    EdgeMap.empty.add P f e = some (P, { lists := [], only := some e, n := 1 }) := rfl

/-- `connect` succeeds for a fresh edge, whether its ends are live or removed. -/
theorem Gone.connect_total {s : State} {σ : Spec} (c : Core s σ) (g : Gone s σ) {e : Nat} (he : e ∉ σ.edges) :
    ∃ s', s.connect e = some s' := by
  have h2 : ∃ P2 im, (s.incoming (s.eTo e)).add s.slot2 s.eLabel e = some (P2, im) := by
    by_cases h : s.eTo e ∈ σ.nodes
    · obtain ⟨xs, h1, h2⟩ := c.inc _ h
      obtain ⟨P, m, h3, _⟩ := EdgeMap.add_spec h2 (e := e) (fun hh => he (List.mem_filter.1 (h1.mem_iff.1 hh)).1)
      exact ⟨P, m, h3⟩
    · rw [(g _ h).1, EdgeMap.add_empty]; exact ⟨_, _, rfl⟩
  have h1 : ∃ P1 om, (s.outgoing (s.eFrom e)).add s.slot1 s.eLabel e = some (P1, om) := by
    by_cases h : s.eFrom e ∈ σ.nodes
    · obtain ⟨xs, h1, h2⟩ := c.out _ h
      obtain ⟨P, m, h3, _⟩ := EdgeMap.add_spec h2 (e := e) (fun hh => he (List.mem_filter.1 (h1.mem_iff.1 hh)).1)
      exact ⟨P, m, h3⟩
    · rw [(g _ h).2, EdgeMap.add_empty]; exact ⟨_, _, rfl⟩
  obtain ⟨P2, im, h2⟩ := h2
  obtain ⟨P1, om, h1⟩ := h1
  refine ⟨{ s with slot2 := P2, incoming := upd s.incoming (s.eTo e) im, slot1 := P1,
                   outgoing := upd s.outgoing (s.eFrom e) om }, ?_⟩
  simp only [State.connect, h2, h1]

end LPG
