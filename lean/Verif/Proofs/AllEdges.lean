import Verif.Proofs.Detach
import Verif.Spec.Conditions

namespace LPG
open State

theorem EMRep.anyLabel {P : Slot} {f g : Nat → String} {em : EdgeMap} {xs : List Nat} (h : EMRep P f em xs)
    (hl : xs.length ≤ 1) : EMRep P g em xs :=
  ⟨h.nodup, h.n, h.only, h.keys, h.small, fun h2 => by omega, fun h2 => by omega⟩

theorem EdgeMap.add_congr {P : Slot} {f g : Nat → String} {em : EdgeMap} {e : Nat} (h : f e = g e)
    (hn : em.n ≠ 1) : em.add P f e = em.add P g e := by
  unfold EdgeMap.add
  rw [h]
  simp [hn]

theorem EdgeMap.remove_congr {P : Slot} {f g : Nat → String} {em : EdgeMap} {e : Nat} (h : f e = g e) :
    em.remove P f e = em.remove P g e := by
  unfold EdgeMap.remove
  rw [h]

/-- The graph-wide edge map holds the live edges. `R`: the edges that may be filed under an old label. -/
def AERep (R : List Nat) (s : State) (σ : Spec) : Prop :=
  ∃ g xs, xs.Perm σ.edges ∧ EMRep s.slot0 g s.allEdges xs ∧ ∀ e ∈ σ.edges, e ∉ R → g e = s.eLabel e

theorem AERep.init : AERep [] State.new Spec.new :=
  ⟨fun _ => "", [], by simp [Spec.new], EMRep.empty _ _, by simp [Spec.new]⟩

theorem AERep.dropEdge {R : List Nat} {s : State} {σ : Spec} {e : Nat} (h : AERep R s σ) (hn : σ.edges.Nodup)
    (he : e ∈ σ.edges) (hR : e ∉ R) : AERep R (s.dropEdge e) (σ.dropEdge e) := by
  obtain ⟨g, xs, hp, hr, hg⟩ := h
  have hc : s.allEdges.remove s.slot0 s.eLabel e = s.allEdges.remove s.slot0 g e :=
    EdgeMap.remove_congr (hg e he hR).symm
  have hx : e ∈ xs := hp.mem_iff.2 he
  obtain ⟨h1, _⟩ := EdgeMap.remove_spec hr hx
  refine ⟨g, xs.erase e, ?_, ?_, ?_⟩
  · refine (hp.erase e).trans (List.Perm.of_eq ?_)
    rw [List.Nodup.erase_eq_filter hn]
    apply List.filter_congr; intro x _; by_cases hx : x = e <;> simp [hx]
  · simp only [State.dropEdge, hc]; exact h1
  · intro x hx hxR
    exact hg x (List.mem_filter.1 hx).1 hxR

theorem AERep.congr {R : List Nat} {s s' : State} {σ : Spec} (h : AERep R s σ) (h0 : s'.slot0 = s.slot0)
    (h1 : s'.allEdges = s.allEdges) (h2 : s'.eLabel = s.eLabel) : AERep R s' σ := by
  obtain ⟨g, xs, hp, hr, hg⟩ := h
  exact ⟨g, xs, hp, by rw [h0, h1]; exact hr, by rw [h2]; exact hg⟩

theorem AERep.detachEdge {R : List Nat} {s s' : State} {σ : Spec} {e : Nat} (c : Core s σ) (h : AERep R s σ)
    (he : e ∈ σ.edges) (hR : e ∉ R) (hs : s.detachEdge e = some s') : AERep R s' (σ.dropEdge e) := by
  unfold State.detachEdge at hs
  simp only at hs
  split at hs
  · cases hs
  · cases hs
    have h1 : AERep R (s.disconnect e) σ := h.congr rfl rfl rfl
    exact (h1.dropEdge c.eNodup he hR).congr rfl rfl rfl

/-- adding a fresh edge to the graph-wide map succeeds -/
theorem AERep.newEdge_add {R : List Nat} {s : State} {σ : Spec} (c : Core s σ) (h : AERep R s σ)
    (a b : Nat) (l : String) (ps : Props) (hR : ∀ e ∈ R, e < σ.next) :
    ∃ p0 m, (s.allocEdge a b l ps).allEdges.add (s.allocEdge a b l ps).slot0 (s.allocEdge a b l ps).eLabel s.idBase
        = some (p0, m) ∧
      ∃ g xs, xs.Perm (σ.edges ++ [σ.next]) ∧ EMRep p0 g m xs ∧
        ∀ e ∈ σ.edges ++ [σ.next], e ∉ R → g e = (s.allocEdge a b l ps).eLabel e := by
  obtain ⟨g, xs, hp, hr, hg⟩ := h
  have hnx := c.next
  have hne : ∀ e ∈ σ.edges, e ≠ σ.next := fun e he => Nat.ne_of_lt (c.eLt e he)
  have hx : σ.next ∉ xs := fun hh => hne _ (hp.mem_iff.1 hh) rfl
  have hP : ∀ x ∈ xs, (s.allocEdge a b l ps).slot0 x = s.slot0 x := by
    intro x hx'
    simp [State.allocEdge, hnx, upd_other _ _ (hne x (hp.mem_iff.1 hx'))]
  have hpp : (xs ++ [σ.next]).Perm (σ.edges ++ [σ.next]) := hp.append_right _
  by_cases hl : xs.length ≤ 1
  · have hr' : EMRep (s.allocEdge a b l ps).slot0 (s.allocEdge a b l ps).eLabel s.allEdges xs :=
      (hr.congr (f := g) (g := g) hP (fun _ _ => rfl)).anyLabel hl
    obtain ⟨p0, m, h1, h2, _⟩ := EdgeMap.add_spec hr' (e := σ.next) hx
    refine ⟨p0, m, ?_, _, _, hpp, h2, fun _ _ _ => rfl⟩
    rw [hnx]; exact h1
  · have hr' : EMRep (s.allocEdge a b l ps).slot0 (upd g σ.next l) s.allEdges xs := by
      refine hr.congr hP ?_
      intro x hx'; exact upd_other _ _ (hne x (hp.mem_iff.1 hx'))
    obtain ⟨p0, m, h1, h2, _⟩ := EdgeMap.add_spec hr' (e := σ.next) hx
    refine ⟨p0, m, ?_, _, _, hpp, h2, ?_⟩
    · rw [hnx]
      have hn1 : s.allEdges.n ≠ 1 := by rw [hr.n]; omega
      rw [← h1]
      exact EdgeMap.add_congr (by simp [State.allocEdge, hnx]) hn1
    · intro e he heR
      by_cases hen : e = σ.next
      · subst hen; simp [State.allocEdge, hnx]
      · have he' : e ∈ σ.edges := by simpa [hen] using he
        simp [State.allocEdge, hnx, upd_other _ _ hen, hg e he' heR]

theorem AERep.step {R : List Nat} {s s' : State} {σ : Spec} {op : Op} (c : Core s σ)
    (h : AERep R s σ) (hv : σ.Valid op) (hs : LPG.step s op = some s') (hR : ∀ e ∈ R, e < σ.next)
    (hd : ∀ e ∈ R, e ∈ σ.edges → e ∈ (σ.step op).edges) : AERep (σ.Relabeled R op) s' (σ.step op) := by
  cases op with
  | newNode ls ps =>
    obtain ⟨ixs, _, rfl⟩ := newNode_frame hs
    exact h
  | newEdge a b l ps =>
    obtain ⟨p0, m, hadd, g, xs, hp, hr, hg⟩ := h.newEdge_add c a b l ps hR
    simp only [LPG.step, newEdge_eq, hadd] at hs
    split at hs
    · cases hs
    · rename_i s1 h1
      obtain ⟨p1, p2, im, om, rfl⟩ := connect_frame h1
      simp only at hs
      split at hs
      · cases hs
      · cases hs; exact ⟨g, xs, hp, hr, hg⟩
  | setLabels n ls => cases hs; exact h
  | setNodeProp n k v => obtain ⟨ixs, rfl⟩ := setNodeProp_frame hs; exact h
  | removeNodeProp n k => obtain ⟨ixs, rfl⟩ := removeNodeProp_frame hs; exact h
  | detach n =>
    refine detachNode_ind (Q := AERep R) (good := fun e => e ∉ R) ?_ ?_ c h hv ?_ hs
    · intro s s' σ e c h he hg hs; exact h.detachEdge c he hg hs
    · intro s σ im om h; exact h
    · intro e he hc hR
      have := hd e hR he
      simp only [Spec.step, Spec.detach, List.mem_filter] at this
      have := this.2
      simp at this; rcases hc with hc | hc
      · exact this.1 hc
      · exact this.2 hc
  | detachRemove n =>
    simp only [LPG.step, State.detachRemoveNode] at hs
    split at hs
    · cases hs
    · rename_i s1 h1
      have := detachNode_ind (Q := AERep R) (good := fun e => e ∉ R)
        (fun s s' σ e c h he hg hs => h.detachEdge c he hg hs) (fun s σ im om h => h) c h hv (by
          intro e he hc hR
          have := hd e hR he
          simp only [Spec.step, Spec.detach, List.mem_filter] at this
          have := this.2
          simp at this; rcases hc with hc | hc
          · exact this.1 hc
          · exact this.2 hc) h1
      split at hs
      · cases hs
      · cases hs; exact this
  | setEdgeLabel e l =>
    obtain ⟨g, xs, hp, hr, hg⟩ := h
    have hl : s.eLabel e = σ.label e := (c.eattr e hv).2.2
    simp only [LPG.step, State.setEdgeLabel] at hs
    split at hs
    · rename_i h1
      cases hs
      simp only [Spec.Relabeled, ← hl, if_pos h1]
      exact ⟨g, xs, hp, hr, hg⟩
    · rename_i h1
      obtain ⟨p1, p2, im, om, rfl⟩ := connect_frame hs
      simp only [Spec.Relabeled, ← hl, if_neg h1]
      refine ⟨g, xs, hp, hr, ?_⟩
      intro x hx hxR
      simp only [List.mem_cons, not_or] at hxR
      rw [hg x hx hxR.2]
      exact (upd_other _ _ hxR.1).symm
  | setEdgeProp n k v => obtain ⟨ixs, rfl⟩ := setEdgeProp_frame hs; exact h
  | removeEdgeProp n k => obtain ⟨ixs, rfl⟩ := removeEdgeProp_frame hs; exact h
  | removeEdge e =>
    cases hs
    have hR' : e ∉ R := by
      intro hR
      have := hd e hR hv
      simp [Spec.step, Spec.dropEdge] at this
    have h1 : AERep R (s.disconnect e) σ := h.congr rfl rfl rfl
    exact h1.dropEdge c.eNodup hv hR'
  | addNodeIndex k t => obtain ⟨ixs, rfl⟩ := addNodeIndex_frame hs; exact h
  | addEdgeIndex k t => obtain ⟨ixs, rfl⟩ := addEdgeIndex_frame hs; exact h

theorem Spec.relabeled_lt {σ : Spec} {R : List Nat} {op : Op} {s : State} (c : Core s σ) (hv : σ.Valid op)
    (hR : ∀ e ∈ R, e < σ.next) : ∀ e ∈ σ.Relabeled R op, e < (σ.step op).next := by
  have hmono : σ.next ≤ (σ.step op).next := by
    cases op <;> simp [Spec.step, Spec.detach, Spec.dropEdge]
  intro e he
  refine Nat.lt_of_lt_of_le ?_ hmono
  cases op with
  | setEdgeLabel e' l =>
    simp only [Spec.Relabeled] at he
    split at he
    · exact hR e he
    · rcases List.mem_cons.1 he with rfl | he
      · exact c.eLt _ hv
      · exact hR e he
  | _ => exact hR e he

theorem AERep.runFrom {ops : List Op} : ∀ {s s' : State} {σ : Spec} {R : List Nat}, Core s σ → AERep R s σ →
    (∀ e ∈ R, e < σ.next) → σ.ValidFrom ops → σ.KeepRelabeled R ops →
    LPG.runFrom s ops = some s' → ∃ R', AERep R' s' (σ.runFrom ops) := by
  induction ops with
  | nil => intro s s' σ R _ h _ _ _ hs; simp [LPG.runFrom] at hs; subst hs; exact ⟨R, h⟩
  | cons op ops ih =>
    intro s s' σ R c h hR hv hd hs
    rw [LPG.runFrom] at hs
    split at hs
    · cases hs
    · rename_i s1 h1
      exact ih (c.step hv.1 h1) (h.step c hv.1 h1 hR hd.1) (Spec.relabeled_lt c hv.1 hR) hv.2 hd.2 hs

theorem AERep.runFrom_norelabel {ops : List Op} : ∀ {s s' : State} {σ : Spec}, Core s σ → AERep [] s σ →
    σ.ValidFrom ops → σ.AlwaysFrom (fun σ op => σ.Relabeled [] op = []) ops →
    LPG.runFrom s ops = some s' → AERep [] s' (σ.runFrom ops) := by
  induction ops with
  | nil => intro s s' σ _ h _ _ hs; simp [LPG.runFrom] at hs; subst hs; exact h
  | cons op ops ih =>
    intro s s' σ c h hv hd hs
    rw [LPG.runFrom] at hs
    split at hs
    · cases hs
    · rename_i s1 h1
      have := h.step c hv.1 h1 (by simp) (by simp)
      rw [hd.1] at this
      exact ih (c.step hv.1 h1) this hv.2 hd.2 hs

theorem Core.edges_length {s : State} {σ : Spec} (c : Core s σ) : σ.edges.length ≤ s.idBase := by
  have := c.fuel (p := fun _ => true) (xs := σ.edges) (List.Perm.of_eq (List.filter_eq_self.2 (fun _ _ => rfl)).symm)
  exact this

theorem AERep.getEdges {R : List Nat} {s : State} {σ : Spec} (c : Core s σ) (h : AERep R s σ) :
    ∃ es, s.getEdges = some es ∧ es.Perm σ.edges := by
  obtain ⟨g, xs, hp, hr, _⟩ := h
  obtain ⟨ys, h1, h2⟩ := hr.enum (fuel := s.idBase) (by rw [hp.length_eq]; exact c.edges_length)
  exact ⟨ys, h1, h2.trans hp⟩

theorem AERep.numEdges {R : List Nat} {s : State} {σ : Spec} (h : AERep R s σ) :
    s.numEdges = σ.edges.length := by
  obtain ⟨g, xs, hp, hr, _⟩ := h
  rw [State.numEdges, hr.n, hp.length_eq]

theorem AERep.getEdgesWithAnyLabel {s : State} {σ : Spec} (c : Core s σ) (h : AERep [] s σ) {ls : List String}
    (hls : ls.Nodup) :
    ∃ es, s.getEdgesWithAnyLabel ls = some es ∧ es.Perm (σ.edges.filter (fun e => σ.label e ∈ ls)) := by
  obtain ⟨g, xs, hp, hr, hg⟩ := h
  have hr' : EMRep s.slot0 s.eLabel s.allEdges xs :=
    hr.congr (fun _ _ => rfl) (fun x hx => (hg x (hp.mem_iff.1 hx) (by simp)).symm)
  obtain ⟨ys, h1, h2⟩ := hr'.enumAny (fuel := s.idBase) hls (by rw [hp.length_eq]; exact c.edges_length)
  refine ⟨ys, h1, h2.trans ((hp.filter _).trans (List.Perm.of_eq ?_))⟩
  apply List.filter_congr
  intro x hx; simp [(c.eattr x hx).2.2]

end LPG
