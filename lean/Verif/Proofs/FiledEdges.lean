import Verif.Proofs.AllEdges
import Verif.Spec.Filed

namespace LPG
open State

/-- The graph-wide edge map holds the live edges, filed under `g`. -/
def AEx (g : Nat → String) (s : State) (σ : Spec) : Prop :=
  ∃ xs, xs.Perm σ.edges ∧ EMRep s.slot0 g s.allEdges xs

theorem AEx.init {g : Nat → String} : AEx g State.new Spec.new := ⟨[], by simp [Spec.new], EMRep.empty _ _⟩

theorem AEx.congr {g : Nat → String} {s s' : State} {σ : Spec} (h : AEx g s σ) (h0 : s'.slot0 = s.slot0)
    (h1 : s'.allEdges = s.allEdges) : AEx g s' σ := by
  obtain ⟨xs, hp, hr⟩ := h
  exact ⟨xs, hp, by rw [h0, h1]; exact hr⟩

theorem AEx.any {g g' : Nat → String} {s : State} {σ : Spec} (h : AEx g s σ) (hl : σ.edges.length ≤ 1) :
    AEx g' s σ := by
  obtain ⟨xs, hp, hr⟩ := h
  exact ⟨xs, hp, hr.anyLabel (by rw [hp.length_eq]; exact hl)⟩

theorem AEx.dropEdge {g : Nat → String} {s : State} {σ : Spec} {e : Nat} (h : AEx g s σ) (hn : σ.edges.Nodup)
    (he : e ∈ σ.edges) (hg : g e = s.eLabel e) : AEx g (s.dropEdge e) (σ.dropEdge e) := by
  obtain ⟨xs, hp, hr⟩ := h
  have hc : s.allEdges.remove s.slot0 s.eLabel e = s.allEdges.remove s.slot0 g e := EdgeMap.remove_congr hg.symm
  have hx : e ∈ xs := hp.mem_iff.2 he
  obtain ⟨h1, _⟩ := EdgeMap.remove_spec hr hx
  refine ⟨xs.erase e, ?_, ?_⟩
  · refine (hp.erase e).trans (List.Perm.of_eq ?_)
    rw [List.Nodup.erase_eq_filter hn]
    apply List.filter_congr; intro x _; by_cases hx : x = e <;> simp [hx]
  · simp only [State.dropEdge, hc]; exact h1

theorem AEx.detachEdge {g : Nat → String} {s s' : State} {σ : Spec} {e : Nat} (c : Core s σ) (h : AEx g s σ)
    (he : e ∈ σ.edges) (hg : g e = σ.label e) (hs : s.detachEdge e = some s') : AEx g s' (σ.dropEdge e) := by
  unfold State.detachEdge at hs
  simp only at hs
  split at hs
  · cases hs
  · cases hs
    have h1 : AEx g (s.disconnect e) σ := h.congr rfl rfl
    exact (h1.dropEdge c.eNodup he (hg.trans (c.eattr e he).2.2.symm)).congr rfl rfl

theorem AEx.detach {g : Nat → String} {s s' : State} {σ : Spec} {n : Nat} (c : Core s σ) (h : AEx g s σ)
    (hn : n ∈ σ.nodes) (hg : ∀ e ∈ σ.edges, σ.src e = n ∨ σ.dst e = n → g e = σ.label e)
    (hs : s.detachNode n = some s') : AEx g s' (σ.detach n) := by
  refine (detachNode_ind (Q := fun s' σ' => AEx g s' σ' ∧ σ'.label = σ.label) (good := fun e => g e = σ.label e)
    ?_ ?_ c ⟨h, rfl⟩ hn hg hs).1
  · rintro s s' σ' e c ⟨h, hl⟩ he hg hs
    exact ⟨h.detachEdge c he (by rw [hl]; exact hg) hs, hl⟩
  · rintro s σ' im om ⟨h, hl⟩; exact ⟨h, hl⟩

theorem AEx.newEdge_add {g : Nat → String} {s : State} {σ : Spec} (c : Core s σ) (h : AEx g s σ)
    (a b : Nat) (l : String) (ps : Props) :
    ∃ p0 m, (s.allocEdge a b l ps).allEdges.add (s.allocEdge a b l ps).slot0 (s.allocEdge a b l ps).eLabel s.idBase
        = some (p0, m) ∧
      ∃ xs, xs.Perm (σ.edges ++ [σ.next]) ∧ EMRep p0 (σ.filed g (.newEdge a b l ps)) m xs := by
  obtain ⟨xs, hp, hr⟩ := h
  have hnx := c.next
  have hne : ∀ e ∈ σ.edges, e ≠ σ.next := fun e he => Nat.ne_of_lt (c.eLt e he)
  have hx : σ.next ∉ xs := fun hh => hne _ (hp.mem_iff.1 hh) rfl
  have hP : ∀ x ∈ xs, (s.allocEdge a b l ps).slot0 x = s.slot0 x := by
    intro x hx'
    simp [State.allocEdge, hnx, upd_other _ _ (hne x (hp.mem_iff.1 hx'))]
  have hpp : (xs ++ [σ.next]).Perm (σ.edges ++ [σ.next]) := hp.append_right _
  by_cases hl : xs.length ≤ 1
  · have hr' : EMRep (s.allocEdge a b l ps).slot0 (s.allocEdge a b l ps).eLabel s.allEdges xs :=
      (hr.congr (f := g) (g := g) hP (fun _ _ => rfl)).anyLabel hl
    obtain ⟨p0, m, h1, h2, _⟩ := EdgeMap.add_spec hr' (e := σ.next) hx
    refine ⟨p0, m, by rw [hnx]; exact h1, _, hpp, h2.congr (fun _ _ => rfl) ?_⟩
    intro x hx'
    simp only [Spec.filed, if_pos (show σ.edges.length ≤ 1 by rw [← hp.length_eq]; exact hl)]
    simp only [Spec.step, State.allocEdge, hnx]
    by_cases hxn : x = σ.next
    · simp [hxn]
    · rw [upd_other _ _ hxn, upd_other _ _ hxn]
      have : x ∈ σ.edges := by simpa [hxn] using hpp.mem_iff.1 hx'
      exact (c.eattr x this).2.2.symm
  · have hr' : EMRep (s.allocEdge a b l ps).slot0 (upd g σ.next l) s.allEdges xs := by
      refine hr.congr hP ?_
      intro x hx'; exact upd_other _ _ (hne x (hp.mem_iff.1 hx'))
    obtain ⟨p0, m, h1, h2, _⟩ := EdgeMap.add_spec hr' (e := σ.next) hx
    refine ⟨p0, m, ?_, _, hpp, ?_⟩
    · rw [hnx]
      have hn1 : s.allEdges.n ≠ 1 := by rw [hr.n]; omega
      rw [← h1]
      exact EdgeMap.add_congr (by simp [State.allocEdge, hnx]) hn1
    · simp only [Spec.filed, if_neg (show ¬ σ.edges.length ≤ 1 by rw [← hp.length_eq]; exact hl)]
      exact h2

theorem AEx.step {g : Nat → String} {s s' : State} {σ : Spec} {op : Op} (c : Core s σ)
    (h : AEx g s σ) (hv : σ.Valid op) (hs : LPG.step s op = some s') (hd : σ.FiledSafe g op) :
    AEx (σ.filed g op) s' (σ.step op) := by
  -- with at most one edge the labels do not matter
  have hk : ∃ g', AEx g' s σ ∧ (∀ e ∈ σ.edges, e ∉ (σ.step op).edges → g' e = σ.label e) ∧
      (g' = g ∨ (σ.edges.length ≤ 1 ∧ g' = σ.label)) := by
    rcases hd with hd | hd
    · exact ⟨σ.label, h.any hd, fun _ _ _ => rfl, Or.inr ⟨hd, rfl⟩⟩
    · exact ⟨g, h, hd, Or.inl rfl⟩
  obtain ⟨g', h', hd', hgg⟩ := hk
  have back : ∀ {t : State} {τ : Spec}, τ.edges.length ≤ σ.edges.length → AEx g' t τ → AEx g t τ := by
    intro t τ hle ht
    rcases hgg with rfl | ⟨hl, rfl⟩
    · exact ht
    · exact ht.any (by omega)
  cases op with
  | newNode ls ps => obtain ⟨ixs, _, rfl⟩ := newNode_frame hs; exact h
  | newEdge a b l ps =>
    obtain ⟨p0, m, hadd, xs, hp, hr⟩ := h.newEdge_add c a b l ps
    simp only [LPG.step, newEdge_eq, hadd] at hs
    split at hs
    · cases hs
    · rename_i s1 h1
      obtain ⟨p1, p2, im, om, rfl⟩ := connect_frame h1
      simp only at hs
      split at hs
      · cases hs
      · cases hs; exact ⟨xs, hp, hr⟩
  | setLabels n ls => cases hs; exact h
  | setNodeProp n k v => obtain ⟨ixs, rfl⟩ := setNodeProp_frame hs; exact h
  | removeNodeProp n k => obtain ⟨ixs, rfl⟩ := removeNodeProp_frame hs; exact h
  | detach n =>
    refine back (List.length_filter_le _ _) (h'.detach c hv ?_ hs)
    intro e he hc
    refine hd' e he ?_
    intro hh
    simp only [Spec.step, Spec.detach, List.mem_filter] at hh
    have := hh.2
    simp at this
    rcases hc with hc | hc
    · exact this.1 hc
    · exact this.2 hc
  | detachRemove n =>
    simp only [LPG.step, State.detachRemoveNode] at hs
    split at hs
    · cases hs
    · rename_i s1 h1
      have := h'.detach c hv (by
        intro e he hc
        refine hd' e he ?_
        intro hh
        simp only [Spec.step, Spec.detach, List.mem_filter] at hh
        have := hh.2
        simp at this
        rcases hc with hc | hc
        · exact this.1 hc
        · exact this.2 hc) h1
      have := back (List.length_filter_le _ _) this
      split at hs
      · cases hs
      · cases hs; exact this
  | setEdgeLabel e l =>
    simp only [LPG.step, State.setEdgeLabel] at hs
    split at hs
    · cases hs; exact h
    · obtain ⟨p1, p2, im, om, rfl⟩ := connect_frame hs; exact h
  | setEdgeProp n k v => obtain ⟨ixs, rfl⟩ := setEdgeProp_frame hs; exact h
  | removeEdgeProp n k => obtain ⟨ixs, rfl⟩ := removeEdgeProp_frame hs; exact h
  | removeEdge e =>
    cases hs
    have hg : g' e = σ.label e := hd' e hv (by simp [Spec.step, Spec.dropEdge])
    have h1 : AEx g' (s.disconnect e) σ := h'.congr rfl rfl
    exact back (List.length_filter_le _ _) (h1.dropEdge c.eNodup hv (hg.trans (c.eattr e hv).2.2.symm))
  | addNodeIndex k t => obtain ⟨ixs, rfl⟩ := addNodeIndex_frame hs; exact h
  | addEdgeIndex k t => obtain ⟨ixs, rfl⟩ := addEdgeIndex_frame hs; exact h

theorem AEx.runFrom {ops : List Op} : ∀ {s s' : State} {σ : Spec} {g : Nat → String}, Core s σ → AEx g s σ →
    σ.ValidFrom ops → σ.FiledOkFrom g ops → LPG.runFrom s ops = some s' →
    AEx (σ.filedFrom g ops) s' (σ.runFrom ops) := by
  induction ops with
  | nil => intro s s' σ g _ h _ _ hs; simp [LPG.runFrom] at hs; subst hs; exact h
  | cons op ops ih =>
    intro s s' σ g c h hv hd hs
    rw [LPG.runFrom] at hs
    split at hs
    · cases hs
    · rename_i s1 h1
      exact ih (c.step hv.1 h1) (h.step c hv.1 h1 hd.1) hv.2 hd.2 hs

/-- forgetting where the edges are filed -/
theorem AEx.rep {g : Nat → String} {s : State} {σ : Spec} (h : AEx g s σ) : AERep σ.edges s σ := by
  obtain ⟨xs, hp, hr⟩ := h
  exact ⟨g, xs, hp, hr, fun e he hn => absurd he hn⟩

theorem filed_run {ops : List Op} {s : State} (hv : Spec.ValidHistory ops) (hc : FiledOk ops) (hs : run ops = some s) :
    AERep (Spec.run ops).edges s (Spec.run ops) :=
  (AEx.runFrom Core.init AEx.init hv hc hs).rep

theorem AEx.getEdges {g : Nat → String} {s : State} {σ : Spec} (c : Core s σ) (h : AEx g s σ) :
    ∃ es, s.getEdges = some es ∧ es.Perm σ.edges := by
  obtain ⟨xs, hp, hr⟩ := h
  obtain ⟨ys, h1, h2⟩ := hr.enum (fuel := s.idBase) (by rw [hp.length_eq]; exact c.edges_length)
  exact ⟨ys, h1, h2.trans hp⟩

theorem AEx.numEdges {g : Nat → String} {s : State} {σ : Spec} (h : AEx g s σ) :
    s.numEdges = σ.edges.length := by
  obtain ⟨xs, hp, hr⟩ := h
  rw [State.numEdges, hr.n, hp.length_eq]

/-- with two edges or more only the filing counts, with at most one only the label of the edge -/
theorem EdgeMap.enumAny_congr {P : Slot} {f g : Nat → String} {em : EdgeMap} {fuel : Nat} {ls : List String}
    (h : em.n ≠ 1) : em.enumAny P f fuel ls = em.enumAny P g fuel ls := by
  unfold EdgeMap.enumAny
  simp [h, EdgeMap.enumLabel]

theorem AEx.getEdgesWithAnyLabel {g : Nat → String} {s : State} {σ : Spec} (c : Core s σ) (h : AEx g s σ)
    {ls : List String} (hls : ls.Nodup) :
    ∃ es, s.getEdgesWithAnyLabel ls = some es ∧
      es.Perm (σ.edges.filter (fun e => (if σ.edges.length ≤ 1 then σ.label e else g e) ∈ ls)) := by
  by_cases hl : σ.edges.length ≤ 1
  · obtain ⟨xs, hp, hr⟩ := h.any (g' := s.eLabel) hl
    obtain ⟨ys, h1, h2⟩ := hr.enumAny (fuel := s.idBase) hls (by rw [hp.length_eq]; exact c.edges_length)
    refine ⟨ys, h1, h2.trans ((hp.filter _).trans (List.Perm.of_eq ?_))⟩
    apply List.filter_congr
    intro x hx; simp [(c.eattr x hx).2.2, hl]
  · obtain ⟨xs, hp, hr⟩ := h
    obtain ⟨ys, h1, h2⟩ := hr.enumAny (fuel := s.idBase) hls (by rw [hp.length_eq]; exact c.edges_length)
    refine ⟨ys, ?_, h2.trans ((hp.filter _).trans (List.Perm.of_eq ?_))⟩
    · rw [← h1]
      apply EdgeMap.enumAny_congr
      rw [hr.n, hp.length_eq]; omega
    · apply List.filter_congr
      intro x hx; simp [hl]

end LPG
