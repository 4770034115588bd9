import Verif.Spec.Stale
import Verif.Proofs.Gone
import Verif.Proofs.LabelIndex
import Verif.Proofs.Find

/-! A history with harmless calls on removed objects runs in step with the history without them. -/
namespace LPG
open State

/-- `s` differs from `s0` only in the properties and labels of dead objects, and in which nodes are filed as having no
labels. The properties with the keys `kn` and `ke` do not differ at all. -/
structure Over (kn ke : List String) (σ : Spec) (s s0 : State) : Prop where
  rest : s = { s0 with nProps := s.nProps, eProps := s.eProps, nLabels := s.nLabels, byLabel := s.byLabel }
  m : s.byLabel.m = s0.byLabel.m
  nl : ∀ n, s.nLabels n = s0.nLabels n ∨ (n ∉ σ.nodes ∧ s.nLabels n = [])
  np : ∀ n ∈ σ.nodes, s.nProps n = s0.nProps n
  npk : ∀ n, ∀ k ∈ kn, (s.nProps n).get k = (s0.nProps n).get k
  ep : ∀ e ∈ σ.edges, s.eProps e = s0.eProps e
  epk : ∀ e, ∀ k ∈ ke, (s.eProps e).get k = (s0.eProps e).get k

theorem Over.same {kn ke : List String} {σ : Spec} {s : State} : Over kn ke σ s s :=
  ⟨Eq.refl _, Eq.refl _, fun _ => Or.inl (Eq.refl _), fun _ _ => Eq.refl _, fun _ _ _ => Eq.refl _,
    fun _ _ => Eq.refl _, fun _ _ _ => Eq.refl _⟩

/-- both calls fail, or both return related states -/
def OptRel {α β : Type} (R : α → β → Prop) : Option α → Option β → Prop
  | none, none => True
  | some a, some b => R a b
  | _, _ => False

/-! ## The label index does not look at the nodes without labels -/

theorem addTo_m {a b : NodeMap} (h : a.m = b.m) (n : Nat) (l : String) : (a.addTo n l).m = (b.addTo n l).m := by
  unfold NodeMap.addTo
  rw [h]
  split <;> rfl

theorem removeFrom_m {a b : NodeMap} (h : a.m = b.m) (n : Nat) (l : String) :
    (a.removeFrom n l).m = (b.removeFrom n l).m := by
  unfold NodeMap.removeFrom
  rw [h]
  split
  · exact h
  · dsimp only
    split <;> rfl

theorem foldl_addTo_m (n : Nat) : ∀ (ls : List String) {a b : NodeMap}, a.m = b.m →
    (ls.foldl (fun nm l => nm.addTo n l) a).m = (ls.foldl (fun nm l => nm.addTo n l) b).m
  | [], _, _, h => h
  | l :: ls, _, _, h => foldl_addTo_m n ls (addTo_m h n l)

theorem foldl_removeFrom_m (n : Nat) : ∀ (ls : List String) {a b : NodeMap}, a.m = b.m →
    (ls.foldl (fun nm l => nm.removeFrom n l) a).m = (ls.foldl (fun nm l => nm.removeFrom n l) b).m
  | [], _, _, h => h
  | l :: ls, _, _, h => foldl_removeFrom_m n ls (removeFrom_m h n l)

theorem replace_m {a b : NodeMap} (h : a.m = b.m) (n : Nat) (old new : List String) :
    (a.replace n old new).m = (b.replace n old new).m := by
  unfold NodeMap.replace
  split
  · exact h
  · dsimp only
    split <;> split <;> first | exact h | exact foldl_addTo_m n _ (foldl_removeFrom_m n _ h)

theorem add_m {a b : NodeMap} (h : a.m = b.m) (n : Nat) (ls : List String) : (a.add n ls).m = (b.add n ls).m := by
  unfold NodeMap.add
  split
  · exact h
  · exact foldl_addTo_m n _ h

theorem remove_m {a b : NodeMap} (h : a.m = b.m) (n : Nat) (ls : List String) : (a.remove n ls).m = (b.remove n ls).m := by
  unfold NodeMap.remove
  split
  · exact h
  · exact foldl_removeFrom_m n _ h

theorem minSet_m {a b : NodeMap} (h : a.m = b.m) : ∀ (ls : List String) (best : Option (FSet Nat)),
    a.minSet ls best = b.minSet ls best
  | [], _ => rfl
  | l :: ls, best => by
    simp only [NodeMap.minSet, h]
    split
    · rfl
    · split <;> exact minSet_m h ls _

/-! ## Detaching edges does not look at nodes, and of the edges only at those that are detached -/

theorem detachEdge_over (s0 : State) (np : Nat → Props) (ep : Nat → Props) (nl : Nat → List String) (nm : NodeMap)
    (e : Nat) (he : ep e = s0.eProps e) :
    State.detachEdge { s0 with nProps := np, eProps := ep, nLabels := nl, byLabel := nm } e =
      (s0.detachEdge e).map (fun s => { s with nProps := np, eProps := ep, nLabels := nl, byLabel := nm }) := by
  unfold State.detachEdge
  dsimp only [State.disconnect, State.dropEdge]
  rw [he]
  split <;> rename_i h <;> simp [h]

theorem detachEdges_over (np : Nat → Props) (ep : Nat → Props) (nl : Nat → List String) (nm : NodeMap) :
    ∀ (es : List Nat) (s0 : State), (∀ e ∈ es, ep e = s0.eProps e) →
    State.detachEdges { s0 with nProps := np, eProps := ep, nLabels := nl, byLabel := nm } es =
      (s0.detachEdges es).map (fun s => { s with nProps := np, eProps := ep, nLabels := nl, byLabel := nm })
  | [], _, _ => rfl
  | e :: es, s0, h => by
    rw [State.detachEdges, State.detachEdges, detachEdge_over s0 np ep nl nm e (h e (by simp))]
    cases h1 : s0.detachEdge e with
    | none => rfl
    | some s1 =>
      simp only [Option.map_some]
      refine detachEdges_over np ep nl nm es s1 ?_
      obtain ⟨_, _, _, _, _, _, _, rfl⟩ := detachEdge_frame h1
      exact fun x hx => h x (by simp [hx])

theorem detachNode_over {s0 : State} {σ : Spec} (c : Core s0 σ) (np : Nat → Props) (ep : Nat → Props)
    (nl : Nat → List String) (nm : NodeMap) {n : Nat} (hn : n ∈ σ.nodes) (he : ∀ e ∈ σ.edges, ep e = s0.eProps e) :
    State.detachNode { s0 with nProps := np, eProps := ep, nLabels := nl, byLabel := nm } n =
      (s0.detachNode n).map (fun s => { s with nProps := np, eProps := ep, nLabels := nl, byLabel := nm }) := by
  obtain ⟨xi, hxi, hri⟩ := c.inc n hn
  obtain ⟨ys, hy1, hy2⟩ := hri.enum (c.fuel hxi)
  have hmem : ∀ e ∈ ys, e ∈ σ.edges ∧ σ.dst e = n := by
    intro e h; rw [hy2.mem_iff, hxi.mem_iff] at h; simpa using h
  have hyn : ys.Nodup := hy2.nodup_iff.2 hri.nodup
  unfold State.detachNode
  dsimp only
  rw [hy1]
  simp only
  rw [detachEdges_over np ep nl nm ys s0 (fun e h => he e (hmem e h).1)]
  cases h1 : s0.detachEdges ys with
  | none => rfl
  | some s1 =>
    have c1 := c.detachEdges hyn (fun e h => (hmem e h).1) h1
    have hep : s1.eProps = s0.eProps := by
      obtain ⟨_, _, _, _, _, _, _, rfl⟩ := detachEdges_frame h1
      rfl
    obtain ⟨xo, hxo, hro⟩ := c1.out n hn
    obtain ⟨zs, hz1, hz2⟩ := hro.enum (c1.fuel hxo)
    simp only [Option.map_some, hz1]
    have := detachEdges_over np ep nl nm zs { s1 with incoming := upd s1.incoming n EdgeMap.empty } (by
      intro e h
      rw [hz2.mem_iff, hxo.mem_iff] at h
      simp only [List.mem_filter] at h
      rw [hep]
      exact he e h.1.1)
    dsimp only at this
    rw [this]
    cases State.detachEdges { s1 with incoming := upd s1.incoming n EdgeMap.empty } zs <;> rfl

theorem addObjects_over {key : String} {p q : Nat → Props} (h : ∀ x, (p x).get key = (q x).get key) :
    ∀ (xs : List Nat) (ix : Index), Index.addObjects key p xs ix = Index.addObjects key q xs ix
  | [], _ => rfl
  | x :: xs, ix => by
    simp only [Index.addObjects, h x]
    split
    · exact addObjects_over h xs ix
    · split
      · rfl
      · exact addObjects_over h xs _

/-- A valid call does the same in both states. -/
theorem Over.step {kn ke : List String} {σ : Spec} {s s0 : State} {op : Op} (o : Over kn ke σ s s0) (c : Core s0 σ)
    (hv : σ.Valid op) (hkn : ∀ k ∈ op.nodeIndexKey, k ∈ kn) (hke : ∀ k ∈ op.edgeIndexKey, k ∈ ke) :
    OptRel (Over kn ke (σ.step op)) (LPG.step s op) (LPG.step s0 op) := by
  obtain ⟨hr, hm, hnl, hnp, hnpk, hep, hepk⟩ := o
  generalize s.nProps = np at *
  generalize s.eProps = ep at *
  generalize s.nLabels = nl at *
  generalize s.byLabel = nm at *
  subst hr
  have hnx := c.next
  cases op with
  | newNode ls ps =>
    simp only [LPG.step, State.newNode]
    cases Indexes.addAll s0.idBase ps s0.nodeIx with
    | none => trivial
    | some ixs =>
      refine ⟨rfl, add_m hm _ _, ?_, ?_, ?_, hep, hepk⟩
      · intro n
        dsimp only [Spec.step]
        by_cases h : n = s0.idBase
        · exact Or.inl (by rw [h, upd_same, upd_same])
        · rw [upd_other _ _ h, upd_other _ _ h]
          refine (hnl n).imp id (fun hh => ⟨?_, hh.2⟩)
          rw [← hnx]
          simp [hh.1, h]
      · intro n hn
        dsimp only [Spec.step] at hn ⊢
        by_cases h : n = s0.idBase
        · rw [h, upd_same, upd_same]
        · rw [upd_other _ _ h, upd_other _ _ h]
          rw [← hnx] at hn
          simp [h] at hn
          exact hnp n hn
      · intro n k hk
        dsimp only
        by_cases h : n = s0.idBase
        · rw [h, upd_same, upd_same]
        · rw [upd_other _ _ h, upd_other _ _ h]
          exact hnpk n k hk
  | newEdge a b l ps =>
    simp only [LPG.step, State.newEdge]
    split
    · trivial
    · rename_i p0 m _
      simp only [State.connect]
      split
      · rename_i h1
        split at h1
        · simp_all [OptRel]
        · split at h1
          · simp_all [OptRel]
          · cases h1
      · rename_i h1
        split at h1
        · cases h1
        · split at h1
          · cases h1
          · rename_i h2 _ _ _ h3
            cases h1
            simp only [h2, h3]
            split
            · trivial
            · refine ⟨rfl, hm, hnl, hnp, hnpk, ?_, ?_⟩
              · intro n hn
                dsimp only [Spec.step] at hn ⊢
                by_cases h : n = s0.idBase
                · rw [h, upd_same, upd_same]
                · rw [upd_other _ _ h, upd_other _ _ h]
                  rw [← hnx] at hn
                  simp [h] at hn
                  exact hep n hn
              · intro n k hk
                dsimp only
                by_cases h : n = s0.idBase
                · rw [h, upd_same, upd_same]
                · rw [upd_other _ _ h, upd_other _ _ h]
                  exact hepk n k hk
  | setLabels n ls =>
    have hl : nl n = s0.nLabels n := (hnl n).resolve_right (fun h => h.1 hv.1)
    refine ⟨rfl, ?_, ?_, hnp, hnpk, hep, hepk⟩
    · dsimp only [State.setLabels]
      rw [hl]
      exact replace_m hm _ _ _
    · intro x
      dsimp only [State.setLabels]
      by_cases h : x = n
      · exact Or.inl (by rw [h, upd_same, upd_same])
      · rw [upd_other _ _ h, upd_other _ _ h]
        exact hnl x
  | setNodeProp n k v =>
    have hp : np n = s0.nProps n := hnp n hv
    simp only [LPG.step, State.setNodeProp, hp]
    split
    · trivial
    · split
      · trivial
      · refine ⟨rfl, hm, hnl, ?_, ?_, hep, hepk⟩
        · intro x hx
          dsimp only
          by_cases h : x = n
          · rw [h, upd_same, upd_same]
          · rw [upd_other _ _ h, upd_other _ _ h]
            exact hnp x hx
        · intro x k' hk
          dsimp only
          by_cases h : x = n
          · rw [h, upd_same, upd_same]
          · rw [upd_other _ _ h, upd_other _ _ h]
            exact hnpk x k' hk
  | removeNodeProp n k =>
    have hp : np n = s0.nProps n := hnp n hv
    simp only [LPG.step, State.removeNodeProp, hp]
    split
    · exact ⟨rfl, hm, hnl, hnp, hnpk, hep, hepk⟩
    · split
      · trivial
      · refine ⟨rfl, hm, hnl, ?_, ?_, hep, hepk⟩
        · intro x hx
          dsimp only
          by_cases h : x = n
          · rw [h, upd_same, upd_same]
          · rw [upd_other _ _ h, upd_other _ _ h]
            exact hnp x hx
        · intro x k' hk
          dsimp only
          by_cases h : x = n
          · rw [h, upd_same, upd_same]
          · rw [upd_other _ _ h, upd_other _ _ h]
            exact hnpk x k' hk
  | detach n =>
    simp only [LPG.step]
    rw [detachNode_over c np ep nl nm hv hep]
    cases h1 : s0.detachNode n with
    | none => trivial
    | some s1 =>
      obtain ⟨_, _, _, _, _, _, _, rfl⟩ := detachNode_frame h1
      exact ⟨rfl, hm, hnl, hnp, hnpk, fun e he => hep e (List.mem_filter.1 he).1, hepk⟩
  | detachRemove n =>
    have hl : nl n = s0.nLabels n := (hnl n).resolve_right (fun h => h.1 hv)
    have hp : np n = s0.nProps n := hnp n hv
    simp only [LPG.step, State.detachRemoveNode]
    rw [detachNode_over c np ep nl nm hv hep]
    cases h1 : s0.detachNode n with
    | none => trivial
    | some s1 =>
      obtain ⟨_, _, _, _, _, _, _, rfl⟩ := detachNode_frame h1
      simp only [Option.map_some, State.withEdges, hp, hl]
      split
      · trivial
      · refine ⟨rfl, remove_m hm _ _, ?_, ?_, hnpk, fun e he => hep e (List.mem_filter.1 he).1, hepk⟩
        · intro x
          exact (hnl x).imp id (fun h => ⟨fun hx => h.1 (List.mem_filter.1 hx).1, h.2⟩)
        · exact fun x hx => hnp x (List.mem_filter.1 hx).1
  | setEdgeLabel e l =>
    simp only [LPG.step, State.setEdgeLabel]
    split
    · exact ⟨rfl, hm, hnl, hnp, hnpk, hep, hepk⟩
    · simp only [State.disconnect, State.connect]
      split
      · trivial
      · split
        · trivial
        · exact ⟨rfl, hm, hnl, hnp, hnpk, hep, hepk⟩
  | setEdgeProp e k v =>
    have hp : ep e = s0.eProps e := hep e hv
    simp only [LPG.step, State.setEdgeProp, hp]
    split
    · trivial
    · split
      · trivial
      · refine ⟨rfl, hm, hnl, hnp, hnpk, ?_, ?_⟩
        · intro x hx
          dsimp only
          by_cases h : x = e
          · rw [h, upd_same, upd_same]
          · rw [upd_other _ _ h, upd_other _ _ h]
            exact hep x hx
        · intro x k' hk
          dsimp only
          by_cases h : x = e
          · rw [h, upd_same, upd_same]
          · rw [upd_other _ _ h, upd_other _ _ h]
            exact hepk x k' hk
  | removeEdgeProp e k =>
    have hp : ep e = s0.eProps e := hep e hv
    simp only [LPG.step, State.removeEdgeProp, hp]
    split
    · exact ⟨rfl, hm, hnl, hnp, hnpk, hep, hepk⟩
    · split
      · trivial
      · refine ⟨rfl, hm, hnl, hnp, hnpk, ?_, ?_⟩
        · intro x hx
          dsimp only
          by_cases h : x = e
          · rw [h, upd_same, upd_same]
          · rw [upd_other _ _ h, upd_other _ _ h]
            exact hep x hx
        · intro x k' hk
          dsimp only
          by_cases h : x = e
          · rw [h, upd_same, upd_same]
          · rw [upd_other _ _ h, upd_other _ _ h]
            exact hepk x k' hk
  | removeEdge e =>
    exact ⟨rfl, hm, hnl, hnp, hnpk, fun x hx => hep x (List.mem_filter.1 hx).1, hepk⟩
  | addNodeIndex k t =>
    simp only [LPG.step, State.addNodeIndex, State.getNodes]
    split
    · exact ⟨rfl, hm, hnl, hnp, hnpk, hep, hepk⟩
    · split
      · trivial
      · rw [addObjects_over (fun x => hnpk x k (hkn k (by simp [Op.nodeIndexKey])))]
        split
        · trivial
        · exact ⟨rfl, hm, hnl, hnp, hnpk, hep, hepk⟩
  | addEdgeIndex k t =>
    simp only [LPG.step, State.addEdgeIndex, State.getEdges]
    split
    · exact ⟨rfl, hm, hnl, hnp, hnpk, hep, hepk⟩
    · split
      · trivial
      · rw [addObjects_over (fun x => hepk x k (hke k (by simp [Op.edgeIndexKey])))]
        split
        · trivial
        · exact ⟨rfl, hm, hnl, hnp, hnpk, hep, hepk⟩

/-- A harmless call returns and changes only what `Over` leaves open. -/
theorem Over.harmless {kn ke : List String} {σ : Spec} {s s0 : State} {op : Op} (o : Over kn ke σ s s0) (g : Gone s0 σ)
    (h : σ.Harmless kn ke op) (hn : ∀ k, AMap.get s0.nodeIx k ≠ none → k ∈ kn)
    (he : ∀ k, AMap.get s0.edgeIx k ≠ none → k ∈ ke) :
    ∃ s', LPG.step s op = some s' ∧ Over kn ke σ s' s0 := by
  obtain ⟨hr, hm, hnl, hnp, hnpk, hep, hepk⟩ := o
  generalize s.nProps = np at *
  generalize s.eProps = ep at *
  generalize s.nLabels = nl at *
  generalize s.byLabel = nm at *
  subst hr
  cases op with
  | detach n =>
    obtain ⟨h1, h2⟩ := g n h
    refine ⟨{ s0 with nProps := np, eProps := ep, nLabels := nl, byLabel := nm }, ?_, ⟨rfl, hm, hnl, hnp, hnpk, hep, hepk⟩⟩
    simp only [LPG.step, State.detachNode, h1]
    have hem : ∀ p f, EdgeMap.empty.enum p f = some [] := by intro p f; cases f <;> rfl
    have hi : upd s0.incoming n EdgeMap.empty = s0.incoming := by
      funext x; by_cases hx : x = n
      · rw [hx, upd_same, h1]
      · rw [upd_other _ _ hx]
    have ho : upd s0.outgoing n EdgeMap.empty = s0.outgoing := by
      funext x; by_cases hx : x = n
      · rw [hx, upd_same, h2]
      · rw [upd_other _ _ hx]
    simp only [hem, State.detachEdges, h2, hi, ho]
  | setLabels n ls =>
    obtain ⟨h1, rfl⟩ := h
    refine ⟨_, rfl, ⟨rfl, ?_, ?_, hnp, hnpk, hep, hepk⟩⟩
    · rw [← hm]
      simp only [State.setLabels, NodeMap.replace, List.length_nil, and_true, if_true]
      split
      · rfl
      · rfl
    · intro x
      dsimp only [State.setLabels]
      by_cases hx : x = n
      · exact Or.inr ⟨hx ▸ h1, by rw [hx, upd_same]⟩
      · rw [upd_other _ _ hx]; exact hnl x
  | setNodeProp n k v =>
    have hk : AMap.get s0.nodeIx k = none := Classical.byContradiction fun hno => h.2 (hn k hno)
    refine ⟨{ s0 with nProps := upd np n ((np n).set k v), eProps := ep, nLabels := nl, byLabel := nm }, ?_,
      ⟨rfl, hm, hnl, ?_, ?_, hep, hepk⟩⟩
    · simp only [LPG.step, State.setNodeProp, Indexes.remove, Indexes.add, hk]
      cases AMap.get (np n) k <;> simp [hk]
    · intro x hx
      dsimp only
      rw [upd_other _ _ (fun hh : x = n => h.1 (hh ▸ hx))]; exact hnp x hx
    · intro x k' hk'
      dsimp only
      by_cases hx : x = n
      · rw [hx, upd_same, AMap.get_set, if_neg (fun hh : k' = k => h.2 (hh ▸ hk'))]; exact hnpk n k' hk'
      · rw [upd_other _ _ hx]; exact hnpk x k' hk'
  | removeNodeProp n k =>
    have hk : AMap.get s0.nodeIx k = none := Classical.byContradiction fun hno => h.2 (hn k hno)
    simp only [LPG.step, State.removeNodeProp, Indexes.remove, hk]
    split
    · exact ⟨_, rfl, ⟨rfl, hm, hnl, hnp, hnpk, hep, hepk⟩⟩
    · refine ⟨_, rfl, ⟨rfl, hm, hnl, ?_, ?_, hep, hepk⟩⟩
      · intro x hx
        dsimp only
        rw [upd_other _ _ (fun hh : x = n => h.1 (hh ▸ hx))]; exact hnp x hx
      · intro x k' hk'
        dsimp only
        by_cases hx : x = n
        · rw [hx, upd_same, AMap.get_del, if_neg (fun hh : k' = k => h.2 (hh ▸ hk'))]; exact hnpk n k' hk'
        · rw [upd_other _ _ hx]; exact hnpk x k' hk'
  | setEdgeProp n k v =>
    have hk : AMap.get s0.edgeIx k = none := Classical.byContradiction fun hno => h.2 (he k hno)
    refine ⟨{ s0 with nProps := np, eProps := upd ep n ((ep n).set k v), nLabels := nl, byLabel := nm }, ?_,
      ⟨rfl, hm, hnl, hnp, hnpk, ?_, ?_⟩⟩
    · simp only [LPG.step, State.setEdgeProp, Indexes.remove, Indexes.add, hk]
      cases AMap.get (ep n) k <;> simp [hk]
    · intro x hx
      dsimp only
      rw [upd_other _ _ (fun hh : x = n => h.1 (hh ▸ hx))]; exact hep x hx
    · intro x k' hk'
      dsimp only
      by_cases hx : x = n
      · rw [hx, upd_same, AMap.get_set, if_neg (fun hh : k' = k => h.2 (hh ▸ hk'))]; exact hepk n k' hk'
      · rw [upd_other _ _ hx]; exact hepk x k' hk'
  | removeEdgeProp n k =>
    have hk : AMap.get s0.edgeIx k = none := Classical.byContradiction fun hno => h.2 (he k hno)
    simp only [LPG.step, State.removeEdgeProp, Indexes.remove, hk]
    split
    · exact ⟨_, rfl, ⟨rfl, hm, hnl, hnp, hnpk, hep, hepk⟩⟩
    · refine ⟨_, rfl, ⟨rfl, hm, hnl, hnp, hnpk, ?_, ?_⟩⟩
      · intro x hx
        dsimp only
        rw [upd_other _ _ (fun hh : x = n => h.1 (hh ▸ hx))]; exact hep x hx
      · intro x k' hk'
        dsimp only
        by_cases hx : x = n
        · rw [hx, upd_same, AMap.get_del, if_neg (fun hh : k' = k => h.2 (hh ▸ hk'))]; exact hepk n k' hk'
        · rw [upd_other _ _ hx]; exact hepk x k' hk'
  | newNode ls ps => exact h.elim
  | newEdge a b l ps => exact h.elim
  | detachRemove n => exact h.elim
  | setEdgeLabel e l => exact h.elim
  | removeEdge e => exact h.elim
  | addNodeIndex k t => exact h.elim
  | addEdgeIndex k t => exact h.elim

theorem nodeIx_keys {s s' : State} {op : Op} (hs : LPG.step s op = some s') (k : String)
    (h : AMap.get s'.nodeIx k ≠ none) : AMap.get s.nodeIx k ≠ none ∨ k ∈ op.nodeIndexKey := by
  rcases nodeIx_kind hs k with h1 | ⟨t, rfl, _⟩
  · left
    intro h2
    simp only [Indexes.kind, h2, Option.map_none, Option.map_eq_none_iff] at h1
    exact h h1
  · exact Or.inr (by simp [Op.nodeIndexKey])

/-- Both histories fail, or both return. -/
theorem over_runFrom {kn ke : List String} : ∀ {ops : List Op} {σ : Spec} {s s0 : State}, Core s0 σ → Gone s0 σ →
    Over kn ke σ s s0 → (∀ k, AMap.get s0.nodeIx k ≠ none → k ∈ kn) → (∀ k, AMap.get s0.edgeIx k ≠ none → k ∈ ke) →
    (∀ k ∈ nodeIndexKeys ops, k ∈ kn) → (∀ k ∈ edgeIndexKeys ops, k ∈ ke) → σ.TolerableFrom kn ke ops →
    OptRel (Over kn ke (Spec.runFrom σ (σ.liveFrom ops))) (LPG.runFrom s ops) (LPG.runFrom s0 (σ.liveFrom ops))
  | [], σ, s, s0, _, _, o, _, _, _, _, _ => o
  | op :: ops, σ, s, s0, c, g, o, hn, he, hkn, hke, ht => by
    have hkn1 : ∀ k ∈ op.nodeIndexKey, k ∈ kn := fun k h => hkn k (by simp [nodeIndexKeys, h])
    have hke1 : ∀ k ∈ op.edgeIndexKey, k ∈ ke := fun k h => hke k (by simp [edgeIndexKeys, h])
    have hkn2 : ∀ k ∈ nodeIndexKeys ops, k ∈ kn := fun k h => hkn k (by
      simp only [nodeIndexKeys, List.flatMap_cons, List.mem_append]; exact Or.inr h)
    have hke2 : ∀ k ∈ edgeIndexKeys ops, k ∈ ke := fun k h => hke k (by
      simp only [edgeIndexKeys, List.flatMap_cons, List.mem_append]; exact Or.inr h)
    rw [Spec.TolerableFrom] at ht
    rw [Spec.liveFrom]
    by_cases hv : σ.Valid op
    · rw [if_pos hv] at ht ⊢
      rw [LPG.runFrom, LPG.runFrom]
      have h1 := o.step c hv hkn1 hke1
      cases h2 : LPG.step s op with
      | none =>
        cases h3 : LPG.step s0 op with
        | none => trivial
        | some s1 => rw [h2, h3] at h1; exact h1.elim
      | some t1 =>
        cases h3 : LPG.step s0 op with
        | none => rw [h2, h3] at h1; exact h1.elim
        | some s1 =>
          rw [h2, h3] at h1
          refine over_runFrom (c.step hv h3) (g.step c hv h3) h1 ?_ ?_ hkn2 hke2 ht
          · exact fun k hk => (nodeIx_keys h3 k hk).elim (hn k) (hkn1 k)
          · exact fun k hk => (edgeIx_keys h3 k hk).elim (he k) (hke1 k)
    · rw [if_neg hv] at ht ⊢
      obtain ⟨s', h1, o'⟩ := o.harmless g ht.1 hn he
      rw [LPG.runFrom, h1]
      exact over_runFrom c g o' hn he hkn2 hke2 ht.2

theorem valid_liveFrom : ∀ (ops : List Op) (σ : Spec), σ.ValidFrom (σ.liveFrom ops)
  | [], _ => trivial
  | op :: ops, σ => by
    rw [Spec.liveFrom]
    split
    · rename_i h
      exact ⟨h, valid_liveFrom ops _⟩
    · exact valid_liveFrom ops σ

theorem liveFrom_valid : ∀ (ops : List Op) (σ : Spec), σ.ValidFrom ops → σ.liveFrom ops = ops
  | [], _, _ => rfl
  | op :: ops, σ, h => by rw [Spec.liveFrom, if_pos h.1, liveFrom_valid ops _ h.2]

theorem tolerable_valid {kn ke : List String} : ∀ (ops : List Op) (σ : Spec), σ.ValidFrom ops → σ.TolerableFrom kn ke ops
  | [], _, _ => trivial
  | op :: ops, σ, h => by rw [Spec.TolerableFrom, if_pos h.1]; exact tolerable_valid ops _ h.2

theorem over_run {ops : List Op} (h : Tolerable ops) :
    OptRel (Over (nodeIndexKeys ops) (edgeIndexKeys ops) (Spec.run (liveCalls ops))) (run ops) (run (liveCalls ops)) :=
  over_runFrom Core.init Gone.init Over.same (by simp [State.new, AMap.get]) (by simp [State.new, AMap.get])
    (fun _ h => h) (fun _ h => h) h

/-- Nodes found by their labels are alive. -/
theorem LblRep.allLabels_alive {s : State} {σ : Spec} (l : LblRep s σ) {ls : List String} {xs : List Nat} {m : Int}
    (h : s.byLabel.allLabels s.nLabels ls = some (xs, m)) : ∀ x ∈ xs, x ∈ σ.nodes := by
  intro x hx
  cases ls with
  | nil => cases h
  | cons l0 ls =>
    obtain ⟨xs', m', h1, _, _, h2, h3, _⟩ := NodeMap.allLabels_nonempty s.byLabel l.ok s.nLabels (l0 :: ls) (by simp)
    rw [h] at h1
    cases h1
    obtain ⟨l1, hl1, hm⟩ := h3 x hx
    exact l.alive x l1 hm (h2 x hx l1 hl1)

theorem Over.allLabels {kn ke : List String} {σ : Spec} {s s0 : State} (o : Over kn ke σ s s0) (l : LblRep s0 σ)
    (ls : List String) : s.byLabel.allLabels s.nLabels ls = s0.byLabel.allLabels s0.nLabels ls := by
  cases h0 : s0.byLabel.allLabels s0.nLabels ls with
  | none =>
    simp only [NodeMap.allLabels] at h0 ⊢
    rw [minSet_m o.m]
    split at h0
    · cases h0
    · rfl
    · cases h0
  | some r =>
    obtain ⟨xs, m⟩ := r
    have hal := l.allLabels_alive h0
    simp only [NodeMap.allLabels] at h0 ⊢
    rw [minSet_m o.m]
    split at h0
    · exact h0
    · cases h0
    · rename_i fs hfs
      simp only [Option.some.injEq, Prod.mk.injEq] at h0 ⊢
      refine ⟨?_, h0.2⟩
      rw [← h0.1] at hal ⊢
      apply List.filter_congr
      intro x hx
      rcases o.nl x with h | ⟨h, h2⟩
      · rw [h]
      · cases ls with
        | nil => rfl
        | cons l0 ls =>
          rw [h2]
          have h3 : (List.all (l0 :: ls) fun l => ([] : List String).contains l) = false := by simp
          rw [h3]
          symm
          refine Classical.byContradiction fun hno => h (hal x (List.mem_filter.2 ⟨hx, ?_⟩))
          simpa using hno

/-- States related by `Over` answer the same. -/
theorem Over.answers {kn ke : List String} {σ : Spec} {s s0 : State} (o : Over kn ke σ s s0) (l : LblRep s0 σ) :
    EqAnswers σ s0 s := by
  have hall := o.allLabels l
  obtain ⟨hr, hm, hnl, hnp, hnpk, hep, hepk⟩ := o
  generalize s.nProps = np at *
  generalize s.eProps = ep at *
  generalize s.nLabels = nl at *
  generalize s.byLabel = nm at *
  subst hr
  refine ⟨rfl, rfl, rfl, rfl, fun _ => rfl, ?_, rfl, rfl, ?_, ?_, fun _ d => by cases d <;> rfl,
    fun _ _ d => by cases d <;> rfl, fun _ _ d => by cases d <;> rfl, fun _ => ⟨rfl, rfl⟩, fun _ => rfl, ?_⟩
  · intro ls
    simp only [State.getNodesWithAllLabels, hall]
  · intro n hn
    exact (hnl n).resolve_right (fun h => h.1 hn)
  · intro n hn k
    simp only [State.nodeProperty, hnp n hn]
  · intro e he k
    simp only [State.edgeProperty, hep e he]

/-! ## Searching by properties -/

theorem choose_congr {bl : List Nat × Int} {best : Option (List Nat × Int)} {f g : Nat → Bool} {all : Option (List Nat)}
    (h1 : bl.2 ≠ -1 → ∀ x ∈ bl.1, f x = g x) (h2 : ∀ b, best = some b → ∀ x ∈ b.1, f x = g x) :
    choose bl best f all = choose bl best g all := by
  unfold choose
  cases best with
  | none =>
    dsimp only
    split
    · rename_i hu
      have : bl.2 ≠ -1 := by simpa using hu
      rw [List.filter_congr (h1 this)]
    · rfl
  | some b =>
    dsimp only
    split
    · rename_i hu
      simp only [Bool.and_eq_true, decide_eq_true_eq] at hu
      rw [List.filter_congr (h1 hu.1)]
    · rw [List.filter_congr (h2 b rfl)]

/-- Objects found in a property index are alive. -/
theorem propIters_alive {ixs : Indexes} {val : String → Nat → Option Value} {L : List Nat} (h : IxsRep ixs val)
    (hL : ∀ k x v, val k x = some v → x ∈ L) {ps : AMap String Value} {its : List (List Nat × Int)}
    (hp : propIters ixs ps = some its) : ∀ b, minIter its none = some b → ∀ x ∈ b.1, x ∈ L := by
  intro b hb x hx
  rcases (minIter_spec its none).1 b hb with hb | hb
  · obtain ⟨k, v, ix, _, q2, q3⟩ := (propIters_mem hp).1 b hb
    obtain ⟨w, hw⟩ := ((h k ix q2).find (xs := b.1) (m := b.2) q3).2.2.1 x hx
    exact hL k x w hw
  · cases hb

theorem nval_alive {s : State} {σ : Spec} (k : String) (x : Nat) (v : Value) (h : s.nval σ k x = some v) : x ∈ σ.nodes := by
  simp only [State.nval] at h
  split at h
  · assumption
  · cases h

theorem eval_alive {s : State} {σ : Spec} (k : String) (x : Nat) (v : Value) (h : s.eval σ k x = some v) : x ∈ σ.edges := by
  simp only [State.eval] at h
  split at h
  · assumption
  · cases h

theorem Over.nodesWithProperty {kn ke : List String} {σ : Spec} {s s0 : State} (o : Over kn ke σ s s0) (k : String)
    (h : s0.getNodes = some σ.nodes ∨ AMap.get s0.nodeIx k ≠ none) :
    s.getNodesWithProperty k = s0.getNodesWithProperty k := by
  obtain ⟨hr, hm, hnl, hnp, hnpk, hep, hepk⟩ := o
  generalize s.nProps = np at *
  generalize s.eProps = ep at *
  generalize s.nLabels = nl at *
  generalize s.byLabel = nm at *
  subst hr
  simp only [State.getNodesWithProperty]
  split
  · rfl
  · rename_i hk
    rcases h with h | h
    · have h' : State.getNodes { s0 with nProps := np, eProps := ep, nLabels := nl, byLabel := nm } = some σ.nodes := h
      rw [h, h']
      simp only [Option.map_some, Option.some.injEq]
      apply List.filter_congr
      intro n hn
      simp only [State.nodeProperty, hnp n hn]
    · exact absurd hk h

theorem Over.edgesWithProperty {kn ke : List String} {σ : Spec} {s s0 : State} (o : Over kn ke σ s s0) (k : String)
    (h : (∃ es, s0.getEdges = some es ∧ ∀ e ∈ es, e ∈ σ.edges) ∨ AMap.get s0.edgeIx k ≠ none) :
    s.getEdgesWithProperty k = s0.getEdgesWithProperty k := by
  obtain ⟨hr, hm, hnl, hnp, hnpk, hep, hepk⟩ := o
  generalize s.nProps = np at *
  generalize s.eProps = ep at *
  generalize s.nLabels = nl at *
  generalize s.byLabel = nm at *
  subst hr
  simp only [State.getEdgesWithProperty]
  split
  · rfl
  · rename_i hk
    rcases h with ⟨es, h, hal⟩ | h
    · have h' : State.getEdges { s0 with nProps := np, eProps := ep, nLabels := nl, byLabel := nm } = some es := h
      rw [h, h']
      simp only [Option.map_some, Option.some.injEq]
      apply List.filter_congr
      intro n hn
      simp only [State.edgeProperty, hep n (hal n hn)]
    · exact absurd hk h

theorem Over.findNodes {kn ke : List String} {σ : Spec} {s s0 : State} (o : Over kn ke σ s s0) (l : LblRep s0 σ)
    (hix : IxsRep s0.nodeIx (s0.nval σ)) (ls : List String) (ps : AMap String Value) :
    s.findNodes ls ps = s0.findNodes ls ps := by
  have hall := o.allLabels l ls
  obtain ⟨hr, hm, hnl, hnp, hnpk, hep, hepk⟩ := o
  generalize s.nProps = np at *
  generalize s.eProps = ep at *
  generalize s.nLabels = nl at *
  generalize s.byLabel = nm at *
  subst hr
  simp only [State.findNodes, hall]
  split
  · rfl
  · split
    · rfl
    · split
      · rename_i bl its hbl hits
        have key : ∀ n ∈ σ.nodes, nodeFilter ls ps (nl n) (np n) = nodeFilter ls ps (s0.nLabels n) (s0.nProps n) := by
          intro n hn
          rw [(hnl n).resolve_right (fun h => h.1 hn), hnp n hn]
        refine choose_congr (g := fun n => nodeFilter ls ps (s0.nLabels n) (s0.nProps n)) ?_ ?_
        · exact fun _ x hx => key x (l.allLabels_alive (ls := ls) (xs := bl.1) (m := bl.2) hbl x hx)
        · exact fun b hb x hx => key x (propIters_alive hix nval_alive hits b hb x hx)
      · rfl

theorem Over.findEdges {kn ke : List String} {R : List Nat} {σ : Spec} {s s0 : State} (o : Over kn ke σ s s0)
    (c : Core s0 σ) (a : AERep R s0 σ) (hix : IxsRep s0.edgeIx (s0.eval σ)) (ls : List String) (hnd : ls.Nodup)
    (ps : AMap String Value) : s.findEdges ls ps = s0.findEdges ls ps := by
  obtain ⟨hr, hm, hnl, hnp, hnpk, hep, hepk⟩ := o
  generalize s.nProps = np at *
  generalize s.eProps = ep at *
  generalize s.nLabels = nl at *
  generalize s.byLabel = nm at *
  subst hr
  simp only [State.findEdges]
  split
  · rfl
  · split
    · rfl
    · have hany : State.getEdgesWithAnyLabel { s0 with nProps := np, eProps := ep, nLabels := nl, byLabel := nm } ls =
          s0.getEdgesWithAnyLabel ls := rfl
      rw [hany]
      split
      · rename_i es its hbl hits
        have key : ∀ n ∈ σ.edges, edgeFilter ls ps (s0.eLabel n) (ep n) = edgeFilter ls ps (s0.eLabel n) (s0.eProps n) := by
          intro n hn
          rw [hep n hn]
        refine choose_congr (g := fun n => edgeFilter ls ps (s0.eLabel n) (s0.eProps n)) ?_ ?_
        · intro hne x hx
          obtain ⟨g, xs, hp, hae, _⟩ := a
          have hle : xs.length ≤ 1 := Nat.le_of_not_lt fun hl => hne (by
            dsimp only
            unfold EdgeMap.anySize
            have hn := hae.n
            rw [if_neg (by omega), if_neg (by omega)])
          have hae' : EMRep s0.slot0 s0.eLabel s0.allEdges xs := hae.anyLabel hle
          obtain ⟨ys, y1, y2⟩ := hae'.enumAny (ls := ls) (fuel := s0.idBase) hnd
            (by rw [hp.length_eq]; exact c.edges_length)
          have hbl' : s0.getEdgesWithAnyLabel ls = some ys := y1
          rw [hbl'] at hbl; cases hbl
          exact key x (hp.mem_iff.1 (List.mem_filter.1 (y2.mem_iff.1 hx)).1)
        · exact fun b hb x hx => key x (propIters_alive hix eval_alive hits b hb x hx)
      · rfl

/-! ## Removing what is not in an index -/

theorem IRep.remove_absent {ix ix' : Index} {val : Nat → Option Value} {v : Value} {id : Nat} (h : IRep ix val)
    (hid : val id = none) (ha : ix.remove v id = some ix') : ix' = ix := by
  cases ix with
  | btree t =>
    have h : BRep t val := h
    simp only [Index.remove, Option.map_eq_some_iff] at ha
    obtain ⟨t', ha, rfl⟩ := ha
    unfold SetTree.remove at ha
    split at ha
    · cases ha
    · cases ha; rfl
    · rename_i s hg
      obtain ⟨hdef, e0, h0, hk, rfl⟩ := get_some hg
      have hno : id ∉ AMap.keys e0.2 := by
        intro hx
        obtain ⟨w, hw, _⟩ := h.sound e0 h0 id hx
        rw [hid] at hw; cases hw
      simp only [FSet.remove, AMap.del_of_not_mem (AMap.not_mem_keys.1 hno)] at ha
      rw [if_neg (by rw [List.length_eq_zero_iff]; exact (h.ok e0 h0).2)] at ha
      cases ha
      congr 1
      unfold SetTree.update
      refine (List.map_congr_left (g := fun e => e) ?_).trans (List.map_id' t)
      intro e he
      split
      · rename_i hc
        rw [h.same he h0 (Or.inr hc) (Or.inr hk)]
      · rfl
  | hash t =>
    have h : HRep t val := h
    simp only [Index.remove, Option.map_eq_some_iff] at ha
    obtain ⟨t', ha, rfl⟩ := ha
    unfold HashIx.remove at ha
    split at ha
    · cases ha; rfl
    · split at ha
      · cases ha
      · split at ha
        · cases ha; rfl
        · rename_i fs hfs
          split at ha
          · cases ha; rfl
          · rename_i c hc
            obtain ⟨_, w, hw, _⟩ := h.sets _ _ _ _ hfs hc
            rw [hid] at hw; cases hw

end LPG
