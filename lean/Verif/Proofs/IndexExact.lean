import Verif.Proofs.Find
import Verif.Spec.IndexExact

namespace LPG
open State

/-! ## Edge property indexes -/

/-- the value of a property of an edge that is live or left behind -/
def State.evalL (s : State) (σ : Spec) (L : String → List Nat) (k : String) (e : Nat) : Option Value :=
  if e ∈ σ.edges ∨ e ∈ L k then (s.eProps e).get k else none

/-- `L`: the edges left behind in the indexes -/
structure LeftRep (s : State) (σ : Spec) (L : String → List Nat) : Prop where
  ix : IxsRep s.edgeIx (s.evalL σ L)
  dead : ∀ k, ∀ e ∈ L k, e ∉ σ.edges ∧ e < σ.next
  has : ∀ k, ∀ e ∈ L k, ((s.eProps e).get k).isSome
  nodup : ∀ k, (L k).Nodup
  indexed : ∀ k, L k ≠ [] → AMap.get s.edgeIx k ≠ none

theorem LeftRep.detachEdge {s s' : State} {σ : Spec} {L : String → List Nat} {e : Nat} (c : Core s σ)
    (h : LeftRep s σ L) (he : e ∈ σ.edges) (hs : s.detachEdge e = some s') : LeftRep s' (σ.dropEdge e) L := by
  unfold State.detachEdge at hs
  simp only at hs
  split at hs
  · cases hs
  · rename_i ixs h2
    cases hs
    have a := h.ix.removeAll (c.eprops e he).1 (by
      intro k v hk; simp only [State.evalL]; rw [if_pos (Or.inl he)]; exact hk) h2
    refine ⟨IxsRep.congr a ?_, ?_, h.has, h.nodup, ?_⟩
    · intro k x
      simp only [State.evalL, Spec.dropEdge, List.mem_filter, State.dropEdge, State.disconnect]
      by_cases hx : x = e
      · subst hx
        have hL : x ∉ L k := fun hh => (h.dead k x hh).1 he
        simp only [he, hL, or_false, if_true]
        cases hgx : AMap.get (s.eProps x) k <;> simp [hgx]
      · simp [hx]
    · intro k x hx
      exact ⟨fun hh => (h.dead k x hx).1 (List.mem_filter.1 hh).1, (h.dead k x hx).2⟩
    · intro k hk
      exact (Indexes.removeAll_keys h2 k).2 (h.indexed k hk)

theorem LeftRep.detach {s s' : State} {σ : Spec} {L : String → List Nat} {n : Nat} (c : Core s σ)
    (h : LeftRep s σ L) (hn : n ∈ σ.nodes) (hs : s.detachNode n = some s') : LeftRep s' (σ.detach n) L :=
  detachNode_ind (Q := fun s σ => LeftRep s σ L) (good := fun _ => True)
    (fun _ _ _ _ c h he _ hs => h.detachEdge c he hs) (fun _ _ _ _ h => ⟨h.ix, h.dead, h.has, h.nodup, h.indexed⟩)
    c h hn (fun _ _ _ => trivial) hs

/-- states and specifications that agree on what counts -/
theorem LeftRep.congr {s s' : State} {σ σ' : Spec} {L : String → List Nat} (h : LeftRep s σ L)
    (h1 : s'.eProps = s.eProps) (h2 : σ'.edges = σ.edges) (h3 : s'.edgeIx = s.edgeIx) (h4 : σ.next ≤ σ'.next) :
    LeftRep s' σ' L := by
  refine ⟨?_, ?_, by rw [h1]; exact h.has, h.nodup, by rw [h3]; exact h.indexed⟩
  · have : s'.evalL σ' L = s.evalL σ L := by funext k n; simp only [State.evalL, h1, h2]
    rw [h3, this]; exact h.ix
  · intro k e he; rw [h2]; exact ⟨(h.dead k e he).1, Nat.lt_of_lt_of_le (h.dead k e he).2 h4⟩

theorem LeftRep.step {s s' : State} {σ : Spec} {L : String → List Nat} {K : List String} {op : Op} (c : Core s σ)
    (h : LeftRep s σ L) (hv : σ.Valid op) (hs : LPG.step s op = some s')
    (hK : ∀ k, AMap.get s.edgeIx k ≠ none ↔ k ∈ K)
    (good : ∀ k t, op = .addEdgeIndex k t → ∃ es, s.getEdges = some es ∧ es.Perm σ.edges) :
    LeftRep s' (σ.step op) (fun k => L k ++ op.leaves σ K k) := by
  have same : ∀ (hne : ∀ k, op.leaves σ K k = []) {s1 : State} {τ : Spec}, LeftRep s1 τ L →
      LeftRep s1 τ (fun k => L k ++ op.leaves σ K k) := by
    intro hne s1 τ h
    have : (fun k => L k ++ op.leaves σ K k) = L := by funext k; rw [hne k, List.append_nil]
    rw [this]; exact h
  cases op with
  | newNode ls ps =>
    obtain ⟨ixs, hix, rfl⟩ := newNode_frame hs
    exact same (fun _ => rfl) (h.congr rfl rfl rfl (by simp [Spec.step]))
  | newEdge a b l ps =>
    refine same (fun _ => rfl) ?_
    obtain ⟨_, _, _, _, _, _, _, h8, _, _, _, hix⟩ := newEdge_frame hs
    have hnx := c.next
    have hnn : σ.next ∉ σ.edges := fun hh => Nat.lt_irrefl _ (c.eLt _ hh)
    have hnL : ∀ k, σ.next ∉ L k := fun k hh => Nat.lt_irrefl _ (h.dead k _ hh).2
    have a := h.ix.addAll hv.2.2 (by
      intro k _; simp only [State.evalL]; rw [if_neg]; rw [hnx]; simp [hnn, hnL]) hix
    refine ⟨IxsRep.congr a ?_, ?_, ?_, h.nodup, ?_⟩
    · intro k x
      simp only [State.evalL, Spec.step, List.mem_append, List.mem_singleton, h8, upd_apply]
      by_cases hx : x = s.idBase
      · have h1 : x ∉ σ.edges := by rw [hx, hnx]; exact hnn
        have h2 : x ∉ L k := by rw [hx, hnx]; exact hnL k
        rw [hnx] at hx
        subst hx
        simp only [hnx, h1, h2, or_true, or_false, if_true, if_false]
        cases AMap.get ps k <;> rfl
      · have : x ≠ σ.next := by rw [← hnx]; exact hx
        simp [hx, this]
    · intro k x hx
      obtain ⟨h1, h2⟩ := h.dead k x hx
      refine ⟨?_, by show x < σ.next + 1; omega⟩
      simp [Spec.step, h1]; omega
    · intro k x hx
      have : x ≠ s.idBase := by have := (h.dead k x hx).2; omega
      rw [h8, upd_other _ _ this]; exact h.has k x hx
    · intro k hk; exact (Indexes.addAll_keys hix k).2 (h.indexed k hk)
  | setLabels n ls => cases hs; exact same (fun _ => rfl) (h.congr rfl rfl rfl (Nat.le_refl _))
  | setNodeProp n k v =>
    obtain ⟨ixs, rfl⟩ := setNodeProp_frame hs; exact same (fun _ => rfl) (h.congr rfl rfl rfl (Nat.le_refl _))
  | removeNodeProp n k =>
    obtain ⟨ixs, rfl⟩ := removeNodeProp_frame hs; exact same (fun _ => rfl) (h.congr rfl rfl rfl (Nat.le_refl _))
  | detach n => exact same (fun _ => rfl) (h.detach c hv hs)
  | detachRemove n =>
    refine same (fun _ => rfl) ?_
    simp only [LPG.step, State.detachRemoveNode] at hs
    split at hs
    · cases hs
    · rename_i s1 h1
      have a := h.detach c hv h1
      split at hs
      · cases hs
      · cases hs; exact a.congr rfl rfl rfl (Nat.le_refl _)
  | setEdgeLabel e l =>
    refine same (fun _ => rfl) ?_
    simp only [LPG.step, State.setEdgeLabel] at hs
    split at hs
    · cases hs; exact h.congr rfl rfl rfl (Nat.le_refl _)
    · obtain ⟨p1, p2, im, om, rfl⟩ := connect_frame hs
      exact h.congr rfl rfl rfl (Nat.le_refl _)
  | setEdgeProp n k v =>
    refine same (fun _ => rfl) ?_
    have hn : n ∈ σ.edges := hv
    have hne : ∀ k', ∀ x ∈ L k', x ≠ n := by rintro k' x hx rfl; exact (h.dead k' x hx).1 hn
    simp only [LPG.step, State.setEdgeProp] at hs
    split at hs
    · cases hs
    · rename_i ixs1 h1
      split at hs
      · cases hs
      · rename_i ixs2 h2
        cases hs
        have hval : s.evalL σ L k n = (s.eProps n).get k := by
          simp only [State.evalL]; rw [if_pos (Or.inl hn)]
        have h1' : (match s.evalL σ L k n with | none => some s.edgeIx | some old => Indexes.remove s.edgeIx k old n) =
            some ixs1 := by
          rw [hval]
          revert h1
          cases AMap.get (s.eProps n) k <;> exact id
        refine ⟨(setProp_ix h.ix h1' h2).congr ?_, h.dead, ?_, h.nodup, ?_⟩
        · intro k' x
          simp only [State.evalL, Spec.step, upd_apply]
          by_cases hx : x = n
          · subst hx
            simp only [hn, true_or, if_true, and_true, AMap.get_set]
          · simp [hx]
        · intro k' x hx
          dsimp only
          rw [upd_other _ _ (hne k' x hx)]; exact h.has k' x hx
        · intro k' hk'
          refine (Indexes.add_keys h2 k').2 ?_
          have := h.indexed k' hk'
          revert h1
          cases AMap.get (s.eProps n) k with
          | none => intro h1; cases h1; exact this
          | some old => intro h1; exact (Indexes.remove_keys h1 k').2 this
  | removeEdgeProp n k =>
    refine same (fun _ => rfl) ?_
    have hn : n ∈ σ.edges := hv
    have hne : ∀ k', ∀ x ∈ L k', x ≠ n := by rintro k' x hx rfl; exact (h.dead k' x hx).1 hn
    simp only [LPG.step, State.removeEdgeProp] at hs
    split at hs
    · cases hs; exact h.congr rfl rfl rfl (Nat.le_refl _)
    · rename_i old hold
      split at hs
      · cases hs
      · rename_i ixs1 h1
        cases hs
        have hval : s.evalL σ L k n = some old := by
          simp only [State.evalL]; rw [if_pos (Or.inl hn)]; exact hold
        refine ⟨(h.ix.remove hval h1).congr ?_, h.dead, ?_, h.nodup, ?_⟩
        · intro k' x
          simp only [State.evalL, Spec.step, upd_apply]
          by_cases hx : x = n
          · subst hx
            simp only [hn, true_or, if_true, and_true, AMap.get_del]
          · simp [hx]
        · intro k' x hx
          dsimp only
          rw [upd_other _ _ (hne k' x hx)]; exact h.has k' x hx
        · intro k' hk'
          exact (Indexes.remove_keys h1 k').2 (h.indexed k' hk')
  | removeEdge e =>
    cases hs
    have he : e ∈ σ.edges := hv
    have heL : ∀ k, e ∉ L k := fun k hh => (h.dead k e hh).1 he
    have hmem : ∀ k x, x ∈ Op.leaves σ K k (.removeEdge e) ↔ x = e ∧ k ∈ K ∧ (σ.eprop e k).isSome := by
      intro k x
      simp only [Op.leaves]; split <;> simp [*]
    refine ⟨?_, ?_, ?_, ?_, ?_⟩
    · intro k ix hk
      have hk' : AMap.get s.edgeIx k = some ix := hk
      have hkK : k ∈ K := (hK k).1 (by rw [hk']; simp)
      have a := h.ix k ix hk'
      have e2 : State.evalL (s.removeEdge e) (σ.step (.removeEdge e)) (fun k => L k ++ Op.leaves σ K k (.removeEdge e)) k =
          s.evalL σ L k := by
        funext x
        simp only [State.evalL, Spec.step, Spec.dropEdge, List.mem_filter, State.removeEdge, State.dropEdge,
          State.disconnect, List.mem_append, hmem]
        by_cases hx : x = e
        · subst hx
          simp only [he, heL, hkK, true_and, or_false, true_or, if_true, false_or]
          rw [(c.eprops x he).2 k]
          cases σ.eprop x k <;> simp
        · simp [hx]
      rw [e2]; exact a
    · intro k x hx
      rcases List.mem_append.1 hx with hx | hx
      · exact ⟨fun hh => (h.dead k x hx).1 (List.mem_filter.1 hh).1, (h.dead k x hx).2⟩
      · obtain ⟨rfl, _⟩ := (hmem k x).1 hx
        exact ⟨by simp [Spec.step, Spec.dropEdge], c.eLt x he⟩
    · intro k x hx
      rcases List.mem_append.1 hx with hx | hx
      · exact h.has k x hx
      · obtain ⟨rfl, _, hh⟩ := (hmem k x).1 hx
        show ((s.eProps x).get k).isSome
        rw [(c.eprops x he).2 k]; exact hh
    · intro k
      rw [List.nodup_append]
      refine ⟨h.nodup k, ?_, ?_⟩
      · simp only [Op.leaves]; split <;> simp
      · intro a ha b hb
        obtain ⟨rfl, _⟩ := (hmem k b).1 hb
        rintro rfl; exact heL k ha
    · intro k hk
      show AMap.get s.edgeIx k ≠ none
      by_cases hl : L k = []
      · rw [hl, List.nil_append] at hk
        obtain ⟨x, hx⟩ := List.exists_mem_of_ne_nil _ hk
        exact (hK k).2 ((hmem k x).1 hx).2.1
      · exact h.indexed k hl
  | addNodeIndex k t =>
    obtain ⟨ixs, rfl⟩ := addNodeIndex_frame hs; exact same (fun _ => rfl) (h.congr rfl rfl rfl (Nat.le_refl _))
  | addEdgeIndex k t =>
    refine same (fun _ => rfl) ?_
    obtain ⟨es, hg, hp⟩ := good k t rfl
    simp only [LPG.step, State.addEdgeIndex] at hs
    split at hs
    · cases hs; exact h
    · rename_i hnone
      rw [hg] at hs
      simp only at hs
      split at hs
      · cases hs
      · rename_i ix hix
        cases hs
        have hLk : L k = [] := Classical.byContradiction fun hh => h.indexed k hh hnone
        refine ⟨?_, h.dead, h.has, h.nodup, ?_⟩
        · intro k' jx hk
          rw [AMap.get_set] at hk
          split at hk
          · rename_i hkk
            cases hk
            subst hkk
            have a := (IRep.new t).addObjects (hp.nodup_iff.2 c.eNodup) (by simp) hix
            have e2 : (fun x => if x ∈ es then (s.eProps x).get k' else none) = s.evalL σ L k' := by
              funext x; simp only [State.evalL, hp.mem_iff, hLk, List.not_mem_nil, or_false]
            rw [e2] at a; exact a
          · exact h.ix k' jx hk
        · intro k' hk'
          rw [AMap.get_set]
          split
          · simp
          · exact h.indexed k' hk'

theorem edgeIx_step_keys {s s' : State} {op : Op} {K : List String} (hs : LPG.step s op = some s')
    (hK : ∀ k, AMap.get s.edgeIx k ≠ none ↔ k ∈ K) (k : String) :
    AMap.get s'.edgeIx k ≠ none ↔ k ∈ op.edgeIndexKey ++ K := by
  rw [List.mem_append, ← hK k]
  constructor
  · intro h; exact (edgeIx_keys hs k h).symm
  · intro h
    refine edgeIx_indexed (ops := [op]) (s := s) (k := k) (by simp [LPG.runFrom, hs]) ?_
    rcases h with h | h
    · right
      cases op <;> simp [Op.edgeIndexKey] at h
      subst h; exact ⟨_, List.mem_singleton.2 rfl⟩
    · exact Or.inl h

theorem LeftRep.runFrom {ops : List Op} : ∀ {s s' : State} {σ : Spec} {g : Nat → String} {b : Bool} {K : List String}
    {L : String → List Nat}, Core s σ → (b = true → AEx g s σ) → (∀ k, AMap.get s.edgeIx k ≠ none ↔ k ∈ K) →
    LeftRep s σ L → σ.ValidFrom ops → σ.EdgeIndexSafe g b ops → LPG.runFrom s ops = some s' →
    LeftRep s' (σ.runFrom ops) (fun k => L k ++ σ.leftFrom K k ops) := by
  induction ops with
  | nil =>
    intro s s' σ g b K L _ _ _ h _ _ hs
    simp [LPG.runFrom] at hs; subst hs
    have : (fun k => L k ++ σ.leftFrom K k []) = L := by funext k; simp [Spec.leftFrom]
    rw [this]; exact h
  | cons op ops ih =>
    intro s s' σ g b K L c hr hK h hv hd hs
    rw [LPG.runFrom] at hs
    split at hs
    · cases hs
    · rename_i s1 h1
      have h2 := h.step (K := K) c hv.1 h1 hK (by
        rintro k t rfl
        exact (hr (hd.1 (by simp [Op.edgeIndexKey]))).getEdges c)
      have h3 := ih (c.step hv.1 h1) (fun hb => by
        simp only [Bool.and_eq_true, decide_eq_true_eq] at hb
        exact (hr hb.1).step c hv.1 h1 hb.2) (edgeIx_step_keys h1 hK) h2 hv.2 hd.2 hs
      have : (fun k => L k ++ σ.leftFrom K k (op :: ops)) =
          (fun k => (L k ++ op.leaves σ K k) ++ (σ.step op).leftFrom (op.edgeIndexKey ++ K) k ops) := by
        funext k; simp [Spec.leftFrom]
      rw [this]; exact h3

end LPG
