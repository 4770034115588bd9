import Verif.Proofs.LiveProps
/-!
# The list of a hash index of edges

`Edge.Remove` leaves the edge in the index. `Z` are the edges removed in this way that had the property.
-/
namespace LPG
open State

/-- the value of a property of an edge that is in the index -/
def State.zval (s : State) (σ : Spec) (Z : List Nat) (k : String) (e : Nat) : Option Value :=
  if e ∈ σ.edges ∨ e ∈ Z then (s.eProps e).get k else none

/-- the edges that leave the list of the key `k` -/
def Spec.eLeaves (σ : Spec) (k : String) (e : Nat) : Op → Prop
  | .setEdgeProp m k' _ => e = m ∧ k' = k
  | .removeEdgeProp m k' => e = m ∧ k' = k
  | .detach n => e ∈ σ.edges ∧ (σ.src e = n ∨ σ.dst e = n)
  | .detachRemove n => e ∈ σ.edges ∧ (σ.src e = n ∨ σ.dst e = n)
  | _ => False

/-- the edges that are put at its end -/
def Spec.eEnters (σ : Spec) (k : String) : Op → List Nat
  | .newEdge _ _ _ ps => if ps.get k = none then [] else [σ.next]
  | .setEdgeProp m k' _ => if k' = k then [m] else []
  | _ => []

/-- the edges that stay though they are removed -/
def Spec.eStays (σ : Spec) (k : String) (Z : List Nat) : Op → List Nat
  | .removeEdge e => if σ.eprop e k = none then Z else e :: Z
  | _ => Z

variable {s s' : State} {σ σ' : Spec} {k : String} {E : List (Nat × Nat)} {Z : List Nat}

theorem zval_same (r : KRep k s.edgeIx (s.zval σ Z k) E) (h1 : s'.eProps = s.eProps) (h2 : σ'.edges = σ.edges)
    (h3 : s'.edgeIx = s.edgeIx) :
    ∃ E', KRep k s'.edgeIx (s'.zval σ' Z k) E' ∧ Moves (fun _ => False) [] E E' := by
  refine ⟨E, ?_, Moves.refl⟩
  rw [h3]
  exact r.congr (fun x => by simp only [State.zval, h1, h2])

theorem edgeHash_set {n : Nat} {v : Value} (hn : n ∈ σ.edges) (r : KRep k s.edgeIx (s.zval σ Z k) E)
    (hs : LPG.step s (.setEdgeProp n k v) = some s') :
    ∃ c, KRep k s'.edgeIx (s'.zval (σ.step (.setEdgeProp n k v)) Z k) (E.filter (fun d => d.2 ≠ n) ++ [(c, n)]) := by
  simp only [LPG.step, State.setEdgeProp] at hs
  split at hs
  · cases hs
  · rename_i ixs1 h1
    split at hs
    · cases hs
    · rename_i ixs2 h2
      cases hs
      have hval : s.zval σ Z k n = (s.eProps n).get k := by simp only [State.zval]; rw [if_pos (.inl hn)]
      have h1' : (match s.zval σ Z k n with | none => some s.edgeIx | some old => Indexes.remove s.edgeIx k old n) =
          some ixs1 := by
        rw [hval]
        revert h1
        cases AMap.get (s.eProps n) k <;> exact id
      obtain ⟨c, r1⟩ := r.set h1' h2
      refine ⟨c, r1.congr (fun x => ?_)⟩
      simp only [State.zval, Spec.step, upd_apply]
      by_cases hx : x = n
      · subst hx; simp [hn, AMap.get_set]
      · simp [hx]

theorem edgeHash_detachEdge {e : Nat} (c : Core s σ) (hZ : ∀ z ∈ Z, z ∉ σ.edges) (r : KRep k s.edgeIx (s.zval σ Z k) E)
    (he : e ∈ σ.edges) (hs : s.detachEdge e = some s') :
    KRep k s'.edgeIx (s'.zval (σ.dropEdge e) Z k) (E.filter (fun d => d.2 ≠ e)) := by
  unfold State.detachEdge at hs
  simp only at hs
  split at hs
  · cases hs
  · rename_i ixs h2
    cases hs
    have a := r.removeAll (c.eprops e he).1 (by simp only [State.zval]; rw [if_pos (.inl he)]) h2
    refine a.congr ?_
    intro x
    simp only [State.zval, Spec.dropEdge, List.mem_filter, State.dropEdge, State.disconnect, upd_apply]
    by_cases hx : x = e
    · subst hx
      have : x ∉ Z := fun h => hZ x h he
      simp [this]
    · simp [hx]

theorem edgeHash_detach {n : Nat} (c : Core s σ) (hZ : ∀ z ∈ Z, z ∉ σ.edges) (r : KRep k s.edgeIx (s.zval σ Z k) E)
    (hn : n ∈ σ.nodes) (hs : s.detachNode n = some s') :
    ∃ E', KRep k s'.edgeIx (s'.zval (σ.detach n) Z k) E' ∧
      Moves (fun e => e ∈ σ.edges ∧ (σ.src e = n ∨ σ.dst e = n)) [] E E' := by
  have q := detachNode_ind (Q := fun s σ' => (∀ z ∈ Z, z ∉ σ'.edges) ∧ (∀ e ∈ σ'.edges, e ∈ σ.edges) ∧
      KRep k s.edgeIx (s.zval σ' Z k) (E.filter (fun d => decide (d.2 ∈ σ'.edges ∨ d.2 ∉ σ.edges)))) (good := fun _ => True)
    (by
      intro s s' σ' e c h he _ hs
      refine ⟨fun z hz hh => h.1 z hz (List.mem_filter.1 hh).1, fun x hx => h.2.1 x (List.mem_filter.1 hx).1, ?_⟩
      have := edgeHash_detachEdge c h.1 h.2.2 he hs
      rw [List.filter_filter] at this
      have e2 : E.filter (fun d => decide (d.2 ≠ e) && decide (d.2 ∈ σ'.edges ∨ d.2 ∉ σ.edges)) =
          E.filter (fun d => decide (d.2 ∈ (σ'.dropEdge e).edges ∨ d.2 ∉ σ.edges)) := by
        apply List.filter_congr
        intro d _
        simp only [Spec.dropEdge, List.mem_filter]
        have := h.2.1 e he
        by_cases hd : d.2 = e
        · simp [hd, this]
        · simp [hd]
      rw [← e2]
      exact this)
    (fun _ _ _ _ h => h) c ⟨hZ, fun _ h => h, by
      have : E.filter (fun d => decide (d.2 ∈ σ.edges ∨ d.2 ∉ σ.edges)) = E := by
        rw [List.filter_eq_self]; intro d _; simp [Classical.em]
      rw [this]; exact r⟩ hn (fun _ _ _ => trivial) hs
  refine ⟨_, q.2.2, fun x => decide (x ∈ (σ.detach n).edges ∨ x ∉ σ.edges), 0, by simp, ?_⟩
  intro x hx
  have hx : ¬ (x ∈ (σ.detach n).edges ∨ x ∉ σ.edges) := by simpa using hx
  have h1 : x ∈ σ.edges := Classical.byContradiction fun h => hx (.inr h)
  refine ⟨h1, Classical.byContradiction fun h => hx (.inl ?_)⟩
  simp only [Spec.detach, List.mem_filter, h1, true_and]
  simpa [not_or] using h

theorem edgeHash_step {op : Op} (c : Core s σ) (hZ : ∀ z ∈ Z, z ∉ σ.edges) (hZn : ∀ z ∈ Z, z < σ.next)
    (r : KRep k s.edgeIx (s.zval σ Z k) E) (hv : σ.Valid op) (hs : LPG.step s op = some s') :
    ∃ E', KRep k s'.edgeIx (s'.zval (σ.step op) (σ.eStays k Z op) k) E' ∧
      Moves (fun n => σ.eLeaves k n op) (σ.eEnters k op) E E' := by
  cases op with
  | newNode ls ps =>
    obtain ⟨ixs, hix, rfl⟩ := newNode_frame hs
    exact zval_same r rfl rfl rfl
  | newEdge a b l ps =>
    obtain ⟨_, _, _, _, _, _, _, h8, _, _, _, hix⟩ := newEdge_frame hs
    have hnx := c.next
    have hnn : σ.next ∉ σ.edges := fun hh => Nat.lt_irrefl _ (c.eLt _ hh)
    have hnz : σ.next ∉ Z := fun hh => Nat.lt_irrefl _ (hZn _ hh)
    have h0 : s.zval σ Z k s.idBase = none := by
      simp only [State.zval]; rw [if_neg]; rw [hnx]; exact fun h => h.elim hnn hnz
    rcases r.addAll hv.2.2 h0 hix with ⟨h1, r1⟩ | ⟨v, cl, h1, r1⟩
    · refine ⟨E, r1.congr ?_, ?_⟩
      · intro x
        simp only [State.zval, Spec.step, Spec.eStays, List.mem_append, List.mem_singleton, h8, upd_apply]
        by_cases hx : x = s.idBase
        · subst hx
          simp [hnx, hnn, hnz, h1]
        · have : x ≠ σ.next := by rw [← hnx]; exact hx
          simp [hx, this]
      · simp only [Spec.eEnters, h1, if_true]
        exact Moves.refl
    · refine ⟨_, r1.congr ?_, ?_⟩
      · intro x
        simp only [State.zval, Spec.step, Spec.eStays, List.mem_append, List.mem_singleton, h8, upd_apply]
        by_cases hx : x = s.idBase
        · subst hx
          simp [hnx, h1]
        · have : x ≠ σ.next := by rw [← hnx]; exact hx
          simp [hx, this]
      · simp only [Spec.eEnters, h1]
        exact ⟨fun _ => true, cl, by rw [List.filter_eq_self.2 (by simp)]; simp [hnx], by simp⟩
  | setLabels n ls => cases hs; exact zval_same r rfl rfl rfl
  | setNodeProp n k v => obtain ⟨ixs, rfl⟩ := setNodeProp_frame hs; exact zval_same r rfl rfl rfl
  | removeNodeProp n k => obtain ⟨ixs, rfl⟩ := removeNodeProp_frame hs; exact zval_same r rfl rfl rfl
  | detach n => exact edgeHash_detach c hZ r hv hs
  | detachRemove n =>
    simp only [LPG.step, State.detachRemoveNode] at hs
    split at hs
    · cases hs
    · rename_i s1 h1
      obtain ⟨E', r1, m⟩ := edgeHash_detach c hZ r hv h1
      split at hs
      · cases hs
      · cases hs; exact ⟨E', r1.congr (fun x => rfl), m⟩
  | setEdgeLabel e l =>
    simp only [LPG.step, State.setEdgeLabel] at hs
    split at hs
    · cases hs; exact zval_same r rfl rfl rfl
    · obtain ⟨p1, p2, im, om, rfl⟩ := connect_frame hs
      exact zval_same r rfl rfl rfl
  | setEdgeProp n k' v =>
    by_cases hk : k' = k
    · subst hk
      obtain ⟨cl, r1⟩ := edgeHash_set hv r hs
      refine ⟨_, r1, fun x => decide (x ≠ n), cl, ?_, ?_⟩
      · simp [Spec.eEnters]
      · intro x hx
        simp only [ne_eq, decide_not, Bool.not_eq_false', decide_eq_true_eq] at hx
        exact ⟨hx, rfl⟩
    · refine ⟨E, ?_, by simp only [Spec.eEnters, if_neg hk]; exact Moves.refl⟩
      simp only [LPG.step, State.setEdgeProp] at hs
      split at hs
      · cases hs
      · rename_i ixs1 h1
        split at hs
        · cases hs
        · rename_i ixs2 h2
          cases hs
          have r1 : KRep k ixs1 (s.zval σ Z k) E := by
            split at h1
            · cases h1; exact r
            · exact r.remove_other hk h1
          refine (r1.add_other hk h2).congr (fun x => ?_)
          simp only [State.zval, Spec.step, Spec.eStays, upd_apply]
          by_cases hx : x = n
          · subst hx; simp [AMap.get_set, Ne.symm hk]
          · simp [hx]
  | removeEdgeProp n k' =>
    simp only [LPG.step, State.removeEdgeProp] at hs
    have hn : n ∈ σ.edges := hv
    split at hs
    · cases hs
      obtain ⟨E', h1, h2⟩ := zval_same (s' := s) (σ' := σ.step (.removeEdgeProp n k')) r rfl rfl rfl
      exact ⟨E', h1, h2.weaken (by simp)⟩
    · rename_i old hold
      split at hs
      · cases hs
      · rename_i ixs1 h1
        cases hs
        by_cases hk : k' = k
        · subst hk
          refine ⟨_, (r.remove (v := old) (by simp only [State.zval]; rw [if_pos (.inl hn)]; exact hold) h1).congr ?_,
            fun x => decide (x ≠ n), 0, by simp [Spec.eEnters], ?_⟩
          · intro x
            simp only [State.zval, Spec.step, Spec.eStays, upd_apply]
            by_cases hx : x = n
            · subst hx; simp [AMap.get_del]
            · simp [hx]
          · intro x hx
            simp only [ne_eq, decide_not, Bool.not_eq_false', decide_eq_true_eq] at hx
            exact ⟨hx, rfl⟩
        · refine ⟨E, (r.remove_other hk h1).congr ?_, Moves.refl⟩
          intro x
          simp only [State.zval, Spec.step, Spec.eStays, upd_apply]
          by_cases hx : x = n
          · subst hx; simp [AMap.get_del, Ne.symm hk]
          · simp [hx]
  | removeEdge e =>
    cases hs
    have he : e ∈ σ.edges := hv
    refine ⟨E, r.congr ?_, Moves.refl⟩
    intro x
    have hp := (c.eprops e he).2 k
    simp only [State.zval, Spec.step, Spec.eStays, Spec.dropEdge, State.removeEdge, State.dropEdge, State.disconnect, List.mem_filter]
    by_cases hx : x = e
    · subst hx
      simp only [he, true_or, if_true, hp]
      by_cases hn : σ.eprop x k = none
      · simp [hn]
      · simp [hn]
    · by_cases hn : σ.eprop e k = none
      · simp [hn, hx]
      · simp [hn, hx]
  | addNodeIndex k t => obtain ⟨ixs, rfl⟩ := addNodeIndex_frame hs; exact zval_same r rfl rfl rfl
  | addEdgeIndex k' t =>
    simp only [LPG.step, State.addEdgeIndex] at hs
    split at hs
    · cases hs; exact zval_same r rfl rfl rfl
    · rename_i hg
      split at hs
      · cases hs
      · split at hs
        · cases hs
        · rename_i ix hix
          cases hs
          obtain ⟨h, h1, h2, h3⟩ := r
          have hne : k ≠ k' := by rintro rfl; rw [hg] at h1; cases h1
          exact ⟨E, ⟨h, by rw [AMap.get_set, if_neg hne]; exact h1, h2, h3⟩, Moves.refl⟩

end LPG
