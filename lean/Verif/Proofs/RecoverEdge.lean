import Verif.Proofs.RecoverSub
/-!
# What an edge index holds when panics are recovered
-/
namespace LPG

variable {o : MapOrder}
open State

/-- the panic of an addition: the new cell is in no set -/
theorem WRep.panic {h : HashIx} {val : Nat → Option Value} (id : Nat) (hr : WRep h val) :
    WRep { h with init := true, elements := h.elements ++ [(h.nextCell, id)], nextCell := h.nextCell + 1 } val := by
  obtain ⟨O, h1, h2⟩ := hr
  have e1 : h.elements.filter (fun p => decide (p.1 ∉ h.nextCell :: O)) = h.elements.filter (fun p => decide (p.1 ∉ O)) := by
    apply List.filter_congr
    intro p hp
    by_cases ho : p.1 ∈ O
    · simp [ho]
    · have : p.1 < h.nextCell := h1.lt p.1 (List.mem_map.2 ⟨p, List.mem_filter.2 ⟨hp, by simpa using ho⟩, rfl⟩)
      have hne : p.1 ≠ h.nextCell := Nat.ne_of_lt this
      simp [hne]
  refine ⟨h.nextCell :: O, ?_, ?_⟩
  · have h1' := HRep.later h1
    unfold HashIx.without at h1' ⊢
    simp only [List.filter_append, e1]
    simpa using h1'
  · intro c hc
    rcases List.mem_cons.1 hc with rfl | hc
    · exact Nat.lt_succ_self _
    · exact Nat.lt_succ_of_lt (h2 c hc)

/-- an addition, returning or panicking, of an object that the index may have already -/
theorem Sub.tryAdd_again {ix : Index} {P : Nat → Option Value} {v : Value} {id : Nat} (h : Sub TRep ix P)
    (hid : P id = none ∨ P id = some v) : Sub TRep (ix.tryAdd v id).1 (upd P id (some v)) := by
  obtain ⟨val, h1, h2⟩ := h
  have up : ∀ x w, val x = some w → upd P id (some v) x = some w := by
    intro x w hx
    rw [upd_apply]
    split
    · rename_i hxi
      subst hxi
      rcases hid with hn | hs
      · rw [h2 x w hx] at hn; cases hn
      · rw [h2 x w hx] at hs; exact hs.symm
    · exact h2 x w hx
  cases ha : ix.add v id with
  | some ix' =>
    rw [Index.tryAdd_ok.1 ha]
    cases hv : val id with
    | none =>
      refine ⟨_, closed_TRep.add h1 hv ha, ?_⟩
      intro x w hx
      rw [upd_apply] at hx ⊢
      split
      · rename_i hxi; rw [if_pos hxi] at hx; exact hx
      · rename_i hxi; rw [if_neg hxi] at hx; exact h2 x w hx
    | some w =>
      have hw : w = v := by
        have := up id w hv
        rw [upd_same] at this
        exact (Option.some.inj this).symm
      subst hw
      refine ⟨val, ?_, up⟩
      cases ix with
      | btree t =>
        simp only [Index.add, Option.map_eq_some_iff] at ha
        obtain ⟨t', ha, rfl⟩ := ha
        have := BRep.add_again h1 hv ha
        subst this
        exact h1
      | hash t =>
        simp only [Index.add, Option.map_eq_some_iff] at ha
        obtain ⟨t', ha, rfl⟩ := ha
        exact WRep.add_again h1 hv ha
  | none =>
    refine ⟨val, ?_, up⟩
    cases ix with
    | btree t =>
      simp only [Index.add, Option.map_eq_none_iff] at ha
      simp only [Index.tryAdd, ha]
      exact h1
    | hash t =>
      simp only [Index.add, Option.map_eq_none_iff] at ha
      simp only [Index.tryAdd, ha]
      exact WRep.panic id h1

theorem tryClosed_TRep : TryClosed TRep := ⟨closed_TRep, fun h hid => h.tryAdd_again (.inl hid)⟩

theorem Sub.tryAddObjects_again {key : String} {props : Nat → Props} : ∀ {xs : List Nat} {ix : Index},
    Sub TRep ix (fun x => (props x).get key) → Sub TRep (Index.tryAddObjects key props xs ix).1 (fun x => (props x).get key)
  | [], ix, h => h
  | x :: xs, ix, h => by
    rw [Index.tryAddObjects]
    split
    · exact Sub.tryAddObjects_again h
    · rename_i v hg
      have a := h.tryAdd_again (v := v) (id := x) (.inr hg)
      have e : upd (fun x => AMap.get (props x) key) x (some v) = fun x => AMap.get (props x) key := upd_self_eq hg
      rw [e] at a
      simp only
      split
      · exact a
      · exact Sub.tryAddObjects_again a

theorem TRep.new (t : IndexType) : TRep (Index.new t) (fun _ => none) := by
  cases t with
  | btree => exact BRep.empty
  | hash => exact WRep.of HRep.empty

/-- the edge indexes hold edges, under the values they have -/
def State.EdgeSub (s : State) : Prop := IxsSub TRep s.edgeIx s.emem ∧ ∀ x, s.idBase ≤ x → s.eProps x = []

theorem EdgeSub.tryDetachEdges (es : List Nat) : ∀ {s : State}, s.PropsOk → s.EdgeSub → (s.tryDetachEdges o es).1.EdgeSub := by
  induction es with
  | nil => intro s _ h; exact h
  | cons e es ih =>
    intro s hp h
    have h1 : (s.tryDetachEdge o e).1.EdgeSub := by
      refine ⟨?_, h.2⟩
      have hnd' := ((o.perm e (s.eProps e)).map Prod.fst).nodup_iff.2 (hp.2 e)
      refine h.1.tryRemoveAll tryClosed_TRep hnd' ?_
      intro k v hk
      exact AMap.get_of_mem (hp.2 e) ((o.perm e _).mem_iff.1 (AMap.get_mem hk))
    rw [State.tryDetachEdges]
    split
    · exact h1
    · exact ih hp h1

theorem EdgeSub.tryDetachNode {s s' : State} {n : Nat} {b : Bool} (hp : s.PropsOk) (h : s.EdgeSub)
    (hs : s.tryDetachNode o n = some (s', b)) : s'.EdgeSub := by
  unfold State.tryDetachNode at hs
  split at hs
  · cases hs
  · rename_i es _
    have h1 := EdgeSub.tryDetachEdges (o := o) es hp h
    obtain ⟨_, f2, f3, _⟩ := tryDetachEdges_frame (o := o) es s
    have hp1 : (s.tryDetachEdges o es).1.PropsOk := by
      unfold State.PropsOk
      rw [f2, f3]
      exact hp
    dsimp only at hs
    split at hs
    · have h2 := congrArg Prod.fst (Option.some.inj hs)
      dsimp only at h2
      rw [← h2]
      exact h1
    · split at hs
      · cases hs
      · rename_i es' _
        have h2 := EdgeSub.tryDetachEdges (o := o) es'
          (s := { (s.tryDetachEdges o es).1 with incoming := upd (s.tryDetachEdges o es).1.incoming n EdgeMap.empty }) hp1 h1
        split at hs
        · have h3 := congrArg Prod.fst (Option.some.inj hs)
          dsimp only at h3
          rw [← h3]
          exact h2
        · cases hs; exact h2

/-- One call, returning or panicking. -/
theorem EdgeSub.tryStep {s s' : State} {σ : Spec} {op : Op} {b : Bool} (c : Core s.bare σ) (hp : s.PropsOk)
    (h : s.EdgeSub) (hv : σ.Valid op) (hs : LPG.tryStep o s op = some (s', b)) : s'.EdgeSub := by
  have hT := tryClosed_TRep
  have hR := closed_TRep
  have hlt : ∀ n ∈ σ.edges, n < s.idBase := fun n hn => by
    have := c.eLt n hn
    rw [← c.next] at this
    exact this
  cases op with
  | newNode ls ps => cases Option.some.inj hs; exact ⟨h.1, fun x hx => h.2 x (Nat.le_of_succ_le hx)⟩
  | newEdge x y l ps =>
    simp only [LPG.tryStep, State.tryNewEdge] at hs
    split at hs
    · cases hs
    · split at hs
      · cases hs
      · rename_i s2 hc
        obtain ⟨p1, p2, im, om, rfl⟩ := connect_frame hc
        cases Option.some.inj hs
        constructor
        · have a := h.1.tryAddAll hT (id := s.idBase) (ps := ps) hv.2.2
            (by intro k _; simp only [State.emem]; rw [h.2 _ (Nat.le_refl _)]; rfl)
          refine IxsSub.mono a ?_
          intro k x w hw
          show AMap.get (upd s.eProps s.idBase ps x) k = some w
          rw [upd_apply]
          simp only [State.emem] at hw
          by_cases hx : x = s.idBase
          · subst hx
            rw [h.2 _ (Nat.le_refl _)] at hw
            simp only [if_true] at hw ⊢
            cases hg : AMap.get ps k <;> rw [hg] at hw <;> exact hw
          · simp only [hx, if_false] at hw ⊢
            exact hw
        · intro x hx
          have hx : s.idBase + 1 ≤ x := hx
          show upd s.eProps s.idBase ps x = []
          rw [upd_other _ _ (by omega)]
          exact h.2 x (by omega)
  | setLabels n ls => cases Option.some.inj hs; exact h
  | setNodeProp n k v =>
    have hs := congrArg Prod.fst (Option.some.inj hs)
    dsimp only at hs
    subst hs
    unfold State.trySetNodeProp
    dsimp only
    split <;> exact h
  | removeNodeProp n k =>
    have hs := congrArg Prod.fst (Option.some.inj hs)
    dsimp only at hs
    subst hs
    unfold State.tryRemoveNodeProp
    split
    · exact h
    · rename_i s1 h0
      obtain ⟨ixs, rfl⟩ := removeNodeProp_frame h0
      exact h
  | detach n => exact EdgeSub.tryDetachNode hp h hs
  | detachRemove n =>
    simp only [LPG.tryStep, State.tryDetachRemoveNode] at hs
    split at hs
    · cases hs
    · rename_i h0; cases hs; exact EdgeSub.tryDetachNode hp h h0
    · rename_i h0
      have h1 := EdgeSub.tryDetachNode hp h h0
      cases hs
      exact h1
  | setEdgeLabel e l =>
    simp only [LPG.tryStep, Option.map_eq_some_iff] at hs
    obtain ⟨s1, h1, h2⟩ := hs
    cases h2
    unfold State.setEdgeLabel at h1
    split at h1
    · cases h1; exact h
    · obtain ⟨p1, p2, im, om, rfl⟩ := connect_frame h1
      exact h
  | setEdgeProp n k v =>
    have hn := hlt n hv
    have hs := Option.some.inj hs
    unfold State.trySetEdgeProp at hs
    simp only at hs
    have fin : ∀ ixs, IxsSub TRep ixs (fun k' x => if k' = k ∧ x = n then some v else s.emem k' x) →
        State.EdgeSub { s with eProps := upd s.eProps n ((s.eProps n).set k v), edgeIx := ixs } := by
      intro ixs hi
      refine ⟨hi.mono ?_, ?_⟩
      · intro k' x w
        simp only [State.emem, upd_apply]
        by_cases hx : x = n
        · subst hx
          simp only [if_true, and_true, AMap.get_set]
          exact id
        · simp [hx]
      · intro x hx
        dsimp only at hx ⊢
        rw [upd_other _ _ (by omega)]; exact h.2 x hx
    cases hg : AMap.get (s.eProps n) k with
    | none =>
      rw [hg] at hs
      simp only at hs
      cases hs
      exact fin _ (h.1.tryAdd hT (show s.emem k n = none from hg))
    | some old =>
      rw [hg] at hs
      simp only at hs
      split at hs
      · cases hs; exact h
      · rename_i ixs1 h1
        cases hs
        have a1 := h.1.remove hR (show s.emem k n = some old from hg) h1
        have a2 := a1.tryAdd hT (v := v) (key := k) (id := n) (by simp)
        refine fin _ (a2.mono ?_)
        intro k' x w
        by_cases hk : k' = k ∧ x = n <;> simp [hk]
  | removeEdgeProp n k =>
    have hn := hlt n hv
    have hs := congrArg Prod.fst (Option.some.inj hs)
    dsimp only at hs
    subst hs
    unfold State.tryRemoveEdgeProp
    split
    · exact h
    · rename_i s1 hr
      unfold State.removeEdgeProp at hr
      split at hr
      · cases hr; exact h
      · rename_i old hold
        split at hr
        · cases hr
        · rename_i ixs1 h1
          cases hr
          refine ⟨(h.1.remove hR (show s.emem k n = some old from hold) h1).mono ?_, ?_⟩
          · intro k' x w
            simp only [State.emem, upd_apply]
            by_cases hx : x = n
            · subst hx
              simp only [if_true, and_true, AMap.get_del]
              exact id
            · simp [hx]
          · intro x hx
            dsimp only at hx ⊢
            rw [upd_other _ _ (by omega)]; exact h.2 x hx
  | removeEdge e => cases Option.some.inj hs; exact h
  | addNodeIndex k t =>
    simp only [LPG.tryStep, State.tryAddNodeIndex] at hs
    split at hs
    · cases hs; exact h
    · split at hs
      · cases hs
      · cases hs; exact h
  | addEdgeIndex k t =>
    simp only [LPG.tryStep, State.tryAddEdgeIndex] at hs
    split at hs
    · cases hs; exact h
    · split at hs
      · cases hs
      · cases Option.some.inj hs
        refine ⟨?_, h.2⟩
        intro k' jx hk
        simp only at hk
        rw [AMap.get_set] at hk
        split at hk
        · rename_i hkk
          cases hk
          subst hkk
          exact Sub.tryAddObjects_again ⟨_, TRep.new t, fun _ _ h => by cases h⟩
        · exact h.1 k' jx hk

end LPG
