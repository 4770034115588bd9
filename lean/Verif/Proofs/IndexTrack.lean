import Verif.Spec.IndexTrack
import Verif.Proofs.IndexAlways
/-!
# The index of one property over a history
-/
namespace LPG
open State

theorem Indexes.get_add {ixs ixs' : Indexes} {key k : String} {v : Value} {id : Nat} {ix : Index}
    (h : Indexes.add ixs key v id = some ixs') (hk : AMap.get ixs k = some ix) :
    if key = k then ∃ ix', ix.add v id = some ix' ∧ AMap.get ixs' k = some ix' else AMap.get ixs' k = some ix := by
  unfold Indexes.add at h
  by_cases he : key = k
  · subst he
    rw [hk] at h
    simp only [Option.map_eq_some_iff] at h
    obtain ⟨ix', h1, rfl⟩ := h
    simp [h1, AMap.get_set]
  · rw [if_neg he]
    split at h
    · cases h; exact hk
    · simp only [Option.map_eq_some_iff] at h
      obtain ⟨ix', h1, rfl⟩ := h
      rw [AMap.get_set_other _ _ (Ne.symm he)]; exact hk

theorem Indexes.get_remove {ixs ixs' : Indexes} {key k : String} {v : Value} {id : Nat} {ix : Index}
    (h : Indexes.remove ixs key v id = some ixs') (hk : AMap.get ixs k = some ix) :
    if key = k then ∃ ix', ix.remove v id = some ix' ∧ AMap.get ixs' k = some ix' else AMap.get ixs' k = some ix := by
  unfold Indexes.remove at h
  by_cases he : key = k
  · subst he
    rw [hk] at h
    simp only [Option.map_eq_some_iff] at h
    obtain ⟨ix', h1, rfl⟩ := h
    simp [h1, AMap.get_set]
  · rw [if_neg he]
    split at h
    · cases h; exact hk
    · simp only [Option.map_eq_some_iff] at h
      obtain ⟨ix', h1, rfl⟩ := h
      rw [AMap.get_set_other _ _ (Ne.symm he)]; exact hk

theorem Indexes.get_addAll {id : Nat} {k : String} : ∀ {ps : Props} {ixs ixs' : Indexes} {ix : Index},
    Indexes.addAll id ps ixs = some ixs' → (AMap.keys ps).Nodup → AMap.get ixs k = some ix →
    match AMap.get ps k with
    | none => AMap.get ixs' k = some ix
    | some v => ∃ ix', ix.add v id = some ix' ∧ AMap.get ixs' k = some ix'
  | [], _, _, _, h, _, hk => by cases h; exact hk
  | (k0, v0) :: ps, ixs, ixs', ix, h, hn, hk => by
    rw [Indexes.addAll] at h
    split at h
    · cases h
    · rename_i ixs1 h1
      have hn' : k0 ∉ AMap.keys ps ∧ (AMap.keys ps).Nodup := List.nodup_cons.1 hn
      have a := Indexes.get_add h1 hk
      by_cases he : k0 = k
      · subst he
        rw [if_pos rfl] at a
        obtain ⟨ix', a1, a2⟩ := a
        have b := Indexes.get_addAll h hn'.2 a2
        rw [AMap.not_mem_keys.1 hn'.1] at b
        simp only [AMap.get, if_true]
        exact ⟨ix', a1, b⟩
      · rw [if_neg he] at a
        have b := Indexes.get_addAll h hn'.2 a
        simp only [AMap.get, he, if_false]
        exact b

theorem Indexes.get_removeAll {id : Nat} {k : String} : ∀ {ps : Props} {ixs ixs' : Indexes} {ix : Index},
    Indexes.removeAll id ps ixs = some ixs' → (AMap.keys ps).Nodup → AMap.get ixs k = some ix →
    match AMap.get ps k with
    | none => AMap.get ixs' k = some ix
    | some v => ∃ ix', ix.remove v id = some ix' ∧ AMap.get ixs' k = some ix'
  | [], _, _, _, h, _, hk => by cases h; exact hk
  | (k0, v0) :: ps, ixs, ixs', ix, h, hn, hk => by
    rw [Indexes.removeAll] at h
    split at h
    · cases h
    · rename_i ixs1 h1
      have hn' : k0 ∉ AMap.keys ps ∧ (AMap.keys ps).Nodup := List.nodup_cons.1 hn
      have a := Indexes.get_remove h1 hk
      by_cases he : k0 = k
      · subst he
        rw [if_pos rfl] at a
        obtain ⟨ix', a1, a2⟩ := a
        have b := Indexes.get_removeAll h hn'.2 a2
        rw [AMap.not_mem_keys.1 hn'.1] at b
        simp only [AMap.get, if_true]
        exact ⟨ix', a1, b⟩
      · rw [if_neg he] at a
        have b := Indexes.get_removeAll h hn'.2 a
        simp only [AMap.get, he, if_false]
        exact b

/-- The index on `k` has the nodes `T`, with their values. -/
structure Tracks (k : String) (T : List Nat) (s : State) : Prop where
  ix : ∃ ix, AMap.get s.nodeIx k = some ix ∧ IRep ix (fun n => if n ∈ T then (s.nProps n).get k else none)
  nodup : T.Nodup
  has : ∀ n ∈ T, n < s.idBase ∧ ((s.nProps n).get k).isSome

theorem Tracks.congr {k : String} {T : List Nat} {s s' : State} (h : Tracks k T s) (h1 : s'.nProps = s.nProps)
    (h2 : s'.nodeIx = s.nodeIx) (h3 : s.idBase ≤ s'.idBase) : Tracks k T s' := by
  obtain ⟨a, b, c⟩ := h
  refine ⟨by rw [h1, h2]; exact a, b, fun n hn => ⟨Nat.lt_of_lt_of_le (c n hn).1 h3, by rw [h1]; exact (c n hn).2⟩⟩

theorem IRep.congr {ix : Index} {val val' : Nat → Option Value} (h : IRep ix val) (he : ∀ x, val' x = val x) :
    IRep ix val' := by
  have : val' = val := funext he
  rw [this]; exact h

theorem Tracks.step {k : String} {T : List Nat} {s s' : State} {σ : Spec} {op : Op} (c : Core s σ) (h : Tracks k T s)
    (hv : σ.Valid op) (hs : LPG.step s op = some s') : Tracks k (op.tracks σ k T) s' := by
  have hlt : ∀ n ∈ σ.nodes, n < s.idBase := fun n hn => by rw [c.next]; exact c.nLt n hn
  obtain ⟨⟨ix, hg, r⟩, hnd, hhas⟩ := h
  have hT : ∀ n ∈ T, n ≠ s.idBase := fun n hn e => Nat.lt_irrefl _ (e ▸ (hhas n hn).1)
  cases op with
  | newNode ls ps =>
    obtain ⟨ixs, hix, rfl⟩ := newNode_frame hs
    have hval : (fun n => if n ∈ T then (s.nProps n).get k else none) s.idBase = none := by
      dsimp only
      rw [if_neg (fun hm => hT _ hm rfl)]
    have a := Indexes.get_addAll hix hv hg
    simp only [Op.tracks]
    cases hp : AMap.get ps k with
    | none =>
      rw [hp] at a
      simp only [Option.isSome_none, Bool.false_eq_true, if_false]
      refine ⟨⟨ix, a, r.congr ?_⟩, hnd, ?_⟩
      · intro x
        dsimp only
        by_cases hx : x ∈ T
        · rw [if_pos hx, if_pos hx, upd_other _ _ (hT x hx)]
        · rw [if_neg hx, if_neg hx]
      · intro n hn
        refine ⟨Nat.lt_succ_of_lt (hhas n hn).1, ?_⟩
        dsimp only
        rw [upd_other _ _ (hT n hn)]; exact (hhas n hn).2
    | some v =>
      rw [hp] at a
      obtain ⟨ix', a1, a2⟩ := a
      simp only [Option.isSome_some, if_true]
      have hnx := c.next
      refine ⟨⟨ix', a2, (r.add hval a1).congr ?_⟩, ?_, ?_⟩
      · intro x
        simp only [upd_apply, List.mem_append, List.mem_singleton, ← hnx]
        by_cases hx : x = s.idBase
        · simp [hx, hp]
        · simp [hx]
      · rw [List.nodup_append]
        refine ⟨hnd, by simp, ?_⟩
        intro a ha b hb
        rw [List.mem_singleton, ← hnx] at hb
        rw [hb]; exact hT a ha
      · intro n hn
        rw [List.mem_append, List.mem_singleton, ← hnx] at hn
        dsimp only
        rcases hn with hn | rfl
        · rw [upd_other _ _ (hT n hn)]
          exact ⟨Nat.lt_succ_of_lt (hhas n hn).1, (hhas n hn).2⟩
        · rw [upd_same, hp]; exact ⟨Nat.lt_succ_self _, rfl⟩
  | newEdge a b l ps =>
    obtain ⟨h1, h2, h3, h4, h5, h6, h7, _⟩ := newEdge_frame hs
    exact Tracks.congr ⟨⟨ix, hg, r⟩, hnd, hhas⟩ h5 h7 (by omega)
  | setLabels n ls => cases hs; exact ⟨⟨ix, hg, r⟩, hnd, hhas⟩
  | setNodeProp n k' v =>
    have hn := hlt n hv
    simp only [LPG.step, State.setNodeProp] at hs
    split at hs
    · cases hs
    · rename_i ixs1 h1
      split at hs
      · cases hs
      · rename_i ixs2 h2
        cases hs
        simp only [Op.tracks]
        by_cases hk : k' = k
        · subst hk
          -- the index without the node
          have key : ∃ ix1, AMap.get ixs1 k' = some ix1 ∧
              IRep ix1 (upd (fun n => if n ∈ T then (s.nProps n).get k' else none) n none) := by
            cases hp : AMap.get (s.nProps n) k' with
            | none =>
              rw [hp] at h1
              cases h1
              refine ⟨ix, hg, r.congr ?_⟩
              intro x
              rw [upd_apply]
              split
              · rename_i hx; rw [hx]; simp [hp]
              · rfl
            | some old =>
              rw [hp] at h1
              have a := Indexes.get_remove h1 hg
              rw [if_pos rfl] at a
              obtain ⟨ix1, a1, a2⟩ := a
              by_cases hnT : n ∈ T
              · exact ⟨ix1, a2, r.remove (by rw [if_pos hnT]; exact hp) a1⟩
              · refine ⟨ix1, a2, (closed_IRep.absent r (if_neg hnT) a1).congr ?_⟩
                intro x
                rw [upd_apply]
                split
                · rename_i hx; rw [hx, if_neg hnT]
                · rfl
          obtain ⟨ix1, g1, r1⟩ := key
          have a := Indexes.get_add h2 g1
          rw [if_pos rfl] at a
          obtain ⟨ix2, a1, a2⟩ := a
          have r2 := r1.add (upd_same _ _ _) a1
          have hmem : ∀ x, x ∈ (if k' = k' ∧ n ∉ T then T ++ [n] else T) ↔ x ∈ T ∨ x = n := by
            intro x
            split
            · simp
            · rename_i hc
              have : n ∈ T := Classical.byContradiction fun h => hc ⟨rfl, h⟩
              constructor
              · exact Or.inl
              · rintro (h | rfl) <;> assumption
          have hnd' : (if k' = k' ∧ n ∉ T then T ++ [n] else T).Nodup := by
            split
            · rename_i hc
              rw [List.nodup_append]
              refine ⟨hnd, by simp, ?_⟩
              intro a ha b hb e
              rw [List.mem_singleton] at hb
              exact hc.2 (hb ▸ e ▸ ha)
            · exact hnd
          revert hmem hnd'
          generalize (if k' = k' ∧ n ∉ T then T ++ [n] else T) = T'
          intro hmem hnd'
          refine ⟨⟨ix2, a2, r2.congr ?_⟩, hnd', ?_⟩
          · intro x
            simp only [hmem, upd_apply]
            by_cases hx : x = n
            · simp [hx, AMap.get_set]
            · simp [hx]
          · intro x hx
            rw [hmem] at hx
            dsimp only
            by_cases hxn : x = n
            · rw [hxn, upd_same, AMap.get_set, if_pos rfl]; exact ⟨hn, rfl⟩
            · rw [upd_other _ _ hxn]; exact hhas x (hx.resolve_right hxn)
        · rw [if_neg (fun h => hk h.1)]
          have g1 : AMap.get ixs1 k = some ix := by
            split at h1
            · cases h1; exact hg
            · have a := Indexes.get_remove h1 hg
              rw [if_neg hk] at a; exact a
          have a := Indexes.get_add h2 g1
          rw [if_neg hk] at a
          have hp : ∀ x, AMap.get (upd s.nProps n (AMap.set (s.nProps n) k' v) x) k = AMap.get (s.nProps x) k := by
            intro x
            rw [upd_apply]
            split
            · rename_i hx; rw [hx, AMap.get_set_other _ _ (Ne.symm hk)]
            · rfl
          refine ⟨⟨ix, a, r.congr ?_⟩, hnd, ?_⟩
          · intro x; dsimp only; rw [hp x]
          · intro x hx; dsimp only; rw [hp x]; exact hhas x hx
  | removeNodeProp n k' =>
    have hn := hlt n hv
    simp only [LPG.step, State.removeNodeProp] at hs
    simp only [Op.tracks]
    split at hs
    · rename_i hold
      cases hs
      split
      · rename_i hk
        subst hk
        have : n ∉ T := fun hm => by have := (hhas n hm).2; rw [hold] at this; cases this
        rw [List.filter_eq_self.2 (fun x hx => by
          simp only [ne_eq, decide_not, Bool.not_eq_true', decide_eq_false_iff_not]
          rintro rfl; exact this hx)]
        exact ⟨⟨ix, hg, r⟩, hnd, hhas⟩
      · exact ⟨⟨ix, hg, r⟩, hnd, hhas⟩
    · rename_i old hold
      split at hs
      · cases hs
      · rename_i ixs1 h1
        cases hs
        have a := Indexes.get_remove h1 hg
        by_cases hk : k' = k
        · subst hk
          rw [if_pos rfl] at a ⊢
          obtain ⟨ix1, a1, a2⟩ := a
          have r1 : IRep ix1 (upd (fun n => if n ∈ T then (s.nProps n).get k' else none) n none) := by
            by_cases hnT : n ∈ T
            · exact r.remove (by rw [if_pos hnT]; exact hold) a1
            · refine (closed_IRep.absent r (if_neg hnT) a1).congr ?_
              intro x
              rw [upd_apply]
              split
              · rename_i hx; rw [hx, if_neg hnT]
              · rfl
          refine ⟨⟨ix1, a2, r1.congr ?_⟩, hnd.filter _, ?_⟩
          · intro x
            simp only [upd_apply, List.mem_filter, ne_eq, decide_not, Bool.not_eq_true', decide_eq_false_iff_not]
            by_cases hx : x = n
            · simp [hx]
            · simp [hx]
          · intro x hx
            simp only [List.mem_filter, ne_eq, decide_not, Bool.not_eq_true', decide_eq_false_iff_not] at hx
            dsimp only
            rw [upd_other _ _ hx.2]; exact hhas x hx.1
        · rw [if_neg hk] at a ⊢
          have hp : ∀ x, AMap.get (upd s.nProps n (AMap.del (s.nProps n) k') x) k = AMap.get (s.nProps x) k := by
            intro x
            rw [upd_apply]
            split
            · rename_i hx; rw [hx, AMap.get_del, if_neg (Ne.symm hk)]
            · rfl
          refine ⟨⟨ix, a, r.congr ?_⟩, hnd, ?_⟩
          · intro x; dsimp only; rw [hp x]
          · intro x hx; dsimp only; rw [hp x]; exact hhas x hx
  | detach n =>
    obtain ⟨p0, p1, p2, im, om, ae, ix, rfl⟩ := detachNode_frame hs
    exact ⟨⟨_, hg, r⟩, hnd, hhas⟩
  | detachRemove n =>
    have hn := hlt n hv
    simp only [LPG.step, State.detachRemoveNode] at hs
    split at hs
    · cases hs
    · rename_i s1 h1
      obtain ⟨p0, p1, p2, im, om, ae, ix0, rfl⟩ := detachNode_frame h1
      split at hs
      · cases hs
      · rename_i ixs2 h2
        cases hs
        have a : match AMap.get (s.nProps n) k with
            | none => AMap.get ixs2 k = some ix
            | some v => ∃ ix', ix.remove v n = some ix' ∧ AMap.get ixs2 k = some ix' :=
          Indexes.get_removeAll h2 (c.nprops n hv).1 hg
        have r1 : ∃ ix1, AMap.get ixs2 k = some ix1 ∧
            IRep ix1 (upd (fun n => if n ∈ T then (s.nProps n).get k else none) n none) := by
          have absent : n ∉ T → ∀ ix1, IRep ix1 (fun n => if n ∈ T then (s.nProps n).get k else none) →
              IRep ix1 (upd (fun n => if n ∈ T then (s.nProps n).get k else none) n none) := by
            intro hnT ix1 h
            refine h.congr ?_
            intro x
            rw [upd_apply]
            split
            · rename_i hx; rw [hx, if_neg hnT]
            · rfl
          cases hp : AMap.get (s.nProps n) k with
          | none =>
            rw [hp] at a
            refine ⟨ix, a, absent (fun hm => ?_) ix r⟩
            have := (hhas n hm).2
            rw [hp] at this; cases this
          | some old =>
            rw [hp] at a
            obtain ⟨ix1, a1, a2⟩ := a
            by_cases hnT : n ∈ T
            · exact ⟨ix1, a2, r.remove (by rw [if_pos hnT]; exact hp) a1⟩
            · exact ⟨ix1, a2, absent hnT ix1 (closed_IRep.absent r (if_neg hnT) a1)⟩
        obtain ⟨ix1, g1, r1⟩ := r1
        simp only [Op.tracks]
        refine ⟨⟨ix1, g1, r1.congr ?_⟩, hnd.filter _, ?_⟩
        · intro x
          simp only [upd_apply, List.mem_filter, ne_eq, decide_not, Bool.not_eq_true', decide_eq_false_iff_not]
          by_cases hx : x = n
          · simp [hx]
          · simp [hx, State.withEdges]
        · intro x hx
          exact hhas x (List.mem_filter.1 hx).1
  | setEdgeLabel e l =>
    simp only [LPG.step, State.setEdgeLabel] at hs
    split at hs
    · cases hs; exact ⟨⟨ix, hg, r⟩, hnd, hhas⟩
    · obtain ⟨p1, p2, im, om, rfl⟩ := connect_frame hs
      exact ⟨⟨ix, hg, r⟩, hnd, hhas⟩
  | setEdgeProp n k v => obtain ⟨ixs, rfl⟩ := setEdgeProp_frame hs; exact ⟨⟨ix, hg, r⟩, hnd, hhas⟩
  | removeEdgeProp n k => obtain ⟨ixs, rfl⟩ := removeEdgeProp_frame hs; exact ⟨⟨ix, hg, r⟩, hnd, hhas⟩
  | removeEdge e => cases hs; exact ⟨⟨ix, hg, r⟩, hnd, hhas⟩
  | addNodeIndex k' t =>
    simp only [LPG.step, State.addNodeIndex] at hs
    simp only [Op.tracks]
    split at hs
    · cases hs; exact ⟨⟨ix, hg, r⟩, hnd, hhas⟩
    · rename_i hnone
      split at hs
      · cases hs
      · split at hs
        · cases hs
        · cases hs
          have hne : k ≠ k' := by rintro rfl; rw [hg] at hnone; cases hnone
          exact ⟨⟨ix, by dsimp only; rw [AMap.get_set_other _ _ hne]; exact hg, r⟩, hnd, hhas⟩
  | addEdgeIndex k t => obtain ⟨ixs, rfl⟩ := addEdgeIndex_frame hs; exact ⟨⟨ix, hg, r⟩, hnd, hhas⟩

theorem Tracks.runFrom {k : String} {ops : List Op} : ∀ {s s' : State} {σ : Spec} {T : List Nat}, Core s σ →
    Tracks k T s → σ.ValidFrom ops → LPG.runFrom s ops = some s' → Tracks k (σ.tracksFrom k T ops) s' := by
  induction ops with
  | nil => intro s s' σ T _ h _ hs; simp [LPG.runFrom] at hs; subst hs; exact h
  | cons op ops ih =>
    intro s s' σ T c h hv hs
    rw [LPG.runFrom] at hs
    split at hs
    · cases hs
    · rename_i s1 h1
      exact ih (c.step hv.1 h1) (h.step c hv.1 h1) hv.2 hs

end LPG
