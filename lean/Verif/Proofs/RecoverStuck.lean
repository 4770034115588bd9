import Verif.Proofs.IndexAlways
import Verif.Proofs.RecoverIx
import Verif.Proofs.EdgeMono
/-!
# A value that a hash index cannot hold
-/
namespace LPG

variable {o : MapOrder}
open State

/-- a hash index that something was added to -/
def Index.Used (ix : Index) : Prop := ∃ h : HashIx, ix = .hash h ∧ h.init = true

/-- the list of a hash index holds an object that is in none of its sets -/
def Index.Orphan (ix : Index) (id : Nat) : Prop := ∃ (h : HashIx) (c : Nat), ix = .hash h ∧ (c, id) ∈ h.elements ∧ c < h.nextCell ∧
  ∀ k fs, AMap.get h.values k = some fs → ∀ p ∈ fs, p.2 ≠ c

/-- the cells that the sets of a hash index hold were made before -/
def Index.Cells (ix : Index) : Prop := ∀ h : HashIx, ix = .hash h → ∀ k fs, AMap.get h.values k = some fs → ∀ p ∈ fs, p.2 < h.nextCell

theorem HashIx.add_sets {h h' : HashIx} {v : Value} {id : Nat} (ha : h.add v id = some h') :
    h'.init = true ∧ h'.nextCell = h.nextCell + 1 ∧ h'.elements = h.elements ++ [(h.nextCell, id)] ∧
    ∀ k fs, AMap.get h'.values k = some fs → ∀ p ∈ fs, p.2 = h.nextCell ∨ ∃ fs0, AMap.get h.values k = some fs0 ∧ p ∈ fs0 := by
  unfold HashIx.add at ha
  split at ha
  · cases ha
  · rename_i k0 _
    cases ha
    refine ⟨rfl, rfl, rfl, ?_⟩
    intro k fs hk p hp
    dsimp only at hk
    rw [AMap.get_set] at hk
    split at hk
    · rename_i he
      subst he
      cases hk
      unfold FSet.add at hp
      split at hp
      · cases hg : AMap.get h.values k with
        | none => rw [hg] at hp; cases hp
        | some fs0 => rw [hg] at hp; exact Or.inr ⟨fs0, rfl, hp⟩
      · rcases List.mem_append.1 hp with hp | hp
        · cases hg : AMap.get h.values k with
          | none => rw [hg] at hp; cases hp
          | some fs0 => rw [hg] at hp; exact Or.inr ⟨fs0, rfl, hp⟩
        · exact Or.inl (by rw [List.mem_singleton.1 hp])
    · exact Or.inr ⟨fs, hk, hp⟩

theorem HashIx.remove_sets {h h' : HashIx} {v : Value} {id : Nat} (ha : h.remove v id = some h') :
    h'.init = h.init ∧ h'.nextCell = h.nextCell ∧
    (∀ q ∈ h.elements, q ∈ h'.elements ∨ ∃ k fs p, AMap.get h.values k = some fs ∧ p ∈ fs ∧ p.2 = q.1) ∧
    ∀ k fs, AMap.get h'.values k = some fs → ∀ p ∈ fs, ∃ fs0, AMap.get h.values k = some fs0 ∧ p ∈ fs0 := by
  have triv : (h.init = h.init ∧ h.nextCell = h.nextCell ∧
    (∀ q ∈ h.elements, q ∈ h.elements ∨ ∃ k fs p, AMap.get h.values k = some fs ∧ p ∈ fs ∧ p.2 = q.1) ∧
    ∀ k fs, AMap.get h.values k = some fs → ∀ p ∈ fs, ∃ fs0, AMap.get h.values k = some fs0 ∧ p ∈ fs0) :=
    ⟨rfl, rfl, fun _ hq => Or.inl hq, fun k fs hk p hp => ⟨fs, hk, hp⟩⟩
  unfold HashIx.remove at ha
  split at ha
  · cases ha; exact triv
  · split at ha
    · cases ha
    · rename_i k0 _
      split at ha
      · cases ha; exact triv
      · rename_i fs hg
        split at ha
        · cases ha; exact triv
        · rename_i c hc
          cases ha
          refine ⟨rfl, rfl, ?_, ?_⟩
          · intro q hq
            by_cases he : q.1 = c
            · exact Or.inr ⟨k0, fs, (id, c), hg, AMap.get_mem hc, he.symm⟩
            · exact Or.inl (List.mem_filter.2 ⟨hq, by simpa using he⟩)
          · intro k fs' hk p hp
            dsimp only at hk
            rw [AMap.get_set] at hk
            split at hk
            · rename_i he
              subst he
              cases hk
              exact ⟨fs, hg, AMap.mem_of_del hp⟩
            · exact ⟨fs', hk, hp⟩

theorem Index.remove_is_hash {h : HashIx} {v : Value} {id : Nat} {ix : Index} (hr : Index.remove (.hash h) v id = some ix) :
    ∃ h', h.remove v id = some h' ∧ ix = .hash h' := by
  simp only [Index.remove, Option.map_eq_some_iff] at hr
  obtain ⟨h', h1, h2⟩ := hr
  exact ⟨h', h1, h2.symm⟩

theorem IxNext.used {ix ix' : Index} (h : IxNext ix ix') (hu : ix.Used) : ix'.Used := by
  induction h with
  | refl => exact hu
  | @add ix1 v id _ ih =>
    obtain ⟨h, rfl, hi⟩ := ih
    unfold Index.tryAdd
    dsimp only
    cases ha : h.add v id with
    | none => exact ⟨_, rfl, rfl⟩
    | some h' => exact ⟨h', rfl, (HashIx.add_sets ha).1⟩
  | @remove ix1 ix2 v id _ hr ih =>
    obtain ⟨h, rfl, hi⟩ := ih
    obtain ⟨h', h1, rfl⟩ := Index.remove_is_hash hr
    exact ⟨h', rfl, (HashIx.remove_sets h1).1.trans hi⟩

theorem IxNext.orphan {ix ix' : Index} {n : Nat} (h : IxNext ix ix') (ho : ix.Orphan n) : ix'.Orphan n := by
  induction h with
  | refl => exact ho
  | @add ix1 v id _ ih =>
    obtain ⟨h, c, rfl, h1, h2, h3⟩ := ih
    unfold Index.tryAdd
    dsimp only
    cases ha : h.add v id with
    | none => exact ⟨_, c, rfl, List.mem_append_left _ h1, Nat.lt_succ_of_lt h2, h3⟩
    | some h' =>
      obtain ⟨_, g2, g3, g4⟩ := HashIx.add_sets ha
      refine ⟨h', c, rfl, by rw [g3]; exact List.mem_append_left _ h1, by omega, ?_⟩
      intro k fs hk p hp
      rcases g4 k fs hk p hp with he | ⟨fs0, hk0, hp0⟩
      · omega
      · exact h3 k fs0 hk0 p hp0
  | @remove ix1 ix2 v id _ hr ih =>
    obtain ⟨h, c, rfl, h1, h2, h3⟩ := ih
    obtain ⟨h', hh, rfl⟩ := Index.remove_is_hash hr
    obtain ⟨_, g2, g3, g4⟩ := HashIx.remove_sets hh
    refine ⟨h', c, rfl, ?_, by omega, ?_⟩
    · rcases g3 _ h1 with h1 | ⟨k, fs, p, hk, hp, he⟩
      · exact h1
      · exact (h3 k fs hk p hp he).elim
    · intro k fs hk p hp
      obtain ⟨fs0, hk0, hp0⟩ := g4 k fs hk p hp
      exact h3 k fs0 hk0 p hp0

theorem IxNext.cells {ix ix' : Index} (h : IxNext ix ix') (hc : ix.Cells) : ix'.Cells := by
  induction h with
  | refl => exact hc
  | @add ix1 v id _ ih =>
    cases ix1 with
    | btree t =>
      intro h hh
      simp only [Index.tryAdd] at hh
      split at hh <;> cases hh
    | hash h0 =>
      have ih := ih h0 rfl
      unfold Index.tryAdd
      simp only
      cases ha : h0.add v id with
      | none =>
        intro h hh
        cases hh
        intro k fs hk p hp
        exact Nat.lt_succ_of_lt (ih k fs hk p hp)
      | some h' =>
        intro h hh
        cases hh
        obtain ⟨_, g2, g3, g4⟩ := HashIx.add_sets ha
        intro k fs hk p hp
        rcases g4 k fs hk p hp with he | ⟨fs0, hk0, hp0⟩
        · omega
        · have := ih k fs0 hk0 p hp0
          omega
  | @remove ix1 ix2 v id _ hr ih =>
    cases ix1 with
    | btree t =>
      intro h hh
      subst hh
      simp only [Index.remove, Option.map_eq_some_iff] at hr
      obtain ⟨_, _, hr⟩ := hr
      cases hr
    | hash h0 =>
      obtain ⟨h', hh, rfl⟩ := Index.remove_is_hash hr
      obtain ⟨_, g2, _, g4⟩ := HashIx.remove_sets hh
      intro h he
      cases he
      intro k fs hk p hp
      obtain ⟨fs0, hk0, hp0⟩ := g4 k fs hk p hp
      have := ih h0 rfl k fs0 hk0 p hp0
      omega

theorem Index.cells_new (t : IndexType) : (Index.new t).Cells := by
  intro h hh
  cases t with
  | btree => cases hh
  | hash =>
    cases hh
    intro k fs hk
    cases hk

/-- all indexes of a state -/
def AllCells (ixs : Indexes) : Prop := ∀ k ix, AMap.get ixs k = some ix → ix.Cells

theorem IxsNext.allCells {ixs ixs' : Indexes} (h : IxsNext ixs ixs') (hc : AllCells ixs) : AllCells ixs' := by
  intro k ix hk
  cases hg : AMap.get ixs k with
  | none =>
    obtain ⟨t, ht⟩ := h.2 k ix hg hk
    exact ht.cells (Index.cells_new t)
  | some jx =>
    obtain ⟨jx', h1, h2⟩ := h.1 k jx hg
    rw [hk] at h1
    cases h1
    exact h2.cells (hc k jx hg)

/-- an index of the key with a property -/
def Indexes.Has (ixs : Indexes) (k : String) (J : Index → Prop) : Prop := ∃ ix, AMap.get ixs k = some ix ∧ J ix

theorem IxsNext.has {ixs ixs' : Indexes} {k : String} {J : Index → Prop} (hJ : ∀ {ix ix'}, IxNext ix ix' → J ix → J ix')
    (h : IxsNext ixs ixs') (hh : ixs.Has k J) : ixs'.Has k J := by
  obtain ⟨ix, h1, h2⟩ := hh
  obtain ⟨ix', h3, h4⟩ := h.1 k ix h1
  exact ⟨ix', h3, hJ h4 h2⟩

/-- a value that a map cannot have as a key -/
def Unhashable (v : Value) : Prop := hkey (unwrap1 v) = none

theorem remove_unhashable {ixs : Indexes} {k : String} {v : Value} {id : Nat} (hu : ixs.Has k Index.Used) (hv : Unhashable v) :
    Indexes.remove ixs k v id = none := by
  obtain ⟨ix, hg, h, rfl, hi⟩ := hu
  have hv : hkey (unwrap1 v) = none := hv
  simp only [Indexes.remove, hg, Index.remove, HashIx.remove, hi, hv]
  rfl

theorem tryRemoveAll_unhashable {id : Nat} {k : String} {v : Value} (hv : Unhashable v) : ∀ {ps : Props} {ixs : Indexes},
    ixs.Has k Index.Used → (k, v) ∈ ps → (Indexes.tryRemoveAll id ps ixs).2 = true
  | [], ixs, _, hg => by cases hg
  | (k0, v0) :: ps, ixs, hu, hg => by
    rw [Indexes.tryRemoveAll]
    split
    · rfl
    · rename_i ixs1 h1
      rcases List.mem_cons.1 hg with he | hg
      · cases he
        rw [remove_unhashable hu hv] at h1
        cases h1
      · exact tryRemoveAll_unhashable hv ((IxsNext.remove h1).has IxNext.used hu) hg

/-- the state of a node whose property cannot be indexed -/
structure StuckNode (s : State) (n : Nat) (k : String) (v : Value) : Prop where
  lt : n < s.idBase
  val : AMap.get (s.nProps n) k = some v
  bad : Unhashable v
  used : s.nodeIx.Has k Index.Used

theorem StuckNode.set {s : State} {n : Nat} {k : String} {v : Value} (h : StuckNode s n k v) (w : Value) :
    tryStep o s (.setNodeProp n k w) = some (s, true) := by
  simp only [tryStep, State.trySetNodeProp, h.val, remove_unhashable h.used h.bad]

theorem StuckNode.unset {s : State} {n : Nat} {k : String} {v : Value} (h : StuckNode s n k v) :
    tryStep o s (.removeNodeProp n k) = some (s, true) := by
  simp only [tryStep, State.tryRemoveNodeProp, State.removeNodeProp, h.val, remove_unhashable h.used h.bad]

theorem StuckNode.drop {s s' : State} {n : Nat} {k : String} {v : Value} {b : Bool} (h : StuckNode s n k v)
    (hs : tryStep o s (.detachRemove n) = some (s', b)) : b = true := by
  simp only [tryStep, State.tryDetachRemoveNode] at hs
  split at hs
  · cases hs
  · cases hs; rfl
  · rename_i s1 hd
    obtain ⟨_, g2, _, g4, _⟩ := tryDetachNode_frame hd
    have h2 := congrArg Prod.snd (Option.some.inj hs)
    simp only at h2
    rw [← h2]
    show (Indexes.tryRemoveAll n (o.order n (s1.nProps n)) s1.nodeIx).2 = true
    rw [g4, g2]
    exact tryRemoveAll_unhashable h.bad h.used ((o.perm n _).mem_iff.2 (AMap.get_mem h.val))

theorem StuckNode.step {s s' : State} {n : Nat} {k : String} {v : Value} {op : Op} {b : Bool} (h : StuckNode s n k v)
    (hs : tryStep o s op = some (s', b)) : StuckNode s' n k v := by
  obtain ⟨h1, h2, _⟩ := tryStep_next hs
  refine ⟨Nat.lt_of_lt_of_le h.lt h1, ?_, h.bad, h2.has IxNext.used h.used⟩
  have easy : PropFrame s s' → AMap.get (s'.nProps n) k = some v := fun f => by rw [f.np n h.lt]; exact h.val
  cases op with
  | setNodeProp m k' w =>
    by_cases he : m = n ∧ k' = k
    · obtain ⟨rfl, rfl⟩ := he
      rw [h.set w] at hs
      cases hs
      exact h.val
    · have hs := congrArg Prod.fst (Option.some.inj hs)
      simp only at hs
      rw [← hs]
      have : ∀ ixs, AMap.get ((({ s with nProps := upd s.nProps m ((s.nProps m).set k' w), nodeIx := ixs } : State)).nProps n) k = some v := by
        intro ixs
        show AMap.get (upd s.nProps m ((s.nProps m).set k' w) n) k = some v
        rw [upd_apply]
        split
        · rename_i hm
          subst hm
          rw [AMap.get_set, if_neg (fun e => he ⟨rfl, e.symm⟩)]
          exact h.val
        · exact h.val
      unfold State.trySetNodeProp
      simp only
      split
      · exact h.val
      · exact this _
  | removeNodeProp m k' =>
    by_cases he : m = n ∧ k' = k
    · obtain ⟨rfl, rfl⟩ := he
      rw [h.unset] at hs
      cases hs
      exact h.val
    · have hs := congrArg Prod.fst (Option.some.inj hs)
      simp only at hs
      rw [← hs]
      unfold State.tryRemoveNodeProp
      split
      · exact h.val
      · rename_i s1 hr
        unfold State.removeNodeProp at hr
        split at hr
        · cases hr; exact h.val
        · split at hr
          · cases hr
          · cases hr
            show AMap.get (upd s.nProps m ((s.nProps m).del k') n) k = some v
            rw [upd_apply]
            split
            · rename_i hm
              subst hm
              rw [AMap.get_del, if_neg (fun e => he ⟨rfl, e.symm⟩)]
              exact h.val
            · exact h.val
  | setEdgeProp m k' w =>
    have hs := congrArg Prod.fst (Option.some.inj hs)
    simp only at hs
    rw [← hs, (trySetEdgeProp_other s m k' w).2.2]
    exact h.val
  | removeEdgeProp m k' =>
    have hs := congrArg Prod.fst (Option.some.inj hs)
    simp only at hs
    rw [← hs, (tryRemoveEdgeProp_other s m k').2.2]
    exact h.val
  | _ => exact easy (tryStep_frame hs (by simp) (by simp) (by simp) (by simp))

theorem StuckNode.run {ops : List (MapOrder × Op)} {n : Nat} {k : String} {v : Value} : ∀ {s s' : State}, StuckNode s n k v →
    tryRunFrom s ops = some s' → StuckNode s' n k v := by
  induction ops with
  | nil => intro s s' h hs; cases hs; exact h
  | cons op ops ih =>
    intro s s' h hs
    rw [tryRunFrom] at hs
    split at hs
    · cases hs
    · rename_i s1 b h1
      exact ih (h.step h1) hs

/-- the state of an edge whose property cannot be indexed -/
structure StuckEdge (s : State) (n : Nat) (k : String) (v : Value) : Prop where
  lt : n < s.idBase
  val : AMap.get (s.eProps n) k = some v
  bad : Unhashable v
  used : s.edgeIx.Has k Index.Used

theorem StuckEdge.set {s : State} {n : Nat} {k : String} {v : Value} (h : StuckEdge s n k v) (w : Value) :
    tryStep o s (.setEdgeProp n k w) = some (s, true) := by
  simp only [tryStep, State.trySetEdgeProp, h.val, remove_unhashable h.used h.bad]

theorem StuckEdge.unset {s : State} {n : Nat} {k : String} {v : Value} (h : StuckEdge s n k v) :
    tryStep o s (.removeEdgeProp n k) = some (s, true) := by
  simp only [tryStep, State.tryRemoveEdgeProp, State.removeEdgeProp, h.val, remove_unhashable h.used h.bad]

theorem StuckEdge.step {s s' : State} {n : Nat} {k : String} {v : Value} {op : Op} {b : Bool} (h : StuckEdge s n k v)
    (hs : tryStep o s op = some (s', b)) : StuckEdge s' n k v := by
  obtain ⟨h1, _, h2⟩ := tryStep_next hs
  refine ⟨Nat.lt_of_lt_of_le h.lt h1, ?_, h.bad, h2.has IxNext.used h.used⟩
  have easy : PropFrame s s' → AMap.get (s'.eProps n) k = some v := fun f => by rw [f.ep n h.lt]; exact h.val
  cases op with
  | setEdgeProp m k' w =>
    by_cases he : m = n ∧ k' = k
    · obtain ⟨rfl, rfl⟩ := he
      rw [h.set w] at hs
      cases hs
      exact h.val
    · have hs := congrArg Prod.fst (Option.some.inj hs)
      simp only at hs
      rw [← hs]
      have : ∀ ixs, AMap.get ((({ s with eProps := upd s.eProps m ((s.eProps m).set k' w), edgeIx := ixs } : State)).eProps n) k = some v := by
        intro ixs
        show AMap.get (upd s.eProps m ((s.eProps m).set k' w) n) k = some v
        rw [upd_apply]
        split
        · rename_i hm
          subst hm
          rw [AMap.get_set, if_neg (fun e => he ⟨rfl, e.symm⟩)]
          exact h.val
        · exact h.val
      unfold State.trySetEdgeProp
      simp only
      split
      · exact h.val
      · exact this _
  | removeEdgeProp m k' =>
    by_cases he : m = n ∧ k' = k
    · obtain ⟨rfl, rfl⟩ := he
      rw [h.unset] at hs
      cases hs
      exact h.val
    · have hs := congrArg Prod.fst (Option.some.inj hs)
      simp only at hs
      rw [← hs]
      unfold State.tryRemoveEdgeProp
      split
      · exact h.val
      · rename_i s1 hr
        unfold State.removeEdgeProp at hr
        split at hr
        · cases hr; exact h.val
        · split at hr
          · cases hr
          · cases hr
            show AMap.get (upd s.eProps m ((s.eProps m).del k') n) k = some v
            rw [upd_apply]
            split
            · rename_i hm
              subst hm
              rw [AMap.get_del, if_neg (fun e => he ⟨rfl, e.symm⟩)]
              exact h.val
            · exact h.val
  | setNodeProp m k' w =>
    have hs := congrArg Prod.fst (Option.some.inj hs)
    simp only at hs
    rw [← hs, (trySetNodeProp_other s m k' w).2.2]
    exact h.val
  | removeNodeProp m k' =>
    have hs := congrArg Prod.fst (Option.some.inj hs)
    simp only at hs
    rw [← hs, (tryRemoveNodeProp_other s m k').2.2]
    exact h.val
  | _ => exact easy (tryStep_frame hs (by simp) (by simp) (by simp) (by simp))

theorem StuckEdge.run {ops : List (MapOrder × Op)} {n : Nat} {k : String} {v : Value} : ∀ {s s' : State}, StuckEdge s n k v →
    tryRunFrom s ops = some s' → StuckEdge s' n k v := by
  induction ops with
  | nil => intro s s' h hs; cases hs; exact h
  | cons op ops ih =>
    intro s s' h hs
    rw [tryRunFrom] at hs
    split at hs
    · cases hs
    · rename_i s1 b h1
      exact ih (h.step h1) hs

/-- adding a value that the index cannot hold -/
theorem tryAdd_unhashable {ixs : Indexes} {k : String} {v : Value} {id : Nat} (hh : ixs.Has k (fun ix => ∃ h, ix = .hash h))
    (hc : AllCells ixs) (hv : Unhashable v) : (Indexes.tryAdd ixs k v id).2 = true ∧
    (Indexes.tryAdd ixs k v id).1.Has k Index.Used ∧ (Indexes.tryAdd ixs k v id).1.Has k (fun ix => ix.Orphan id) := by
  obtain ⟨ix, hg, h, rfl⟩ := hh
  have hv : hkey (unwrap1 v) = none := hv
  have ha : Index.tryAdd (.hash h) v id =
      (.hash { h with init := true, elements := h.elements ++ [(h.nextCell, id)], nextCell := h.nextCell + 1 }, true) := by
    simp only [Index.tryAdd, HashIx.add, hv]
  unfold Indexes.tryAdd
  rw [hg]
  simp only [ha]
  have hs : ∀ jx : Index, AMap.get (AMap.set ixs k jx) k = some jx := fun jx => by rw [AMap.get_set, if_pos rfl]
  refine ⟨trivial, ⟨_, hs _, _, rfl, rfl⟩, ⟨_, hs _, _, h.nextCell, rfl, List.mem_append_right _ (List.mem_singleton.2 rfl),
    Nat.lt_succ_self _, ?_⟩⟩
  intro k' fs hk p hp
  exact Nat.ne_of_lt (hc k _ hg h rfl k' fs hk p hp)

theorem Index.Orphan.mem {ix : Index} {id : Nat} (h : ix.Orphan id) : id ∈ ix.valueItr := by
  obtain ⟨h, c, rfl, h1, _⟩ := h
  exact List.mem_map.2 ⟨(c, id), h1, rfl⟩

theorem remove_hashable {ixs : Indexes} {k : String} {v : Value} {id : Nat} (hh : ixs.Has k (fun ix => ∃ h, ix = .hash h))
    (hv : ¬ Unhashable v) : ∃ ixs', Indexes.remove ixs k v id = some ixs' := by
  obtain ⟨ix, hg, h, rfl⟩ := hh
  have : ∃ h', h.remove v id = some h' := by
    unfold HashIx.remove
    split
    · exact ⟨_, rfl⟩
    · split
      · rename_i hn; exact (hv hn).elim
      · split
        · exact ⟨_, rfl⟩
        · split <;> exact ⟨_, rfl⟩
  obtain ⟨h', h1⟩ := this
  exact ⟨_, by simp only [Indexes.remove, hg, Index.remove, h1, Option.map_some]; rfl⟩

end LPG
