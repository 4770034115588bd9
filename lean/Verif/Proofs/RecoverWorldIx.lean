import Verif.Proofs.World
import Verif.Proofs.RecoverSub
import Verif.Proofs.RecoverEdge
/-!
# What the indexes of a graph hold when panics are recovered
-/
namespace LPG
open State
variable {o : MapOrder} {N E : Nat → Prop}

/-! ## The objects of an index are those of its graph -/

theorem Indexes.In.mono {N N' : Nat → Prop} (h : ∀ x, N x → N' x) {ixs : Indexes} (c : ixs.In N) : ixs.In N' :=
  fun k ix hm => (c k ix hm).mono h

theorem Index.In.tryAdd {ix : Index} (h : ix.In N) {v : Value} {id : Nat} (hid : N id) : (ix.tryAdd v id).1.In N := by
  cases ix with
  | btree t =>
    rw [Index.tryAdd]
    cases ha : SetTree.add t v id with
    | none => exact h
    | some t' => exact h.add hid (by simp [Index.add, ha] : (Index.btree t).add v id = some (.btree t'))
  | hash t =>
    rw [Index.tryAdd]
    cases ha : t.add v id with
    | none =>
      intro p hp
      rcases List.mem_append.1 hp with hp | hp
      · exact h p hp
      · simp at hp; subst hp; exact hid
    | some t' => exact h.add hid (by simp [Index.add, ha] : (Index.hash t).add v id = some (.hash t'))

theorem Indexes.In.tryAdd {ixs : Indexes} (h : ixs.In N) {k : String} {v : Value} {id : Nat} (hid : N id) :
    (Indexes.tryAdd ixs k v id).1.In N := by
  unfold Indexes.tryAdd
  cases hg : AMap.get ixs k with
  | none => exact h
  | some ix => exact h.set ((h k ix (AMap.mem_of_get hg)).tryAdd hid) k

theorem Indexes.In.tryAddAll {id : Nat} (hid : N id) : ∀ (ps : Props) {ixs : Indexes}, ixs.In N →
    (Indexes.tryAddAll id ps ixs).1.In N
  | [], _, h => h
  | (k, v) :: ps, ixs, h => by
    rw [Indexes.tryAddAll]
    split
    · exact h.tryAdd hid
    · exact Indexes.In.tryAddAll hid ps (h.tryAdd hid)

theorem Indexes.In.tryRemoveAll {id : Nat} : ∀ (ps : Props) {ixs : Indexes}, ixs.In N → (Indexes.tryRemoveAll id ps ixs).1.In N
  | [], _, h => h
  | (k, v) :: ps, ixs, h => by
    rw [Indexes.tryRemoveAll]
    split
    · exact h
    · rename_i h1; exact Indexes.In.tryRemoveAll ps (h.remove h1)

theorem Index.In.tryAddObjects {key : String} {props : Nat → Props} : ∀ {xs : List Nat} {ix : Index}, (∀ x ∈ xs, N x) → ix.In N →
    (Index.tryAddObjects key props xs ix).1.In N
  | [], _, _, h => h
  | x :: xs, ix, hx, h => by
    rw [Index.tryAddObjects]
    split
    · exact Index.In.tryAddObjects (fun y hy => hx y (by simp [hy])) h
    · simp only
      split
      · exact h.tryAdd (hx x (by simp))
      · exact Index.In.tryAddObjects (fun y hy => hx y (by simp [hy])) (h.tryAdd (hx x (by simp)))

theorem tryDetachEdges_in : ∀ (es : List Nat) {s : State}, s.edgeIx.In E →
    (s.tryDetachEdges o es).1.edgeIx.In E ∧ (s.tryDetachEdges o es).1.nodeIx = s.nodeIx
  | [], _, h => ⟨h, rfl⟩
  | e :: es, s, h => by
    have h1 : (s.tryDetachEdge o e).1.edgeIx.In E := Indexes.In.tryRemoveAll (ixs := s.edgeIx) _ h
    rw [State.tryDetachEdges]
    split
    · exact ⟨h1, rfl⟩
    · obtain ⟨h2, h3⟩ := tryDetachEdges_in es h1
      exact ⟨h2, h3⟩

theorem tryDetachNode_in {s s' : State} {n : Nat} {b : Bool} (hs : s.tryDetachNode o n = some (s', b)) (h : s.edgeIx.In E) :
    s'.edgeIx.In E ∧ s'.nodeIx = s.nodeIx := by
  unfold State.tryDetachNode at hs
  split at hs
  · cases hs
  · rename_i es _
    obtain ⟨h1, h2⟩ := tryDetachEdges_in (o := o) es h
    simp only at hs
    split at hs
    · have hs := Option.some.inj hs
      rw [hs] at h1 h2
      exact ⟨h1, h2⟩
    · split at hs
      · cases hs
      · rename_i es' _
        obtain ⟨h3, h4⟩ := tryDetachEdges_in (o := o) es'
          (s := { (s.tryDetachEdges o es).1 with incoming := upd (s.tryDetachEdges o es).1.incoming n EdgeMap.empty }) h1
        split at hs
        · have hs := Option.some.inj hs
          rw [hs] at h3 h4
          exact ⟨h3, h4.trans h2⟩
        · cases hs; exact ⟨h3, h4.trans h2⟩

/-- A call adds to the indexes of a graph only nodes and edges of this graph. -/
theorem tryStep_in {s s' : State} {op : Op} {b : Bool} (hs : tryStep o s op = some (s', b)) (hn : s.nodeIx.In N) (he : s.edgeIx.In E)
    (h1 : ∀ ls ps, op = .newNode ls ps → N s.idBase) (h2 : ∀ x y l ps, op = .newEdge x y l ps → E s.idBase)
    (h3 : ∀ n k v, op = .setNodeProp n k v → N n) (h4 : ∀ e k v, op = .setEdgeProp e k v → E e)
    (h5 : ∀ ns, s.getNodes = some ns → ∀ n ∈ ns, N n) (h6 : ∀ es, s.getEdges = some es → ∀ e ∈ es, E e) :
    s'.nodeIx.In N ∧ s'.edgeIx.In E := by
  cases op with
  | newNode ls ps =>
    cases Option.some.inj hs
    exact ⟨Indexes.In.tryAddAll (h1 _ _ rfl) ps (ixs := s.nodeIx) hn, he⟩
  | newEdge x y l ps =>
    simp only [tryStep, State.tryNewEdge] at hs
    split at hs
    · cases hs
    · split at hs
      · cases hs
      · rename_i hc
        obtain ⟨p1, p2, im, om, rfl⟩ := connect_frame hc
        cases hs
        exact ⟨hn, Indexes.In.tryAddAll (h2 _ _ _ _ rfl) ps (ixs := s.edgeIx) he⟩
  | setLabels n ls => cases hs; exact ⟨hn, he⟩
  | setNodeProp n k v =>
    have hs := Option.some.inj hs
    unfold State.trySetNodeProp at hs
    simp only at hs
    split at hs
    · cases hs; exact ⟨hn, he⟩
    · rename_i ixs hr
      cases hs
      refine ⟨Indexes.In.tryAdd ?_ (h3 _ _ _ rfl), he⟩
      split at hr
      · cases hr; exact hn
      · exact hn.remove hr
  | removeNodeProp n k =>
    have hs := Option.some.inj hs
    unfold State.tryRemoveNodeProp State.removeNodeProp at hs
    cases hg : AMap.get (s.nProps n) k with
    | none => rw [hg] at hs; cases hs; exact ⟨hn, he⟩
    | some old =>
      rw [hg] at hs
      simp only at hs
      cases hr : Indexes.remove s.nodeIx k old n with
      | none => rw [hr] at hs; cases hs; exact ⟨hn, he⟩
      | some ixs => rw [hr] at hs; cases hs; exact ⟨hn.remove hr, he⟩
  | detach n =>
    obtain ⟨h7, h8⟩ := tryDetachNode_in hs he
    exact ⟨h8 ▸ hn, h7⟩
  | detachRemove n =>
    simp only [tryStep, State.tryDetachRemoveNode] at hs
    split at hs
    · cases hs
    · rename_i hd
      cases hs
      obtain ⟨h7, h8⟩ := tryDetachNode_in hd he
      exact ⟨h8 ▸ hn, h7⟩
    · rename_i s1 hd
      obtain ⟨h7, h8⟩ := tryDetachNode_in hd he
      cases hs
      exact ⟨Indexes.In.tryRemoveAll (ixs := s1.nodeIx) _ (h8 ▸ hn), h7⟩
  | setEdgeLabel e l =>
    simp only [tryStep, Option.map_eq_some_iff] at hs
    obtain ⟨s1, hs1, hs⟩ := hs
    cases hs
    unfold State.setEdgeLabel at hs1
    split at hs1
    · cases hs1; exact ⟨hn, he⟩
    · obtain ⟨_, _, _, c4, c5⟩ := connect_props hs1
      exact ⟨by rw [c4]; exact hn, by rw [c5]; exact he⟩
  | setEdgeProp e k v =>
    have hs := Option.some.inj hs
    unfold State.trySetEdgeProp at hs
    simp only at hs
    split at hs
    · cases hs; exact ⟨hn, he⟩
    · rename_i ixs hr
      cases hs
      refine ⟨hn, Indexes.In.tryAdd ?_ (h4 _ _ _ rfl)⟩
      split at hr
      · cases hr; exact he
      · exact he.remove hr
  | removeEdgeProp e k =>
    have hs := Option.some.inj hs
    unfold State.tryRemoveEdgeProp State.removeEdgeProp at hs
    cases hg : AMap.get (s.eProps e) k with
    | none => rw [hg] at hs; cases hs; exact ⟨hn, he⟩
    | some old =>
      rw [hg] at hs
      simp only at hs
      cases hr : Indexes.remove s.edgeIx k old e with
      | none => rw [hr] at hs; cases hs; exact ⟨hn, he⟩
      | some ixs => rw [hr] at hs; cases hs; exact ⟨hn, he.remove hr⟩
  | removeEdge e => cases hs; exact ⟨hn, he⟩
  | addNodeIndex k t =>
    simp only [tryStep, State.tryAddNodeIndex] at hs
    split at hs
    · cases hs; exact ⟨hn, he⟩
    · split at hs
      · cases hs
      · rename_i ns hl
        cases hs
        exact ⟨hn.set (Index.In.tryAddObjects (h5 ns hl) (Index.In.new N t)) k, he⟩
  | addEdgeIndex k t =>
    simp only [tryStep, State.tryAddEdgeIndex] at hs
    split at hs
    · cases hs; exact ⟨hn, he⟩
    · split at hs
      · cases hs
      · rename_i es hl
        cases hs
        exact ⟨hn, he.set (Index.In.tryAddObjects (h6 es hl) (Index.In.new E t)) k⟩

/-! ## The values of an index depend on its objects only -/

theorem BRep.support {t : SetTree} {val : Nat → Option Value} (h : BRep t val) (hi : (Index.btree t).In N) {x : Nat} {v : Value}
    (hv : val x = some v) : N x := by
  obtain ⟨e, he, hx⟩ := h.full x v hv
  obtain ⟨p, hp, rfl⟩ := List.mem_map.1 hx
  have := hi e he p hp
  rw [(h.ok e he).1.same p hp] at this
  exact this

theorem HRep.support {t : HashIx} {O : List Nat} {val : Nat → Option Value} (h : HRep (t.without O) val) (hi : (Index.hash t).In N)
    {x : Nat} {v : Value} (hv : val x = some v) : N x := by
  obtain ⟨k, fs, c, _, h1, h2⟩ := h.full x v hv
  have := (AMap.mem_of_get (h.sets k fs x c h1 h2).1)
  exact hi _ (List.mem_filter.1 this).1

open Classical in
theorem TRep.restrict {ix : Index} {val : Nat → Option Value} (h : TRep ix val) (hi : ix.In N) :
    TRep ix (fun x => if N x then val x else none) := by
  have key : (∀ x v, val x = some v → N x) → (fun x => if N x then val x else none) = val := by
    intro hx
    funext x
    split
    · rfl
    · rename_i hn
      cases hv : val x with
      | none => rfl
      | some v => exact absurd (hx x v hv) hn
  cases ix with
  | btree t =>
    have h : BRep t val := h
    rw [key (fun x v hv => h.support hi hv)]
    exact h
  | hash t =>
    obtain ⟨O, hr, ho⟩ := h
    rw [key (fun x v hv => hr.support hi hv)]
    exact ⟨O, hr, ho⟩

open Classical in
theorem TryRep.restrict {ix : Index} {val : Nat → Option Value} (h : TryRep ix val) (hi : ix.In N) :
    TryRep ix (fun x => if N x then val x else none) := by
  cases ix with
  | btree t => exact TRep.restrict (ix := .btree t) h hi
  | hash t =>
    obtain ⟨O, hr, ho, hn, hp, h0⟩ := h
    refine ⟨O, ?_, ho, hn, fun p hm => ?_, fun hf id => by simp [h0 hf id]⟩
    · have : (fun id => keyed (if N id then val id else none)) = fun id => keyed (val id) := by
        funext x
        split
        · rfl
        · rename_i hx
          cases hv : keyed (val x) with
          | none => rfl
          | some v => exact absurd (hr.support hi hv) hx
      rw [this]
      exact hr
    · have : N p.2 := hi p (List.mem_filter.1 hm).1
      simp only [if_pos this]
      exact hp p hm

theorem IxsSub.other {R : Index → (Nat → Option Value) → Prop}
    (hR : ∀ ix val, R ix val → ix.In N → ∃ val', R ix val' ∧ ∀ x v, val' x = some v → N x ∧ val x = some v)
    {ixs : Indexes} {P P' : String → Nat → Option Value} (h : IxsSub R ixs P) (hi : ixs.In N)
    (hp : ∀ k x v, N x → P k x = some v → P' k x = some v) : IxsSub R ixs P' := by
  intro k ix hk
  obtain ⟨val, h1, h2⟩ := h k ix hk
  obtain ⟨val', h3, h4⟩ := hR ix val h1 (hi k ix (AMap.mem_of_get hk))
  exact ⟨val', h3, fun x v hv => hp k x v (h4 x v hv).1 (h2 x v (h4 x v hv).2)⟩

theorem restrict_try (ix : Index) (val : Nat → Option Value) (h : TryRep ix val) (hi : ix.In N) :
    ∃ val', TryRep ix val' ∧ ∀ x v, val' x = some v → N x ∧ val x = some v :=
  ⟨_, h.restrict hi, fun x v hv => by split at hv <;> simp_all⟩

theorem restrict_t (ix : Index) (val : Nat → Option Value) (h : TRep ix val) (hi : ix.In N) :
    ∃ val', TRep ix val' ∧ ∀ x v, val' x = some v → N x ∧ val x = some v :=
  ⟨_, h.restrict hi, fun x v hv => by split at hv <;> simp_all⟩

end LPG
