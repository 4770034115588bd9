import Verif.Proofs.Rename
import Verif.Spec.Alone
/-! The operations and the queries of a graph commute with an injective renaming of the ids. -/
namespace LPG
open State

theorem ORel.elim {α β : Type} {R : α → β → Prop} {x : Option α} {y : Option β} (h : ORel R x y) :
    (x = Option.none ∧ y = Option.none) ∨ ∃ a b, x = Option.some a ∧ y = Option.some b ∧ R a b := by
  cases h with
  | none => exact Or.inl ⟨rfl, rfl⟩
  | some h => exact Or.inr ⟨_, _, rfl, rfl, h⟩

theorem ORel.mono {α β : Type} {R S : α → β → Prop} {x : Option α} {y : Option β} (h : ORel R x y) (hRS : ∀ a b, R a b → S a b) :
    ORel S x y := by
  cases h with
  | none => exact .none
  | some h => exact .some (hRS _ _ h)

/-- `s'` is `s` with the ids renamed by `ρ`, on the nodes in `N` and the edges in `E`. -/
structure Ren (N E : Nat → Prop) (ρ : Nat → Nat) (s s' : State) : Prop where
  allNodes : s'.allNodes = s.allNodes.ren ρ
  allEdges : s'.allEdges = s.allEdges.ren ρ
  byLabel : s'.byLabel = s.byLabel.ren ρ
  nodeIx : s'.nodeIx = s.nodeIx.ren ρ
  edgeIx : s'.edgeIx = s.edgeIx.ren ρ
  next : FieldRen N ρ (Option.map ρ) s.nptr.next s'.nptr.next
  prev : FieldRen N ρ (Option.map ρ) s.nptr.prev s'.nptr.prev
  nLabels : FieldRen N ρ id s.nLabels s'.nLabels
  nProps : FieldRen N ρ id s.nProps s'.nProps
  incoming : FieldRen N ρ (EdgeMap.ren ρ) s.incoming s'.incoming
  outgoing : FieldRen N ρ (EdgeMap.ren ρ) s.outgoing s'.outgoing
  eFrom : FieldRen E ρ ρ s.eFrom s'.eFrom
  eTo : FieldRen E ρ ρ s.eTo s'.eTo
  eLabel : FieldRen E ρ id s.eLabel s'.eLabel
  eProps : FieldRen E ρ id s.eProps s'.eProps
  slot0 : SlotRen E ρ s.slot0 s'.slot0
  slot1 : SlotRen E ρ s.slot1 s'.slot1
  slot2 : SlotRen E ρ s.slot2 s'.slot2

/-- The ids in use are below the counters. -/
structure Below (N E : Nat → Prop) (ρ : Nat → Nat) (s s' : State) : Prop where
  n : ∀ x, N (ρ x) → x < s.idBase
  e : ∀ x, E (ρ x) → x < s.idBase
  n' : ∀ x, N x → x < s'.idBase
  e' : ∀ x, E x → x < s'.idBase

theorem Below.of_base {N E : Nat → Prop} {ρ : Nat → Nat} {s s' t t' : State} (b : Below N E ρ s s')
    (h : t.idBase = s.idBase) (h' : t'.idBase = s'.idBase) : Below N E ρ t t' :=
  ⟨fun x hx => by rw [h]; exact b.n x hx, fun x hx => by rw [h]; exact b.e x hx,
   fun x hx => by rw [h']; exact b.n' x hx, fun x hx => by rw [h']; exact b.e' x hx⟩

variable {N E : Nat → Prop} {ρ : Nat → Nat} (hρ : Function.Injective ρ) {s s' : State}

include hρ in
theorem Ren.connect (r : Ren N E ρ s s') (c : Closed N E s') {e : Nat} (he : E (ρ e)) :
    ORel (Ren N E ρ) (s.connect e) (s'.connect (ρ e)) := by
  obtain ⟨c1, c2⟩ := c.ends _ he
  have f1 := r.eFrom e he
  have f2 := r.eTo e he
  rw [f1] at c1
  rw [f2] at c2
  have m1 := (c.maps _ c1).2
  have m2 := (c.maps _ c2).1
  rw [r.outgoing _ c1] at m1
  rw [r.incoming _ c2] at m2
  unfold State.connect
  rw [f2, r.incoming _ c2]
  rcases (EdgeMap.add_ren hρ r.slot2 r.eLabel _ m2.1 he).elim with ⟨h1, h2⟩ | ⟨⟨p, m⟩, ⟨p', m'⟩, h1, h2, h3, h4⟩
  · rw [h1, h2]; exact .none
  · rw [h1, h2]
    dsimp only at h3 h4 ⊢
    rw [f1, r.outgoing _ c1]
    rcases (EdgeMap.add_ren hρ r.slot1 r.eLabel _ m1.1 he).elim with ⟨k1, k2⟩ | ⟨⟨q, om⟩, ⟨q', om'⟩, k1, k2, k3, k4⟩
    · rw [k1, k2]; exact .none
    · rw [k1, k2]
      dsimp only at k3 k4
      exact .some { r with
        incoming := r.incoming.upd hρ (fun _ => h4), outgoing := r.outgoing.upd hρ (fun _ => k4), slot1 := k3, slot2 := h3 }

include hρ in
theorem Ren.disconnect (r : Ren N E ρ s s') (c : Closed N E s') {e : Nat} (he : E (ρ e)) :
    Ren N E ρ (s.disconnect e) (s'.disconnect (ρ e)) := by
  obtain ⟨c1, c2⟩ := c.ends _ he
  have f1 := r.eFrom e he
  have f2 := r.eTo e he
  rw [f1] at c1
  rw [f2] at c2
  unfold State.disconnect
  dsimp only
  rw [f1, f2, r.incoming _ c2, r.outgoing _ c1]
  obtain ⟨h1, h2⟩ := EdgeMap.remove_ren hρ r.slot2 r.eLabel (s.incoming (s.eTo e)) he
  obtain ⟨k1, k2⟩ := EdgeMap.remove_ren hρ r.slot1 r.eLabel (s.outgoing (s.eFrom e)) he
  exact { r with
    incoming := r.incoming.upd hρ (fun _ => h2), outgoing := r.outgoing.upd hρ (fun _ => k2), slot1 := k1, slot2 := h1 }

include hρ in
theorem Ren.dropEdge (r : Ren N E ρ s s') {e : Nat} (he : E (ρ e)) : Ren N E ρ (s.dropEdge e) (s'.dropEdge (ρ e)) := by
  unfold State.dropEdge
  dsimp only
  rw [r.allEdges]
  obtain ⟨h1, h2⟩ := EdgeMap.remove_ren hρ r.slot0 r.eLabel s.allEdges he
  exact { r with slot0 := h1, allEdges := h2 }

include hρ in
theorem Ren.detachEdge (r : Ren N E ρ s s') (c : Closed N E s') {e : Nat} (he : E (ρ e)) :
    ORel (Ren N E ρ) (s.detachEdge e) (s'.detachEdge (ρ e)) := by
  have r1 := (r.disconnect hρ c he).dropEdge hρ he
  unfold State.detachEdge
  dsimp only
  have ep : ((s'.disconnect (ρ e)).dropEdge (ρ e)).eProps (ρ e) = ((s.disconnect e).dropEdge e).eProps e := r1.eProps e he
  rw [r1.edgeIx, ep, Indexes.removeAll_ren hρ]
  cases Indexes.removeAll e (((s.disconnect e).dropEdge e).eProps e) ((s.disconnect e).dropEdge e).edgeIx with
  | none => exact .none
  | some ixs => exact .some { r1 with edgeIx := rfl }

include hρ in
theorem Ren.detachEdges : ∀ (es : List Nat) {s s' : State}, Ren N E ρ s s' → Closed N E s' → (∀ e ∈ es, E (ρ e)) →
    ORel (Ren N E ρ) (s.detachEdges es) (s'.detachEdges (es.map ρ))
  | [], _, _, r, _, _ => .some r
  | e :: es, s, s', r, c, h => by
    have he := h e (by simp)
    rw [List.map_cons, State.detachEdges, State.detachEdges]
    rcases (r.detachEdge hρ c he).elim with ⟨h1, h2⟩ | ⟨t, t', h1, h2, h3⟩
    · rw [h1, h2]; exact .none
    · rw [h1, h2]
      exact Ren.detachEdges es h3 (c.detachEdge he h2).1 (fun x hx => h x (by simp [hx]))

theorem Ren.enumIn (r : Ren N E ρ s s') (c : Closed N E s') (b : Below N E ρ s s') {n : Nat} (hn : N (ρ n)) :
    (s'.incoming (ρ n)).enum s'.slot2 s'.idBase = ((s.incoming n).enum s.slot2 s.idBase).map (List.map ρ) := by
  have hm := (c.maps _ hn).1
  rw [r.incoming _ hn] at hm ⊢
  exact EdgeMap.enum_ren r.slot2 c.sl2 b.e b.e' (Nat.le_refl _) (Nat.le_refl _) hm

theorem Ren.enumOut (r : Ren N E ρ s s') (c : Closed N E s') (b : Below N E ρ s s') {n : Nat} (hn : N (ρ n)) :
    (s'.outgoing (ρ n)).enum s'.slot1 s'.idBase = ((s.outgoing n).enum s.slot1 s.idBase).map (List.map ρ) := by
  have hm := (c.maps _ hn).2
  rw [r.outgoing _ hn] at hm ⊢
  exact EdgeMap.enum_ren r.slot1 c.sl1 b.e b.e' (Nat.le_refl _) (Nat.le_refl _) hm

theorem detachEdges_idBase : ∀ {es : List Nat} {s t : State}, s.detachEdges es = some t → t.idBase = s.idBase
  | [], s, t, h => by simp [State.detachEdges] at h; rw [h]
  | e :: es, s, t, h => by
    rw [State.detachEdges] at h
    split at h
    · cases h
    · rename_i s1 h1
      rw [detachEdges_idBase h]
      unfold State.detachEdge at h1
      dsimp only at h1
      split at h1
      · cases h1
      · cases h1; rfl

include hρ in
theorem Ren.detachNode (r : Ren N E ρ s s') (c : Closed N E s') (b : Below N E ρ s s') {n : Nat} (hn : N (ρ n)) :
    ORel (Ren N E ρ) (s.detachNode n) (s'.detachNode (ρ n)) := by
  unfold State.detachNode
  have e1 := r.enumIn c b hn
  rw [e1]
  cases h1 : (s.incoming n).enum s.slot2 s.idBase with
  | none => exact .none
  | some es =>
    rw [h1, Option.map_some] at e1
    have hes := EdgeMap.enum_in c.sl2 (c.maps _ hn).1 e1
    simp only [Option.map_some]
    rcases (Ren.detachEdges hρ es r c (fun e he => hes _ (List.mem_map.2 ⟨e, he, rfl⟩))).elim with ⟨k1, k2⟩ | ⟨t, t', k1, k2, k3⟩
    · rw [k1, k2]; exact .none
    · rw [k1, k2]
      dsimp only
      have c1 := (c.detachEdges hes k2).1
      have r2 : Ren N E ρ { t with incoming := upd t.incoming n EdgeMap.empty }
          { t' with incoming := upd t'.incoming (ρ n) EdgeMap.empty } :=
        { k3 with incoming := k3.incoming.upd hρ (fun _ => rfl) }
      have c2 := (c1.clearIn hn).1
      have b2 : Below N E ρ { t with incoming := upd t.incoming n EdgeMap.empty }
          { t' with incoming := upd t'.incoming (ρ n) EdgeMap.empty } :=
        b.of_base (show t.idBase = s.idBase from detachEdges_idBase k1) (show t'.idBase = s'.idBase from detachEdges_idBase k2)
      have e2 := r2.enumOut c2 b2 hn
      dsimp only at e2
      rw [e2]
      cases h2 : (t.outgoing n).enum t.slot1 t.idBase with
      | none => exact .none
      | some es2 =>
        rw [h2, Option.map_some] at e2
        have hes2 := EdgeMap.enum_in c2.sl1 (c2.maps _ hn).2 e2
        simp only [Option.map_some]
        rcases (Ren.detachEdges hρ es2 r2 c2 (fun e he => hes2 _ (List.mem_map.2 ⟨e, he, rfl⟩))).elim with
          ⟨l1, l2⟩ | ⟨u, u', l1, l2, l3⟩
        · rw [l1, l2]; exact .none
        · rw [l1, l2]
          exact .some { l3 with outgoing := l3.outgoing.upd hρ (fun _ => rfl) }

include hρ in
theorem Ren.detachRemoveNode (r : Ren N E ρ s s') (c : Closed N E s') (b : Below N E ρ s s') {n : Nat} (hn : N (ρ n)) :
    ORel (Ren N E ρ) (s.detachRemoveNode n) (s'.detachRemoveNode (ρ n)) := by
  unfold State.detachRemoveNode
  rcases (r.detachNode hρ c b hn).elim with ⟨k1, k2⟩ | ⟨t, t', k1, k2, k3⟩
  · rw [k1, k2]; exact .none
  · rw [k1, k2]
    dsimp only
    have l1 : t'.nLabels (ρ n) = t.nLabels n := k3.nLabels n hn
    have l2 : t'.nProps (ρ n) = t.nProps n := k3.nProps n hn
    rw [l1, l2, k3.allNodes, k3.nodeIx, k3.byLabel, Indexes.removeAll_ren hρ, NodeMap.remove_ren hρ]
    obtain ⟨a1, a2, a3⟩ := NList.remove_ren hρ k3.next k3.prev t.allNodes hn
    cases Indexes.removeAll n (t.nProps n) t.nodeIx with
    | none => exact .none
    | some ixs => exact .some { k3 with next := a1, prev := a2, allNodes := a3, byLabel := rfl, nodeIx := rfl }

include hρ in
theorem Ren.setEdgeLabel (r : Ren N E ρ s s') (c : Closed N E s') {e : Nat} (he : E (ρ e)) (l : String) :
    ORel (Ren N E ρ) (s.setEdgeLabel e l) (s'.setEdgeLabel (ρ e) l) := by
  unfold State.setEdgeLabel
  have hl : s'.eLabel (ρ e) = s.eLabel e := r.eLabel e he
  rw [hl]
  split
  · exact .some r
  · have r1 := r.disconnect hρ c he
    have c1 := (c.disconnect he).1
    have r2 : Ren N E ρ { s.disconnect e with eLabel := upd (s.disconnect e).eLabel e l }
        { s'.disconnect (ρ e) with eLabel := upd (s'.disconnect (ρ e)).eLabel (ρ e) l } :=
      { r1 with eLabel := r1.eLabel.upd hρ (fun _ => rfl) }
    have c2 : Closed N E { s'.disconnect (ρ e) with eLabel := upd (s'.disconnect (ρ e)).eLabel (ρ e) l } :=
      { c1 with }
    exact r2.connect hρ c2 he

include hρ in
theorem Ren.setNodeProp (r : Ren N E ρ s s') {n : Nat} (hn : N (ρ n)) (k : String) (v : Value) :
    ORel (Ren N E ρ) (s.setNodeProp n k v) (s'.setNodeProp (ρ n) k v) := by
  unfold State.setNodeProp
  have l2 : s'.nProps (ρ n) = s.nProps n := r.nProps n hn
  dsimp only
  rw [l2, r.nodeIx]
  have fin : ∀ ixs : Indexes, ORel (Ren N E ρ)
      (match Indexes.add ixs k v n with
        | none => none
        | some ixs => some { s with nProps := upd s.nProps n ((s.nProps n).set k v), nodeIx := ixs })
      (match Indexes.add (ixs.ren ρ) k v (ρ n) with
        | none => none
        | some ixs => some { s' with nProps := upd s'.nProps (ρ n) ((s.nProps n).set k v), nodeIx := ixs }) := by
    intro ixs
    rw [Indexes.add_ren hρ]
    cases Indexes.add ixs k v n with
    | none => exact .none
    | some ixs => exact .some { r with nProps := r.nProps.upd hρ (fun _ => rfl), nodeIx := rfl }
  cases (s.nProps n).get k with
  | none => exact fin _
  | some old =>
    dsimp only
    rw [Indexes.remove_ren hρ]
    cases Indexes.remove s.nodeIx k old n with
    | none => exact .none
    | some ixs => exact fin ixs

include hρ in
theorem Ren.setEdgeProp (r : Ren N E ρ s s') {n : Nat} (hn : E (ρ n)) (k : String) (v : Value) :
    ORel (Ren N E ρ) (s.setEdgeProp n k v) (s'.setEdgeProp (ρ n) k v) := by
  unfold State.setEdgeProp
  have l2 : s'.eProps (ρ n) = s.eProps n := r.eProps n hn
  dsimp only
  rw [l2, r.edgeIx]
  have fin : ∀ ixs : Indexes, ORel (Ren N E ρ)
      (match Indexes.add ixs k v n with
        | none => none
        | some ixs => some { s with eProps := upd s.eProps n ((s.eProps n).set k v), edgeIx := ixs })
      (match Indexes.add (ixs.ren ρ) k v (ρ n) with
        | none => none
        | some ixs => some { s' with eProps := upd s'.eProps (ρ n) ((s.eProps n).set k v), edgeIx := ixs }) := by
    intro ixs
    rw [Indexes.add_ren hρ]
    cases Indexes.add ixs k v n with
    | none => exact .none
    | some ixs => exact .some { r with eProps := r.eProps.upd hρ (fun _ => rfl), edgeIx := rfl }
  cases (s.eProps n).get k with
  | none => exact fin _
  | some old =>
    dsimp only
    rw [Indexes.remove_ren hρ]
    cases Indexes.remove s.edgeIx k old n with
    | none => exact .none
    | some ixs => exact fin ixs

include hρ in
theorem Ren.removeNodeProp (r : Ren N E ρ s s') {n : Nat} (hn : N (ρ n)) (k : String) :
    ORel (Ren N E ρ) (s.removeNodeProp n k) (s'.removeNodeProp (ρ n) k) := by
  unfold State.removeNodeProp
  have l2 : s'.nProps (ρ n) = s.nProps n := r.nProps n hn
  rw [l2, r.nodeIx]
  cases (s.nProps n).get k with
  | none => exact .some r
  | some old =>
    dsimp only
    rw [Indexes.remove_ren hρ]
    cases Indexes.remove s.nodeIx k old n with
    | none => exact .none
    | some ixs => exact .some { r with nProps := r.nProps.upd hρ (fun _ => rfl), nodeIx := rfl }

include hρ in
theorem Ren.removeEdgeProp (r : Ren N E ρ s s') {n : Nat} (hn : E (ρ n)) (k : String) :
    ORel (Ren N E ρ) (s.removeEdgeProp n k) (s'.removeEdgeProp (ρ n) k) := by
  unfold State.removeEdgeProp
  have l2 : s'.eProps (ρ n) = s.eProps n := r.eProps n hn
  rw [l2, r.edgeIx]
  cases (s.eProps n).get k with
  | none => exact .some r
  | some old =>
    dsimp only
    rw [Indexes.remove_ren hρ]
    cases Indexes.remove s.edgeIx k old n with
    | none => exact .none
    | some ixs => exact .some { r with eProps := r.eProps.upd hρ (fun _ => rfl), edgeIx := rfl }

include hρ in
theorem Ren.setLabels (r : Ren N E ρ s s') {n : Nat} (hn : N (ρ n)) (ls : List String) :
    Ren N E ρ (s.setLabels n ls) (s'.setLabels (ρ n) ls) := by
  unfold State.setLabels
  have l1 : s'.nLabels (ρ n) = s.nLabels n := r.nLabels n hn
  rw [l1, r.byLabel, NodeMap.replace_ren hρ]
  exact { r with byLabel := rfl, nLabels := r.nLabels.upd hρ (fun _ => rfl) }

theorem Ren.getNodes (r : Ren N E ρ s s') (c : Closed N E s') (b : Below N E ρ s s') :
    s'.getNodes = s.getNodes.map (List.map ρ) := by
  unfold State.getNodes
  have hh := c.head
  rw [r.allNodes] at hh ⊢
  exact walk_ren_fuel r.next (fun x hx => (c.link x hx).1) b.n b.n' (Nat.le_refl _) (Nat.le_refl _) _ hh

theorem Ren.getEdges (r : Ren N E ρ s s') (c : Closed N E s') (b : Below N E ρ s s') :
    s'.getEdges = s.getEdges.map (List.map ρ) := by
  unfold State.getEdges
  have hh := c.all
  rw [r.allEdges] at hh ⊢
  exact EdgeMap.enum_ren r.slot0 c.sl0 b.e b.e' (Nat.le_refl _) (Nat.le_refl _) hh

theorem Index.new_ren (t : IndexType) : (Index.new t).ren ρ = Index.new t := by cases t <;> rfl

include hρ in
theorem Ren.addNodeIndex (r : Ren N E ρ s s') (c : Closed N E s') (b : Below N E ρ s s') (k : String) (t : IndexType) :
    ORel (Ren N E ρ) (s.addNodeIndex k t) (s'.addNodeIndex k t) := by
  unfold State.addNodeIndex
  have hg : AMap.get (s.nodeIx.ren ρ) k = (AMap.get s.nodeIx k).map (Index.ren ρ) := get_renV _ _ _
  have e := r.getNodes c b
  rw [r.nodeIx, hg, e]
  cases AMap.get s.nodeIx k with
  | some _ => exact .some r
  | none =>
    cases hn : s.getNodes with
    | none => exact .none
    | some ns =>
      rw [hn, Option.map_some] at e
      have hin : ∀ x ∈ ns, N (ρ x) := fun x hx =>
        walk_in (fun x hx => (c.link x hx).1) c.head e _ (List.mem_map.2 ⟨x, hx, rfl⟩)
      simp only [Option.map_none, Option.map_some]
      have := Index.addObjects_ren hρ (key := k) r.nProps ns (Index.new t) hin
      rw [Index.new_ren] at this
      rw [this]
      cases Index.addObjects k s.nProps ns (Index.new t) with
      | none => exact .none
      | some ix => exact .some { r with nodeIx := set_renV _ _ _ _ }

include hρ in
theorem Ren.addEdgeIndex (r : Ren N E ρ s s') (c : Closed N E s') (b : Below N E ρ s s') (k : String) (t : IndexType) :
    ORel (Ren N E ρ) (s.addEdgeIndex k t) (s'.addEdgeIndex k t) := by
  unfold State.addEdgeIndex
  have hg : AMap.get (s.edgeIx.ren ρ) k = (AMap.get s.edgeIx k).map (Index.ren ρ) := get_renV _ _ _
  have e := r.getEdges c b
  rw [r.edgeIx, hg, e]
  cases AMap.get s.edgeIx k with
  | some _ => exact .some r
  | none =>
    cases hn : s.getEdges with
    | none => exact .none
    | some ns =>
      rw [hn, Option.map_some] at e
      have hin : ∀ x ∈ ns, E (ρ x) := fun x hx => EdgeMap.enum_in c.sl0 c.all e _ (List.mem_map.2 ⟨x, hx, rfl⟩)
      simp only [Option.map_none, Option.map_some]
      have := Index.addObjects_ren hρ (key := k) r.eProps ns (Index.new t) hin
      rw [Index.new_ren] at this
      rw [this]
      cases Index.addObjects k s.eProps ns (Index.new t) with
      | none => exact .none
      | some ix => exact .some { r with edgeIx := set_renV _ _ _ _ }

include hρ in
theorem Ren.newNode (r : Ren N E ρ s s') (hb : s'.idBase = ρ s.idBase) (ls : List String) (ps : Props) :
    ORel (Ren (fun y => N y ∨ y = ρ s.idBase) E ρ) (s.newNode ls ps) (s'.newNode ls ps) := by
  unfold State.newNode
  dsimp only
  have n1 := r.next.fresh hρ s.idBase none
  have n2 := r.prev.fresh hρ s.idBase none
  obtain ⟨a1, a2, a3⟩ := NList.add_ren hρ
    (p := { next := upd s.nptr.next s.idBase none, prev := upd s.nptr.prev s.idBase none })
    (p' := { next := upd s'.nptr.next (ρ s.idBase) none, prev := upd s'.nptr.prev (ρ s.idBase) none })
    n1 n2 s.allNodes s.idBase
  rw [hb, r.nodeIx, Indexes.addAll_ren hρ]
  cases Indexes.addAll s.idBase ps s.nodeIx with
  | none => exact .none
  | some ixs =>
    refine .some ⟨?_, r.allEdges, ?_, rfl, r.edgeIx, ?_, ?_, r.nLabels.fresh hρ s.idBase ls, r.nProps.fresh hρ s.idBase ps,
      r.incoming.fresh hρ s.idBase EdgeMap.empty, r.outgoing.fresh hρ s.idBase EdgeMap.empty, r.eFrom, r.eTo, r.eLabel,
      r.eProps, r.slot0, r.slot1, r.slot2⟩
    · dsimp only; rw [r.allNodes]; exact a3
    · dsimp only; rw [r.byLabel, NodeMap.add_ren hρ]
    · dsimp only; rw [r.allNodes]; exact a1
    · dsimp only; rw [r.allNodes]; exact a2

theorem Closed.allocEdge (c : Closed N E s) {a b : Nat} (ha : N a) (hb : N b) (l : String) (ps : Props) :
    Closed N (fun x => E x ∨ x = s.idBase) (s.allocEdge a b l ps) := by
  have m2 : ∀ x, E x → E x ∨ x = s.idBase := fun x h => Or.inl h
  have sl : ∀ {P : Slot}, SlotIn E P → SlotIn (fun x => E x ∨ x = s.idBase) (upd P s.idBase ⟨none, none⟩) := by
    intro P h e he
    rw [upd_apply]
    split
    · exact ⟨PIn.none, PIn.none⟩
    · rename_i hne
      have := h e (he.resolve_right hne)
      exact ⟨this.1.mono m2, this.2.mono m2⟩
  refine ⟨c.head, c.tail, c.link, ?_, ?_, c.all.mono m2, sl c.sl0, sl c.sl1, sl c.sl2, c.lbl, c.nix, ?_⟩
  · intro e he
    simp only [State.allocEdge, upd_apply]
    split
    · exact ⟨ha, hb⟩
    · rename_i hne; exact c.ends e (he.resolve_right hne)
  · exact fun n hn => ⟨(c.maps n hn).1.mono m2, (c.maps n hn).2.mono m2⟩
  · exact fun k ix hm => (c.eix k ix hm).mono m2

include hρ in
theorem Ren.allocEdge (r : Ren N E ρ s s') (hb : s'.idBase = ρ s.idBase) (x y : Nat) (l : String) (ps : Props) :
    Ren N (fun z => E z ∨ z = ρ s.idBase) ρ (s.allocEdge x y l ps) (s'.allocEdge (ρ x) (ρ y) l ps) := by
  unfold State.allocEdge
  rw [hb]
  exact ⟨r.allNodes, r.allEdges, r.byLabel, r.nodeIx, r.edgeIx, r.next, r.prev, r.nLabels, r.nProps, r.incoming, r.outgoing,
    r.eFrom.fresh hρ s.idBase x, r.eTo.fresh hρ s.idBase y, r.eLabel.fresh hρ s.idBase l, r.eProps.fresh hρ s.idBase ps,
    FieldRen.fresh (f := Elem.ren ρ) hρ r.slot0 s.idBase ⟨none, none⟩, FieldRen.fresh (f := Elem.ren ρ) hρ r.slot1 s.idBase ⟨none, none⟩,
    FieldRen.fresh (f := Elem.ren ρ) hρ r.slot2 s.idBase ⟨none, none⟩⟩

include hρ in
theorem Ren.newEdge (r : Ren N E ρ s s') (c : Closed N E s') (hb : s'.idBase = ρ s.idBase) {x y : Nat}
    (hx : N (ρ x)) (hy : N (ρ y)) (l : String) (ps : Props) :
    ORel (Ren N (fun z => E z ∨ z = ρ s.idBase) ρ) (s.newEdge x y l ps) (s'.newEdge (ρ x) (ρ y) l ps) := by
  have r0 := r.allocEdge hρ hb x y l ps
  have c0 := c.allocEdge hx hy l ps
  rw [hb] at c0
  have he : (fun z => E z ∨ z = ρ s.idBase) (ρ s.idBase) := Or.inr rfl
  rw [newEdge_eq, newEdge_eq, r0.allEdges, hb]
  have hm := c0.all
  rw [r0.allEdges] at hm
  rcases (EdgeMap.add_ren hρ r0.slot0 r0.eLabel _ hm.1 he).elim with ⟨h1, h2⟩ | ⟨⟨p, m⟩, ⟨p', m'⟩, h1, h2, h3, h4⟩
  · rw [h1, h2]; exact .none
  · rw [h1, h2]
    dsimp only at h3 h4 ⊢
    have r1 : Ren N (fun z => E z ∨ z = ρ s.idBase) ρ { s.allocEdge x y l ps with slot0 := p, allEdges := m }
        { s'.allocEdge (ρ x) (ρ y) l ps with slot0 := p', allEdges := m' } := { r0 with slot0 := h3, allEdges := h4 }
    obtain ⟨a1, b1, d1⟩ := EdgeMap.add_in c0.sl0 hm he h2
    have c1 : Closed N (fun z => E z ∨ z = ρ s.idBase) { s'.allocEdge (ρ x) (ρ y) l ps with slot0 := p', allEdges := m' } :=
      { c0 with sl0 := a1, all := d1 }
    rcases (r1.connect hρ c1 he).elim with ⟨k1, k2⟩ | ⟨t, t', k1, k2, k3⟩
    · rw [k1, k2]; exact .none
    · rw [k1, k2]
      dsimp only
      rw [k3.edgeIx, Indexes.addAll_ren hρ]
      cases Indexes.addAll s.idBase ps t.edgeIx with
      | none => exact .none
      | some ixs => exact .some { k3 with edgeIx := rfl }

/-- Every call: both panic, or both return and the states still correspond. -/
theorem Ren.step (hρ : Function.Injective ρ) (r : Ren N E ρ s s') (c : Closed N E s') (b : Below N E ρ s s') {op : Op}
    (ha : (op.ren ρ).ArgsIn N E) (hb : s'.newId (op.ren ρ) = (s.newId op).map ρ) :
    ORel (Ren (fun x => N x ∨ (op.ren ρ).freshN s' x) (fun x => E x ∨ (op.ren ρ).freshE s' x) ρ)
      (LPG.step s op) (LPG.step s' (op.ren ρ)) := by
  have weak : ∀ {x y : Option State}, ORel (Ren N E ρ) x y → (∀ x, ¬ (op.ren ρ).freshN s' x) → (∀ x, ¬ (op.ren ρ).freshE s' x) →
      ORel (Ren (fun x => N x ∨ (op.ren ρ).freshN s' x) (fun x => E x ∨ (op.ren ρ).freshE s' x) ρ) x y := by
    intro x y g h1 h2
    have e1 : (fun x => N x ∨ (op.ren ρ).freshN s' x) = N := by funext x; simp [h1]
    have e2 : (fun x => E x ∨ (op.ren ρ).freshE s' x) = E := by funext x; simp [h2]
    rw [e1, e2]; exact g
  cases op with
  | newNode ls ps =>
    have h : s'.idBase = ρ s.idBase := Option.some.inj hb
    have := r.newNode hρ h (newStringSet ls) ps
    simp only [Op.ren, Op.freshN, Op.freshE, or_false, h]
    exact this
  | newEdge x y l ps =>
    have h : s'.idBase = ρ s.idBase := Option.some.inj hb
    have := r.newEdge hρ c h ha.1 ha.2 l ps
    simp only [Op.ren, Op.freshN, Op.freshE, or_false, h]
    exact this
  | setLabels n ls => exact weak (.some (r.setLabels hρ ha ls)) (fun _ h => h) (fun _ h => h)
  | setNodeProp n k v => exact weak (r.setNodeProp hρ ha k v) (fun _ h => h) (fun _ h => h)
  | removeNodeProp n k => exact weak (r.removeNodeProp hρ ha k) (fun _ h => h) (fun _ h => h)
  | detach n => exact weak (r.detachNode hρ c b ha) (fun _ h => h) (fun _ h => h)
  | detachRemove n => exact weak (r.detachRemoveNode hρ c b ha) (fun _ h => h) (fun _ h => h)
  | setEdgeLabel e l => exact weak (r.setEdgeLabel hρ c ha l) (fun _ h => h) (fun _ h => h)
  | setEdgeProp e k v => exact weak (r.setEdgeProp hρ ha k v) (fun _ h => h) (fun _ h => h)
  | removeEdgeProp e k => exact weak (r.removeEdgeProp hρ ha k) (fun _ h => h) (fun _ h => h)
  | removeEdge e => exact weak (.some ((r.disconnect hρ c ha).dropEdge hρ ha)) (fun _ h => h) (fun _ h => h)
  | addNodeIndex k t => exact weak (r.addNodeIndex hρ c b k t) (fun _ h => h) (fun _ h => h)
  | addEdgeIndex k t => exact weak (r.addEdgeIndex hρ c b k t) (fun _ h => h) (fun _ h => h)

/-! ## Queries -/

/-- an iterator with its size renamed -/
abbrev renIter (ρ : Nat → Nat) (r : List Nat × Int) : List Nat × Int := (r.1.map ρ, r.2)

theorem propIters_ren (ixs : Indexes) : ∀ ps : AMap String Value,
    propIters (ixs.ren ρ) ps = (propIters ixs ps).map (List.map (renIter ρ))
  | [] => rfl
  | (k, v) :: ps => by
    have hg : AMap.get (ixs.ren ρ) k = (AMap.get ixs k).map (Index.ren ρ) := get_renV _ _ _
    rw [propIters, propIters, hg, propIters_ren ixs ps]
    cases AMap.get ixs k with
    | none => rfl
    | some ix =>
      simp only [Option.map_some, Index.find_ren]
      cases ix.find v with
      | none => rfl
      | some r => cases propIters ixs ps <;> rfl

theorem minIter_ren : ∀ (rs : List (List Nat × Int)) (best : Option (List Nat × Int)),
    minIter (rs.map (renIter ρ)) (best.map (renIter ρ)) = (minIter rs best).map (renIter ρ)
  | [], _ => rfl
  | r :: rs, none => by
    simp only [List.map_cons, Option.map_none, minIter]
    by_cases h : r.2 = -1
    · rw [if_pos h, if_pos h]; exact minIter_ren rs none
    · rw [if_neg h, if_neg h]; exact minIter_ren rs (some r)
  | r :: rs, some b => by
    simp only [List.map_cons, Option.map_some, minIter]
    by_cases h : r.2 = -1
    · rw [if_pos h, if_pos h]; exact minIter_ren rs (some b)
    · rw [if_neg h, if_neg h, ← minIter_ren rs]
      simp only [Option.map_some, apply_ite (renIter ρ)]

theorem choose_ren {bl : List Nat × Int} {best : Option (List Nat × Int)} {f f' : Nat → Bool}
    {all : Option (List Nat)} (h1 : ∀ x ∈ bl.1, f' (ρ x) = f x) (h2 : ∀ b, best = some b → ∀ x ∈ b.1, f' (ρ x) = f x) :
    choose (renIter ρ bl) (best.map (renIter ρ)) f' (all.map (List.map ρ)) = (choose bl best f all).map (List.map ρ) := by
  have e1 : (bl.1.map ρ).filter f' = (bl.1.filter f).map ρ := by
    rw [List.filter_map]; exact congrArg _ (List.filter_congr h1)
  cases best with
  | none =>
    simp only [choose, Option.map_none, e1]
    split <;> rfl
  | some b =>
    have e2 : (b.1.map ρ).filter f' = (b.1.filter f).map ρ := by
      rw [List.filter_map]; exact congrArg _ (List.filter_congr (h2 b rfl))
    simp only [choose, Option.map_some, e1, e2]
    split <;> rfl

theorem cat2_ren (a b : Option (List Nat)) : cat2 (a.map (List.map ρ)) (b.map (List.map ρ)) = (cat2 a b).map (List.map ρ) := by
  cases a <;> cases b <;> simp [cat2]

theorem Ren.answers (r : Ren N E ρ s s') (c : Closed N E s') (b : Below N E ρ s s') : RenAnswers N E ρ s s' := by
  have hall := c.all
  rw [r.allEdges] at hall
  have hlbl := c.lbl
  rw [r.byLabel] at hlbl
  have gn := r.getNodes c b
  have ge := r.getEdges c b
  have ga : ∀ ls, s'.getEdgesWithAnyLabel ls = (s.getEdgesWithAnyLabel ls).map (List.map ρ) := by
    intro ls
    unfold State.getEdgesWithAnyLabel
    rw [r.allEdges]
    exact EdgeMap.enumAny_ren r.slot0 c.sl0 b.e b.e' (Nat.le_refl _) (Nat.le_refl _) hall r.eLabel ls
  have al : ∀ ls, s'.byLabel.allLabels s'.nLabels ls = (s.byLabel.allLabels s.nLabels ls).map (renIter ρ) := by
    intro ls; rw [r.byLabel]; exact NodeMap.allLabels_ren hlbl r.nLabels ls
  have mi : ∀ n, N (ρ n) → EMIn E ((s.incoming n).ren ρ) := fun n hn => by rw [← r.incoming n hn]; exact (c.maps _ hn).1
  have mo : ∀ n, N (ρ n) → EMIn E ((s.outgoing n).ren ρ) := fun n hn => by rw [← r.outgoing n hn]; exact (c.maps _ hn).2
  have i1 := fun n (hn : N (ρ n)) => r.enumIn c b hn
  have o1 := fun n (hn : N (ρ n)) => r.enumOut c b hn
  have i2 : ∀ n, N (ρ n) → ∀ l, (s'.incoming (ρ n)).enumLabel s'.slot2 s'.eLabel s'.idBase l =
      ((s.incoming n).enumLabel s.slot2 s.eLabel s.idBase l).map (List.map ρ) := by
    intro n hn l; rw [r.incoming n hn]
    exact EdgeMap.enumLabel_ren r.slot2 c.sl2 b.e b.e' (Nat.le_refl _) (Nat.le_refl _) (mi n hn) r.eLabel l
  have o2 : ∀ n, N (ρ n) → ∀ l, (s'.outgoing (ρ n)).enumLabel s'.slot1 s'.eLabel s'.idBase l =
      ((s.outgoing n).enumLabel s.slot1 s.eLabel s.idBase l).map (List.map ρ) := by
    intro n hn l; rw [r.outgoing n hn]
    exact EdgeMap.enumLabel_ren r.slot1 c.sl1 b.e b.e' (Nat.le_refl _) (Nat.le_refl _) (mo n hn) r.eLabel l
  have i3 : ∀ n, N (ρ n) → ∀ ls, s'.nodeEdgesAny1 (s'.incoming (ρ n)) s'.slot2 ls =
      (s.nodeEdgesAny1 (s.incoming n) s.slot2 ls).map (List.map ρ) := by
    intro n hn ls
    unfold State.nodeEdgesAny1
    rw [i1 n hn, r.incoming n hn, EdgeMap.enumAny_ren r.slot2 c.sl2 b.e b.e' (Nat.le_refl _) (Nat.le_refl _) (mi n hn) r.eLabel ls]
    split <;> rfl
  have o3 : ∀ n, N (ρ n) → ∀ ls, s'.nodeEdgesAny1 (s'.outgoing (ρ n)) s'.slot1 ls =
      (s.nodeEdgesAny1 (s.outgoing n) s.slot1 ls).map (List.map ρ) := by
    intro n hn ls
    unfold State.nodeEdgesAny1
    rw [o1 n hn, r.outgoing n hn, EdgeMap.enumAny_ren r.slot1 c.sl1 b.e b.e' (Nat.le_refl _) (Nat.le_refl _) (mo n hn) r.eLabel ls]
    split <;> rfl
  have inN : ∀ ns, s.getNodes = some ns → ∀ x ∈ ns, N (ρ x) := by
    intro ns h x hx
    rw [h, Option.map_some] at gn
    exact walk_in (fun x hx => (c.link x hx).1) c.head gn _ (List.mem_map.2 ⟨x, hx, rfl⟩)
  have inE : ∀ es, s.getEdges = some es → ∀ x ∈ es, E (ρ x) := by
    intro es h x hx
    rw [h, Option.map_some] at ge
    exact EdgeMap.enum_in c.sl0 c.all ge _ (List.mem_map.2 ⟨x, hx, rfl⟩)
  have hgN : ∀ k, AMap.get s'.nodeIx k = (AMap.get s.nodeIx k).map (Index.ren ρ) := fun k => by rw [r.nodeIx]; exact get_renV _ _ _
  have hgE : ∀ k, AMap.get s'.edgeIx k = (AMap.get s.edgeIx k).map (Index.ren ρ) := fun k => by rw [r.edgeIx]; exact get_renV _ _ _
  refine ⟨gn, ge, by simp [State.numNodes, r.allNodes, NList.ren], by simp [State.numEdges, r.allEdges, EdgeMap.ren], ga, ?_, ?_, ?_, ?_, ?_,
    fun n hn => r.nLabels n hn, ?_, ?_, ?_, ?_, fun e he => ⟨r.eFrom e he, r.eTo e he⟩, fun e he => r.eLabel e he, ?_⟩
  · intro ls; unfold State.getNodesWithAllLabels; rw [al]
    cases s.byLabel.allLabels s.nLabels ls <;> rfl
  · intro k
    unfold State.getNodesWithProperty
    rw [hgN, gn]
    cases AMap.get s.nodeIx k with
    | some ix => simp only [Option.map_some, Index.valueItr_ren]
    | none =>
      simp only [Option.map_none]
      cases hg : s.getNodes with
      | none => rfl
      | some ns =>
        simp only [Option.map_some, Option.some.injEq, List.filter_map]
        refine congrArg _ (List.filter_congr (fun x hx => ?_))
        have : s'.nProps (ρ x) = s.nProps x := r.nProps x (inN ns hg x hx)
        simp only [Function.comp, State.nodeProperty, this]
  · intro k
    unfold State.getEdgesWithProperty
    rw [hgE, ge]
    cases AMap.get s.edgeIx k with
    | some ix => simp only [Option.map_some, Index.valueItr_ren]
    | none =>
      simp only [Option.map_none]
      cases hg : s.getEdges with
      | none => rfl
      | some ns =>
        simp only [Option.map_some, Option.some.injEq, List.filter_map]
        refine congrArg _ (List.filter_congr (fun x hx => ?_))
        have : s'.eProps (ρ x) = s.eProps x := r.eProps x (inE ns hg x hx)
        simp only [Function.comp, State.edgeProperty, this]
  · intro ls ps
    have a1 := al ls
    have p1 : propIters s'.nodeIx ps = (propIters s.nodeIx ps).map (List.map (renIter ρ)) := by
      rw [r.nodeIx]; exact propIters_ren _ _
    unfold State.findNodes
    split
    · exact gn
    · split
      · rfl
      · rw [gn, a1, p1]
        cases hA : s.byLabel.allLabels s.nLabels ls with
        | none => rfl
        | some bl =>
          cases hB : propIters s.nodeIx ps with
          | none => rfl
          | some its =>
            rw [hA, Option.map_some] at a1
            rw [hB, Option.map_some] at p1
            simp only [Option.map_some]
            have hf : ∀ x, N (ρ x) → nodeFilter ls ps (s'.nLabels (ρ x)) (s'.nProps (ρ x)) =
                nodeFilter ls ps (s.nLabels x) (s.nProps x) := by
              intro x hx; rw [r.nLabels x hx, r.nProps x hx]; rfl
            have mm := minIter_ren (ρ := ρ) its none
            rw [Option.map_none] at mm
            rw [mm]
            refine choose_ren (fun x hx => hf x (allLabels_in c.lbl a1 _ (List.mem_map.2 ⟨x, hx, rfl⟩)))
              (fun q hq x hx => hf x ?_)
            rw [hq, Option.map_some] at mm
            exact minIter_in (propIters_in c.nix p1) (by simp) mm _ (List.mem_map.2 ⟨x, hx, rfl⟩)
  · intro ls ps
    have a1 := ga ls
    have p1 : propIters s'.edgeIx ps = (propIters s.edgeIx ps).map (List.map (renIter ρ)) := by
      rw [r.edgeIx]; exact propIters_ren _ _
    have z1 : s'.allEdges.anySize s'.eLabel ls = s.allEdges.anySize s.eLabel ls := by
      rw [r.allEdges]; exact EdgeMap.anySize_ren hall r.eLabel ls
    unfold State.findEdges
    split
    · exact ge
    · split
      · rfl
      · rw [ge, a1, p1, z1]
        cases hA : s.getEdgesWithAnyLabel ls with
        | none => rfl
        | some es =>
          cases hB : propIters s.edgeIx ps with
          | none => rfl
          | some its =>
            rw [hA, Option.map_some] at a1
            rw [hB, Option.map_some] at p1
            simp only [Option.map_some]
            have hf : ∀ x, E (ρ x) → edgeFilter ls ps (s'.eLabel (ρ x)) (s'.eProps (ρ x)) =
                edgeFilter ls ps (s.eLabel x) (s.eProps x) := by
              intro x hx; rw [r.eLabel x hx, r.eProps x hx]; rfl
            have mm := minIter_ren (ρ := ρ) its none
            rw [Option.map_none] at mm
            rw [mm]
            refine choose_ren (bl := (es, s.allEdges.anySize s.eLabel ls))
              (fun x hx => hf x (EdgeMap.enumAny_in c.sl0 c.all a1 _ (List.mem_map.2 ⟨x, hx, rfl⟩)))
              (fun q hq x hx => hf x ?_)
            rw [hq, Option.map_some] at mm
            exact minIter_in (propIters_in c.eix p1) (by simp) mm _ (List.mem_map.2 ⟨x, hx, rfl⟩)
  · intro n hn k
    have : s'.nProps (ρ n) = s.nProps n := r.nProps n hn
    unfold State.nodeProperty; rw [this]
  · intro n hn d
    cases d
    · exact i1 n hn
    · simp only [State.nodeEdges, i1 n hn, o1 n hn, cat2_ren]
    · exact o1 n hn
  · intro n hn l d
    cases d
    · exact i2 n hn l
    · simp only [State.nodeEdgesWithLabel, i2 n hn, o2 n hn, cat2_ren]
    · exact o2 n hn l
  · intro n hn ls d
    cases d
    · exact i3 n hn ls
    · simp only [State.nodeEdgesWithAnyLabel, i3 n hn, o3 n hn, cat2_ren]
    · exact o3 n hn ls
  · intro e he k
    have : s'.eProps (ρ e) = s.eProps e := r.eProps e he
    unfold State.edgeProperty; rw [this]

end LPG
