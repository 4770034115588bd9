import Verif.Spec.Recover
import Verif.Proofs.Adj
import Verif.Proofs.Total
/-! Calls that panic in a property index, on the graph without its indexes. -/
namespace LPG

variable {o : MapOrder}
open State

theorem Indexes.addAll_noIx (id : Nat) : ∀ ps : Props, Indexes.addAll id ps [] = some []
  | [] => rfl
  | (k, v) :: ps => by
    have : Indexes.add [] k v id = some [] := rfl
    simp only [Indexes.addAll, this]
    exact addAll_noIx id ps

theorem Indexes.removeAll_noIx (id : Nat) : ∀ ps : Props, Indexes.removeAll id ps [] = some []
  | [] => rfl
  | (k, v) :: ps => by
    have : Indexes.remove [] k v id = some [] := rfl
    simp only [Indexes.removeAll, this]
    exact removeAll_noIx id ps

theorem bare_newNode (s : State) (ls : List String) (ps : Props) :
    s.bare.newNode ls ps = some (s.tryNewNode ls ps).1.bare := by
  unfold State.newNode
  simp only [State.bare, Indexes.addAll_noIx]
  rfl

theorem bare_connect (s : State) (e : Nat) : s.bare.connect e = (s.connect e).map State.bare := by
  simp only [State.connect, State.bare]
  cases (s.incoming (s.eTo e)).add s.slot2 s.eLabel e with
  | none => rfl
  | some r =>
    simp only
    cases (s.outgoing (s.eFrom e)).add s.slot1 s.eLabel e with
    | none => rfl
    | some q => rfl

theorem bare_newEdge {s : State} {a b : Nat} {l : String} {ps : Props} {r : State × Bool}
    (h : s.tryNewEdge a b l ps = some r) : s.bare.newEdge a b l ps = some r.1.bare := by
  unfold State.tryNewEdge at h
  simp only at h
  unfold State.newEdge
  simp only [State.bare]
  split at h
  · cases h
  · rename_i p0 m h1
    rw [h1]
    simp only at h ⊢
    split at h
    · cases h
    · rename_i s2 h2
      have := bare_connect _ s.idBase ▸ congrArg (Option.map State.bare) h2
      simp only [Option.map_some] at this
      simp only [State.bare] at this
      rw [this]
      simp only [Indexes.addAll_noIx]
      cases h
      rfl

theorem bare_setEdgeLabel (s : State) (e : Nat) (l : String) :
    s.bare.setEdgeLabel e l = (s.setEdgeLabel e l).map State.bare := by
  unfold State.setEdgeLabel
  have h0 : s.bare.eLabel e = s.eLabel e := rfl
  rw [h0]
  split
  · rfl
  · exact bare_connect { s.disconnect e with eLabel := upd (s.disconnect e).eLabel e l } e

theorem bare_setNodeProp (s : State) (n : Nat) (k : String) (v : Value) :
    s.bare.setNodeProp n k v = some { s with nProps := upd s.nProps n ((s.nProps n).set k v) }.bare := by
  unfold State.setNodeProp
  have h1 : ∀ old, Indexes.remove s.bare.nodeIx k old n = some [] := fun _ => rfl
  have h2 : Indexes.add [] k v n = some [] := rfl
  simp only [h1]
  have h0 : s.bare.nodeIx = [] := rfl
  rw [h0]
  cases s.bare.nProps n |>.get k <;> simp only [h2] <;> rfl

theorem bare_setEdgeProp (s : State) (n : Nat) (k : String) (v : Value) :
    s.bare.setEdgeProp n k v = some { s with eProps := upd s.eProps n ((s.eProps n).set k v) }.bare := by
  unfold State.setEdgeProp
  have h1 : ∀ old, Indexes.remove s.bare.edgeIx k old n = some [] := fun _ => rfl
  have h2 : Indexes.add [] k v n = some [] := rfl
  simp only [h1]
  have h0 : s.bare.edgeIx = [] := rfl
  rw [h0]
  cases s.bare.eProps n |>.get k <;> simp only [h2] <;> rfl

theorem bare_removeNodeProp {s s' : State} {n : Nat} {k : String} (h : s.removeNodeProp n k = some s') :
    s.bare.removeNodeProp n k = some s'.bare := by
  unfold State.removeNodeProp at h ⊢
  have h0 : s.bare.nProps n = s.nProps n := rfl
  have h1 : ∀ old, Indexes.remove s.bare.nodeIx k old n = some [] := fun _ => rfl
  simp only [h0, h1]
  split at h
  · cases h; rfl
  · split at h
    · cases h
    · cases h; rfl

theorem bare_removeEdgeProp {s s' : State} {n : Nat} {k : String} (h : s.removeEdgeProp n k = some s') :
    s.bare.removeEdgeProp n k = some s'.bare := by
  unfold State.removeEdgeProp at h ⊢
  have h0 : s.bare.eProps n = s.eProps n := rfl
  have h1 : ∀ old, Indexes.remove s.bare.edgeIx k old n = some [] := fun _ => rfl
  simp only [h0, h1]
  split at h
  · cases h; rfl
  · split at h
    · cases h
    · cases h; rfl

/-! ## Detaching -/

def State.removeEdges (s : State) (es : List Nat) : State := es.foldl State.removeEdge s

theorem run_removeEdges (es : List Nat) : ∀ s : State, runFrom s (es.map .removeEdge) = some (s.removeEdges es) := by
  induction es with
  | nil => intro s; rfl
  | cons e es ih => intro s; exact ih (s.removeEdge e)

theorem bare_detachEdges (es : List Nat) : ∀ s : State, s.bare.detachEdges es = some (s.bare.removeEdges es) := by
  induction es with
  | nil => intro s; rfl
  | cons e es ih =>
    intro s
    have h1 : s.bare.detachEdge e = some (s.removeEdge e).bare := by
      unfold State.detachEdge
      have h0 : ((s.bare.disconnect e).dropEdge e).edgeIx = [] := rfl
      simp only [h0, Indexes.removeAll_noIx]
      rfl
    rw [State.detachEdges, h1]
    exact ih _

theorem tryDetachEdges_bare (es : List Nat) : ∀ {s s' : State} {b : Bool}, s.tryDetachEdges o es = (s', b) →
    ∃ k, k ≤ es.length ∧ s'.bare = s.bare.removeEdges (es.take k) ∧ (b = false → k = es.length) ∧ (b = true → 0 < k) := by
  induction es with
  | nil =>
    intro s s' b h
    cases h
    exact ⟨0, Nat.le_refl _, rfl, fun _ => rfl, fun h => (nomatch h)⟩
  | cons e es ih =>
    intro s s' b h
    rw [State.tryDetachEdges] at h
    have hb : (s.tryDetachEdge o e).1.bare = s.bare.removeEdge e := rfl
    split at h
    · rename_i h1
      rw [h] at hb h1
      simp only at h1
      subst h1
      exact ⟨1, by simp, hb, fun h => (nomatch h), fun _ => Nat.one_pos⟩
    · obtain ⟨k, h1, h2, h3, h4⟩ := ih h
      refine ⟨k + 1, by simpa using h1, ?_, fun hf => by simp [h3 hf], fun _ => Nat.succ_pos _⟩
      rw [h2, hb]
      rfl

theorem EMRep.nil_eq {P : Slot} {f : Nat → String} {em : EdgeMap} (h : EMRep P f em []) : em = EdgeMap.empty := by
  cases em with
  | mk lists only n =>
    have h1 := h.n; have h2 := h.only; have h3 := h.small (by simp)
    simp at h1 h2 h3
    subst h1; subst h2; subst h3
    rfl

theorem upd_self_eq {β : Type} {f : Nat → β} {n : Nat} {v : β} (h : f n = v) : upd f n v = f := by
  funext x
  rw [upd_apply]
  split
  · rename_i hx; rw [hx, h]
  · rfl

theorem valid_removeEdges (es : List Nat) : ∀ {σ : Spec}, es.Nodup → (∀ e ∈ es, e ∈ σ.edges) →
    σ.ValidFrom (es.map .removeEdge) := by
  induction es with
  | nil => intro σ _ _; trivial
  | cons e es ih =>
    intro σ hn hm
    have hn' := List.nodup_cons.1 hn
    refine ⟨hm e (by simp), ih hn'.2 ?_⟩
    intro x hx
    simp only [Spec.step, Spec.dropEdge, List.mem_filter]
    refine ⟨hm x (by simp [hx]), ?_⟩
    simp; rintro rfl; exact hn'.1 hx

theorem run_removeEdges_spec (es : List Nat) : ∀ {σ : Spec}, σ.runFrom (es.map .removeEdge) =
    { σ with edges := σ.edges.filter (fun e => e ∉ es) } := by
  induction es with
  | nil =>
    intro σ
    have : σ.edges.filter (fun e => e ∉ ([] : List Nat)) = σ.edges := by simp
    rw [this]; rfl
  | cons e es ih =>
    intro σ
    have := ih (σ := σ.step (.removeEdge e))
    simp only [List.map_cons, Spec.runFrom, List.foldl_cons] at this ⊢
    rw [this]
    simp only [Spec.step, Spec.dropEdge, List.filter_filter]
    congr 1
    apply List.filter_congr
    intro x _
    simp only [List.mem_cons]
    by_cases hx : x = e <;> by_cases hx2 : x ∈ es <;> simp [hx, hx2]

/-- What detaching does without the indexes: all, or the edges up to the one that panicked. -/
theorem tryDetachNode_bare {s s' : State} {σ : Spec} {n : Nat} {b : Bool} (c : Core s.bare σ) (hn : n ∈ σ.nodes)
    (h : s.tryDetachNode o n = some (s', b)) :
    (b = false → s.bare.detachNode n = some s'.bare) ∧
    (b = true → ∃ es, es ≠ [] ∧ es.Nodup ∧ (∀ e ∈ es, e ∈ σ.edges ∧ (σ.src e = n ∨ σ.dst e = n)) ∧
      s'.bare = s.bare.removeEdges es) := by
  obtain ⟨xi, hxi, hri⟩ := c.inc n hn
  obtain ⟨ys, hy1, hy2⟩ := hri.enum (c.fuel hxi)
  have hyn : ys.Nodup := hy2.nodup_iff.2 hri.nodup
  have hmem : ∀ e, e ∈ ys ↔ e ∈ σ.edges ∧ σ.dst e = n := by
    intro e; rw [hy2.mem_iff, hxi.mem_iff]; simp
  have hy1' : (s.incoming n).enum s.slot2 s.idBase = some ys := hy1
  unfold State.tryDetachNode at h
  rw [hy1'] at h
  simp only at h
  split at h
  · rename_i hb
    obtain ⟨k, h1, h2, h3, h4⟩ := tryDetachEdges_bare ys (s := s) (s' := (s.tryDetachEdges o ys).1)
      (b := (s.tryDetachEdges o ys).2) rfl
    have hst : s.tryDetachEdges o ys = (s', b) := Option.some.inj h
    rw [hst] at hb h2 h4
    simp only at hb h2 h4
    subst hb
    refine ⟨fun h => (nomatch h), fun _ => ⟨ys.take k, ?_, hyn.sublist (List.take_sublist _ _), ?_, h2⟩⟩
    · intro hnil
      have := h4 rfl
      have hl := congrArg List.length hnil
      simp at hl
      rcases hl with rfl | rfl
      · omega
      · simp at h1; omega
    · intro e he
      have := (hmem e).1 (List.mem_of_mem_take he)
      exact ⟨this.1, Or.inr this.2⟩
  · rename_i hb
    obtain ⟨k, h1, h2, h3, -⟩ := tryDetachEdges_bare ys (s := s) (s' := (s.tryDetachEdges o ys).1)
      (b := (s.tryDetachEdges o ys).2) rfl
    have hbf : (s.tryDetachEdges o ys).2 = false := by simpa using hb
    have hk := h3 hbf
    rw [hk, List.take_length] at h2
    generalize hs1 : (s.tryDetachEdges o ys).1 = s1 at h h2
    have c1 : Core s1.bare { σ with edges := σ.edges.filter (fun e => σ.dst e ≠ n) } := by
      rw [h2]
      have := c.runFrom (valid_removeEdges ys hyn (fun e he => ((hmem e).1 he).1)) (run_removeEdges ys _)
      rw [run_removeEdges_spec] at this
      have e1 : σ.edges.filter (fun e => e ∉ ys) = σ.edges.filter (fun e => σ.dst e ≠ n) := by
        apply List.filter_congr
        intro x hx
        simp [hmem, hx]
      rwa [e1] at this
    have hempty : s1.incoming n = EdgeMap.empty := by
      obtain ⟨xs, hx1, hx2⟩ := c1.inc n hn
      have : xs = [] := by
        have := hx1
        simp only [List.filter_filter] at this
        have e2 : σ.edges.filter (fun e => decide (σ.dst e = n) && decide (σ.dst e ≠ n)) = [] := by
          rw [List.filter_eq_nil_iff]; intro x _; simp
        rw [e2] at this
        exact List.perm_nil.1 this
      rw [this] at hx2
      exact hx2.nil_eq
    have hs1' : ({ s1 with incoming := upd s1.incoming n EdgeMap.empty } : State) = s1 := by
      rw [upd_self_eq hempty]
    rw [hs1'] at h
    obtain ⟨xo, hxo, hro⟩ := c1.out n hn
    obtain ⟨zs, hz1, hz2⟩ := hro.enum (c1.fuel hxo)
    have hz1' : (s1.outgoing n).enum s1.slot1 s1.idBase = some zs := hz1
    have hzn : zs.Nodup := hz2.nodup_iff.2 hro.nodup
    have hmem2 : ∀ e, e ∈ zs ↔ (e ∈ σ.edges ∧ σ.dst e ≠ n) ∧ σ.src e = n := by
      intro e; rw [hz2.mem_iff, hxo.mem_iff]; simp; grind
    rw [hz1'] at h
    simp only at h
    split at h
    · rename_i hb2
      obtain ⟨k2, g1, g2, g3, g4⟩ := tryDetachEdges_bare zs (s := s1) (s' := (s1.tryDetachEdges o zs).1)
        (b := (s1.tryDetachEdges o zs).2) rfl
      have hst : s1.tryDetachEdges o zs = (s', b) := Option.some.inj h
      rw [hst] at hb2 g2 g4
      simp only at hb2 g2 g4
      subst hb2
      refine ⟨fun h => (nomatch h), fun _ => ⟨ys ++ zs.take k2, ?_, ?_, ?_, ?_⟩⟩
      · intro hnil
        have := g4 rfl
        have hl := congrArg List.length hnil
        simp only [List.length_append, List.length_take, List.length_nil] at hl
        omega
      · rw [List.nodup_append]
        refine ⟨hyn, hzn.sublist (List.take_sublist _ _), ?_⟩
        intro x hx y hy hxy
        subst hxy
        exact ((hmem2 x).1 (List.mem_of_mem_take hy)).1.2 ((hmem x).1 hx).2
      · intro e he
        rcases List.mem_append.1 he with he | he
        · have := (hmem e).1 he
          exact ⟨this.1, Or.inr this.2⟩
        · have := (hmem2 e).1 (List.mem_of_mem_take he)
          exact ⟨this.1.1, Or.inl this.2⟩
      · rw [g2, h2, State.removeEdges, State.removeEdges, State.removeEdges, List.foldl_append]
    · rename_i hb2
      obtain ⟨k2, g1, g2, g3, -⟩ := tryDetachEdges_bare zs (s := s1) (s' := (s1.tryDetachEdges o zs).1)
        (b := (s1.tryDetachEdges o zs).2) rfl
      have hk2 := g3 (by simpa using hb2)
      rw [hk2, List.take_length] at g2
      have hst := Option.some.inj h
      have hbb : b = false := (congrArg Prod.snd hst).symm
      have hs' := congrArg Prod.fst hst
      simp only at hs'
      refine ⟨fun _ => ?_, fun ht => by rw [hbb] at ht; cases ht⟩
      unfold State.detachNode
      rw [hy1]
      simp only [bare_detachEdges, ← h2]
      have hs1b : ({ s1.bare with incoming := upd s1.bare.incoming n EdgeMap.empty } : State) = s1.bare := by
        rw [upd_self_eq (f := s1.bare.incoming) hempty]
      rw [hs1b, hz1]
      simp only [bare_detachEdges, ← g2]
      rw [← hs']
      rfl

theorem tryDetachRemoveNode_bare {s s' : State} {σ : Spec} {n : Nat} {b : Bool} (c : Core s.bare σ) (hn : n ∈ σ.nodes)
    (h : s.tryDetachRemoveNode o n = some (s', b)) :
    s.bare.detachRemoveNode n = some s'.bare ∨
    (b = true ∧ ∃ es, es ≠ [] ∧ es.Nodup ∧ (∀ e ∈ es, e ∈ σ.edges ∧ (σ.src e = n ∨ σ.dst e = n)) ∧
      s'.bare = s.bare.removeEdges es) := by
  unfold State.tryDetachRemoveNode at h
  split at h
  · cases h
  · rename_i s1 h1
    cases h
    exact Or.inr ⟨rfl, (tryDetachNode_bare c hn h1).2 rfl⟩
  · rename_i s1 h1
    refine Or.inl ?_
    have h2 := (tryDetachNode_bare c hn h1).1 rfl
    unfold State.detachRemoveNode
    rw [h2]
    simp only at h ⊢
    have h0 : s1.bare.nodeIx = [] := rfl
    simp only [h0, Indexes.removeAll_noIx]
    cases h
    rfl

/-! ## Calls that return -/

theorem Index.tryAdd_ok {ix ix' : Index} {v : Value} {id : Nat} : ix.add v id = some ix' ↔ ix.tryAdd v id = (ix', false) := by
  cases ix with
  | btree t => simp only [Index.add, Index.tryAdd]; cases SetTree.add t v id <;> simp
  | hash h => simp only [Index.add, Index.tryAdd]; cases h.add v id <;> simp

theorem Indexes.tryAdd_ok {ixs ixs' : Indexes} {k : String} {v : Value} {id : Nat} :
    Indexes.add ixs k v id = some ixs' ↔ Indexes.tryAdd ixs k v id = (ixs', false) := by
  unfold Indexes.add Indexes.tryAdd
  cases AMap.get ixs k with
  | none => simp
  | some ix =>
    simp only [Option.map_eq_some_iff]
    constructor
    · rintro ⟨ix', h, rfl⟩
      rw [Index.tryAdd_ok.1 h]
    · intro h
      have h2 := congrArg Prod.snd h
      have h1 := congrArg Prod.fst h
      simp only at h1 h2
      exact ⟨(ix.tryAdd v id).1, Index.tryAdd_ok.2 (Prod.ext rfl h2), h1⟩

theorem Indexes.tryAddAll_ok {id : Nat} : ∀ {ps : Props} {ixs ixs' : Indexes},
    Indexes.addAll id ps ixs = some ixs' ↔ Indexes.tryAddAll id ps ixs = (ixs', false)
  | [], ixs, ixs' => by simp [Indexes.addAll, Indexes.tryAddAll]
  | (k, v) :: ps, ixs, ixs' => by
    simp only [Indexes.addAll, Indexes.tryAddAll]
    cases h : Indexes.add ixs k v id with
    | none =>
      have hb : (Indexes.tryAdd ixs k v id).2 = true := by
        cases hb : (Indexes.tryAdd ixs k v id).2 with
        | true => rfl
        | false => rw [Indexes.tryAdd_ok.2 (Prod.ext rfl hb)] at h; cases h
      rw [if_pos hb]
      constructor
      · intro hh; cases hh
      · intro hh; rw [hh] at hb; cases hb
    | some ixs1 =>
      rw [Indexes.tryAdd_ok.1 h]
      simp only [Bool.false_eq_true, if_false]
      exact Indexes.tryAddAll_ok

theorem Indexes.tryRemoveAll_ok {id : Nat} : ∀ {ps : Props} {ixs ixs' : Indexes},
    Indexes.removeAll id ps ixs = some ixs' ↔ Indexes.tryRemoveAll id ps ixs = (ixs', false)
  | [], ixs, ixs' => by simp [Indexes.removeAll, Indexes.tryRemoveAll]
  | (k, v) :: ps, ixs, ixs' => by
    simp only [Indexes.removeAll, Indexes.tryRemoveAll]
    cases h : Indexes.remove ixs k v id with
    | none => simp
    | some ixs1 => exact Indexes.tryRemoveAll_ok

theorem Index.tryAddObjects_ok {key : String} {props : Nat → Props} : ∀ {xs : List Nat} {ix ix' : Index},
    Index.addObjects key props xs ix = some ix' ↔ Index.tryAddObjects key props xs ix = (ix', false)
  | [], ix, ix' => by simp [Index.addObjects, Index.tryAddObjects]
  | x :: xs, ix, ix' => by
    simp only [Index.addObjects, Index.tryAddObjects]
    cases hg : (props x).get key with
    | none => exact Index.tryAddObjects_ok
    | some v =>
      simp only
      cases h : ix.add v x with
      | none =>
        have hb : (ix.tryAdd v x).2 = true := by
          cases hb : (ix.tryAdd v x).2 with
          | true => rfl
          | false => rw [Index.tryAdd_ok.2 (Prod.ext rfl hb)] at h; cases h
        rw [if_pos hb]
        constructor
        · intro hh; cases hh
        · intro hh; rw [hh] at hb; cases hb
      | some ixs1 =>
        rw [Index.tryAdd_ok.1 h]
        simp only [Bool.false_eq_true, if_false]
        exact Index.tryAddObjects_ok

theorem opt_of_try {α : Type} {f : Option α} {g : α × Bool} (h : ∀ a, f = some a ↔ g = (a, false)) :
    (f = none ∧ g.2 = true) ∨ (∃ a, f = some a ∧ g = (a, false)) := by
  cases f with
  | some a => exact Or.inr ⟨a, rfl, (h a).1 rfl⟩
  | none =>
    refine Or.inl ⟨rfl, ?_⟩
    cases hb : g.2 with
    | true => rfl
    | false => have := (h g.1).2 (Prod.ext rfl hb); cases this

theorem AMap.set_comm {α β : Type} [DecidableEq α] {a b : α} {x y : β} (hab : a ≠ b) : ∀ {m : AMap α β},
    AMap.get m a ≠ none → AMap.get m b ≠ none → (m.set a x).set b y = (m.set b y).set a x
  | [], h, _ => (h rfl).elim
  | (k, v) :: m, h1, h2 => by
    by_cases ka : k = a
    · subst ka
      simp [AMap.set, hab]
    · by_cases kb : k = b
      · subst kb
        simp [AMap.set, ka]
      · simp only [AMap.get, if_neg ka] at h1
        simp only [AMap.get, if_neg kb] at h2
        simp only [AMap.set, if_neg ka, if_neg kb]
        rw [AMap.set_comm hab h1 h2]

theorem Indexes.remove_comm {ixs : Indexes} {a b : String} {v w : Value} {id : Nat} (hab : a ≠ b) :
    (Indexes.remove ixs a v id).bind (fun i => Indexes.remove i b w id) =
      (Indexes.remove ixs b w id).bind (fun i => Indexes.remove i a v id) := by
  unfold Indexes.remove
  cases ha : AMap.get ixs a with
  | none =>
    cases hb : AMap.get ixs b with
    | none => simp [ha, hb]
    | some jx =>
      cases hj : jx.remove w id with
      | none => simp [hb, hj]
      | some jx' => simp [hb, hj, AMap.get_set, hab, ha]
  | some ix =>
    cases hb : AMap.get ixs b with
    | none =>
      cases hi : ix.remove v id with
      | none => simp [ha, hi]
      | some ix' => simp [ha, hi, AMap.get_set, Ne.symm hab, hb]
    | some jx =>
      cases hi : ix.remove v id with
      | none =>
        cases hj : jx.remove w id with
        | none => simp [hi, hj]
        | some jx' => simp [ha, hi, hj, AMap.get_set, hab]
      | some ix' =>
        cases hj : jx.remove w id with
        | none => simp [hb, hi, hj, AMap.get_set, Ne.symm hab]
        | some jx' =>
          simp only [Option.map_some, Option.bind_some, AMap.get_set, if_neg hab, if_neg (Ne.symm hab), ha, hb, hi, hj]
          rw [AMap.set_comm hab (by rw [ha]; simp) (by rw [hb]; simp)]

theorem Indexes.removeAll_cons {id : Nat} {k : String} {v : Value} {ps : Props} {ixs : Indexes} :
    Indexes.removeAll id ((k, v) :: ps) ixs = (Indexes.remove ixs k v id).bind (fun i => Indexes.removeAll id ps i) := by
  rw [Indexes.removeAll]
  cases Indexes.remove ixs k v id <;> rfl

/-- The order in which the properties are removed from the indexes does not matter if none of them panics. -/
theorem Indexes.removeAll_perm {id : Nat} {ps qs : Props} (hp : ps.Perm qs) : (AMap.keys ps).Nodup → ∀ ixs : Indexes,
    Indexes.removeAll id ps ixs = Indexes.removeAll id qs ixs := by
  induction hp with
  | nil => intro _ _; rfl
  | cons p _ ih =>
    intro hn ixs
    obtain ⟨k, v⟩ := p
    rw [Indexes.removeAll_cons, Indexes.removeAll_cons]
    congr 1
    funext i
    exact ih (List.nodup_cons.1 hn).2 i
  | swap p q l =>
    intro hn ixs
    obtain ⟨k, v⟩ := p
    obtain ⟨k', v'⟩ := q
    have hne : k' ≠ k := by
      intro he
      have := (List.nodup_cons.1 hn).1
      simp [he] at this
    simp only [Indexes.removeAll_cons]
    have := Indexes.remove_comm (ixs := ixs) (v := v') (w := v) (id := id) hne
    rw [← Option.bind_assoc, ← Option.bind_assoc, this]
  | trans p1 _ ih1 ih2 =>
    intro hn ixs
    rw [ih1 hn ixs, ih2 ((p1.map Prod.fst).nodup_iff.1 hn) ixs]

theorem Indexes.tryRemoveAll_any {id : Nat} {ps : Props} (hn : (AMap.keys ps).Nodup) {ixs ixs' : Indexes} :
    Indexes.removeAll id ps ixs = some ixs' ↔ Indexes.tryRemoveAll id (o.order id ps) ixs = (ixs', false) := by
  rw [← Indexes.removeAll_perm (o.perm id ps) (((o.perm id ps).map Prod.fst).nodup_iff.2 hn)]
  exact Indexes.tryRemoveAll_ok

/-- every property of every object is there once, as in a Go map -/
def State.PropsOk (s : State) : Prop := (∀ n, (AMap.keys (s.nProps n)).Nodup) ∧ ∀ e, (AMap.keys (s.eProps e)).Nodup

theorem tryDetachEdge_ok {s s' : State} {e : Nat} (hp : s.PropsOk) :
    s.detachEdge e = some s' ↔ s.tryDetachEdge o e = (s', false) := by
  unfold State.detachEdge State.tryDetachEdge
  simp only
  rcases opt_of_try (fun a => Indexes.tryRemoveAll_any (o := o) (id := e) (ps := ((s.disconnect e).dropEdge e).eProps e) (hp.2 e)
    (ixs := ((s.disconnect e).dropEdge e).edgeIx) (ixs' := a)) with ⟨h1, h2⟩ | ⟨a, h1, h2⟩
  · rw [h1]
    constructor
    · intro h; cases h
    · intro h; have := congrArg Prod.snd h; simp only [h2] at this; cases this
  · rw [h1, h2]; simp

theorem tryDetachEdges_ok {es : List Nat} : ∀ {s s' : State}, s.PropsOk →
    ((s.detachEdges es = some s' ↔ s.tryDetachEdges o es = (s', false)) ∧ (s.tryDetachEdges o es).1.PropsOk) := by
  induction es with
  | nil => intro s s' hp; exact ⟨by simp [State.detachEdges, State.tryDetachEdges], hp⟩
  | cons e es ih =>
    intro s s' hp
    have hp1 : (s.tryDetachEdge o e).1.PropsOk := hp
    rw [State.detachEdges, State.tryDetachEdges]
    rcases opt_of_try (fun a => tryDetachEdge_ok (o := o) (s := s) (e := e) (s' := a) hp) with ⟨h1, h2⟩ | ⟨a, h1, h2⟩
    · rw [h1]
      simp only [h2, if_true]
      refine ⟨?_, hp1⟩
      constructor
      · intro h; cases h
      · intro h; rw [h] at h2; cases h2
    · rw [h2] at hp1
      rw [h1, h2]
      simp only [Bool.false_eq_true, if_false]
      exact ih hp1

theorem tryDetachNode_ok {s s' : State} {n : Nat} (hp : s.PropsOk) :
    s.detachNode n = some s' ↔ s.tryDetachNode o n = some (s', false) := by
  unfold State.detachNode State.tryDetachNode
  cases (s.incoming n).enum s.slot2 s.idBase with
  | none => simp
  | some es =>
    simp only
    rcases opt_of_try (fun a => (tryDetachEdges_ok (o := o) (s := s) (es := es) (s' := a) hp).1) with ⟨h1, h2⟩ | ⟨a, h1, h2⟩
    · rw [h1]
      simp only [h2, if_true]
      constructor
      · intro h; cases h
      · intro h; rw [Option.some.inj h] at h2; cases h2
    · have hp1 := (tryDetachEdges_ok (o := o) (s := s) (es := es) (s' := a) hp).2
      rw [h2] at hp1
      rw [h1, h2]
      simp only [Bool.false_eq_true, if_false]
      cases (a.outgoing n).enum a.slot1 a.idBase with
      | none => simp
      | some zs =>
        simp only
        rcases opt_of_try (fun b => (tryDetachEdges_ok (o := o) (s := { a with incoming := upd a.incoming n EdgeMap.empty }) (es := zs)
          (s' := b) hp1).1) with ⟨g1, g2⟩ | ⟨b, g1, g2⟩
        · rw [g1]
          simp only [g2, if_true]
          constructor
          · intro h; cases h
          · intro h; rw [Option.some.inj h] at g2; cases g2
        · rw [g1, g2]
          simp

theorem detachEdges_nProps {es : List Nat} : ∀ {s s' : State}, s.detachEdges es = some s' → s'.nProps = s.nProps := by
  induction es with
  | nil => intro s s' h; cases h; rfl
  | cons e es ih =>
    intro s s' h
    rw [State.detachEdges] at h
    split at h
    · cases h
    · rename_i s1 h1
      rw [ih h]
      unfold State.detachEdge at h1
      simp only at h1
      split at h1
      · cases h1
      · cases h1; rfl

theorem detachNode_nProps {s s' : State} {n : Nat} (h : s.detachNode n = some s') : s'.nProps = s.nProps := by
  unfold State.detachNode at h
  split at h
  · cases h
  · split at h
    · cases h
    · rename_i s1 h1
      simp only at h
      split at h
      · cases h
      · split at h
        · cases h
        · rename_i s2 h2
          cases h
          have e1 := detachEdges_nProps h1
          have e2 := detachEdges_nProps h2
          exact e2.trans e1

/-- A call returns in the same way whether the program recovers or not. -/
theorem tryStep_ok {s s' : State} {op : Op} (hp : s.PropsOk) : step s op = some s' ↔ tryStep o s op = some (s', false) := by
  cases op with
  | newNode ls ps =>
    simp only [step, tryStep, State.newNode, State.tryNewNode]
    rcases opt_of_try (fun a => Indexes.tryAddAll_ok (id := s.idBase) (ps := ps) (ixs := s.nodeIx) (ixs' := a)) with
      ⟨h1, h2⟩ | ⟨a, h1, h2⟩
    · rw [h1]; simp [h2]
    · rw [h1, h2]; simp
  | newEdge a b l ps =>
    simp only [step, tryStep, State.newEdge, State.tryNewEdge]
    generalize EdgeMap.add (upd s.slot0 s.idBase ⟨none, none⟩) (upd s.eLabel s.idBase l) s.allEdges s.idBase = w
    cases w with
    | none => simp
    | some pm =>
      obtain ⟨p0, m⟩ := pm
      simp only
      generalize State.connect _ s.idBase = o2
      cases o2 with
      | none => simp
      | some s2 =>
        simp only
        rcases opt_of_try (fun a => Indexes.tryAddAll_ok (id := s.idBase) (ps := ps) (ixs := s2.edgeIx) (ixs' := a)) with
          ⟨h1, h2⟩ | ⟨a, h1, h2⟩
        · rw [h1]; simp [h2]
        · rw [h1, h2]; simp
  | setLabels n ls => simp [step, tryStep]
  | setNodeProp n k v =>
    simp only [step, tryStep, State.setNodeProp, State.trySetNodeProp]
    cases AMap.get (s.nProps n) k with
    | none =>
      simp only
      rcases opt_of_try (fun a => Indexes.tryAdd_ok (ixs := s.nodeIx) (k := k) (v := v) (id := n) (ixs' := a)) with
        ⟨h1, h2⟩ | ⟨a, h1, h2⟩
      · rw [h1]; simp [h2]
      · rw [h1, h2]; simp
    | some old =>
      simp only
      cases s.nodeIx.remove k old n with
      | none => simp
      | some ixs =>
        simp only
        rcases opt_of_try (fun a => Indexes.tryAdd_ok (ixs := ixs) (k := k) (v := v) (id := n) (ixs' := a)) with
          ⟨h1, h2⟩ | ⟨a, h1, h2⟩
        · rw [h1]; simp [h2]
        · rw [h1, h2]; simp
  | removeNodeProp n k =>
    simp only [step, tryStep, State.tryRemoveNodeProp]
    cases s.removeNodeProp n k <;> simp
  | detach n => exact tryDetachNode_ok hp
  | detachRemove n =>
    simp only [step, tryStep, State.detachRemoveNode, State.tryDetachRemoveNode]
    cases hd : s.detachNode n with
    | some s1 =>
      rw [(tryDetachNode_ok hp).1 hd]
      simp only
      rcases opt_of_try (fun a => Indexes.tryRemoveAll_any (o := o) (id := n) (ps := s1.nProps n)
        (by rw [detachNode_nProps hd]; exact hp.1 n) (ixs := s1.nodeIx) (ixs' := a)) with
        ⟨h1, h2⟩ | ⟨a, h1, h2⟩
      · rw [h1]; simp [h2]
      · rw [h1, h2]; simp
    | none =>
      cases ht : s.tryDetachNode o n with
      | none => simp
      | some r =>
        obtain ⟨s1, b⟩ := r
        cases b with
        | true => simp
        | false => rw [(tryDetachNode_ok hp).2 ht] at hd; cases hd
  | setEdgeLabel e l => simp only [step, tryStep]; cases s.setEdgeLabel e l <;> simp
  | setEdgeProp n k v =>
    simp only [step, tryStep, State.setEdgeProp, State.trySetEdgeProp]
    cases AMap.get (s.eProps n) k with
    | none =>
      simp only
      rcases opt_of_try (fun a => Indexes.tryAdd_ok (ixs := s.edgeIx) (k := k) (v := v) (id := n) (ixs' := a)) with
        ⟨h1, h2⟩ | ⟨a, h1, h2⟩
      · rw [h1]; simp [h2]
      · rw [h1, h2]; simp
    | some old =>
      simp only
      cases s.edgeIx.remove k old n with
      | none => simp
      | some ixs =>
        simp only
        rcases opt_of_try (fun a => Indexes.tryAdd_ok (ixs := ixs) (k := k) (v := v) (id := n) (ixs' := a)) with
          ⟨h1, h2⟩ | ⟨a, h1, h2⟩
        · rw [h1]; simp [h2]
        · rw [h1, h2]; simp
  | removeEdgeProp n k =>
    simp only [step, tryStep, State.tryRemoveEdgeProp]
    cases s.removeEdgeProp n k <;> simp
  | removeEdge e => simp [step, tryStep]
  | addNodeIndex k t =>
    simp only [step, tryStep, State.addNodeIndex, State.tryAddNodeIndex]
    cases AMap.get s.nodeIx k with
    | some ix => simp
    | none =>
      simp only
      cases s.getNodes with
      | none => simp
      | some ns =>
        simp only
        rcases opt_of_try (fun a => Index.tryAddObjects_ok (key := k) (props := s.nProps) (xs := ns) (ix := Index.new t) (ix' := a)) with
          ⟨h1, h2⟩ | ⟨a, h1, h2⟩
        · rw [h1]; simp [h2]
        · rw [h1, h2]; simp
  | addEdgeIndex k t =>
    simp only [step, tryStep, State.addEdgeIndex, State.tryAddEdgeIndex]
    cases AMap.get s.edgeIx k with
    | some ix => simp
    | none =>
      simp only
      cases s.getEdges with
      | none => simp
      | some ns =>
        simp only
        rcases opt_of_try (fun a => Index.tryAddObjects_ok (key := k) (props := s.eProps) (xs := ns) (ix := Index.new t) (ix' := a)) with
          ⟨h1, h2⟩ | ⟨a, h1, h2⟩
        · rw [h1]; simp [h2]
        · rw [h1, h2]; simp

/-! ## Calls that neither return nor panic in an index -/

theorem bare_newEdge_none {s : State} {a b : Nat} {l : String} {ps : Props}
    (h : s.tryNewEdge a b l ps = none) : s.bare.newEdge a b l ps = none := by
  unfold State.tryNewEdge at h
  simp only at h
  unfold State.newEdge
  simp only [State.bare]
  split at h
  · rename_i h1; rw [h1]
  · rename_i p0 m h1
    rw [h1]
    simp only at h ⊢
    split at h
    · rename_i h2
      have := bare_connect _ s.idBase ▸ congrArg (Option.map State.bare) h2
      simp only [State.bare, Option.map_none] at this
      rw [this]
    · cases h

theorem tryDetachNode_none {s : State} {n : Nat} (h : s.tryDetachNode o n = none) : s.bare.detachNode n = none := by
  unfold State.tryDetachNode at h
  unfold State.detachNode
  have h0 : (s.bare.incoming n).enum s.bare.slot2 s.bare.idBase = (s.incoming n).enum s.slot2 s.idBase := rfl
  rw [h0]
  split at h
  · rename_i h1; rw [h1]
  · rename_i es h1
    rw [h1]
    simp only at h ⊢
    split at h
    · cases h
    · rename_i hb
      obtain ⟨k, -, h2, h3, -⟩ := tryDetachEdges_bare es (s := s) (s' := (s.tryDetachEdges o es).1)
        (b := (s.tryDetachEdges o es).2) rfl
      rw [h3 (by simpa using hb), List.take_length] at h2
      rw [bare_detachEdges, ← h2]
      simp only
      split at h
      · rename_i h4
        have h4' : ((s.tryDetachEdges o es).1.bare.outgoing n).enum (s.tryDetachEdges o es).1.bare.slot1
          (s.tryDetachEdges o es).1.bare.idBase = none := h4
        rw [h4']
      · split at h <;> cases h

/-- A valid call returns or panics in an index, if `GetEdges` can be run when it needs it. -/
theorem tryStep_total {s : State} {σ : Spec} {op : Op} (c : Core s.bare σ) (hm : Mono s.nptr s.allNodes s.idBase)
    (h : s.NeedsEdges op → s.getEdges ≠ none) (hv : σ.Valid op) : tryStep o s op ≠ none := by
  have hx : SafeIx (fun _ _ => True) (fun _ _ => True) s.bare := by
    constructor
    · intros; trivial
    · intros; trivial
    · intro k ix hk; cases hk
    · intro k ix hk; cases hk
  have tot : ∀ {op'}, op' = op → (s.bare.NeedsEdges op' → s.getEdges ≠ none) → (∀ k t, op' ≠ .addNodeIndex k t) →
      (∀ k t, op' ≠ .addEdgeIndex k t) → step s.bare op' ≠ none := by
    intro op' heq hne h1 h2
    subst heq
    obtain ⟨s', hs', _⟩ := step_total c hne (fun k t e => (h1 k t e).elim) hx hv (fun _ _ _ => trivial)
      (fun _ _ _ => trivial) (fun k t e => (h1 k t e).elim) (fun k t e => (h2 k t e).elim)
    rw [hs']; simp
  cases op with
  | newNode ls ps => simp [tryStep]
  | newEdge a b l ps =>
    intro hn
    exact tot rfl h (by simp) (by simp) (bare_newEdge_none hn)
  | setLabels n ls => simp [tryStep]
  | setNodeProp n k v => simp [tryStep]
  | removeNodeProp n k => simp [tryStep]
  | detach n =>
    intro hn
    exact tot rfl (fun hh => hh.elim) (by simp) (by simp) (tryDetachNode_none hn)
  | detachRemove n =>
    intro hn
    refine tot rfl (fun hh => hh.elim) (by simp) (by simp) ?_
    have hn' : s.tryDetachNode o n = none := by
      simp only [tryStep, State.tryDetachRemoveNode] at hn
      split at hn
      · assumption
      · cases hn
      · cases hn
    simp only [step, State.detachRemoveNode]
    rw [tryDetachNode_none hn']
  | setEdgeLabel e l =>
    intro hn
    refine tot rfl (fun hh => hh.elim) (by simp) (by simp) ?_
    simp only [tryStep, Option.map_eq_none_iff] at hn
    simp only [step, bare_setEdgeLabel, hn, Option.map_none]
  | setEdgeProp n k v => simp [tryStep]
  | removeEdgeProp n k => simp [tryStep]
  | removeEdge e => simp [tryStep]
  | addNodeIndex k t =>
    simp only [tryStep, State.tryAddNodeIndex]
    cases AMap.get s.nodeIx k with
    | some ix => simp
    | none =>
      have := Mono.lists hm
      revert this
      cases s.getNodes <;> simp
  | addEdgeIndex k t =>
    simp only [tryStep, State.tryAddEdgeIndex]
    cases hk : AMap.get s.edgeIx k with
    | some ix => simp
    | none =>
      have := h hk
      revert this
      cases s.getEdges <;> simp

end LPG
