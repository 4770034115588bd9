import Verif.Proofs.Misfiled
import Verif.Props.C07Exact
/-!
# What is true of the enumeration of all edges in every history (C04)
-/
namespace LPG
open State

/-- In every history, also those that damage the lists, the iterations of `GetEdges` and `GetEdgesWithAnyLabel` end, unless
`NumEdges` is 1, and they yield edges that were created. (If `NumEdges` is 1 there is nothing to iterate over, but the
single edge may be nil.) -/
theorem C04_ends_partial (ops : List Op) (hv : Spec.ValidHistory ops) (s : State) (hs : run ops = some s)
    (hn : s.numEdges ≠ 1) :
    (∃ es, s.getEdges = some es ∧ ∀ e ∈ es, e < (Spec.run ops).next) ∧
    ∀ ls, ∃ es, s.getEdgesWithAnyLabel ls = some es ∧ ∀ e ∈ es, e < (Spec.run ops).next := by
  have h : s.AllMono := EMono.runFrom EMono.init hs
  have hx : (Spec.run ops).next = s.idBase := (Core.run hv hs).next.symm
  rw [hx]
  exact ⟨h.enum hn, fun ls => h.enumAny hn ls⟩

theorem EdgeMap.remove_n (P : Slot) (label : Nat → String) (em : EdgeMap) (e : Nat) :
    em.n - 1 ≤ (em.remove P label e).2.n ∧ (em.n = 0 → (em.remove P label e).2.n = 0) := by
  unfold EdgeMap.remove
  split
  · exact ⟨by dsimp only; omega, fun h => h⟩
  · rename_i h0
    refine ⟨?_, fun h => absurd h h0⟩
    split
    · split
      · dsimp only; omega
      · dsimp only; omega
    · split
      · dsimp only; omega
      · dsimp only
        (repeat' split) <;> simp_all

/-- `NumEdges` is at least the number of edges. -/
def Enough (s : State) (σ : Spec) : Prop := (σ.edges.length : Int) ≤ s.allEdges.n

theorem Enough.drop {s : State} {σ : Spec} {e : Nat} (h : Enough s σ) (he : e ∈ σ.edges) :
    Enough (s.dropEdge e) (σ.dropEdge e) := by
  have h1 : (σ.dropEdge e).edges.length < σ.edges.length := by
    simp only [Spec.dropEdge]
    exact List.length_filter_lt_length_iff_exists.2 ⟨e, he, by simp⟩
  have h2 := (EdgeMap.remove_n s.slot0 s.eLabel s.allEdges e).1
  unfold Enough at *
  simp only [State.dropEdge]
  omega

theorem EdgeMap.add_n {P P' : Slot} {label : Nat → String} {em em' : EdgeMap} {e : Nat}
    (h : em.add P label e = some (P', em')) : em'.n = em.n + 1 := by
  unfold EdgeMap.add at h
  split at h
  · cases h; dsimp only; omega
  · split at h
    · split at h
      · cases h
      · simp only at h; cases h; dsimp only; omega
    · cases h; rfl

theorem Enough.detach {s s' : State} {σ : Spec} {n : Nat} (c : Core s σ) (h : Enough s σ) (hn : n ∈ σ.nodes)
    (hs : s.detachNode n = some s') : Enough s' (σ.detach n) := by
  refine detachNode_ind (Q := Enough) (good := fun _ => True) ?_ ?_ c h hn (fun _ _ _ => trivial) hs
  · intro s s' σ e c h he _ hs
    unfold State.detachEdge at hs
    simp only at hs
    split at hs
    · cases hs
    · cases hs
      exact Enough.drop (s := s.disconnect e) h he
  · intro s σ im om h; exact h

theorem Enough.step {s s' : State} {σ : Spec} {op : Op} (c : Core s σ) (h : Enough s σ) (hv : σ.Valid op)
    (hs : LPG.step s op = some s') : Enough s' (σ.step op) := by
  cases op with
  | newNode ls ps => obtain ⟨ixs, _, rfl⟩ := newNode_frame hs; exact h
  | newEdge a b l ps =>
    simp only [LPG.step] at hs
    rw [newEdge_eq] at hs
    split at hs
    · cases hs
    · rename_i p0 m ha
      split at hs
      · cases hs
      · rename_i s1 h1
        obtain ⟨p1, p2, im, om, rfl⟩ := connect_frame h1
        simp only at hs
        split at hs
        · cases hs
        · cases hs
          have := EdgeMap.add_n ha
          have h2 : (s.allocEdge a b l ps).allEdges.n = s.allEdges.n := rfl
          unfold Enough at *
          simp only [Spec.step, List.length_append, List.length_singleton]
          omega
  | setLabels n ls => cases hs; exact h
  | setNodeProp n k v => obtain ⟨ixs, rfl⟩ := setNodeProp_frame hs; exact h
  | removeNodeProp n k => obtain ⟨ixs, rfl⟩ := removeNodeProp_frame hs; exact h
  | detach n => exact h.detach c hv hs
  | detachRemove n =>
    simp only [LPG.step, State.detachRemoveNode] at hs
    split at hs
    · cases hs
    · rename_i s1 h1
      have h2 := h.detach c hv h1
      split at hs
      · cases hs
      · cases hs
        exact h2
  | setEdgeLabel e l =>
    simp only [LPG.step, State.setEdgeLabel] at hs
    split at hs
    · cases hs; exact h
    · obtain ⟨p1, p2, im, om, rfl⟩ := connect_frame hs
      exact h
  | setEdgeProp n k v => obtain ⟨ixs, rfl⟩ := setEdgeProp_frame hs; exact h
  | removeEdgeProp n k => obtain ⟨ixs, rfl⟩ := removeEdgeProp_frame hs; exact h
  | removeEdge e => cases hs; exact Enough.drop (s := s.disconnect e) h hv
  | addNodeIndex k t => obtain ⟨ixs, rfl⟩ := addNodeIndex_frame hs; exact h
  | addEdgeIndex k t => obtain ⟨ixs, rfl⟩ := addEdgeIndex_frame hs; exact h

theorem Enough.runFrom {ops : List Op} : ∀ {s s' : State} {σ : Spec}, Core s σ → Enough s σ → σ.ValidFrom ops →
    LPG.runFrom s ops = some s' → Enough s' (σ.runFrom ops) := by
  induction ops with
  | nil => intro s s' σ _ h _ hs; simp [LPG.runFrom] at hs; subst hs; exact h
  | cons op ops ih =>
    intro s s' σ c h hv hs
    rw [LPG.runFrom] at hs
    split at hs
    · cases hs
    · rename_i s1 h1
      exact ih (c.step hv.1 h1) (h.step c hv.1 h1) hv.2 hs

/-- In every history `NumEdges` is never too small. -/
theorem C04_atLeast_partial (ops : List Op) (hv : Spec.ValidHistory ops) (s : State) (hs : run ops = some s) :
    ((Spec.run ops).edges.length : Int) ≤ s.numEdges :=
  Enough.runFrom Core.init (by simp [Enough, State.new, Spec.new, EdgeMap.empty]) hv hs

/-- Removing an edge whose label no edge is filed under leaves the graph-wide lists as they were: `NumEdges` is one too
high, and `GetEdges` still yields the removed edge. -/
theorem C04_kept (ops : List Op) (e : Nat) (hv : Spec.ValidHistory (ops ++ [.removeEdge e])) (hc : FiledOk ops)
    (h2 : 2 ≤ (Spec.run ops).edges.length)
    (hl : ∀ f ∈ (Spec.run ops).edges, foundUnder ops f ≠ (Spec.run ops).label e) (s : State)
    (hs : run (ops ++ [.removeEdge e]) = some s) :
    s.numEdges = (Spec.run (ops ++ [.removeEdge e])).edges.length + 1 ∧
    ∃ es, s.getEdges = some es ∧ es.Perm (Spec.run ops).edges ∧ e ∈ es := by
  obtain ⟨s1, hs1, hs2⟩ := run_split hs
  obtain ⟨hv1, hv2⟩ := Spec.validFrom_append.1 hv
  have he : e ∈ (Spec.run ops).edges := hv2.1
  have c := Core.run hv1 hs1
  have h := AEx.runFrom Core.init AEx.init hv1 hc hs1
  have hx : s = s1.removeEdge e := by
    simp [runFrom, LPG.step] at hs2; exact hs2.symm
  obtain ⟨xs, hp, hr⟩ := id h
  have hlen : 2 ≤ xs.length := by rw [hp.length_eq]; exact h2
  have hg : s1.allEdges.lists.get (s1.eLabel e) = none := by
    cases hg : s1.allEdges.lists.get (s1.eLabel e) with
    | none => rfl
    | some el =>
      obtain ⟨h3, _⟩ := hr.getSome hlen _ _ hg
      exfalso
      apply h3
      rw [List.filter_eq_nil_iff]
      intro f hf
      have := hl f (hp.mem_iff.1 hf)
      unfold foundUnder at this
      rw [if_neg (by omega), ← (c.eattr e he).2.2] at this
      simpa using this
  have hm : s.allEdges = s1.allEdges ∧ s.slot0 = s1.slot0 := by
    have hn0 : ¬ s1.allEdges.n = 0 := by rw [hr.n]; omega
    have hn1 : ¬ s1.allEdges.n = 1 := by rw [hr.n]; omega
    have : s1.allEdges.remove s1.slot0 s1.eLabel e = (s1.slot0, s1.allEdges) := by
      unfold EdgeMap.remove
      rw [if_neg hn0, if_neg hn1, hg]
    rw [hx]
    constructor
    · show (s1.allEdges.remove s1.slot0 s1.eLabel e).2 = _; rw [this]
    · show (s1.allEdges.remove s1.slot0 s1.eLabel e).1 = _; rw [this]
  have hb : s.idBase = s1.idBase := by rw [hx]; rfl
  have hlt : (Spec.run (ops ++ [.removeEdge e])).edges.length + 1 = (Spec.run ops).edges.length := by
    rw [Spec.run_append]
    show ((Spec.run ops).edges.filter _).length + 1 = _
    have := List.length_erase_of_mem he
    rw [List.Nodup.erase_eq_filter c.eNodup] at this
    have h4 : (Spec.run ops).edges.filter (fun x => decide (x ≠ e)) = (Spec.run ops).edges.filter (fun x => x != e) := by
      apply List.filter_congr; intro x _; by_cases hx : x = e <;> simp [hx]
    rw [h4]
    omega
  obtain ⟨es, h5, h6⟩ := h.getEdges c
  refine ⟨?_, es, ?_, h6, h6.mem_iff.2 he⟩
  · show s.allEdges.n = _
    rw [hm.1]
    have := h.numEdges
    unfold State.numEdges at this
    rw [this]; exact_mod_cast hlt.symm
  · unfold State.getEdges
    rw [hm.1, hm.2, hb]; exact h5

/-- The first removal of an edge that is filed under a label it no longer has, with other edges left: exactly when the
number and the enumeration of the edges are right afterwards. They are if an older edge is filed under the same label, and
at least two edges are filed under the label that the removed edge has now. -/
theorem C04_misfiled (ops : List Op) (e : Nat) (hv : Spec.ValidHistory (ops ++ [.removeEdge e])) (hc : FiledOk ops)
    (h2 : 2 ≤ (Spec.run ops).edges.length) (hl : foundUnder ops e ≠ (Spec.run ops).label e) (s : State)
    (hs : run (ops ++ [.removeEdge e]) = some s) :
    C04_statement (ops ++ [.removeEdge e]) ↔
      (∃ f ∈ (Spec.run ops).edges, f < e ∧ foundUnder ops f = foundUnder ops e) ∧
      2 ≤ ((Spec.run ops).edges.filter (fun f => foundUnder ops f = (Spec.run ops).label e)).length := by
  obtain ⟨s1, hs1, hs2⟩ := run_split hs
  obtain ⟨hv1, hv2⟩ := Spec.validFrom_append.1 hv
  have he : e ∈ (Spec.run ops).edges := hv2.1
  have c := Core.run hv1 hs1
  have h := AEx.runFrom Core.init AEx.init hv1 hc hs1
  have hfu : foundUnder ops = Spec.new.filedFrom (fun _ => "") ops := by
    funext x; unfold foundUnder; rw [if_neg (by omega)]
  have hlab : s1.eLabel e = (Spec.run ops).label e := (c.eattr e he).2.2
  have hx : s = s1.removeEdge e := by
    simp [runFrom, LPG.step] at hs2; exact hs2.symm
  have hed : (Spec.run (ops ++ [.removeEdge e])).edges = (Spec.run ops).edges.erase e := by
    rw [Spec.run_append, List.Nodup.erase_eq_filter c.eNodup]
    show (Spec.run ops).edges.filter _ = _
    apply List.filter_congr; intro x _; by_cases hx : x = e <;> simp [hx]
  have hst : C04_statement (ops ++ [.removeEdge e]) ↔ s.numEdges = (Spec.run (ops ++ [.removeEdge e])).edges.length ∧
      ∃ es, s.getEdges = some es ∧ es.Perm (Spec.run (ops ++ [.removeEdge e])).edges := by
    constructor
    · intro h; exact h s hs
    · intro h s' hs'; rw [hs] at hs'; cases hs'; exact h
  rw [hst]
  by_cases hk : ∃ f ∈ (Spec.run ops).edges, foundUnder ops f = (Spec.run ops).label e
  · obtain ⟨xs, hp, hr⟩ := id h
    have hlen : 2 ≤ xs.length := by rw [hp.length_eq]; exact h2
    obtain ⟨el, hg⟩ : ∃ el, s1.allEdges.lists.get (s1.eLabel e) = some el := by
      cases hg : s1.allEdges.lists.get (s1.eLabel e) with
      | some el => exact ⟨el, rfl⟩
      | none =>
        obtain ⟨f, hf, hfl⟩ := hk
        have := hr.getNone hlen _ hg
        rw [List.filter_eq_nil_iff] at this
        refine absurd ?_ (this f (hp.mem_iff.2 hf))
        rw [hfu] at hfl
        simp [hlab, ← hfl]
    have hm : s1.AllMono := EMono.runFrom EMono.init hs1
    obtain ⟨h5, h6⟩ := EdgeMap.remove_misfiled (label := s1.eLabel) (fuel := s1.idBase) hr hm.slot (hp.mem_iff.2 he)
      (by rw [hlab, ← hfu]; exact hl) hlen (by rw [hp.length_eq]; exact c.edges_length) hg
    have hn : s.numEdges = (Spec.run (ops ++ [.removeEdge e])).edges.length := by
      have : s.numEdges = (s1.allEdges.remove s1.slot0 s1.eLabel e).2.n := by rw [hx]; rfl
      have h9 : xs.length = (Spec.run ops).edges.length := hp.length_eq
      rw [this, h5, hed, List.length_erase_of_mem he, h9]
      omega
    have hge : s.getEdges = (s1.allEdges.remove s1.slot0 s1.eLabel e).2.enum (s1.allEdges.remove s1.slot0 s1.eLabel e).1
        s1.idBase := by rw [hx]; rfl
    rw [hge, hed]
    have h7 : (∃ es, (s1.allEdges.remove s1.slot0 s1.eLabel e).2.enum (s1.allEdges.remove s1.slot0 s1.eLabel e).1 s1.idBase =
        some es ∧ es.Perm ((Spec.run ops).edges.erase e)) ↔
        ∃ es, (s1.allEdges.remove s1.slot0 s1.eLabel e).2.enum (s1.allEdges.remove s1.slot0 s1.eLabel e).1 s1.idBase =
          some es ∧ es.Perm (xs.erase e) := by
      constructor
      · rintro ⟨ys, h8, h9⟩; exact ⟨ys, h8, h9.trans (hp.erase e).symm⟩
      · rintro ⟨ys, h8, h9⟩; exact ⟨ys, h8, h9.trans (hp.erase e)⟩
    rw [h7, h6]
    have h8 : ((Spec.run ops).edges.filter (fun f => foundUnder ops f = (Spec.run ops).label e)).length =
        (xs.filter (fun f => Spec.new.filedFrom (fun _ => "") ops f = s1.eLabel e)).length := by
      rw [hlab, hfu]
      exact ((hp.filter _).length_eq).symm
    rw [h8, hfu]
    constructor
    · rintro ⟨_, ⟨y, hy, hlt⟩, h3⟩
      exact ⟨⟨y, hp.mem_iff.1 hy, hlt⟩, h3⟩
    · rintro ⟨⟨y, hy, hlt⟩, h3⟩
      refine ⟨?_, ⟨y, hp.mem_iff.2 hy, hlt⟩, h3⟩
      rw [← hed]; exact hn
  · have hk' : ∀ f ∈ (Spec.run ops).edges, foundUnder ops f ≠ (Spec.run ops).label e := fun f hf hh => hk ⟨f, hf, hh⟩
    obtain ⟨h3, _⟩ := C04_kept ops e hv hc h2 hk' s hs
    constructor
    · rintro ⟨h4, _⟩; omega
    · rintro ⟨_, h4⟩
      have : (Spec.run ops).edges.filter (fun f => foundUnder ops f = (Spec.run ops).label e) = [] := by
        rw [List.filter_eq_nil_iff]; intro f hf; simpa using hk' f hf
      rw [this] at h4; simp at h4

/-! ## Examples -/

/-- two edges filed under "A", two under "B"; one of the former gets the label "B" -/
def twoTwoOps : List Op := [.newNode [] [], .newEdge 0 0 "A" [], .newEdge 0 0 "A" [], .newEdge 0 0 "B" [],
  .newEdge 0 0 "B" [], .setEdgeLabel 1 "B", .setEdgeLabel 2 "B"]

/-- Removing the newer one does no harm that is seen at once, removing the older one does. -/
example : Spec.ValidHistory (twoTwoOps ++ [.removeEdge 2]) ∧ Spec.ValidHistory (twoTwoOps ++ [.removeEdge 1]) ∧
    FiledOk twoTwoOps ∧ foundUnder twoTwoOps 2 ≠ (Spec.run twoTwoOps).label 2 ∧
    foundUnder twoTwoOps 1 ≠ (Spec.run twoTwoOps).label 1 ∧
    (run (twoTwoOps ++ [.removeEdge 2])).bind State.getEdges = some [1, 3, 4] ∧
    (run (twoTwoOps ++ [.removeEdge 1])).bind State.getEdges = some [1, 2] := by decide +kernel

/-- two edges; one gets another label and is removed -/
def keptOps : List Op := [.newNode [] [], .newEdge 0 0 "A" [], .newEdge 0 0 "A" [], .setEdgeLabel 1 "B"]

example : Spec.ValidHistory (keptOps ++ [.removeEdge 1]) ∧ FiledOk keptOps ∧ 2 ≤ (Spec.run keptOps).edges.length ∧
    (∀ f ∈ (Spec.run keptOps).edges, foundUnder keptOps f ≠ (Spec.run keptOps).label 1) ∧
    (run (keptOps ++ [.removeEdge 1])).map State.numEdges = some 2 ∧
    (run (keptOps ++ [.removeEdge 1])).bind State.getEdges = some [1, 2] := by decide +kernel

/-- A damaged graph: `GetEdges` yields a removed edge, though it ends. -/
example : Spec.ValidHistory (badRelabel ++ [.newEdge 0 0 "D" []]) ∧
    (run (badRelabel ++ [.newEdge 0 0 "D" []])).map State.numEdges = some 2 ∧
    ((run (badRelabel ++ [.newEdge 0 0 "D" []])).bind State.getEdges).isSome ∧
    (Spec.run (badRelabel ++ [.newEdge 0 0 "D" []])).edges = [2, 3] := by decide +kernel

end LPG
