import Verif.Props.C01Exact
/-!
# C05, C06 adjacency, C08 no dangling edges, C09 attributes, C34 simple queries, C48 ForEachNode
-/
namespace LPG
open State

/-! ## C05 -/

/-- `GetEdges(OutgoingEdge)` lists the live edges leaving the node, `GetEdges(IncomingEdge)` those entering it,
and `GetEdges(AnyEdge)` the latter followed by the former, in every history. -/
theorem C05 (ops : List Op) (hv : Spec.ValidHistory ops) (s : State) (hs : run ops = some s) (n : Nat)
    (hn : n ∈ (Spec.run ops).nodes) :
    ∃ outs ins, s.nodeEdges n .outgoing = some outs ∧ s.nodeEdges n .incoming = some ins ∧
      s.nodeEdges n .any = some (ins ++ outs) ∧
      outs.Perm ((Spec.run ops).edges.filter (fun e => (Spec.run ops).src e = n)) ∧
      ins.Perm ((Spec.run ops).edges.filter (fun e => (Spec.run ops).dst e = n)) := by
  have c := Core.run hv hs
  obtain ⟨outs, h1, h2⟩ := c.out_enum hn
  obtain ⟨ins, h3, h4⟩ := c.inc_enum hn
  refine ⟨outs, ins, h1, h3, ?_, h2, h4⟩
  have h1' : (s.outgoing n).enum s.slot1 s.idBase = some outs := h1
  have h3' : (s.incoming n).enum s.slot2 s.idBase = some ins := h3
  simp only [State.nodeEdges, h1', h3', State.cat2]

example : Spec.ValidHistory (demoOps ++ [.setEdgeLabel 4 "e"]) ∧
    (run (demoOps ++ [.setEdgeLabel 4 "e"])).bind (fun s => s.nodeEdges 1 .any) = some [4, 5, 4] := by decide +kernel

/-- Each edge is listed once. -/
theorem C05_once (ops : List Op) (hv : Spec.ValidHistory ops) (s : State) (hs : run ops = some s) (n : Nat)
    (hn : n ∈ (Spec.run ops).nodes) (outs ins : List Nat)
    (ho : s.nodeEdges n .outgoing = some outs) (hi : s.nodeEdges n .incoming = some ins) :
    outs.Nodup ∧ ins.Nodup := by
  have c := Core.run hv hs
  obtain ⟨o', i', h1, h2, _, h4, h5⟩ := C05 ops hv s hs n hn
  rw [ho] at h1; cases h1
  rw [hi] at h2; cases h2
  exact ⟨h4.nodup_iff.2 (c.eNodup.filter _), h5.nodup_iff.2 (c.eNodup.filter _)⟩

/-! ## C06 -/

/-- `GetEdgesWithLabel(dir, l)` lists exactly the live adjacent edges whose current label is `l`. -/
theorem C06_label (ops : List Op) (hv : Spec.ValidHistory ops) (s : State) (hs : run ops = some s) (n : Nat)
    (hn : n ∈ (Spec.run ops).nodes) (l : String) :
    ∃ outs ins, s.nodeEdgesWithLabel n l .outgoing = some outs ∧ s.nodeEdgesWithLabel n l .incoming = some ins ∧
      s.nodeEdgesWithLabel n l .any = some (ins ++ outs) ∧
      outs.Perm ((Spec.run ops).edges.filter (fun e => (Spec.run ops).src e = n ∧ (Spec.run ops).label e = l)) ∧
      ins.Perm ((Spec.run ops).edges.filter (fun e => (Spec.run ops).dst e = n ∧ (Spec.run ops).label e = l)) := by
  have c := Core.run hv hs
  obtain ⟨outs, h1, h2⟩ := c.out_label hn l
  obtain ⟨ins, h3, h4⟩ := c.inc_label hn l
  refine ⟨outs, ins, h1, h3, ?_, h2, h4⟩
  have h1' : (s.outgoing n).enumLabel s.slot1 s.eLabel s.idBase l = some outs := h1
  have h3' : (s.incoming n).enumLabel s.slot2 s.eLabel s.idBase l = some ins := h3
  simp only [State.nodeEdgesWithLabel, h1', h3', State.cat2]

/-- `GetEdgesWithAnyLabel(dir, S)` lists exactly the live adjacent edges whose current label is in `S`, all of
them if `S` is empty. -/
theorem C06_any (ops : List Op) (hv : Spec.ValidHistory ops) (s : State) (hs : run ops = some s) (n : Nat)
    (hn : n ∈ (Spec.run ops).nodes) (ls : List String) (hls : ls.Nodup) :
    ∃ outs ins, s.nodeEdgesWithAnyLabel n ls .outgoing = some outs ∧
      s.nodeEdgesWithAnyLabel n ls .incoming = some ins ∧
      s.nodeEdgesWithAnyLabel n ls .any = some (ins ++ outs) ∧
      outs.Perm ((Spec.run ops).edges.filter
        (fun e => (Spec.run ops).src e = n ∧ (ls = [] ∨ (Spec.run ops).label e ∈ ls))) ∧
      ins.Perm ((Spec.run ops).edges.filter
        (fun e => (Spec.run ops).dst e = n ∧ (ls = [] ∨ (Spec.run ops).label e ∈ ls))) := by
  have c := Core.run hv hs
  obtain ⟨outs, h1, h2⟩ := c.out_any hn hls
  obtain ⟨ins, h3, h4⟩ := c.inc_any hn hls
  refine ⟨outs, ins, h1, h3, ?_, h2, h4⟩
  have h1' : s.nodeEdgesAny1 (s.outgoing n) s.slot1 ls = some outs := h1
  have h3' : s.nodeEdgesAny1 (s.incoming n) s.slot2 ls = some ins := h3
  simp only [State.nodeEdgesWithAnyLabel, h1', h3', State.cat2]

/-- edges relabeled twice, the label lists of a node with three edges -/
def relabelOps : List Op :=
  [.newNode [] [], .newNode [] [], .newEdge 0 1 "a" [], .newEdge 0 1 "b" [], .newEdge 0 0 "a" [],
   .setEdgeLabel 2 "b", .setEdgeLabel 3 "c", .setEdgeLabel 2 "c", .removeEdge 4]

example : Spec.ValidHistory relabelOps ∧
    (run relabelOps).bind (fun s => s.nodeEdgesWithLabel 0 "c" .outgoing) = some [3, 2] ∧
    (run relabelOps).bind (fun s => s.nodeEdgesWithAnyLabel 0 ["a", "b"] .outgoing) = some [] ∧
    (run relabelOps).bind (fun s => s.nodeEdgesWithAnyLabel 1 [] .incoming) = some [3, 2] := by decide +kernel

/-! ## C08 -/

/-- Both ends of every live edge are live nodes, and each end lists the edge. -/
theorem C08_no_dangling (ops : List Op) (hv : Spec.ValidHistory ops) (s : State) (hs : run ops = some s) (e : Nat)
    (he : e ∈ (Spec.run ops).edges) :
    s.edgeGetFrom e ∈ (Spec.run ops).nodes ∧ s.edgeGetTo e ∈ (Spec.run ops).nodes ∧
    (∃ outs, s.nodeEdges (s.edgeGetFrom e) .outgoing = some outs ∧ e ∈ outs) ∧
    (∃ ins, s.nodeEdges (s.edgeGetTo e) .incoming = some ins ∧ e ∈ ins) := by
  have c := Core.run hv hs
  obtain ⟨h1, h2, _⟩ := c.eattr e he
  obtain ⟨h3, h4⟩ := c.ends e he
  simp only [State.edgeGetFrom, State.edgeGetTo, h1, h2]
  refine ⟨h3, h4, ?_, ?_⟩
  · obtain ⟨outs, h5, h6⟩ := c.out_enum h3
    exact ⟨outs, h5, h6.mem_iff.2 (by simpa using he)⟩
  · obtain ⟨ins, h5, h6⟩ := c.inc_enum h4
    exact ⟨ins, h5, h6.mem_iff.2 (by simpa using he)⟩

example : 5 ∈ (Spec.run demoOps).edges ∧ Spec.ValidHistory demoOps := by decide +kernel

/-- What a node lists is live and connected to live nodes: no removed edge or node is reachable. -/
theorem C08_listed (ops : List Op) (hv : Spec.ValidHistory ops) (s : State) (hs : run ops = some s) (n : Nat)
    (hn : n ∈ (Spec.run ops).nodes) (dir : Dir) (es : List Nat) (hes : s.nodeEdges n dir = some es) (e : Nat)
    (he : e ∈ es) :
    e ∈ (Spec.run ops).edges ∧ s.edgeGetFrom e ∈ (Spec.run ops).nodes ∧ s.edgeGetTo e ∈ (Spec.run ops).nodes := by
  obtain ⟨outs, ins, h1, h2, h3, h4, h5⟩ := C05 ops hv s hs n hn
  have hmem : e ∈ (Spec.run ops).edges := by
    cases dir with
    | outgoing => rw [hes] at h1; cases h1; exact (List.mem_filter.1 (h4.mem_iff.1 he)).1
    | incoming => rw [hes] at h2; cases h2; exact (List.mem_filter.1 (h5.mem_iff.1 he)).1
    | any =>
      rw [hes] at h3; cases h3
      rcases List.mem_append.1 he with he | he
      · exact (List.mem_filter.1 (h5.mem_iff.1 he)).1
      · exact (List.mem_filter.1 (h4.mem_iff.1 he)).1
  have := C08_no_dangling ops hv s hs e hmem
  exact ⟨hmem, this.1, this.2.1⟩

/-- Effect of `DetachAndRemove` on the edges of the other nodes: exactly the edges from or to the removed node
disappear. -/
theorem C08_detachRemove (ops : List Op) (hv : Spec.ValidHistory ops) (s s' : State) (hs : run ops = some s)
    (n : Nat) (hn : n ∈ (Spec.run ops).nodes) (hs' : step s (.detachRemove n) = some s')
    (m : Nat) (hm : m ∈ (Spec.run ops).nodes) (hmn : m ≠ n) :
    ∃ o o' i i', s.nodeEdges m .outgoing = some o ∧ s'.nodeEdges m .outgoing = some o' ∧
      s.nodeEdges m .incoming = some i ∧ s'.nodeEdges m .incoming = some i' ∧
      o'.Perm (o.filter (fun e => s.edgeGetTo e ≠ n)) ∧ i'.Perm (i.filter (fun e => s.edgeGetFrom e ≠ n)) := by
  have c := Core.run hv hs
  have c' := c.step (op := .detachRemove n) hn hs'
  have hm' : m ∈ ((Spec.run ops).step (.detachRemove n)).nodes := List.mem_filter.2 ⟨hm, by simpa using hmn⟩
  obtain ⟨o, h1, h2⟩ := c.out_enum hm
  obtain ⟨i, h3, h4⟩ := c.inc_enum hm
  obtain ⟨o', h5, h6⟩ := c'.out_enum hm'
  obtain ⟨i', h7, h8⟩ := c'.inc_enum hm'
  refine ⟨o, o', i, i', h1, h5, h3, h7, ?_, ?_⟩
  · refine h6.trans (List.Perm.trans (List.Perm.of_eq ?_) (h2.filter _).symm)
    simp only [Spec.step, Spec.detach, List.filter_filter]
    apply List.filter_congr
    intro x hx
    rw [State.edgeGetTo, (c.eattr x hx).2.1]
    by_cases a : (Spec.run ops).src x = m
    · have : (Spec.run ops).src x ≠ n := by rw [a]; exact hmn
      by_cases b : (Spec.run ops).dst x = n <;> simp [a, b, hmn]
    · simp [a]
  · refine h8.trans (List.Perm.trans (List.Perm.of_eq ?_) (h4.filter _).symm)
    simp only [Spec.step, Spec.detach, List.filter_filter]
    apply List.filter_congr
    intro x hx
    rw [State.edgeGetFrom, (c.eattr x hx).1]
    by_cases a : (Spec.run ops).dst x = m
    · by_cases b : (Spec.run ops).src x = n <;> simp [a, b, hmn]
    · simp [a]

example : 1 ∈ (Spec.run demoOps).nodes ∧ 2 ∈ (Spec.run demoOps).nodes ∧
    (run (demoOps ++ [.detachRemove 2])).bind (fun s => s.nodeEdges 1 .outgoing) = some [4] := by decide +kernel

/-- Effect of `Detach`: the node loses all its edges, every other node exactly the edges shared with it. -/
theorem C08_detach (ops : List Op) (hv : Spec.ValidHistory ops) (s s' : State) (hs : run ops = some s)
    (n : Nat) (hn : n ∈ (Spec.run ops).nodes) (hs' : step s (.detach n) = some s') :
    s'.nodeEdges n .any = some [] ∧
    ∀ m ∈ (Spec.run ops).nodes, m ≠ n →
    ∃ o o' i i', s.nodeEdges m .outgoing = some o ∧ s'.nodeEdges m .outgoing = some o' ∧
      s.nodeEdges m .incoming = some i ∧ s'.nodeEdges m .incoming = some i' ∧
      o'.Perm (o.filter (fun e => s.edgeGetTo e ≠ n)) ∧ i'.Perm (i.filter (fun e => s.edgeGetFrom e ≠ n)) := by
  have c := Core.run hv hs
  have c' := c.step (op := .detach n) hn hs'
  constructor
  · have hn' : n ∈ ((Spec.run ops).step (.detach n)).nodes := hn
    obtain ⟨o', h5, h6⟩ := c'.out_enum hn'
    obtain ⟨i', h7, h8⟩ := c'.inc_enum hn'
    have ho : o' = [] := by
      apply List.Perm.eq_nil
      refine h6.trans (List.Perm.of_eq ?_)
      rw [List.filter_eq_nil_iff]
      intro x hx
      have := (List.mem_filter.1 hx).2
      simp at this
      intro hc
      exact this.1 (of_decide_eq_true hc)
    have hi : i' = [] := by
      apply List.Perm.eq_nil
      refine h8.trans (List.Perm.of_eq ?_)
      rw [List.filter_eq_nil_iff]
      intro x hx
      have := (List.mem_filter.1 hx).2
      simp at this
      intro hc
      exact this.2 (of_decide_eq_true hc)
    subst ho hi
    have h5' : (s'.outgoing n).enum s'.slot1 s'.idBase = some [] := h5
    have h7' : (s'.incoming n).enum s'.slot2 s'.idBase = some [] := h7
    simp [State.nodeEdges, h5', h7', State.cat2]
  · intro m hm hmn
    have hm' : m ∈ ((Spec.run ops).step (.detach n)).nodes := hm
    obtain ⟨o, h1, h2⟩ := c.out_enum hm
    obtain ⟨i, h3, h4⟩ := c.inc_enum hm
    obtain ⟨o', h5, h6⟩ := c'.out_enum hm'
    obtain ⟨i', h7, h8⟩ := c'.inc_enum hm'
    refine ⟨o, o', i, i', h1, h5, h3, h7, ?_, ?_⟩
    · refine h6.trans (List.Perm.trans (List.Perm.of_eq ?_) (h2.filter _).symm)
      simp only [Spec.step, Spec.detach, List.filter_filter]
      apply List.filter_congr
      intro x hx
      rw [State.edgeGetTo, (c.eattr x hx).2.1]
      by_cases a : (Spec.run ops).src x = m
      · by_cases b : (Spec.run ops).dst x = n <;> simp [a, b, hmn]
      · simp [a]
    · refine h8.trans (List.Perm.trans (List.Perm.of_eq ?_) (h4.filter _).symm)
      simp only [Spec.step, Spec.detach, List.filter_filter]
      apply List.filter_congr
      intro x hx
      rw [State.edgeGetFrom, (c.eattr x hx).1]
      by_cases a : (Spec.run ops).dst x = m
      · by_cases b : (Spec.run ops).src x = n <;> simp [a, b, hmn]
      · simp [a]

example : (run (demoOps ++ [.detach 1])).bind (fun s => s.nodeEdges 2 .incoming) = some [] := by decide +kernel

/-- Effect of `Edge.Remove`: exactly this edge disappears from every adjacency list. -/
theorem C08_removeEdge (ops : List Op) (hv : Spec.ValidHistory ops) (s s' : State) (hs : run ops = some s)
    (e : Nat) (he : e ∈ (Spec.run ops).edges) (hs' : step s (.removeEdge e) = some s')
    (m : Nat) (hm : m ∈ (Spec.run ops).nodes) :
    ∃ o o' i i', s.nodeEdges m .outgoing = some o ∧ s'.nodeEdges m .outgoing = some o' ∧
      s.nodeEdges m .incoming = some i ∧ s'.nodeEdges m .incoming = some i' ∧
      o'.Perm (o.filter (fun x => x ≠ e)) ∧ i'.Perm (i.filter (fun x => x ≠ e)) := by
  have c := Core.run hv hs
  have c' := c.step (op := .removeEdge e) he hs'
  obtain ⟨o, h1, h2⟩ := c.out_enum hm
  obtain ⟨i, h3, h4⟩ := c.inc_enum hm
  obtain ⟨o', h5, h6⟩ := c'.out_enum (n := m) hm
  obtain ⟨i', h7, h8⟩ := c'.inc_enum (n := m) hm
  refine ⟨o, o', i, i', h1, h5, h3, h7, ?_, ?_⟩
  · refine h6.trans (List.Perm.trans (List.Perm.of_eq ?_) (h2.filter _).symm)
    simp only [Spec.step, Spec.dropEdge, List.filter_filter]
    apply List.filter_congr
    intro x _
    exact Bool.and_comm _ _
  · refine h8.trans (List.Perm.trans (List.Perm.of_eq ?_) (h4.filter _).symm)
    simp only [Spec.step, Spec.dropEdge, List.filter_filter]
    apply List.filter_congr
    intro x _
    exact Bool.and_comm _ _

example : (run (demoOps ++ [.removeEdge 4])).bind (fun s => s.nodeEdges 1 .any) = some [5] := by decide +kernel

/-! ## C09 -/

/-- The attributes of live objects are those of the abstract graph, in which each operation changes exactly the
attribute it names. -/
theorem C09 (ops : List Op) (hv : Spec.ValidHistory ops) (s : State) (hs : run ops = some s) :
    (∀ n ∈ (Spec.run ops).nodes,
      (∀ k, s.nodeProperty n k = (Spec.run ops).nprop n k) ∧
      (∀ l, s.nodeHasLabel n l = true ↔ l ∈ (Spec.run ops).labels n) ∧
      (s.nodeGetLabels n).Nodup ∧ (∀ l, l ∈ s.nodeGetLabels n ↔ l ∈ (Spec.run ops).labels n)) ∧
    (∀ e ∈ (Spec.run ops).edges,
      (∀ k, s.edgeProperty e k = (Spec.run ops).eprop e k) ∧
      s.edgeGetLabel e = (Spec.run ops).label e ∧
      s.edgeGetFrom e = (Spec.run ops).src e ∧ s.edgeGetTo e = (Spec.run ops).dst e) := by
  have c := Core.run hv hs
  constructor
  · intro n hn
    have h1 := c.labels n hn
    have h2 := c.nprops n hn
    refine ⟨h2.2, ?_, h1.1, h1.2⟩
    intro l
    simp only [State.nodeHasLabel, List.contains_iff_mem]
    exact h1.2 l
  · intro e he
    obtain ⟨h1, h2, h3⟩ := c.eattr e he
    exact ⟨(c.eprops e he).2, h3, h1, h2⟩

example : (run demoOps).map (fun s => (s.nodeGetLabels 1, (s.nodeProperty 2 "x").isSome, s.edgeGetLabel 4)) =
    some (["C"], true, "f") := by decide +kernel

/-- Everything one can read from one object. -/
structure Attrs where
  nodeProp : Nat → String → Option Value
  nodeLabels : Nat → List String
  edgeProp : Nat → String → Option Value
  edgeLabel : Nat → String
  edgeFrom : Nat → Nat
  edgeTo : Nat → Nat

/-- All attributes readable in a state. -/
def State.attrs (s : State) : Attrs :=
  { nodeProp := s.nodeProperty, nodeLabels := s.nodeGetLabels, edgeProp := s.edgeProperty,
    edgeLabel := s.edgeGetLabel, edgeFrom := s.edgeGetFrom, edgeTo := s.edgeGetTo }

/-- Write then read, for every operation and every state: the operation sets the attribute it names to the value
given and leaves every other attribute of every object as it was. -/
theorem C09_write (s s' : State) (op : Op) (hs : step s op = some s') : s'.attrs =
    match op with
    | .newNode ls ps =>
      { s.attrs with nodeProp := upd s.attrs.nodeProp s.idBase (fun k => ps.get k),
                     nodeLabels := upd s.attrs.nodeLabels s.idBase (newStringSet ls) }
    | .newEdge a b l ps =>
      { s.attrs with edgeProp := upd s.attrs.edgeProp s.idBase (fun k => ps.get k),
                     edgeLabel := upd s.attrs.edgeLabel s.idBase l,
                     edgeFrom := upd s.attrs.edgeFrom s.idBase a, edgeTo := upd s.attrs.edgeTo s.idBase b }
    | .setLabels n ls => { s.attrs with nodeLabels := upd s.attrs.nodeLabels n ls }
    | .setNodeProp n k v =>
      { s.attrs with nodeProp := upd s.attrs.nodeProp n (upd (s.attrs.nodeProp n) k (some v)) }
    | .removeNodeProp n k =>
      { s.attrs with nodeProp := upd s.attrs.nodeProp n (upd (s.attrs.nodeProp n) k none) }
    | .setEdgeLabel e l => { s.attrs with edgeLabel := upd s.attrs.edgeLabel e l }
    | .setEdgeProp e k v =>
      { s.attrs with edgeProp := upd s.attrs.edgeProp e (upd (s.attrs.edgeProp e) k (some v)) }
    | .removeEdgeProp e k =>
      { s.attrs with edgeProp := upd s.attrs.edgeProp e (upd (s.attrs.edgeProp e) k none) }
    | .detach _ | .detachRemove _ | .removeEdge _ | .addNodeIndex _ _ | .addEdgeIndex _ _ => s.attrs := by
  cases op with
  | newNode ls ps =>
    obtain ⟨ixs, _, rfl⟩ := newNode_frame hs
    simp only [State.attrs, Attrs.mk.injEq]
    refine ⟨?_, rfl, rfl, rfl, rfl, rfl⟩
    funext n k
    simp only [State.nodeProperty, upd_apply]; split <;> rfl
  | newEdge a b l ps =>
    obtain ⟨h1, h2, h3, h4, h5, h6, h7, h8, h9, h10, h11, _⟩ := newEdge_frame hs
    simp only [State.attrs, Attrs.mk.injEq]
    refine ⟨?_, ?_, ?_, ?_, ?_, ?_⟩
    · funext n k; simp only [State.nodeProperty, h5]
    · funext n; simp only [State.nodeGetLabels, h4]
    · funext n k; simp only [State.edgeProperty, h8, upd_apply]; split <;> rfl
    · funext n; simp only [State.edgeGetLabel, h11, upd_apply]
    · funext n; simp only [State.edgeGetFrom, h9, upd_apply]
    · funext n; simp only [State.edgeGetTo, h10, upd_apply]
  | setLabels n ls => cases hs; rfl
  | setNodeProp n k v =>
    obtain ⟨ixs, rfl⟩ := setNodeProp_frame hs
    simp only [State.attrs, Attrs.mk.injEq]
    refine ⟨?_, rfl, rfl, rfl, rfl, rfl⟩
    funext m k'
    simp only [State.nodeProperty, upd_apply]
    split
    · simp only [AMap.get_set, upd_apply]; rfl
    · rfl
  | removeNodeProp n k =>
    obtain ⟨ixs, rfl⟩ := removeNodeProp_frame hs
    simp only [State.attrs, Attrs.mk.injEq]
    refine ⟨?_, rfl, rfl, rfl, rfl, rfl⟩
    funext m k'
    simp only [State.nodeProperty, upd_apply]
    split
    · simp only [AMap.get_del, upd_apply]; rfl
    · rfl
  | detach n =>
    obtain ⟨p0, p1, p2, im, om, ae, ix, rfl⟩ := detachNode_frame hs
    rfl
  | detachRemove n =>
    simp only [LPG.step, State.detachRemoveNode] at hs
    split at hs
    · cases hs
    · rename_i s1 h1
      obtain ⟨p0, p1, p2, im, om, ae, ix, rfl⟩ := detachNode_frame h1
      split at hs
      · cases hs
      · cases hs; rfl
  | setEdgeLabel e l =>
    simp only [LPG.step, State.setEdgeLabel] at hs
    split at hs
    · rename_i hl
      cases hs
      simp only [State.attrs, Attrs.mk.injEq, true_and]
      refine ⟨?_, trivial⟩
      funext x
      simp only [State.edgeGetLabel, upd_apply]
      split
      · rename_i hx; rw [hx, hl]
      · rfl
    · obtain ⟨p1, p2, im, om, rfl⟩ := connect_frame hs
      rfl
  | setEdgeProp n k v =>
    obtain ⟨ixs, rfl⟩ := setEdgeProp_frame hs
    simp only [State.attrs, Attrs.mk.injEq]
    refine ⟨rfl, rfl, ?_, rfl, rfl, rfl⟩
    funext m k'
    simp only [State.edgeProperty, upd_apply]
    split
    · simp only [AMap.get_set, upd_apply]; rfl
    · rfl
  | removeEdgeProp n k =>
    obtain ⟨ixs, rfl⟩ := removeEdgeProp_frame hs
    simp only [State.attrs, Attrs.mk.injEq]
    refine ⟨rfl, rfl, ?_, rfl, rfl, rfl⟩
    funext m k'
    simp only [State.edgeProperty, upd_apply]
    split
    · simp only [AMap.get_del, upd_apply]; rfl
    · rfl
  | removeEdge e => cases hs; rfl
  | addNodeIndex k t => obtain ⟨ixs, rfl⟩ := addNodeIndex_frame hs; rfl
  | addEdgeIndex k t => obtain ⟨ixs, rfl⟩ := addEdgeIndex_frame hs; rfl

/-! ## C34 -/

/-- `Sources` and `Sinks` list exactly the live nodes without incoming or outgoing edges, in creation order.
As `GetNodes` (C01), they need that every operation was safe for the list of nodes. -/
theorem C34_sources_sinks_partial (ops : List Op) (hv : Spec.ValidHistory ops) (hc : ListOk ops)
    (s : State) (hs : run ops = some s) :
    s.sources = some ((Spec.run ops).nodes.filter (fun n => ∀ e ∈ (Spec.run ops).edges, (Spec.run ops).dst e ≠ n)) ∧
    s.sinks = some ((Spec.run ops).nodes.filter (fun n => ∀ e ∈ (Spec.run ops).edges, (Spec.run ops).src e ≠ n)) := by
  have c := Core.run hv hs
  have hnodes := C01_safe_partial ops hv hc s hs
  constructor
  · simp only [State.sources, hnodes]
    refine filterOpt_some ?_
    intro n hn
    obtain ⟨es, h1, h2⟩ := c.inc_enum hn
    rw [h1]
    simp only [Option.map_some, Option.some.injEq]
    rw [Bool.eq_iff_iff, List.isEmpty_iff, decide_eq_true_iff]
    constructor
    · rintro rfl e he hd
      have := h2.mem_iff (a := e)
      simp [he, hd] at this
    · intro h
      apply List.Perm.eq_nil
      refine h2.trans (List.Perm.of_eq ?_)
      rw [List.filter_eq_nil_iff]
      intro e he; simpa using h e he
  · simp only [State.sinks, hnodes]
    refine filterOpt_some ?_
    intro n hn
    obtain ⟨es, h1, h2⟩ := c.out_enum hn
    rw [h1]
    simp only [Option.map_some, Option.some.injEq]
    rw [Bool.eq_iff_iff, List.isEmpty_iff, decide_eq_true_iff]
    constructor
    · rintro rfl e he hd
      have := h2.mem_iff (a := e)
      simp [he, hd] at this
    · intro h
      apply List.Perm.eq_nil
      refine h2.trans (List.Perm.of_eq ?_)
      rw [List.filter_eq_nil_iff]
      intro e he; simpa using h e he

example : (run relabelOps).bind State.sources = some [0] ∧ (run relabelOps).bind State.sinks = some [1] ∧
    ListOk relabelOps := by decide +kernel

/-- `Sources` inherits the failure of `GetNodes`. -/
theorem C34_sources_false : Spec.ValidHistory [.newNode [] [], .newNode [] [], .detachRemove 1, .newNode [] []] ∧
    (run [.newNode [] [], .newNode [] [], .detachRemove 1, .newNode [] []]).bind State.sources = some [0] ∧
    (Spec.run [.newNode [] [], .newNode [] [], .detachRemove 1, .newNode [] []]).nodes = [0, 2] := by
  decide +kernel

/-- `EdgesBetweenNodes(a, b)` lists exactly the live edges from `a` to `b`, each once, in every history. -/
theorem C34_edgesBetween (ops : List Op) (hv : Spec.ValidHistory ops) (s : State) (hs : run ops = some s)
    (a b : Nat) (ha : a ∈ (Spec.run ops).nodes) :
    ∃ es, s.edgesBetween a b = some es ∧ es.Perm ((Spec.run ops).edges.filter
      (fun e => (Spec.run ops).src e = a ∧ (Spec.run ops).dst e = b)) := by
  have c := Core.run hv hs
  obtain ⟨es, h1, h2⟩ := c.out_enum ha
  refine ⟨_, by simp only [State.edgesBetween, h1]; rfl, ?_⟩
  refine (h2.filter _).trans (List.Perm.of_eq ?_)
  rw [List.filter_filter]
  apply List.filter_congr
  intro x hx
  rw [(c.eattr x hx).2.1]
  by_cases h1 : (Spec.run ops).src x = a <;> by_cases h2 : (Spec.run ops).dst x = b <;> simp [h1, h2]

example : (run relabelOps).bind (fun s => s.edgesBetween 0 1) = some [3, 2] := by decide +kernel

theorem nat_eraseDups_nodup (l : List Nat) : l.eraseDups.Nodup := by
  generalize hn : l.length = n
  induction n using Nat.strongRecOn generalizing l with
  | _ n ih =>
    cases l with
    | nil => simp
    | cons a l =>
      rw [List.eraseDups_cons, List.nodup_cons]
      refine ⟨by simp, ?_⟩
      refine ih _ ?_ _ rfl
      have := List.length_filter_le (fun b => !b == a) l
      simp at hn; omega

/-- `NextNodesWith(n, l)` lists exactly the targets of the live edges leaving `n` with current label `l`, each
once, in every history. -/
theorem C34_nextNodesWith (ops : List Op) (hv : Spec.ValidHistory ops) (s : State) (hs : run ops = some s)
    (n : Nat) (hn : n ∈ (Spec.run ops).nodes) (l : String) :
    ∃ ns, s.nextNodesWith n l = some ns ∧ ns.Nodup ∧ ∀ m, m ∈ ns ↔ ∃ e ∈ (Spec.run ops).edges,
      (Spec.run ops).src e = n ∧ (Spec.run ops).label e = l ∧ (Spec.run ops).dst e = m := by
  have c := Core.run hv hs
  obtain ⟨es, h1, h2⟩ := c.out_label hn l
  refine ⟨_, by simp only [State.nextNodesWith, h1]; rfl, nat_eraseDups_nodup _, ?_⟩
  intro m
  simp only [State.targetNodes, List.mem_eraseDups, List.mem_map]
  constructor
  · rintro ⟨e, he, rfl⟩
    have := h2.mem_iff.1 he
    simp only [List.mem_filter, decide_eq_true_eq] at this
    exact ⟨e, this.1, this.2.1, this.2.2, ((c.eattr e this.1).2.1).symm⟩
  · rintro ⟨e, he, ha, hl, hd⟩
    exact ⟨e, h2.mem_iff.2 (by simp [he, ha, hl]), by rw [(c.eattr e he).2.1]; exact hd⟩

/-- `PrevNodesWith(n, l)` lists exactly the sources of the live edges entering `n` with current label `l`. -/
theorem C34_prevNodesWith (ops : List Op) (hv : Spec.ValidHistory ops) (s : State) (hs : run ops = some s)
    (n : Nat) (hn : n ∈ (Spec.run ops).nodes) (l : String) :
    ∃ ns, s.prevNodesWith n l = some ns ∧ ns.Nodup ∧ ∀ m, m ∈ ns ↔ ∃ e ∈ (Spec.run ops).edges,
      (Spec.run ops).dst e = n ∧ (Spec.run ops).label e = l ∧ (Spec.run ops).src e = m := by
  have c := Core.run hv hs
  obtain ⟨es, h1, h2⟩ := c.inc_label hn l
  refine ⟨_, by simp only [State.prevNodesWith, h1]; rfl, nat_eraseDups_nodup _, ?_⟩
  intro m
  simp only [State.sourceNodes, List.mem_eraseDups, List.mem_map]
  constructor
  · rintro ⟨e, he, rfl⟩
    have := h2.mem_iff.1 he
    simp only [List.mem_filter, decide_eq_true_eq] at this
    exact ⟨e, this.1, this.2.1, this.2.2, ((c.eattr e this.1).1).symm⟩
  · rintro ⟨e, he, ha, hl, hd⟩
    exact ⟨e, h2.mem_iff.2 (by simp [he, ha, hl]), by rw [(c.eattr e he).1]; exact hd⟩

example : (run relabelOps).bind (fun s => s.nextNodesWith 0 "c") = some [1] ∧
    (run relabelOps).bind (fun s => s.prevNodesWith 1 "c") = some [0] := by decide +kernel

/-! ## C48 -/

theorem forEachLoop_spec {p : Nat → Bool} : ∀ (ns : List Nat),
    ((State.forEachLoop p ns).2 = true ↔ ∀ n ∈ ns, p n = true) ∧
    ((State.forEachLoop p ns).2 = true → (State.forEachLoop p ns).1 = ns) ∧
    ((State.forEachLoop p ns).2 = false → ∃ before x after, ns = before ++ x :: after ∧
      (∀ y ∈ before, p y = true) ∧ p x = false ∧ (State.forEachLoop p ns).1 = before ++ [x])
  | [] => by simp [State.forEachLoop]
  | n :: ns => by
    obtain ⟨h1, h2, h3⟩ := forEachLoop_spec (p := p) ns
    by_cases hp : p n = true
    · simp only [State.forEachLoop, hp, if_true]
      refine ⟨by simp [h1, hp], fun h => by rw [h2 h], fun h => ?_⟩
      obtain ⟨b, x, a, e1, e2, e3, e4⟩ := h3 h
      refine ⟨n :: b, x, a, by rw [e1]; rfl, ?_, e3, by rw [e4]; rfl⟩
      intro y hy
      rcases List.mem_cons.1 hy with rfl | hy
      · exact hp
      · exact e2 y hy
    · simp only [Bool.not_eq_true] at hp
      refine ⟨by simp [State.forEachLoop, hp], by simp [State.forEachLoop, hp], fun _ => ?_⟩
      exact ⟨[], n, ns, rfl, by simp, hp, by simp [State.forEachLoop, hp]⟩

/-- `ForEachNode` calls the predicate on the nodes in `GetNodes` order, up to and including the first one that
returns false, and returns true exactly if there is none. -/
theorem C48_forEachNode (s : State) (p : Nat → Bool) (ns : List Nat) (hns : s.getNodes = some ns) :
    ∃ calls result, s.forEachNode p = some (calls, result) ∧
      (result = true ↔ ∀ n ∈ ns, p n = true) ∧ (result = true → calls = ns) ∧
      (result = false → ∃ before x after, ns = before ++ x :: after ∧ (∀ y ∈ before, p y = true) ∧ p x = false ∧
        calls = before ++ [x]) := by
  refine ⟨(State.forEachLoop p ns).1, (State.forEachLoop p ns).2, by simp [State.forEachNode, hns], ?_⟩
  exact forEachLoop_spec ns

example : (run demoOps).bind (fun s => s.forEachNode (fun n => n ≠ 1)) = some ([1], false) := by decide +kernel

/-- With C01: on the histories covered by `C01_safe_partial` the predicate sees the live nodes in creation order. -/
theorem C48_live_partial (ops : List Op) (hv : Spec.ValidHistory ops) (hc : ListOk ops)
    (s : State) (hs : run ops = some s) :
    s.forEachNode (fun _ => true) = some ((Spec.run ops).nodes, true) := by
  have h := C01_safe_partial ops hv hc s hs
  obtain ⟨calls, result, h1, h2, h3, _⟩ := C48_forEachNode s (fun _ => true) _ h
  have : result = true := h2.2 (by simp)
  rw [h1, this, h3 this]

/-- `ForEachProperty` calls the function on the properties of the object up to and including the first one for
which it returns false, and returns true exactly if there is none. -/
theorem C48_forEachProperty (f : String → Value → Bool) : ∀ (ps : Props),
    ((State.forEachProp f ps).2 = true ↔ ∀ kv ∈ ps, f kv.1 kv.2 = true) ∧
    ((State.forEachProp f ps).2 = true → (State.forEachProp f ps).1 = ps) ∧
    ((State.forEachProp f ps).2 = false → ∃ before x after, ps = before ++ x :: after ∧
      (∀ y ∈ before, f y.1 y.2 = true) ∧ f x.1 x.2 = false ∧ (State.forEachProp f ps).1 = before ++ [x])
  | [] => by simp [State.forEachProp]
  | (k, v) :: ps => by
    obtain ⟨h1, h2, h3⟩ := C48_forEachProperty f ps
    by_cases hp : f k v = true
    · simp only [State.forEachProp, hp, if_true]
      refine ⟨by simp [h1, hp], fun h => by rw [h2 h], fun h => ?_⟩
      obtain ⟨b, x, a, e1, e2, e3, e4⟩ := h3 h
      refine ⟨(k, v) :: b, x, a, by rw [e1]; rfl, ?_, e3, by rw [e4]; rfl⟩
      intro y hy
      rcases List.mem_cons.1 hy with rfl | hy
      · exact hp
      · exact e2 y hy
    · simp only [Bool.not_eq_true] at hp
      refine ⟨by simp [State.forEachProp, hp], by simp [State.forEachProp, hp], fun _ => ?_⟩
      exact ⟨[], (k, v), ps, rfl, by simp, hp, by simp [State.forEachProp, hp]⟩

example : (State.forEachProp (fun k _ => k ≠ "b") [("a", .int 1), ("b", .int 2), ("c", .int 3)]).1.map Prod.fst =
    ["a", "b"] := by decide +kernel

end LPG
