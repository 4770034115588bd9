import Verif.Props.C23
import Verif.Props.C05C09
import Verif.Props.C24C27
/-!
# C44: cursors
-/
namespace LPG
open Spec State Path

/-- The iterator made by `newNodesFromEdges` yields the chosen ends of the edges, each at its first occurrence. -/
theorem Produces.nodesFromEdges {σ : Type} {m : Machine σ Nat} {node : Nat → Nat} {s : σ} {xs : List Nat}
    (h : Produces m s xs) : ∀ {seen : List Nat} {cur : Option Nat},
      Produces (m.nodesFromEdges node) { itr := s, env := seen, current := cur } (uniq seen (xs.map node)) := by
  induction h with
  | @done s s' h1 =>
    intro seen cur
    refine .done (s' := { itr := s', env := seen, current := cur }) ?_
    show Machine.filterNext m _ _ = _
    rw [filterNext_eq]; simp only [h1]
  | @item s s' x xs h1 h2 _ ih =>
    intro seen cur
    simp only [List.map_cons, uniq]
    split
    · rename_i hx
      refine Produces.of_next (s' := { itr := s', env := seen, current := none }) ?_ ih
      show Machine.filterNext m _ _ = Machine.filterNext m _ _
      rw [filterNext_eq]
      have : Machine.uniqueFilter seen (node x) = some (false, seen) := by simp [Machine.uniqueFilter, hx]
      simp only [h1, h2, this]
    · rename_i hx
      refine .item (s' := { itr := s', env := node x :: seen, current := some x }) ?_ ?_ ih
      · show Machine.filterNext m _ _ = _
        rw [filterNext_eq]
        have : Machine.uniqueFilter seen (node x) = some (true, node x :: seen) := by simp [Machine.uniqueFilter, hx]
        simp only [h1, h2, this]
      · show (m.val s').map node = _
        rw [h2]; rfl

theorem Cursor.nodesFromEdges_yields {g : Ends} {i : Itr Nat} {d : Dir} {xs : List Nat} (h : i.Yields xs) :
    (Cursor.nodesFromEdges g i d).Yields (firstOccs (xs.map (Cursor.endOf g d))) := by
  rw [← uniq_firstOccs]
  exact Produces.nodesFromEdges h

/-- The neighbours of `n` in a direction, over edges that satisfy `P`. -/
def Spec.Neighbour (σ : Spec) (P : Nat → Prop) (n : Nat) (d : Dir) (m : Nat) : Prop :=
  ∃ e ∈ σ.edges, P e ∧ match d with
    | .outgoing => σ.src e = n ∧ σ.dst e = m
    | .incoming => σ.dst e = n ∧ σ.src e = m
    | .any => (σ.src e = n ∧ σ.dst e = m) ∨ (σ.dst e = n ∧ σ.src e = m)

/-- What the code yields for `AnyEdge`: the targets of all edges of the node. -/
def Spec.TargetOfIncident (σ : Spec) (P : Nat → Prop) (n m : Nat) : Prop :=
  ∃ e ∈ σ.edges, P e ∧ (σ.src e = n ∨ σ.dst e = n) ∧ σ.dst e = m

/-- `Cursor.Nodes(dir)` for one direction: the distinct neighbours. For `AnyEdge`: the distinct targets of the edges of
the node, which is not the set of neighbours (`C44_false`). In each case `MaxSize` is an upper bound. -/
theorem C44_nodes_partial (ops : List Op) (hv : ValidHistory ops) (s : State) (hs : run ops = some s) (c : Cursor) (n : Nat)
    (hc : c.node = some n) (hn : n ∈ (Spec.run ops).nodes) (d : Dir) :
    ∃ xs, (c.nodes s d).Yields xs ∧ xs.Nodup ∧ (c.nodes s d).Bounded xs ∧
      (d ≠ .any → ∀ m, m ∈ xs ↔ (Spec.run ops).Neighbour (fun _ => True) n d m) ∧
      (d = .any → ∀ m, m ∈ xs ↔ (Spec.run ops).TargetOfIncident (fun _ => True) n m) := by
  have core := Core.run hv hs
  obtain ⟨es, h1, h2, h3⟩ := C23_nodeEdges ops hv s hs n hn d
  obtain ⟨outs, ins, o1, o2, o3, p1, p2⟩ := C05 ops hv s hs n hn
  obtain ⟨f1, f2, f3⟩ := firstOccs_spec (es.map (Cursor.endOf s.ends d))
  have hy : (c.nodes s d).Yields (firstOccs (es.map (Cursor.endOf s.ends d))) := by
    unfold Cursor.nodes; rw [hc]; exact Cursor.nodesFromEdges_yields h2
  have hb : (c.nodes s d).Bounded (firstOccs (es.map (Cursor.endOf s.ends d))) := by
    refine Or.inr ?_
    have e1 : (c.nodes s d).size = (s.nodeEdgesItr n d).size := by unfold Cursor.nodes; rw [hc]; rfl
    rw [e1, h3]
    have := f2.length_le
    simp only [List.length_map] at this
    omega
  refine ⟨_, hy, f1, hb, fun hd m => ?_, fun hd m => ?_⟩
  · rw [f3, List.mem_map]
    cases d with
    | any => exact absurd rfl hd
    | outgoing =>
      rw [o1] at h1; cases h1
      simp only [Neighbour, true_and]
      constructor
      · rintro ⟨e, he, rfl⟩
        have := List.mem_filter.1 (p1.mem_iff.1 he)
        exact ⟨e, this.1, by simpa using this.2, (core.eattr e this.1).2.1.symm⟩
      · rintro ⟨e, he, q1, rfl⟩
        exact ⟨e, p1.mem_iff.2 (List.mem_filter.2 ⟨he, by simpa using q1⟩), (core.eattr e he).2.1⟩
    | incoming =>
      rw [o2] at h1; cases h1
      simp only [Neighbour, true_and]
      constructor
      · rintro ⟨e, he, rfl⟩
        have := List.mem_filter.1 (p2.mem_iff.1 he)
        exact ⟨e, this.1, by simpa using this.2, (core.eattr e this.1).1.symm⟩
      · rintro ⟨e, he, q1, rfl⟩
        exact ⟨e, p2.mem_iff.2 (List.mem_filter.2 ⟨he, by simpa using q1⟩), (core.eattr e he).1⟩
  · subst hd
    rw [o3] at h1; cases h1
    rw [f3, List.mem_map]
    simp only [TargetOfIncident, true_and]
    constructor
    · rintro ⟨e, he, rfl⟩
      rcases List.mem_append.1 he with he | he
      · have := List.mem_filter.1 (p2.mem_iff.1 he)
        exact ⟨e, this.1, Or.inr (by simpa using this.2), (core.eattr e this.1).2.1.symm⟩
      · have := List.mem_filter.1 (p1.mem_iff.1 he)
        exact ⟨e, this.1, Or.inl (by simpa using this.2), (core.eattr e this.1).2.1.symm⟩
    · rintro ⟨e, he, q1, rfl⟩
      refine ⟨e, List.mem_append.2 ?_, (core.eattr e he).2.1⟩
      rcases q1 with q1 | q1
      · exact Or.inr (p1.mem_iff.2 (List.mem_filter.2 ⟨he, by simpa using q1⟩))
      · exact Or.inl (p2.mem_iff.2 (List.mem_filter.2 ⟨he, by simpa using q1⟩))

/-- The same for `NodesWith(dir, label)`. -/
theorem C44_nodesWith_partial (ops : List Op) (hv : ValidHistory ops) (s : State) (hs : run ops = some s) (c : Cursor)
    (n : Nat) (hc : c.node = some n) (hn : n ∈ (Spec.run ops).nodes) (d : Dir) (l : String) :
    ∃ i xs, c.nodesWith s d l = some i ∧ i.Yields xs ∧ xs.Nodup ∧ i.Bounded xs ∧
      (d ≠ .any → ∀ m, m ∈ xs ↔ (Spec.run ops).Neighbour (fun e => (Spec.run ops).label e = l) n d m) ∧
      (d = .any → ∀ m, m ∈ xs ↔ (Spec.run ops).TargetOfIncident (fun e => (Spec.run ops).label e = l) n m) := by
  have core := Core.run hv hs
  obtain ⟨es, it, h1, ht, h2, h3⟩ := C23_nodeEdgesWithLabel ops hv s hs n hn l d
  obtain ⟨outs, ins, o1, o2, o3, p1, p2⟩ := C06_label ops hv s hs n hn l
  obtain ⟨f1, f2, f3⟩ := firstOccs_spec (es.map (Cursor.endOf s.ends d))
  have hw : c.nodesWith s d l = some (Cursor.nodesFromEdges s.ends it d) := by
    unfold Cursor.nodesWith; simp only [hc, ht, Option.map_some]
  have hb : (Cursor.nodesFromEdges s.ends it d).Bounded (firstOccs (es.map (Cursor.endOf s.ends d))) := by
    refine Or.inr ?_
    show _ ≤ it.size
    rw [h3]
    have := f2.length_le
    simp only [List.length_map] at this
    omega
  refine ⟨_, _, hw, Cursor.nodesFromEdges_yields h2, f1, hb, fun hd m => ?_, fun hd m => ?_⟩
  · rw [f3, List.mem_map]
    cases d with
    | any => exact absurd rfl hd
    | outgoing =>
      rw [o1] at h1; cases h1
      simp only [Neighbour]
      constructor
      · rintro ⟨e, he, rfl⟩
        have := List.mem_filter.1 (p1.mem_iff.1 he)
        have h2 : src (Spec.run ops) e = n ∧ label (Spec.run ops) e = l := by simpa using this.2
        exact ⟨e, this.1, h2.2, h2.1, (core.eattr e this.1).2.1.symm⟩
      · rintro ⟨e, he, q0, q1, rfl⟩
        exact ⟨e, p1.mem_iff.2 (List.mem_filter.2 ⟨he, by simpa using ⟨q1, q0⟩⟩), (core.eattr e he).2.1⟩
    | incoming =>
      rw [o2] at h1; cases h1
      simp only [Neighbour]
      constructor
      · rintro ⟨e, he, rfl⟩
        have := List.mem_filter.1 (p2.mem_iff.1 he)
        have h2 : dst (Spec.run ops) e = n ∧ label (Spec.run ops) e = l := by simpa using this.2
        exact ⟨e, this.1, h2.2, h2.1, (core.eattr e this.1).1.symm⟩
      · rintro ⟨e, he, q0, q1, rfl⟩
        exact ⟨e, p2.mem_iff.2 (List.mem_filter.2 ⟨he, by simpa using ⟨q1, q0⟩⟩), (core.eattr e he).1⟩
  · subst hd
    rw [o3] at h1; cases h1
    rw [f3, List.mem_map]
    simp only [TargetOfIncident]
    constructor
    · rintro ⟨e, he, rfl⟩
      rcases List.mem_append.1 he with he | he
      · have := List.mem_filter.1 (p2.mem_iff.1 he)
        have h2 : dst (Spec.run ops) e = n ∧ label (Spec.run ops) e = l := by simpa using this.2
        exact ⟨e, this.1, h2.2, Or.inr h2.1, (core.eattr e this.1).2.1.symm⟩
      · have := List.mem_filter.1 (p1.mem_iff.1 he)
        have h2 : src (Spec.run ops) e = n ∧ label (Spec.run ops) e = l := by simpa using this.2
        exact ⟨e, this.1, h2.2, Or.inl h2.1, (core.eattr e this.1).2.1.symm⟩
    · rintro ⟨e, he, q0, q1, rfl⟩
      refine ⟨e, List.mem_append.2 ?_, (core.eattr e he).2.1⟩
      rcases q1 with q1 | q1
      · exact Or.inr (p1.mem_iff.2 (List.mem_filter.2 ⟨he, by simpa using ⟨q1, q0⟩⟩))
      · exact Or.inl (p2.mem_iff.2 (List.mem_filter.2 ⟨he, by simpa using ⟨q1, q0⟩⟩))

/-- An unset cursor has no nodes and no edges. -/
theorem C44_unset (s : State) (c : Cursor) (hc : c.node = none) (d : Dir) (l : String) :
    (c.nodes s d).Yields [] ∧ (c.edges s d).Yields [] ∧
    (∃ i, c.nodesWith s d l = some i ∧ i.Yields []) ∧ (∃ i, c.edgesWith s d l = some i ∧ i.Yields []) := by
  refine ⟨?_, ?_, ⟨.empty, ?_, Itr.empty_yields⟩, ⟨.empty, ?_, Itr.empty_yields⟩⟩
  · unfold Cursor.nodes; rw [hc]; exact Itr.empty_yields
  · unfold Cursor.edges; rw [hc]; exact Itr.empty_yields
  · unfold Cursor.nodesWith; rw [hc]
  · unfold Cursor.edgesWith; rw [hc]

/-- C44 is false for `AnyEdge`: at node 1 of the graph `0 → 1` the only neighbour is 0, and the iterator yields 1. -/
theorem C44_false : ¬ ∀ (ops : List Op), ValidHistory ops → ∀ (s : State), run ops = some s → ∀ (c : Cursor) (n : Nat),
    c.node = some n → n ∈ (Spec.run ops).nodes → ∀ d, ∃ xs, (c.nodes s d).Yields xs ∧
      ∀ m, m ∈ xs ↔ (Spec.run ops).Neighbour (fun _ => True) n d m := by
  intro h
  have hv : ValidHistory edgeOps := by decide
  cases hr : run edgeOps with
  | none => exact absurd hr (by decide +kernel)
  | some s =>
    obtain ⟨xs, h1, h2⟩ := h edgeOps hv s hr { node := some 1 } 1 rfl (by decide) .any
    obtain ⟨ys, g1, _, _, _, g2⟩ := C44_nodes_partial edgeOps hv s hr { node := some 1 } 1 rfl (by decide) .any
    have := Produces.unique h1 g1
    subst this
    have := (h2 1).1 ((g2 rfl 1).2 ⟨2, by decide, trivial, Or.inr (by decide), by decide⟩)
    obtain ⟨e, he, _, hh⟩ := this
    have he' : e = 2 := by
      have : (Spec.run edgeOps).edges = [2] := by decide
      rw [this] at he; simpa using he
    subst he'
    revert hh
    decide

/-- `cursor.Set(n).StartPath()` and a sequence of pushes: as long as nothing panics the path consists of the pushed edges
in order, is connected, begins at `n`, and the cursor is at its end. -/
def pushAll (g : Ends) (c : Cursor) : List Nat → Option Cursor
  | [] => some c
  | e :: es =>
    match c.pushToPath g e with
    | none => none
    | some c => pushAll g c es

theorem pushAll_spec {g : Ends} : ∀ {es done : List Nat} {n : Nat} {c c' : Cursor} {p : Path}, c.path = some p →
    Built g p → Connected g p.path → p.first g = some n → p.last g = c.node →
    p.path = newPathElementsFromEdges done → pushAll g c es = some c' →
    ∃ q, c'.path = some q ∧ q.path = newPathElementsFromEdges (done ++ es) ∧ Connected g q.path ∧ q.first g = some n ∧
      q.last g = c'.node
  | [], done, n, c, c', p, hp, hb, hc, hf, hl, hd, h => by
    cases h
    exact ⟨p, hp, by simpa using hd, hc, hf, hl⟩
  | e :: es, done, n, c, c', p, hp, hb, hc, hf, hl, hd, h => by
    rw [pushAll] at h
    split at h
    · cases h
    · rename_i c1 h1
      unfold Cursor.pushToPath at h1
      simp only [hp] at h1
      cases ha : p.append g [{ edge := e, reverse := false }] with
      | error _ => rw [ha] at h1; cases h1
      | ok q =>
        rw [ha] at h1
        cases h1
        have hv : p.visits g ≠ [] := by intro h0; rw [first_eq, h0] at hf; cases hf
        obtain ⟨a1, a2⟩ := C24_append hb hv { edge := e, reverse := false } []
        by_cases hh : p.last g = some (PathElement.getSourceNode g { edge := e, reverse := false }) ∧
            Connected g [{ edge := e, reverse := false }]
        · have hq := a1 hh
          rw [ha] at hq
          cases hq
          have hcq : Connected g (p.path ++ [{ edge := e, reverse := false }]) := by
            refine connected_append.2 ⟨hc, hh.2, fun x hx y hy => ?_⟩
            simp only [List.head?_cons, Option.mem_def, Option.some.injEq] at hy
            subst hy
            have hl' := hh.1
            cases ho : p.only with
            | some m => have := hb.wf (by simp [ho]); rw [this] at hx; cases hx
            | none =>
              simp only [Path.last, ho] at hl'
              rw [Option.mem_def.1 hx] at hl'
              exact Option.some.inj hl'
          have hfq : Path.first g { only := none, path := p.path ++ [{ edge := e, reverse := false }] } = some n := by
            rcases hb.wf.cases with rfl | ⟨m, rfl⟩ | ⟨x, xs, rfl⟩
            · simp [Path.first] at hf
            · simp only [Path.first, Option.some.injEq] at hf
              subst hf
              have := hh.1
              simp only [Path.last, Option.some.injEq] at this
              simp [Path.first, this]
            · simpa [Path.first] using hf
          have := pushAll_spec (es := es) (done := done ++ [e]) (n := n)
            (p := { only := none, path := p.path ++ [{ edge := e, reverse := false }] }) rfl (.append hb ha) hcq hfq
            (by simp [Path.last, PathElement.getTargetNode]) (by simp [hd, newPathElementsFromEdges]) h
          simpa using this
        · obtain ⟨x, hx⟩ := a2 hh
          rw [hx] at ha; cases ha

theorem C44_push {g : Ends} {c c1 c' : Cursor} {n : Nat} {es : List Nat} (h0 : (c.set (some n)).startPath = some c1)
    (h : pushAll g c1 es = some c') :
    ∃ q, c'.getPath = some q ∧ q.path = newPathElementsFromEdges es ∧ Connected g q.path ∧ q.first g = some n ∧
      q.last g = c'.node := by
  simp only [Cursor.startPath, Cursor.set, pathFromNode, Option.map_some, Option.some.injEq] at h0
  subst h0
  have := pushAll_spec (g := g) (es := es) (done := []) (n := n) (c' := c')
    (c := { node := some n, path := some { only := some n, path := [] } })
    (p := { only := some n, path := [] }) rfl (.node (n := some n) rfl) connected_nil rfl rfl rfl h
  simpa [Cursor.getPath] using this

/-- A push moves the cursor to the target of the edge, and panics exactly if the edge does not start at the end of the
path (which is not empty). -/
theorem C44_push_moves {g : Ends} {c : Cursor} {p : Path} {e : Nat} (hp : c.getPath = some p) (hb : Built g p)
    (hv : p.visits g ≠ []) :
    ((c.pushToPath g e).isSome = true ↔ p.last g = some (g.src e)) ∧
    ∀ c', c.pushToPath g e = some c' → c'.node = some (g.dst e) := by
  obtain ⟨a1, a2⟩ := C24_append hb hv { edge := e, reverse := false } []
  have hs : PathElement.getSourceNode g { edge := e, reverse := false } = g.src e := rfl
  rw [hs] at a1 a2
  unfold Cursor.getPath at hp
  unfold Cursor.pushToPath
  simp only [hp]
  by_cases hh : p.last g = some (g.src e)
  · rw [a1 ⟨hh, connected_single _⟩]
    exact ⟨by simp [hh], fun c' h => by cases h; rfl⟩
  · obtain ⟨q, hq⟩ := a2 (fun h => hh h.1)
    rw [hq]
    exact ⟨by simp [hh], fun c' h => by cases h⟩

example : (((Cursor.set {} (some 1)).startPath.bind (fun c => pushAll demoEnds c [10, 11])).bind (·.node)) = some 3 ∧
    ((Cursor.set {} (some 1)).startPath.bind (fun c => pushAll demoEnds c [10, 12])).isNone = true ∧
    1 ∈ (Spec.run edgeOps).nodes := by decide

/-- `Forward` and `Backward` yield the edges that leave the node and those that lead to it, once each. -/
theorem C44_edges (ops : List Op) (hv : ValidHistory ops) (s : State) (hs : run ops = some s) (c : Cursor) (n : Nat)
    (hc : c.node = some n) (hn : n ∈ (Spec.run ops).nodes) :
    (∃ xs, (c.forward s).Yields xs ∧ (c.forward s).size = xs.length ∧
      xs.Perm ((Spec.run ops).edges.filter (fun e => (Spec.run ops).src e = n))) ∧
    ∃ xs, (c.backward s).Yields xs ∧ (c.backward s).size = xs.length ∧
      xs.Perm ((Spec.run ops).edges.filter (fun e => (Spec.run ops).dst e = n)) := by
  obtain ⟨outs, ins, o1, o2, o3, p1, p2⟩ := C05 ops hv s hs n hn
  constructor
  · obtain ⟨es, h1, h2, h3⟩ := C23_nodeEdges ops hv s hs n hn .outgoing
    rw [o1] at h1
    cases h1
    refine ⟨outs, ?_, ?_, p1⟩ <;> (unfold Cursor.forward Cursor.edges; rw [hc])
    · exact h2
    · exact h3
  · obtain ⟨es, h1, h2, h3⟩ := C23_nodeEdges ops hv s hs n hn .incoming
    rw [o2] at h1
    cases h1
    refine ⟨ins, ?_, ?_, p2⟩ <;> (unfold Cursor.backward Cursor.edges; rw [hc])
    · exact h2
    · exact h3

/-- `ForwardWith` and `BackwardWith` yield those of them that have the label. -/
theorem C44_edgesWith (ops : List Op) (hv : ValidHistory ops) (s : State) (hs : run ops = some s) (c : Cursor) (n : Nat)
    (hc : c.node = some n) (hn : n ∈ (Spec.run ops).nodes) (l : String) :
    (∃ i xs, c.forwardWith s l = some i ∧ i.Yields xs ∧
      xs.Perm ((Spec.run ops).edges.filter (fun e => (Spec.run ops).src e = n ∧ (Spec.run ops).label e = l))) ∧
    ∃ i xs, c.backwardWith s l = some i ∧ i.Yields xs ∧
      xs.Perm ((Spec.run ops).edges.filter (fun e => (Spec.run ops).dst e = n ∧ (Spec.run ops).label e = l)) := by
  obtain ⟨outs, ins, o1, o2, _, p1, p2⟩ := C06_label ops hv s hs n hn l
  constructor
  · obtain ⟨es, i, h1, ht, h2, _⟩ := C23_nodeEdgesWithLabel ops hv s hs n hn l .outgoing
    rw [o1] at h1
    cases h1
    refine ⟨i, outs, ?_, h2, p1⟩
    unfold Cursor.forwardWith Cursor.edgesWith
    rw [hc]
    exact ht
  · obtain ⟨es, i, h1, ht, h2, _⟩ := C23_nodeEdgesWithLabel ops hv s hs n hn l .incoming
    rw [o2] at h1
    cases h1
    refine ⟨i, ins, ?_, h2, p2⟩
    unfold Cursor.backwardWith Cursor.edgesWith
    rw [hc]
    exact ht

/-- `NextNodes` and `PrevNodes` yield the distinct neighbours, in all histories. -/
theorem C44_neighbours (ops : List Op) (hv : ValidHistory ops) (s : State) (hs : run ops = some s) (c : Cursor) (n : Nat)
    (hc : c.node = some n) (hn : n ∈ (Spec.run ops).nodes) :
    (∃ xs, (c.nextNodes s).Yields xs ∧ xs.Nodup ∧ ∀ m, m ∈ xs ↔ ∃ e ∈ (Spec.run ops).edges,
      (Spec.run ops).src e = n ∧ (Spec.run ops).dst e = m) ∧
    ∃ xs, (c.prevNodes s).Yields xs ∧ xs.Nodup ∧ ∀ m, m ∈ xs ↔ ∃ e ∈ (Spec.run ops).edges,
      (Spec.run ops).dst e = n ∧ (Spec.run ops).src e = m := by
  constructor
  · obtain ⟨xs, h1, h2, _, h4, _⟩ := C44_nodes_partial ops hv s hs c n hc hn .outgoing
    refine ⟨xs, h1, h2, fun m => ?_⟩
    rw [h4 (by simp)]
    simp [Neighbour]
  · obtain ⟨xs, h1, h2, _, h4, _⟩ := C44_nodes_partial ops hv s hs c n hc hn .incoming
    refine ⟨xs, h1, h2, fun m => ?_⟩
    rw [h4 (by simp)]
    simp [Neighbour]

/-- The same over the edges with a label: `NextNodesWith` and `PrevNodesWith`. -/
theorem C44_neighboursWith (ops : List Op) (hv : ValidHistory ops) (s : State) (hs : run ops = some s) (c : Cursor) (n : Nat)
    (hc : c.node = some n) (hn : n ∈ (Spec.run ops).nodes) (l : String) :
    (∃ i xs, c.nextNodesWith s l = some i ∧ i.Yields xs ∧ xs.Nodup ∧ ∀ m, m ∈ xs ↔ ∃ e ∈ (Spec.run ops).edges,
      (Spec.run ops).label e = l ∧ (Spec.run ops).src e = n ∧ (Spec.run ops).dst e = m) ∧
    ∃ i xs, c.prevNodesWith s l = some i ∧ i.Yields xs ∧ xs.Nodup ∧ ∀ m, m ∈ xs ↔ ∃ e ∈ (Spec.run ops).edges,
      (Spec.run ops).label e = l ∧ (Spec.run ops).dst e = n ∧ (Spec.run ops).src e = m := by
  constructor
  · obtain ⟨i, xs, h0, h1, h2, _, h4, _⟩ := C44_nodesWith_partial ops hv s hs c n hc hn .outgoing l
    exact ⟨i, xs, h0, h1, h2, fun m => h4 (by simp) m⟩
  · obtain ⟨i, xs, h0, h1, h2, _, h4, _⟩ := C44_nodesWith_partial ops hv s hs c n hc hn .incoming l
    exact ⟨i, xs, h0, h1, h2, fun m => h4 (by simp) m⟩

end LPG
