import Verif.Proofs.LiveAny
import Verif.Props.C49C50
/-!
# C57: loops over GetNodes that change the graph

`s.liveNodes evs` runs a program that holds an iterator returned by `GetNodes` in the state `s`; `evs` says when it calls
`Next` and when it calls operations of the graph. The log says what happened. Every loop body is covered: what it does may
depend on anything.
-/
namespace LPG
open State

/-- The full property: any valid calls between the calls of `Next`. -/
def C57_statement (ops : List Op) (evs : List Event) : Prop :=
  ∀ s log s' it, run ops = some s → s.liveNodes evs = some (log, s', it) →
    Spec.ValidHistory (ops ++ Seen.ops log) → VisitsNodes ops log

/-- A body may remove the node it is at, and other nodes visited before, and may call anything else.
Missing: nodes that are created after the newest one was removed, and bodies that remove nodes not visited yet. The
property is false for both (`C57_false`, `C57_false_stale`). -/
theorem C57_partial {ops : List Op} {evs : List Event} {s s' : State} {log : List Seen} {it : NodeIt}
    (hs : run ops = some s) (hl : s.liveNodes evs = some (log, s', it)) (hv : Spec.ValidHistory (ops ++ Seen.ops log))
    (hc : ListOk (ops ++ Seen.ops log)) (hr : RemovesVisited [] log) : VisitsNodes ops log := by
  obtain ⟨hv1, hv2⟩ := Spec.validFrom_append.1 hv
  obtain ⟨hc1, hc2⟩ := Spec.listOkFrom_append.1 hc
  have h : NOk s (Spec.run ops) _ := NOk.runFrom Core.init NOk.init hv1 hc1 hs
  obtain ⟨pr, hvis, -⟩ := h.vis
  have hso : (Spec.run ops).Sorted := Spec.Sorted.init.runFrom
  obtain ⟨h1, h2, h3, h4⟩ := nodes_live (Core.run hv1 hs) h hso (NodesInv.init hvis hso) List.Pairwise.nil hl hv2 hc2 hr
  refine ⟨by simpa using h1, ?_, ?_, ?_⟩
  · intro p x q hq; rw [Spec.run_append]; exact h2 p x q hq
  · intro p q hq n hn; simpa using h3 p q hq n hn
  · intro p x q r hq n hn
    rw [Spec.run_append] at hn
    simpa using h4 p x q r hq n hn

/-- Whatever the graph was before and whatever the body does: the loop visits every node that `GetNodes` would have listed
when the loop began and that still exists, once and in order. -/
theorem C57_listed {ops : List Op} {evs : List Event} {s s' : State} {log : List Seen} {it : NodeIt} {ns : List Nat}
    (hs : run ops = some s) (hl : s.liveNodes evs = some (log, s', it)) (hv : Spec.ValidHistory (ops ++ Seen.ops log))
    (hn : s.getNodes = some ns) : VisitsListed ns ops log := by
  obtain ⟨hv1, hv2⟩ := Spec.validFrom_append.1 hv
  have c := Core.run hv1 hs
  have m := Mono.runFrom Core.init Mono.init hv1 hs
  obtain ⟨h1, h2, h3⟩ := nodes_live_any c m (NLinked.runFrom Core.init Mono.init NLinked.init hv1 hs) (NReach.init c m hn)
    (AnyInv.init m hn) List.Pairwise.nil hl hv2
  refine ⟨by simpa using h1, ?_, ?_⟩
  · intro p x q hq
    refine (h2 p x q hq).imp_right ?_
    rintro ⟨p1, p2, h4, h5⟩
    exact ⟨p1, p2, h4, by rw [Spec.run_append]; exact h5⟩
  · intro p q hq n hn hnn
    rw [Spec.run_append] at hnn
    simpa using h3 p q hq n hn hnn

/-- Whatever the body does, the loop visits every node that survives, once and in order.
Missing: graphs whose list of nodes was wrong when the loop began (C01); that no removed node is yielded (`C57_false_stale`). -/
theorem C57_survivors_partial {ops : List Op} {evs : List Event} {s s' : State} {log : List Seen} {it : NodeIt}
    (hs : run ops = some s) (hl : s.liveNodes evs = some (log, s', it)) (hv : Spec.ValidHistory (ops ++ Seen.ops log))
    (hc : ListOk ops) : VisitsSurvivors ops log := by
  obtain ⟨hv1, -⟩ := Spec.validFrom_append.1 hv
  have h : NOk s (Spec.run ops) _ := NOk.runFrom Core.init NOk.init hv1 hc hs
  obtain ⟨h1, h2, h3⟩ := C57_listed hs hl hv (h.getNodes (Core.run hv1 hs))
  refine ⟨h1, ?_, h3⟩
  intro p x q hq
  rcases h2 p x q hq with h4 | h4
  · exact ⟨[], p, rfl, by simpa [Seen.ops] using h4⟩
  · exact h4

/-- A graph that shows a removed node and misses a live one. The loop removes a node that comes next, creates nodes after the
newest was removed, and goes on. -/
def wornNodes : List Op :=
  [.newNode [] [], .detachRemove 0, .newNode [] [], .newNode [] [], .newNode [] [], .detachRemove 1, .detachRemove 3, .newNode [] []]

example : ∃ s log s' it, run wornNodes = some s ∧ s.getNodes = some [1, 2] ∧ (Spec.run wornNodes).nodes = [2, 4] ∧
    s.liveNodes [.op (.newNode [] []), .next, .op (.detachRemove 4), .next, .op (.newNode [] []), .next] = some (log, s', it) ∧
    Spec.ValidHistory (wornNodes ++ Seen.ops log) ∧ Seen.visited log = [1, 2] := by
  refine ⟨_, _, _, _, rfl, ?_, ?_, rfl, ?_⟩ <;> decide +kernel

/-- Four nodes with edges. -/
def loopNodes : List Op :=
  [.newNode ["A"] [], .newNode [] [], .newNode ["B"] [], .newNode [] [], .newEdge 0 1 "e" [], .newEdge 1 2 "e" []]

/-- A loop that removes the first and third node when it is there, changes labels, and creates a node in the first round. -/
def loopEvents : List Event :=
  [.next, .op (.detachRemove 0), .op (.newNode ["C"] []), .next, .op (.setLabels 2 ["D"]), .next, .op (.detachRemove 2), .next,
   .next, .op (.newEdge 1 6 "f" []), .next]

example : ∃ s log s' it, run loopNodes = some s ∧ s.liveNodes loopEvents = some (log, s', it) ∧
    Spec.ValidHistory (loopNodes ++ Seen.ops log) ∧ ListOk (loopNodes ++ Seen.ops log) ∧
    RemovesVisited [] log ∧ Seen.visited log = [0, 1, 2, 3, 6] ∧ s'.getNodes = some [1, 3, 6] := by
  refine ⟨_, _, _, _, rfl, rfl, ?_⟩
  decide +kernel

/-- The property fails for an iterator over a graph that lost a node. -/
theorem C57_false : ∃ ops evs, ¬ C57_statement ops evs := by
  refine ⟨[.newNode [] [], .newNode [] [], .detachRemove 1, .newNode [] []], [.next, .next], ?_⟩
  intro h
  have := (h _ _ _ _ rfl rfl (by decide +kernel)).all [.item 0] [] rfl 2 (by decide +kernel)
  simp [Seen.visited] at this

/-- It fails, too, if the body removes the node that comes next: the loop still visits it. So in every state with a
correct list of nodes, wherever the loop is. -/
theorem C57_stale {ops : List Op} {s : State} {as bs : List Nat} {x y : Nat} (hv : Spec.ValidHistory ops)
    (hc : ListOk ops) (hs : run ops = some s) (hn : (Spec.run ops).nodes = as ++ x :: y :: bs)
    {it : NodeIt} (hi : it.next = some x) {log : List Seen} {z : State × NodeIt}
    (hl : live step NodeIt.adv s it [.next, .op (.detachRemove y), .next] = some (log, z)) :
    log = [.item x, .did (.detachRemove y), .item y] ∧ y ∉ (Spec.run (ops ++ [.detachRemove y])).nodes := by
  have h : NOk s (Spec.run ops) _ := NOk.runFrom Core.init NOk.init hv hc hs
  obtain ⟨pr, hvis, -⟩ := h.vis
  rw [hn] at hvis
  have hnx : s.nptr.next x = some y := hvis.next_of
  constructor
  · simp only [live, NodeIt.adv, hi, hnx] at hl
    split at hl
    · cases hl
    · rename_i log1 z1 h1
      split at h1
      · cases h1
      · simp only [Option.some.injEq, Prod.mk.injEq] at h1 hl
        rw [← hl.1, ← h1.1]
  · rw [Spec.run_append]
    simp [Spec.runFrom, Spec.step]

theorem C57_false_stale : ∃ ops evs, ¬ C57_statement ops evs ∧ NoCreateAfterTailRemoval ops := by
  refine ⟨loopNodes, [.next, .op (.detachRemove 1), .next], ?_, by decide +kernel⟩
  intro h
  have := (h _ _ _ _ rfl rfl (by decide +kernel)).alive [.item 0, .did (.detachRemove 1)] 1 [] rfl
  revert this
  decide +kernel

/-! ## Loops that remove every node -/

theorem Spec.runFrom_detachRemove {xs : List Nat} : ∀ {σ : Spec}, σ.nodes = xs → xs.Nodup →
    σ.ValidFrom (xs.map .detachRemove) ∧ (σ.runFrom (xs.map .detachRemove)).nodes = [] := by
  induction xs with
  | nil => intro σ h _; exact ⟨trivial, h⟩
  | cons x xs ih =>
    intro σ h hn
    have hx : (σ.step (.detachRemove x)).nodes = xs := by
      simp only [Spec.step, h]
      rw [List.filter_cons_of_neg (by simp), List.filter_eq_self]
      intro y hy
      have : y ≠ x := fun e => (List.nodup_cons.1 hn).1 (e ▸ hy)
      simpa using this
    obtain ⟨h1, h2⟩ := ih hx (List.nodup_cons.1 hn).2
    exact ⟨⟨by simp [Spec.Valid, h], h1⟩, h2⟩

/-- Nodes can be removed if no edge is filed under an old label. -/
theorem filed_drain {xs : List Nat} : ∀ {σ : Spec} {g : Nat → String},
    (σ.edges.length ≤ 1 ∨ ∀ e ∈ σ.edges, g e = σ.label e) → σ.FiledOkFrom g (xs.map .detachRemove) := by
  induction xs with
  | nil => intros; exact trivial
  | cons x xs ih =>
    intro σ g h
    refine ⟨h.imp_right fun h e he _ => h e he, ih ?_⟩
    rcases h with h | h
    · exact .inl (Nat.le_trans (List.length_filter_le _ _) h)
    · exact .inr fun e he => h e (List.mem_filter.1 he).1

theorem Spec.filedOkFrom_append {p q : List Op} : ∀ {σ : Spec} {g : Nat → String},
    σ.FiledOkFrom g (p ++ q) ↔ σ.FiledOkFrom g p ∧ (σ.runFrom p).FiledOkFrom (σ.filedFrom g p) q := by
  induction p with
  | nil => intro σ g; simp [Spec.FiledOkFrom, Spec.runFrom, Spec.filedFrom]
  | cons op p ih =>
    intro σ g
    simp only [List.cons_append, Spec.FiledOkFrom, ih, and_assoc, Spec.filedFrom]
    rfl

theorem FiledOk.drain {ops : List Op} {xs : List Nat} (h : FiledOk ops)
    (hg : ∀ e ∈ (Spec.run ops).edges, foundUnder ops e = (Spec.run ops).label e) :
    FiledOk (ops ++ xs.map .detachRemove) := by
  refine Spec.filedOkFrom_append.2 ⟨h, filed_drain ?_⟩
  by_cases hl : (Spec.run ops).edges.length ≤ 1
  · exact .inl hl
  · refine .inr fun e he => ?_
    have := hg e he
    rwa [foundUnder, if_neg hl] at this

theorem indexable_drain {ops : List Op} {xs : List Nat} (h : IndexableValues ops) :
    IndexableValues (ops ++ xs.map .detachRemove) := by
  have hn : NodeValue (ops ++ xs.map .detachRemove) = NodeValue ops := by
    funext k v
    apply propext
    constructor
    · rintro ⟨op, ho, hv⟩
      rcases List.mem_append.1 ho with ho | ho
      · exact ⟨op, ho, hv⟩
      · obtain ⟨x, -, rfl⟩ := List.mem_map.1 ho
        simp [Op.nodeVals] at hv
    · rintro ⟨op, ho, hv⟩; exact ⟨op, List.mem_append_left _ ho, hv⟩
  have he : EdgeValue (ops ++ xs.map .detachRemove) = EdgeValue ops := by
    funext k v
    apply propext
    constructor
    · rintro ⟨op, ho, hv⟩
      rcases List.mem_append.1 ho with ho | ho
      · exact ⟨op, ho, hv⟩
      · obtain ⟨x, -, rfl⟩ := List.mem_map.1 ho
        simp [Op.edgeVals] at hv
    · rintro ⟨op, ho, hv⟩; exact ⟨op, List.mem_append_left _ ho, hv⟩
  constructor
  · intro k t ht
    rw [hn]
    exact h.1 k t (by simpa using ht)
  · intro k t ht
    rw [he]
    exact h.2 k t (by simpa using ht)

theorem listOk_drain {xs : List Nat} : ∀ {σ : Spec} {f : ListFlags}, f.restart = none →
    σ.ListOkFrom f (xs.map .detachRemove) := by
  induction xs with
  | nil => intros; exact trivial
  | cons x xs ih => intro σ f h; exact ⟨by simp [Spec.ListSafe, h], ih (by simpa [Spec.listFlags] using h)⟩

/-- `for nodes := g.GetNodes(); nodes.Next(); { nodes.Node().DetachAndRemove() }` returns and leaves a graph without nodes and
edges. `GetNodes` of that graph yields nothing, unless the graph had been emptied before.
Missing: graphs whose list of nodes is wrong (C01), graphs where one of the edges is not found when it is removed (C04), and
indexes with unsuitable values (C49). -/
theorem C57_drain_partial {ops : List Op} {s : State} (hv : Spec.ValidHistory ops) (hc : ListOk ops)
    (hr : FiledOk (ops ++ (Spec.run ops).nodes.map .detachRemove)) (hi : IndexableValues ops) (hs : run ops = some s) :
    ∃ s', forNodes (fun n => [.detachRemove n]) s s.openNodes = some s' ∧ s'.numNodes = 0 ∧
      s'.getEdges = some [] ∧ s'.numEdges = 0 ∧ ((flagsAfter ops).restart = none → s'.getNodes = some []) ∧
      ∀ x, (flagsAfter ops).restart = some x → ∃ ns, s'.getNodes = some (x :: ns) := by
  have c := Core.run hv hs
  have h : NOk s (Spec.run ops) (flagsAfter ops) := NOk.runFrom Core.init NOk.init hv hc hs
  have m := Mono.runFrom Core.init Mono.init hv hs
  have hso : (Spec.run ops).Sorted := Spec.Sorted.init.runFrom
  obtain ⟨ns, hns⟩ : ∃ ns, (Spec.run ops).nodes = ns := ⟨_, rfl⟩
  rw [hns] at hr
  obtain ⟨hv2, hn2⟩ := Spec.runFrom_detachRemove hns (hns ▸ c.nNodup)
  have hv3 : Spec.ValidHistory (ops ++ ns.map .detachRemove) := Spec.validFrom_append.2 ⟨hv, hv2⟩
  obtain ⟨s', hs'⟩ := C49_partial _ hv3 hr (indexable_drain hi)
  have hrun : runFrom s (ns.map .detachRemove) = some s' := by
    have := hs'
    rw [run, runFrom_append, show runFrom State.new ops = some s from hs] at this
    exact this
  have hnodes : (Spec.run (ops ++ ns.map .detachRemove)).nodes = [] := by rw [Spec.run_append]; exact hn2
  have c3 := Core.run hv3 hs'
  have hedges : (Spec.run (ops ++ ns.map .detachRemove)).edges = [] := by
    rw [List.eq_nil_iff_forall_not_mem]
    intro e he
    have := (c3.ends e he).1
    rw [hnodes] at this
    simp at this
  obtain ⟨he1, es, he2, he3⟩ := C04_filed_partial _ hv3 hr _ hs'
  rw [hedges] at he1 he3
  refine ⟨s', ?_, ?_, ?_, ?_, ?_, ?_⟩
  · obtain ⟨pr, hvis, -⟩ := h.vis
    rw [hns] at hvis
    refine forNodes_drain c hns ?_ ?_ hvis.head hrun
    · intro as z bs hz
      rw [hz] at hvis
      exact hvis.next_of
    · intro x hx p hp hpr
      have h1 := m.prev x p hpr
      have h2 := hso.sorted
      rw [hns] at h2
      cases ns with
      | nil => simp at hp
      | cons a as =>
        simp only [List.head?_cons, Option.some.injEq] at hx
        subst hx
        rcases List.mem_cons.1 hp with rfl | hp
        · omega
        · have := (List.pairwise_cons.1 h2).1 p hp; omega
  · show s'.allNodes.n = 0
    rw [c3.count, hnodes]; rfl
  · rw [he2, List.perm_nil.1 he3]
  · simpa using he1
  · intro hf
    have hc3 : ListOk (ops ++ ns.map .detachRemove) := Spec.listOkFrom_append.2 ⟨hc, listOk_drain hf⟩
    have h3 : NOk s' (Spec.run (ops ++ ns.map .detachRemove)) _ := NOk.runFrom Core.init NOk.init hv3 hc3 hs'
    rw [h3.getNodes c3, hnodes]
  · intro x hx
    have := (h.ghost hx).runFrom c hv2 hrun
    exact this.getNodes (Mono.runFrom Core.init Mono.init hv3 hs')

example : Spec.ValidHistory demoOps ∧ ListOk demoOps ∧ FiledOk (demoOps ++ (Spec.run demoOps).nodes.map .detachRemove) ∧
    (∀ k t, Op.addNodeIndex k t ∉ demoOps ∧ Op.addEdgeIndex k t ∉ demoOps) ∧
    ((run demoOps).bind State.getNodes) = some [1, 2] ∧ ((run demoOps).bind State.getEdges) = some [5, 4] := by
  refine ⟨by decide +kernel, by decide +kernel, by decide +kernel, ?_, by decide +kernel, by decide +kernel⟩
  intro k t; simp [demoOps]

/-- A graph that was emptied, filled, and has a relabeled edge. -/
def refilledOps : List Op :=
  [.newNode [] [], .detachRemove 0, .newNode [] [], .newNode [] [], .newEdge 1 2 "a" [], .newEdge 2 2 "b" [],
   .setEdgeLabel 3 "c", .setEdgeLabel 3 "a"]

example : Spec.ValidHistory refilledOps ∧ ListOk refilledOps ∧ (flagsAfter refilledOps).restart = some 1 ∧
    FiledOk (refilledOps ++ (Spec.run refilledOps).nodes.map .detachRemove) ∧
    (∀ k t, Op.addNodeIndex k t ∉ refilledOps ∧ Op.addEdgeIndex k t ∉ refilledOps) ∧
    ((run (refilledOps ++ [.detachRemove 1, .detachRemove 2])).bind State.getNodes) = some [1, 2] := by
  refine ⟨by decide +kernel, by decide +kernel, by decide +kernel, by decide +kernel, ?_, by decide +kernel⟩
  intro k t; simp [refilledOps]

/-! ## Loops that create nodes -/

/-- A loop over two or more nodes that creates a node in each round never ends: `Next` returns true every time. -/
theorem C57_endless {ops : List Op} {s : State} (hv : Spec.ValidHistory ops)
    (hc : ListOk (ops ++ [.newNode [] []])) (hs : run ops = some s) (h2 : 2 ≤ (Spec.run ops).nodes.length)
    (ls : List String) (k : Nat) :
    ∃ log z, s.liveNodes (List.replicate k [Event.next, .op (.newNode ls [])]).flatten = some (log, z) ∧
      (Seen.visited log).length = k ∧ Seen.last ∉ log := by
  obtain ⟨hc1, hc2⟩ := Spec.listOkFrom_append.1 hc
  have h : NOk s (Spec.run ops) _ := NOk.runFrom Core.init NOk.init hv hc1 hs
  obtain ⟨pr, hvis, -⟩ := h.vis
  have hg := hc2.1
  match hn : (Spec.run ops).nodes, h2 with
  | x :: y :: bs, _ =>
    refine nodes_grow (as := []) (x := x) (y := y) (bs := bs) (Core.run hv hs) h ?_ (by simpa using hn) ?_
    · exact hg.resolve_right (fun h => by rw [show (Spec.new.runFrom ops).nodes = (Spec.run ops).nodes from rfl, hn] at h; cases h)
    simp only [State.openNodes]; rw [hvis.head, hn]; rfl

example : Spec.ValidHistory loopNodes ∧ ListOk (loopNodes ++ [.newNode [] []]) ∧
    (Spec.run loopNodes).nodes = [0, 1, 2, 3] := by decide +kernel

/-- With one node the same loop ends after one round. -/
theorem C57_endless_one : ∃ s log s' it, run [.newNode [] []] = some s ∧
    s.liveNodes [.next, .op (.newNode [] []), .next] = some (log, s', it) ∧ Seen.visited log = [0] ∧
    s'.getNodes = some [0, 1] := by
  refine ⟨_, _, _, _, rfl, rfl, ?_⟩
  decide +kernel

end LPG
