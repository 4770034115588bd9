import Verif.Proofs.RecoverIx
import Verif.Spec.Recover
import Verif.Props.C01Listing
import Verif.Props.C05C09
/-!
# C68: a program that recovers from the panics of the property indexes
-/
namespace LPG

theorem Reached.propsOk {s : State} {ops : List Op} (h : Reached s ops) : s.PropsOk := by
  induction h with
  | new => exact ⟨fun _ => List.nodup_nil, fun _ => List.nodup_nil⟩
  | call _ hv hs _ _ ih => exact PropsOk.step ih hv hs

/-- A call returns exactly if it returns in the histories of the other properties, and does the same, whatever the order in
which it visits the properties. -/
theorem C68_step {s : State} {ops : List Op} (h : Reached s ops) (o : MapOrder) (op : Op) (s' : State) :
    step s op = some s' ↔ tryStep o s op = some (s', false) := tryStep_ok h.propsOk

theorem Spec.Amounts.valid {σ : Spec} {op : Op} {b : Bool} {eff : List Op} (ha : σ.Amounts op b eff) (hv : σ.Valid op) :
    σ.ValidFrom eff := by
  cases ha with
  | detach_some n es h hn h0 => exact valid_removeEdges es hn (fun e he => (h e he).1)
  | detachRemove_some n es h hn h0 => exact valid_removeEdges es hn (fun e he => (h e he).1)
  | _ => first | exact ⟨hv, trivial⟩ | trivial

/-- What the program has done so far amounts to a valid history. That history, without indexes, leads to the graph that the
program has. -/
theorem C68_history {s : State} {ops : List Op} (h : Reached s ops) :
    Spec.ValidHistory ops ∧ run ops = some s.bare := by
  induction h with
  | new => exact ⟨trivial, rfl⟩
  | @call s s' ops eff op b o _ hv _ ha hr ih =>
    exact ⟨Spec.validFrom_append.2 ⟨ih.1, ha.valid hv⟩, hr⟩

/-- What a call does, returning or panicking in an index, apart from the property indexes. -/
theorem tryStep_amounts {s : State} {σ : Spec} (c : Core s.bare σ) {op : Op} (hv : σ.Valid op) {o : MapOrder} {s' : State} {b : Bool}
    (hs : tryStep o s op = some (s', b)) : ∃ eff, σ.Amounts op b eff ∧ runFrom s.bare eff = some s'.bare := by
  have key : ∀ eff, runFrom s.bare eff = some s'.bare → σ.Amounts op b eff →
      ∃ eff, σ.Amounts op b eff ∧ runFrom s.bare eff = some s'.bare := fun eff he ha => ⟨eff, ha, he⟩
  have one : ∀ op', step s.bare op' = some s'.bare → runFrom s.bare [op'] = some s'.bare := by
    intro op' h1
    simp only [runFrom, h1]
  cases op with
  | newNode ls ps =>
    cases Option.some.inj hs
    exact key _ (one (.newNode ls ps) (bare_newNode s (newStringSet ls) ps)) (.newNode ls ps _)
  | newEdge x y l ps => exact key _ (one (.newEdge x y l ps) (bare_newEdge hs)) (.newEdge x y l ps _)
  | setLabels n ls =>
    cases Option.some.inj hs
    exact key _ (one (.setLabels n ls) rfl) (.setLabels n ls)
  | setNodeProp n k v =>
    have hs := Option.some.inj hs
    unfold State.trySetNodeProp at hs
    simp only at hs
    split at hs
    · rename_i h0
      cases hs
      refine key [] rfl (.setNodeProp_kept n k v ?_)
      rw [← (c.nprops n hv).2 k]
      show AMap.get (s.nProps n) k ≠ none
      intro hn
      rw [hn] at h0
      cases h0
    · cases hs
      exact key _ (one (.setNodeProp n k v) (bare_setNodeProp s n k v)) (.setNodeProp n k v _)
  | removeNodeProp n k =>
    have hs := Option.some.inj hs
    unfold State.tryRemoveNodeProp at hs
    split at hs
    · rename_i h0
      cases hs
      refine key [] rfl (.removeNodeProp_kept n k ?_)
      rw [← (c.nprops n hv).2 k]
      show AMap.get (s.nProps n) k ≠ none
      intro hn
      simp only [State.removeNodeProp, hn] at h0
      cases h0
    · rename_i s1 h0
      cases hs
      exact key _ (one (.removeNodeProp n k) (bare_removeNodeProp h0)) (.removeNodeProp n k)
  | detach n =>
    obtain ⟨h1, h2⟩ := tryDetachNode_bare c hv hs
    cases b with
    | false => exact key _ (one (.detach n) (h1 rfl)) (.detach n)
    | true =>
      obtain ⟨es, h3, h4, h5, h6⟩ := h2 rfl
      exact key _ (by rw [run_removeEdges, h6]) (.detach_some n es h5 h4 h3)
  | detachRemove n =>
    rcases tryDetachRemoveNode_bare c hv hs with h1 | ⟨rfl, es, h3, h4, h5, h6⟩
    · exact key _ (one (.detachRemove n) h1) (.detachRemove n b)
    · exact key _ (by rw [run_removeEdges, h6]) (.detachRemove_some n es h5 h4 h3)
  | setEdgeLabel e l =>
    simp only [tryStep, Option.map_eq_some_iff] at hs
    obtain ⟨s1, h1, h2⟩ := hs
    cases h2
    exact key _ (one (.setEdgeLabel e l) (by rw [step, bare_setEdgeLabel, h1]; rfl)) (.setEdgeLabel e l)
  | setEdgeProp n k v =>
    have hs := Option.some.inj hs
    unfold State.trySetEdgeProp at hs
    simp only at hs
    split at hs
    · rename_i h0
      cases hs
      refine key [] rfl (.setEdgeProp_kept n k v ?_)
      rw [← (c.eprops n hv).2 k]
      show AMap.get (s.eProps n) k ≠ none
      intro hn
      rw [hn] at h0
      cases h0
    · cases hs
      exact key _ (one (.setEdgeProp n k v) (bare_setEdgeProp s n k v)) (.setEdgeProp n k v _)
  | removeEdgeProp n k =>
    have hs := Option.some.inj hs
    unfold State.tryRemoveEdgeProp at hs
    split at hs
    · rename_i h0
      cases hs
      refine key [] rfl (.removeEdgeProp_kept n k ?_)
      rw [← (c.eprops n hv).2 k]
      show AMap.get (s.eProps n) k ≠ none
      intro hn
      simp only [State.removeEdgeProp, hn] at h0
      cases h0
    · rename_i s1 h0
      cases hs
      exact key _ (one (.removeEdgeProp n k) (bare_removeEdgeProp h0)) (.removeEdgeProp n k)
  | removeEdge e =>
    cases Option.some.inj hs
    exact key _ (one (.removeEdge e) rfl) (.removeEdge e)
  | addNodeIndex k t =>
    simp only [tryStep, State.tryAddNodeIndex] at hs
    refine key [] ?_ (.addNodeIndex k t b)
    split at hs
    · cases hs; rfl
    · split at hs
      · cases hs
      · cases hs; rfl
  | addEdgeIndex k t =>
    simp only [tryStep, State.tryAddEdgeIndex] at hs
    refine key [] ?_ (.addEdgeIndex k t b)
    split at hs
    · cases hs; rfl
    · split at hs
      · cases hs
      · cases hs; rfl

/-- Each call on nodes and edges of the graph, returning or panicking, amounts to the calls that `Spec.Amounts` names. -/
theorem C68 {s : State} {ops : List Op} (h : Reached s ops) {op : Op} (hv : (Spec.run ops).Valid op) {o : MapOrder} {s' : State} {b : Bool}
    (hs : tryStep o s op = some (s', b)) : ∃ eff, (Spec.run ops).Amounts op b eff ∧ Reached s' (ops ++ eff) := by
  obtain ⟨hvh, hr⟩ := C68_history h
  obtain ⟨eff, ha, he⟩ := tryStep_amounts (Core.run hvh hr) hv hs
  refine ⟨eff, ha, .call h hv hs ha ?_⟩
  show runFrom State.new (ops ++ eff) = _
  have hr' : runFrom State.new ops = some s.bare := hr
  rw [runFrom_append, hr']
  exact he

/-- Each call on nodes and edges of the graph returns or panics in an index, if `GetEdges` returns where the call needs the
edges of the graph. -/
theorem C68_returns {s : State} {ops : List Op} (h : Reached s ops) {op : Op} (hv : (Spec.run ops).Valid op)
    (he : s.NeedsEdges op → s.getEdges ≠ none) (o : MapOrder) : ∃ s' b, tryStep o s op = some (s', b) := by
  obtain ⟨hvh, hr⟩ := C68_history h
  have hm : Mono s.bare.nptr s.bare.allNodes s.bare.idBase := Mono.init.runFrom Core.init hvh hr
  have := tryStep_total (o := o) (Core.run hvh hr) hm he hv
  cases ht : tryStep o s op with
  | none => exact (this ht).elim
  | some r => exact ⟨r.1, r.2, rfl⟩

/-- What `GetNodes` and `NumNodes` answer the program. -/
theorem C68_nodes {s : State} {ops : List Op} (h : Reached s ops) :
    s.getNodes = some (listingAfter ops).nodes ∧ s.numNodes = (Spec.run ops).nodes.length := by
  obtain ⟨hvh, hr⟩ := C68_history h
  exact ⟨C01_listing ops hvh s.bare hr, C02 ops hvh s.bare hr⟩

/-- What the program sees of a node. -/
theorem C68_node {s : State} {ops : List Op} (h : Reached s ops) {n : Nat} (hn : n ∈ (Spec.run ops).nodes) :
    (∀ k, s.nodeProperty n k = (Spec.run ops).nprop n k) ∧
    (∀ l, l ∈ s.nodeGetLabels n ↔ l ∈ (Spec.run ops).labels n) ∧
    ∃ outs ins, s.nodeEdges n .outgoing = some outs ∧ s.nodeEdges n .incoming = some ins ∧
      outs.Perm ((Spec.run ops).edges.filter (fun e => (Spec.run ops).src e = n)) ∧
      ins.Perm ((Spec.run ops).edges.filter (fun e => (Spec.run ops).dst e = n)) := by
  obtain ⟨hvh, hr⟩ := C68_history h
  obtain ⟨h1, _, _, h2⟩ := (C09 ops hvh s.bare hr).1 n hn
  obtain ⟨outs, ins, h3, h4, _, h5, h6⟩ := C05 ops hvh s.bare hr n hn
  exact ⟨h1, h2, outs, ins, h3, h4, h5, h6⟩

/-- What the program sees of an edge. -/
theorem C68_edge {s : State} {ops : List Op} (h : Reached s ops) {e : Nat} (he : e ∈ (Spec.run ops).edges) :
    s.edgeGetLabel e = (Spec.run ops).label e ∧ s.edgeGetFrom e = (Spec.run ops).src e ∧
    s.edgeGetTo e = (Spec.run ops).dst e ∧ ∀ k, s.edgeProperty e k = (Spec.run ops).eprop e k := by
  obtain ⟨hvh, hr⟩ := C68_history h
  have c : Core s.bare _ := Core.run hvh hr
  obtain ⟨h1, h2, h3⟩ := c.eattr e he
  exact ⟨h3, h1, h2, (c.eprops e he).2⟩

/-- A program: a hash index, a node that cannot be indexed, an edge, and calls on them. -/
def recoverOps : List Op :=
  [.addNodeIndex "k" .hash, .newNode ["A"] [("k", .ints [1])], .newNode [] [], .newEdge 0 1 "l" [],
    .setNodeProp 1 "k" (.ints [1]), .setNodeProp 1 "k" (.str "v"), .removeNodeProp 0 "k"]

/-- Four of its calls panic. -/
theorem C68_example : (recoverOps.foldl (fun o op => o.bind (fun (s, bs) => (tryStep .listed s op).map (fun (s, b) => (s, bs ++ [b]))))
      (some (State.new, []))).map (fun r => r.2) = some [false, true, false, false, true, true, true] := by decide +kernel

/-- A call that panics may leave the graph changed. -/
theorem C68_unchanged_false : ∃ (s s' : State) (ops : List Op), Reached s ops ∧ (Spec.run ops).Valid (.newNode [] [("k", .ints [1])]) ∧
    tryStep .listed s (.newNode [] [("k", .ints [1])]) = some (s', true) ∧ s.getNodes = some [] ∧ s'.getNodes = some [0] := by
  have h0 : Reached State.new [] := .new
  exact ⟨_, _, _, Reached.call (o := .listed) (op := .addNodeIndex "k" .hash) (b := false) h0 trivial rfl (.addNodeIndex "k" .hash false) rfl, by decide, rfl, rfl, rfl⟩

end LPG
