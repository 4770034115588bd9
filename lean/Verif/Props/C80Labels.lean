import Verif.Props.C80Indexes
import Verif.Props.C10C11
/-!
# C80: lookups of labels

`GetNodesWithAllLabels` in programs with several graphs that recover from panics, and copy graphs.
-/
namespace LPG
open World

/-- In each graph of a program that recovers from panics, the lookup of labels lists exactly the nodes of that graph that carry
all labels, each once. This includes nodes that a call has made which then panicked. -/
theorem C80_labels {W : World} {hist : List (Nat × Option Op)} (h : SurvivedAll W hist) (g : Nat) (ls : List String)
    (hls : ls ≠ []) :
    ∃ ns, (W.view g).getNodesWithAllLabels ls = some ns ∧
      ns.Perm ((WSpec.runLost hist g).nodes.filter (fun n => ∀ l ∈ ls, l ∈ (WSpec.runLost hist g).labels n)) := by
  obtain ⟨W0, _, hd, _⟩ := h.sound
  have c := hd.core g
  have r := hd.filed g
  rw [hd.bared.view] at r
  obtain ⟨xs, k, h1, h2, _, h4, h5, h6⟩ := NodeMap.allLabels_nonempty (W.view g).byLabel r.ok (W.view g).nLabels ls hls
  refine ⟨xs, by simp [State.getNodesWithAllLabels, h1], ?_⟩
  rw [List.perm_ext_iff_of_nodup h2 (c.nNodup.filter _)]
  intro n
  rw [List.mem_filter, decide_eq_true_iff]
  constructor
  · intro hn
    obtain ⟨l, hl, hm⟩ := h5 n hn
    have halive := r.alive n l hm (h4 n hn l hl)
    exact ⟨halive, fun l' hl' => ((c.labels n halive).2 l').1 (h4 n hn l' hl')⟩
  · rintro ⟨hn, hl⟩
    apply h6
    intro l hl'
    have := ((c.labels n hn).2 l).2 (hl l hl')
    exact ⟨this, r.filed n hn l this⟩

/-- A lookup of labels never lists a node of another graph. -/
theorem C80_labels_own {W : World} {hist : List (Nat × Option Op)} (h : SurvivedAll W hist) (g : Nat) (ls : List String)
    (ns : List Nat) (hn : (W.view g).getNodesWithAllLabels ls = some ns) : ∀ n ∈ ns, W.N g n := by
  intro n hm
  have hls : ls ≠ [] := by rintro rfl; cases hn
  obtain ⟨ns', h1, h2⟩ := C80_labels h g ls hls
  rw [hn] at h1
  cases h1
  obtain ⟨W0, _, hd, _⟩ := h.sound
  have hx : W0.N g n := hd.rep.ownN g n (List.mem_filter.1 (h2.mem_iff.1 hm)).1
  have e : W.N g = W0.N g := by funext x; simp only [World.N, hd.bared.nodes]
  rw [e]; exact hx

/-! ## Edges of a node by label -/

/-- `GetEdgesWithLabel(dir, l)` of a node, in any of the graphs. -/
theorem C80_adjacent_label {W : World} {hist : List (Nat × Option Op)} (h : SurvivedAll W hist) (g : Nat) {n : Nat}
    (hn : n ∈ (WSpec.runLost hist g).nodes) (l : String) :
    ∃ outs ins, (W.view g).nodeEdgesWithLabel n l .outgoing = some outs ∧ (W.view g).nodeEdgesWithLabel n l .incoming = some ins ∧
      (W.view g).nodeEdgesWithLabel n l .any = some (ins ++ outs) ∧
      outs.Perm ((WSpec.runLost hist g).edges.filter
        (fun e => (WSpec.runLost hist g).src e = n ∧ (WSpec.runLost hist g).label e = l)) ∧
      ins.Perm ((WSpec.runLost hist g).edges.filter
        (fun e => (WSpec.runLost hist g).dst e = n ∧ (WSpec.runLost hist g).label e = l)) := by
  obtain ⟨W0, _, hd, _⟩ := h.sound
  have c := hd.core g
  obtain ⟨outs, h1, h2⟩ := c.out_label hn l
  obtain ⟨ins, h3, h4⟩ := c.inc_label hn l
  refine ⟨outs, ins, h1, h3, ?_, h2, h4⟩
  have h1' : ((W.view g).outgoing n).enumLabel (W.view g).slot1 (W.view g).eLabel (W.view g).idBase l = some outs := h1
  have h3' : ((W.view g).incoming n).enumLabel (W.view g).slot2 (W.view g).eLabel (W.view g).idBase l = some ins := h3
  simp only [State.nodeEdgesWithLabel, h1', h3', State.cat2]

/-- `GetEdgesWithAnyLabel(dir, S)` of a node, in any of the graphs; all edges of the node if `S` is empty. -/
theorem C80_adjacent_any {W : World} {hist : List (Nat × Option Op)} (h : SurvivedAll W hist) (g : Nat) {n : Nat}
    (hn : n ∈ (WSpec.runLost hist g).nodes) (ls : List String) (hls : ls.Nodup) :
    ∃ outs ins, (W.view g).nodeEdgesWithAnyLabel n ls .outgoing = some outs ∧
      (W.view g).nodeEdgesWithAnyLabel n ls .incoming = some ins ∧
      (W.view g).nodeEdgesWithAnyLabel n ls .any = some (ins ++ outs) ∧
      outs.Perm ((WSpec.runLost hist g).edges.filter
        (fun e => (WSpec.runLost hist g).src e = n ∧ (ls = [] ∨ (WSpec.runLost hist g).label e ∈ ls))) ∧
      ins.Perm ((WSpec.runLost hist g).edges.filter
        (fun e => (WSpec.runLost hist g).dst e = n ∧ (ls = [] ∨ (WSpec.runLost hist g).label e ∈ ls))) := by
  obtain ⟨W0, _, hd, _⟩ := h.sound
  have c := hd.core g
  obtain ⟨outs, h1, h2⟩ := c.out_any hn hls
  obtain ⟨ins, h3, h4⟩ := c.inc_any hn hls
  refine ⟨outs, ins, h1, h3, ?_, h2, h4⟩
  have h1' : (W.view g).nodeEdgesAny1 ((W.view g).outgoing n) (W.view g).slot1 ls = some outs := h1
  have h3' : (W.view g).nodeEdgesAny1 ((W.view g).incoming n) (W.view g).slot2 ls = some ins := h3
  simp only [State.nodeEdgesWithAnyLabel, h1', h3', State.cat2]

/-! ## A nil edge stays -/

/-- a program that recovers from every panic, from some world -/
def recoverAllFrom : World → List (MapOrder × Nat × Op) → Option World
  | W, [] => some W
  | W, (o, g, op) :: prog =>
    match W.recoverStep o g op with
    | none => none
    | some (W', _) => recoverAllFrom W' prog

theorem recoverAll_nil {o : MapOrder} {W W' : World} {g k : Nat} {op : Op} {b : Bool} (h : (W.view g).NilEdge)
    (hs : W.recoverStep o k op = some (W', b)) : (W'.view g).NilEdge := by
  have key : ∀ (W1 : World) (t : Nat) (s' : State), W1.root = W.root → (t = g → s'.NilEdge) → ((W1.store t s').view g).NilEdge := by
    intro W1 t s' hr hs'
    by_cases ht : t = g
    · subst ht
      have e : ((W1.store t s').view t).allEdges = s'.allEdges := by simp only [World.view, store, upd_same]
      unfold State.NilEdge
      rw [e]
      exact hs' rfl
    · have e : ((W1.store t s').view g).allEdges = (W.view g).allEdges := by
        simp only [World.view, store, upd_other _ _ (Ne.symm ht), hr]
      unfold State.NilEdge
      rw [e]
      exact h
  have hal : ∀ t, (W.alloc t op).root = W.root := by intro t; cases op <;> rfl
  unfold World.recoverStep at hs
  split at hs
  · cases hs
  · rename_i t _
    split at hs
    · cases hs; exact h
    · split at hs
      · rename_i r hr
        cases hs
        refine key _ t _ (hal t) (fun ht => ?_)
        subst ht
        have hr' : LPG.recoverStep o (W.view t) op = some (r.1, r.2) := by simp only [LPG.recoverStep, hr]
        exact recoverStep_nil h hr'
      · split at hs
        · rename_i hnil
          split at hs
          · cases hs; exact key _ t _ rfl (fun _ => hnil)
          · cases hs; exact key _ t _ rfl (fun _ => hnil)
          · cases hs
        · cases hs

/-- Once `GetEdges` of a graph would yield a nil edge, it always would, whatever the program does with this and other graphs and
recovers from: `NumEdges` is 1, `GetEdgesWithAnyLabel` panics, and each `NewEdge` between nodes of the graph panics and leaves the
graph as it is except for an id. -/
theorem C80_forever {W : World} {hist : List (Nat × Option Op)} (h : SurvivedAll W hist) {g : Nat} (hn : (W.view g).getEdges = none)
    (prog : List (MapOrder × Nat × Op)) {W' : World} (hr : recoverAllFrom W prog = some W') :
    (W'.view g).getEdges = none ∧ (W'.view g).numEdges = 1 ∧ (∀ ls, (W'.view g).getEdgesWithAnyLabel ls = none) ∧
    ∀ o x y l ps, W'.nodeGraph x = some g → W'.nodeGraph y = some g →
      W'.recoverStep o g (.newEdge x y l ps) = some (W'.store g (W'.view g).leftNewEdge, true) := by
  have h0 : (W.view g).NilEdge := by
    obtain ⟨W0, _, hd, _⟩ := h.sound
    exact (nilEdge_iff (hd.all g)).1 hn
  have h1 : (W'.view g).NilEdge := by
    clear hn h
    induction prog generalizing W with
    | nil => cases hr; exact h0
    | cons a prog ih =>
      obtain ⟨o, k, op⟩ := a
      rw [recoverAllFrom] at hr
      split at hr
      · cases hr
      · rename_i W1 b hs
        exact ih hr (recoverAll_nil h0 hs)
  have hne : (W'.view g).allEdges.n ≠ 0 := by rw [h1.1]; decide
  refine ⟨?_, h1.1, fun ls => ?_, fun o x y l ps hx hy => ?_⟩
  · rw [State.getEdges, EdgeMap.enum, if_neg hne, if_pos h1.1, h1.2]; rfl
  · rw [State.getEdgesWithAnyLabel, EdgeMap.enumAny, if_neg hne, if_pos h1.1, h1.2]
  · have hf : W'.foreign g (.newEdge x y l ps) = false := by simp [foreign, hx, hy]
    simp only [World.recoverStep, target, hf, newEdge_nil h1, Bool.false_eq_true, if_false, if_pos h1]

/-! ## Programs -/

/-- two graphs with the same labels; the third call panics and leaves a node with the label -/
def labelsAllOps : List (Nat × Op) :=
  [(0, .addNodeIndex "k" .btree), (0, .newNode ["A"] [("k", .int 1)]), (0, .newNode ["A", "B"] [("k", .str "x")]),
    (1, .newNode ["A"] []), (0, .setLabels 0 ["B"])]

theorem C80_labels_example :
    (recoverAllFlags labelsAllOps).map (fun r => r.2) = some [false, false, true, false, false] ∧
    (recoverAllFlags labelsAllOps).map (fun r => (r.1.view 0).getNodesWithAllLabels ["A"]) = some (some [1]) ∧
    (recoverAllFlags labelsAllOps).map (fun r => (r.1.view 0).getNodesWithAllLabels ["B"]) = some (some [1, 0]) ∧
    (recoverAllFlags labelsAllOps).map (fun r => (r.1.view 1).getNodesWithAllLabels ["A"]) = some (some [2]) :=
  ⟨by decide +kernel, by decide +kernel, by decide +kernel, by decide +kernel⟩

/-- graph `0` gets a nil edge, next to graph `1` -/
def spoiledAllOps : List (Nat × Op) := (1, .newNode ["A"] []) :: onGraph 0
  [.newNode ["A"] [], .newEdge 1 1 "A" [], .newEdge 1 1 "B" [], .newEdge 1 1 "B" [], .setEdgeLabel 2 "B", .removeEdge 2,
    .setEdgeLabel 3 "A", .removeEdge 3]

/-- such a program, in which the nil edge of graph `0` stays and graph `1` works on -/
example : ∃ W hist, SurvivedAll W hist ∧ (W.view 0).getEdges = none ∧
    ((recoverAllFrom W [(.listed, 0, .newEdge 1 1 "C" []), (.listed, 1, .newEdge 0 0 "C" [])]).map
      (fun W => ((W.view 0).getEdges, (W.view 1).getEdges))) = some (none, some [6]) := by
  have h : (World.run spoiledAllOps).any (fun W => (W.view 0).getEdges.isNone &&
      ((recoverAllFrom W [(.listed, 0, .newEdge 1 1 "C" []), (.listed, 1, .newEdge 0 0 "C" [])]).map
        (fun W => ((W.view 0).getEdges, (W.view 1).getEdges)) == some (none, some [6]))) = true := by decide +kernel
  cases hr : World.run spoiledAllOps with
  | none => rw [hr] at h; cases h
  | some W =>
    rw [hr] at h
    obtain ⟨hist, h1, _⟩ := C80_histories spoiledAllOps (by decide +kernel) W hr
    simp only [Option.any_some, Bool.and_eq_true, beq_iff_eq, Option.isNone_iff_eq_none] at h
    exact ⟨W, hist, h1, h.1, h.2⟩

end LPG
