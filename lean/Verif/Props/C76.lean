import Verif.Props.C58
import Verif.Props.C59
import Verif.Proofs.LiveReturns
/-!
# C76: an iterator that is held while the graph changes does no harm

The calls between two calls of `Next` are any operations. Every call of `Next` returns, and the graph is the one that the
operations alone leave.
-/
namespace LPG
open State

section
variable {S ι : Type} {stp : S → Op → Option S} {adv : S → ι → Option (Option Nat × ι)} {R : S → List Op → Option S}

theorem undisturbed (I : S → ι → List Op → Prop) (h0 : ∀ s, R s [] = some s)
    (h1 : ∀ s s' o os, stp s o = some s' → R s (o :: os) = R s' os)
    (h2 : ∀ s s' o os, R s (o :: os) = some s' → ∃ s1, stp s o = some s1 ∧ R s1 os = some s')
    (hstep : ∀ s it o os s1, I s it (o :: os) → stp s o = some s1 → I s1 it os)
    (hadv : ∀ s it os, I s it os → ∃ r it', adv s it = some (r, it') ∧ I s it' os)
    {evs : List Event} {s : S} {it : ι} (hi : I s it (Event.ops evs)) :
    Undisturbed (R s (Event.ops evs)) evs (live stp adv s it evs) :=
  ⟨fun _ _ _ h => live_happened h0 h1 h, fun _ h => live_returns I h0 h2 hstep hadv hi h⟩
end

theorem run_append_eq {ops ops' : List Op} {s : State} (hs : run ops = some s) : run (ops ++ ops') = runFrom s ops' := by
  unfold run at hs ⊢
  rw [runFrom_append, hs]

theorem HState.run_append_eq {ops ops' : List Op} {h : HState} (hs : HState.run ops = some h) :
    HState.run (ops ++ ops') = h.runFrom ops' := by
  unfold HState.run at hs ⊢
  rw [HState.runFrom_append, hs]; rfl

theorem LState.run_append_eq {ops ops' : List Op} {h : LState} (hs : LState.run ops = some h) :
    LState.run (ops ++ ops') = h.runFrom ops' := by
  unfold LState.run at hs ⊢
  rw [LState.runFrom_append, hs]; rfl

variable {ops : List Op} {evs : List Event} {s : State} {h : HState} {k : String}

/-- `GetNodes`. -/
theorem C76_nodes (hs : run ops = some s) : Undisturbed (run (ops ++ Event.ops evs)) evs (s.liveNodes evs) := by
  rw [run_append_eq hs]
  refine undisturbed (fun _ _ _ => True) (fun _ => rfl) (fun _ _ _ _ => runFrom_cons_ok) (fun _ _ _ _ => runFrom_cons_inv)
    (fun _ _ _ _ _ _ _ => trivial) (fun s it os _ => ?_) trivial
  unfold NodeIt.adv
  split <;> exact ⟨_, _, rfl, trivial⟩

/-- `GetNodesWithAllLabels`, of one label or more. -/
theorem C76_labels {h : LState} (hs : LState.run ops = some h) (hv : Spec.ValidHistory ops) {ls : List String} (hne : ls ≠ []) :
    Undisturbed (LState.run (ops ++ Event.ops evs)) evs (h.liveLabels ls evs) := by
  obtain ⟨it0, ho, -⟩ := LblInv.start (LState.Ok.run hv hs) hne
  rw [LState.run_append_eq hs, LState.liveLabels, ho]
  refine undisturbed (fun _ _ _ => True) (fun _ => rfl) (fun _ _ _ _ => LState.runFrom_cons_ok) (fun _ _ _ _ => LState.runFrom_cons_inv)
    (fun _ _ _ _ _ _ _ => trivial) (fun s it os _ => ?_) trivial
  unfold LState.advLabels
  split <;> exact ⟨_, _, rfl, trivial⟩

theorem HState.wf_run (hs : HState.run ops = some h) : h.Wf ∧ LPG.run ops = some h.abs := by
  rcases (HState.run_abs ops).cases with ⟨h2, -⟩ | ⟨x, h2, h3, w1⟩
  · rw [hs] at h2; cases h2
  · rw [hs] at h2; cases h2; exact ⟨w1, h3⟩

theorem HState.Wf.step {h h' : HState} {op : Op} (w : h.Wf) (hs : h.step op = some h') : h'.Wf := by
  rcases (HState.step_abs w op).cases with ⟨h2, -⟩ | ⟨x, h2, -, w1⟩
  · rw [hs] at h2; cases h2
  · rw [hs] at h2; cases h2; exact w1

theorem HState.Wf.sel {h : HState} (w : h.Wf) (m : Sel) : (h.sel m).Wf := by
  cases m with
  | all => exact w.all
  | out n => exact w.out n
  | inc n => exact w.inc n

theorem openEdges_real {m : Sel} {kd : Want} (ho : (h.sel m).n = 1 → (h.sel m).only ≠ none) :
    ∃ it, h.openEdges m kd = some it ∧ it.Real := by
  have h1 : (h.sel m).iterator.Real := by
    unfold HMap.iterator
    split
    · trivial
    · split
      · exact ho (by assumption)
      · split <;> trivial
  have hby : ∀ l, (match (h.sel m).labelMap (h.sel m).gen |>.get l with
      | none => EdgeIt.empty
      | some a => EdgeIt.list ((h.sel m).ell a).head : EdgeIt).Real := by
    intro l; split <;> trivial
  have h2 : ∀ l, ∃ it, (h.sel m).iteratorLabel h.base.eLabel l = some it ∧ it.Real := by
    intro l
    unfold HMap.iteratorLabel
    dsimp only
    split
    · exact ⟨_, rfl, trivial⟩
    · split
      · rename_i hn
        cases hx : (h.sel m).only with
        | none => exact absurd hx (ho hn)
        | some o =>
          dsimp only
          split
          · exact ⟨_, rfl, by simp [EdgeIt.Real]⟩
          · exact ⟨_, rfl, hby l⟩
      · exact ⟨_, rfl, hby l⟩
  have h3 : ∀ ls, ∃ it, (h.sel m).iteratorAnyLabel h.base.eLabel ls = some it ∧ it.Real := by
    intro ls
    unfold HMap.iteratorAnyLabel
    split
    · exact ⟨_, rfl, trivial⟩
    · split
      · rename_i hn
        cases hx : (h.sel m).only with
        | none => exact absurd hx (ho hn)
        | some o =>
          dsimp only
          split
          · exact ⟨_, rfl, by simp [EdgeIt.Real]⟩
          · exact ⟨_, rfl, trivial⟩
      · exact ⟨_, rfl, trivial⟩
  unfold HState.openEdges
  cases kd with
  | all => exact ⟨_, rfl, h1⟩
  | label l => exact h2 l
  | any ls =>
    dsimp only
    split
    · exact h3 _
    · exact ⟨_, rfl, h1⟩
    · exact h3 _

/-- The edge map can be iterated over when the iterator is made: it is that of a node of the graph, or `GetEdges` does not yield
a nil edge. -/
def CanOpen (m : Sel) (ops : List Op) (h : HState) : Prop :=
  match m with
  | .all => h.abs.getEdges ≠ none
  | .out n | .inc n => n ∈ (Spec.run ops).nodes

theorem only_of_rep {P : Slot} {f : Nat → String} {em : EdgeMap} {xs : List Nat} (r : EMRep P f em xs) (hn : em.n = 1) : em.only ≠ none := by
  have h1 : xs.length = 1 := by have := r.n; omega
  rw [r.only, if_pos h1]
  cases xs with
  | nil => cases h1
  | cons x xs => simp

theorem CanOpen.only {m : Sel} (hc : CanOpen m ops h) (hs : HState.run ops = some h) (hv : Spec.ValidHistory ops) :
    (h.sel m).n = 1 → (h.sel m).only ≠ none := by
  obtain ⟨w, hr⟩ := HState.wf_run hs
  have c := Core.run hv hr
  cases m with
  | all => exact (getEdges_iff (EMono.runFrom EMono.init hr)).1 hc
  | out n => obtain ⟨xs, -, hx⟩ := c.out n hc; exact only_of_rep hx
  | inc n => obtain ⟨xs, -, hx⟩ := c.inc n hc; exact only_of_rep hx

/-- `GetEdges`, `GetEdgesWithAnyLabel`, and the edges of a node in one direction, all of them or those with a label or with one
of some labels. -/
theorem C76_edges {m : Sel} {kd : Want} (hs : HState.run ops = some h) (hv : Spec.ValidHistory ops) (hc : CanOpen m ops h) :
    Undisturbed (HState.run (ops ++ Event.ops evs)) evs (h.liveEdges m kd evs) := by
  obtain ⟨it, h1, h2⟩ := openEdges_real (kd := kd) (hc.only hs hv)
  rw [HState.run_append_eq hs, HState.liveEdges, h1]
  exact undisturbed (fun h it _ => h.Wf ∧ it.Real) (fun _ => rfl) (fun _ _ _ _ => HState.runFrom_cons_ok) (fun _ _ _ _ => HState.runFrom_cons_inv)
    (fun _ _ _ _ _ hi hs => ⟨hi.1.step hs, hi.2⟩)
    (fun h it os hi => by
      obtain ⟨r, it', h3, h4⟩ := HMap.adv_returns (P := h.slot m) (hi.1.sel m) hi.2
      exact ⟨r, it', h3, hi.1, h4⟩)
    ⟨(HState.wf_run hs).1, h2⟩

/-- The edges of a node in both directions. -/
theorem C76_both {n : Nat} {kd : Want} (hs : HState.run ops = some h) (hv : Spec.ValidHistory ops) (hn : n ∈ (Spec.run ops).nodes) :
    Undisturbed (HState.run (ops ++ Event.ops evs)) evs (h.liveBoth n kd evs) := by
  obtain ⟨it1, h1, h2⟩ := openEdges_real (m := .inc n) (kd := kd) (CanOpen.only (m := .inc n) hn hs hv)
  obtain ⟨it2, h3, h4⟩ := openEdges_real (m := .out n) (kd := kd) (CanOpen.only (m := .out n) hn hs hv)
  rw [HState.run_append_eq hs]
  simp only [HState.liveBoth, HState.openBoth, h1, h3]
  refine undisturbed (fun (h : HState) (its : List (Sel × EdgeIt)) _ => h.Wf ∧ ∀ p ∈ its, p.2.Real) (fun _ => rfl) (fun _ _ _ _ => HState.runFrom_cons_ok)
    (fun _ _ _ _ => HState.runFrom_cons_inv) (fun _ _ _ _ _ hi hs => ⟨hi.1.step hs, hi.2⟩) (fun h its os hi => ?_)
    ⟨(HState.wf_run hs).1, by simp [h2, h4]⟩
  obtain ⟨w, hi⟩ := hi
  induction its with
  | nil => exact ⟨_, _, rfl, w, by simp⟩
  | cons p its ih =>
    obtain ⟨m, it⟩ := p
    obtain ⟨r, it', h5, h6⟩ := HMap.adv_returns (P := h.slot m) (w.sel m) (hi (m, it) (by simp))
    have h5 : h.adv m it = some (r, it') := h5
    simp only [HState.advMulti, h5]
    cases r with
    | some x =>
      refine ⟨_, _, rfl, w, ?_⟩
      intro q hq
      rcases List.mem_cons.1 hq with rfl | hq
      · exact h6
      · exact hi q (List.mem_cons_of_mem _ hq)
    | none => exact ih (fun q hq => hi q (List.mem_cons_of_mem _ hq))

/-- `GetNodesWithProperty` with a hash index. -/
theorem C76_node_index (hs : run ops = some s) (hk : hashCells s.nodeIx k ≠ none) :
    Undisturbed (run (ops ++ Event.ops evs)) evs (s.liveNodeHash k evs) := by
  rw [run_append_eq hs]
  unfold liveNodeHash liveCells
  have hk' := hashCells_kind.1 hk
  cases hc : hashCells s.nodeIx k with
  | none => exact absurd hc hk
  | some l =>
    refine undisturbed (fun s _ _ => s.nodeIx.kind k = some .hash) (fun _ => rfl) (fun _ _ _ _ => runFrom_cons_ok)
      (fun _ _ _ _ => runFrom_cons_inv) (fun s _ o _ s1 hi hs => ?_) (fun s it os hi => ?_) hk'
    · rw [nodeIx_type_step hs, hi]; rfl
    · cases it with
      | none => exact ⟨_, _, rfl, hi⟩
      | some c =>
        cases hc : hashCells s.nodeIx k with
        | none => exact absurd hc (hashCells_kind.2 hi)
        | some l => exact ⟨some c.2, _, by simp only [advCells, hc]; rfl, hi⟩

/-- `GetEdgesWithProperty` with a hash index. -/
theorem C76_edge_index (hs : run ops = some s) (hk : hashCells s.edgeIx k ≠ none) :
    Undisturbed (run (ops ++ Event.ops evs)) evs (s.liveEdgeHash k evs) := by
  rw [run_append_eq hs]
  unfold liveEdgeHash liveCells
  have hk' := hashCells_kind.1 hk
  cases hc : hashCells s.edgeIx k with
  | none => exact absurd hc hk
  | some l =>
    refine undisturbed (fun s _ _ => s.edgeIx.kind k = some .hash) (fun _ => rfl) (fun _ _ _ _ => runFrom_cons_ok)
      (fun _ _ _ _ => runFrom_cons_inv) (fun s _ o _ s1 hi hs => ?_) (fun s it os hi => ?_) hk'
    · rw [edgeIx_type_step hs, hi]; rfl
    · cases it with
      | none => exact ⟨_, _, rfl, hi⟩
      | some c =>
        cases hc : hashCells s.edgeIx k with
        | none => exact absurd hc (hashCells_kind.2 hi)
        | some l => exact ⟨some c.2, _, by simp only [advCells, hc]; rfl, hi⟩

/-- `GetNodesWithProperty` without an index. -/
theorem C76_node_scan (hs : run ops = some s) (hv : Spec.ValidHistory (ops ++ Event.ops evs)) (hk : AMap.get s.nodeIx k = none) :
    Undisturbed (run (ops ++ Event.ops evs)) evs (s.liveNodeScan k evs) := by
  obtain ⟨hv1, hv2⟩ := Spec.validFrom_append.1 hv
  rw [run_append_eq hs]
  unfold liveNodeScan
  rw [hk]
  refine undisturbed (fun s it os => ∃ σ, Core s σ ∧ σ.ValidFrom os ∧ Mono s.nptr s.allNodes s.idBase ∧ ∀ x, it.next = some x → x < s.idBase)
    (fun _ => rfl) (fun _ _ _ _ => runFrom_cons_ok) (fun _ _ _ _ => runFrom_cons_inv) ?_ ?_
    ⟨Spec.run ops, Core.run hv1 hs, hv2, Mono.init.runFrom Core.init hv1 hs, fun x hx => (Mono.init.runFrom Core.init hv1 hs).head x hx⟩
  · rintro s it o os s1 ⟨σ, c, hv, hm, hx⟩ h1
    have c1 := c.step hv.1 h1
    refine ⟨σ.step o, c1, hv.2, hm.step c hv.1 h1, fun x h => Nat.lt_of_lt_of_le (hx x h) ?_⟩
    rw [c.next, c1.next]
    exact next_le_step σ o
  · rintro s it os ⟨σ, c, hv, hm, hx⟩
    obtain ⟨r, it', h1, h2⟩ := scanNodes_returns (k := k) (f := s.idBase + 1) (it := it) hm (fun x h => ⟨hx x h, by have := hx x h; omega⟩) (by omega)
    exact ⟨r, it', h1, σ, c, hv, hm, h2⟩

/-- `GetEdgesWithProperty` without an index. -/
theorem C76_edge_scan (hs : HState.run ops = some h) (hv : Spec.ValidHistory (ops ++ Event.ops evs)) (hk : AMap.get h.base.edgeIx k = none) (hg : h.abs.getEdges ≠ none) :
    Undisturbed (HState.run (ops ++ Event.ops evs)) evs (h.liveEdgeScan k evs) := by
  obtain ⟨hv1, hv2⟩ := Spec.validFrom_append.1 hv
  obtain ⟨w, hr⟩ := HState.wf_run hs
  have ho : (h.sel .all).n = 1 → (h.sel .all).only ≠ none := (getEdges_iff (EMono.runFrom EMono.init hr)).1 hg
  obtain ⟨it, h1, h2⟩ := openEdges_real (kd := .all) ho
  have hm : h.AllMono := HState.AllMono.runFrom HState.AllMono.new hs
  have h3 : it = h.allEdges.iterator := by cases h1; rfl
  have h4 : it.OfAll ∧ it.Lt h.base.idBase := by
    subst h3
    unfold HMap.iterator
    split
    · exact ⟨trivial, trivial⟩
    · split
      · exact ⟨trivial, trivial⟩
      · split
        · exact ⟨trivial, trivial⟩
        · rename_i a as _
          refine ⟨trivial, ?_⟩
          cases hh : (h.allEdges.ell a).head with
          | none => trivial
          | some x => exact (hm.ells a).head x hh
  rw [HState.run_append_eq hs]
  unfold HState.liveEdgeScan
  rw [hk]
  dsimp only
  rw [h1]
  refine undisturbed (fun h it os => ∃ σ, Core h.abs σ ∧ σ.ValidFrom os ∧ h.Wf ∧ h.AllMono ∧ it.OfAll ∧ it.Real ∧ it.Lt h.base.idBase)
    (fun _ => rfl) (fun _ _ _ _ => HState.runFrom_cons_ok) (fun _ _ _ _ => HState.runFrom_cons_inv) ?_ ?_
    ⟨Spec.run ops, Core.run hv1 hr, hv2, w, hm, h4.1, h2, h4.2⟩
  · rintro h it o os h1 ⟨σ, c, hv, w, m, a1, a2, a3⟩ hs
    obtain ⟨w1, hs1⟩ : h1.Wf ∧ LPG.step h.abs o = some h1.abs := by
      rcases (HState.step_abs w o).cases with ⟨b1, -⟩ | ⟨x, b1, b2, w1⟩
      · rw [hs] at b1; cases b1
      · rw [hs] at b1; cases b1; exact ⟨w1, b2⟩
    have c1 := c.step hv.1 hs1
    refine ⟨σ.step o, c1, hv.2, w1, m.step hs, a1, a2, a3.le ?_⟩
    have b1 : h.base.idBase = σ.next := c.next
    have b2 : h1.base.idBase = (σ.step o).next := c1.next
    rw [b1, b2]
    exact next_le_step σ o
  · rintro h it os ⟨σ, c, hv, w, m, a1, a2, a3⟩
    obtain ⟨r, it', b1, b2, b3, b4⟩ := scanEdges_returns (k := k) w m a1 a2 a3 (left_fuel h it)
    exact ⟨r, it', b1, σ, c, hv, w, m, b2, b3, b4⟩

/-- A graph whose edge list was damaged: the edges 2 and 3 are relabelled, and 2 is removed, so that `GetEdges` yields it still. A
program makes iterators over all edges, over the edges of a node and over nodes, and removes and creates what they are about to
yield. All calls of `Next` return. -/
def heldOps : List Op :=
  [.newNode ["L"] [], .newNode ["L"] [("k", .int 1)], .newEdge 0 1 "A" [("k", .int 1)], .newEdge 0 1 "B" [], .newEdge 1 0 "B" [],
    .setEdgeLabel 2 "C", .setEdgeLabel 3 "A", .removeEdge 2]

/-- what the program does between the calls of `Next` -/
def heldEvents : List Event :=
  [.next, .op (.detachRemove 1), .op (.newNode ["L"] []), .next, .op (.newNode [] []), .next, .op (.setNodeProp 0 "k" (.int 2)), .next,
    .next]

theorem C76_example : Spec.ValidHistory (heldOps ++ Event.ops heldEvents) ∧
    (run (heldOps ++ Event.ops heldEvents)).isSome ∧
    (HState.run heldOps).map (fun h => h.abs.getEdges) = some (some [2, 3, 4]) ∧
    (HState.run heldOps).bind (fun h => (h.liveEdges .all .all heldEvents).map (fun r => Seen.visited r.1)) = some [2] ∧
    (HState.run heldOps).bind (fun h => (h.liveEdges (.out 0) .all heldEvents).map (fun r => Seen.visited r.1)) = some [3] ∧
    (HState.run heldOps).bind (fun h => (h.liveEdgeScan "k" heldEvents).map (fun r => Seen.visited r.1)) = some [2] ∧
    (run heldOps).bind (fun s => (s.liveNodes heldEvents).map (fun r => Seen.visited r.1)) = some [0, 1, 5, 6] ∧
    (run heldOps).bind (fun s => (s.liveNodeScan "k" heldEvents).map (fun r => Seen.visited r.1)) = some [1] := by
  refine ⟨by decide +kernel, by decide +kernel, by decide +kernel, by decide +kernel, by decide +kernel, by decide +kernel,
    by decide +kernel, by decide +kernel⟩

end LPG
