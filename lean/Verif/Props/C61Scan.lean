import Verif.Proofs.LivePropsScanEdges
import Verif.Props.C58
import Verif.Props.C61Each
/-!
# C61: loops over the edges with a property, without an index

`h.liveEdgeScan k evs` runs a program that holds an iterator returned by `GetEdgesWithProperty(k)` when there is no index for
`k`.
-/
namespace LPG
open HState

variable {k : String} {ops : List Op} {evs : List Event} {h h' : HState} {log : List Seen} {it : EdgeIt}

/-- The full property: any valid calls between the calls of `Next`. -/
def C61_edge_scan_statement (k : String) (ops : List Op) (evs : List Event) : Prop :=
  ∀ h log h' it, HState.run ops = some h → h.liveEdgeScan k evs = some (log, h', it) →
    Spec.ValidHistory (ops ++ Seen.ops log) → VisitsKeepingEdges k ops log

/-- The body may remove edges that it visited, change labels, create edges, and change the property of any edge, take it away and
give it back.
Missing: bodies that remove edges not visited yet, and histories and bodies that remove an edge filed under an old label. The
property is false for both (`C61_edge_scan_false`, `C61_edge_scan_false_relabel`). -/
theorem C61_edge_scan_partial (hs : HState.run ops = some h) (hl : h.liveEdgeScan k evs = some (log, h', it))
    (hv : Spec.ValidHistory (ops ++ Seen.ops log)) (hf : EdgesFiled .all .all ops (Seen.ops log)) (hg : GentleLoop .all .all ops log) :
    VisitsKeepingEdges k ops log := by
  obtain ⟨hv1, hv2⟩ := Spec.validFrom_append.1 hv
  obtain ⟨w, hs'⟩ : h.Wf ∧ LPG.run ops = some h.abs := by
    rcases (run_abs ops).cases with ⟨h2, -⟩ | ⟨x, h2, h3, w1⟩
    · rw [hs] at h2; cases h2
    · rw [hs] at h2; cases h2; exact ⟨w1, h3⟩
  rw [HState.liveEdgeScan] at hl
  split at hl
  · cases hl
  · split at hl
    · cases hl
    · rename_i it0 ho
      obtain ⟨evs', log', h1, h2⟩ := scanEdges_live (Core.run hv1 hs') w hl hv2
      have h3 : VisitsEdges .all .all ops log' := C58_partial (evs := evs') hs (by rw [HState.liveEdges, ho]; exact h1)
        (by rw [h2.ops]; exact hv) trivial trivial (by rw [h2.ops]; exact hf) (h2.gentle (by simp) hg)
      refine ⟨h3.once.sublist h2.visited, ?_, ?_⟩
      · intro p x r hp
        obtain ⟨p2, r2, h4, h5, h6⟩ := h2.split_item hp
        have h7 := (h3.alive p2 x r2 h4).1
        rw [h5] at h7
        refine ⟨h7, ?_⟩
        rw [Spec.run_append] at h7 ⊢
        exact h6 h7
      · intro p r hp n hn
        obtain ⟨p2, r2, h4, h5⟩ := h2.split_last hp
        have h6 := h3.all p2 r2 h4 n ⟨by simpa [Seen.ops] using (hn [] p rfl).1, trivial, rfl⟩
        rcases h5.find h6 with h7 | ⟨q, t, h7, h8⟩
        · exact h7
        · have h9 := hn q t h7
          rw [Spec.run_append] at h9
          exact absurd h9.2 (h8 h9.1)

/-- Two nodes and five edges; all but the edge 5 have the property `p`. -/
def scanOps : List Op :=
  [.newNode [] [], .newNode [] [], .newEdge 0 1 "a" [("p", .int 1)], .newEdge 0 1 "a" [("p", .int 2)],
   .newEdge 0 0 "b" [("p", .int 3)], .newEdge 0 1 "b" [], .newEdge 1 0 "c" [("p", .int 5)]]

/-- The loop sets the property where it is, takes it from the edge 4, removes the edge 2 and creates an edge. -/
example : ∃ h log h' it, HState.run scanOps = some h ∧
    h.liveEdgeScan "p" [.next, .op (.setEdgeProp 2 "p" (.int 7)), .op (.removeEdgeProp 4 "p"), .next, .op (.removeEdge 2),
      .op (.setEdgeProp 5 "p" (.int 1)), .next, .op (.newEdge 1 1 "c" [("p", .int 9)]), .next, .next, .next] = some (log, h', it) ∧
    Spec.ValidHistory (scanOps ++ Seen.ops log) ∧ EdgesFiled .all .all scanOps (Seen.ops log) ∧
    GentleLoop .all .all scanOps log ∧ Seen.visited log = [2, 3, 5, 6, 7] ∧ log.length = 11 := by
  refine ⟨_, _, _, _, rfl, rfl, ?_⟩
  decide +kernel

/-- The body removes the edge that comes next, which does not have the property: an edge that keeps it is not visited. -/
theorem C61_edge_scan_false : ∃ ops evs, ¬ C61_edge_scan_statement "p" ops evs := by
  refine ⟨[.newNode [] [], .newEdge 0 0 "a" [("p", .int 1)], .newEdge 0 0 "a" [], .newEdge 0 0 "a" [("p", .int 1)]],
    [.next, .op (.removeEdge 2), .next], ?_⟩
  intro h
  have := (h _ _ _ _ rfl rfl (by decide +kernel)).all [.item 1, .did (.removeEdge 2)] [] rfl 3 (by
    intro q t hq
    match q, hq with
    | [], _ => decide +kernel
    | [_], hq => cases hq; decide +kernel
    | [_, _], hq => cases hq; decide +kernel
    | _ :: _ :: _ :: _, hq => simp at hq)
  revert this
  decide +kernel

/-- An edge is removed that is filed under an old label: the loop visits it, though it is gone. -/
theorem C61_edge_scan_false_relabel : ∃ ops evs, ¬ C61_edge_scan_statement "p" ops evs ∧
    ∃ h log h' it, HState.run ops = some h ∧ h.liveEdgeScan "p" evs = some (log, h', it) ∧ Seen.ops log = [] := by
  refine ⟨[.newNode [] [], .newEdge 0 0 "a" [("p", .int 1)], .newEdge 0 0 "a" [("p", .int 1)], .newEdge 0 0 "b" [("p", .int 1)],
    .setEdgeLabel 1 "b", .removeEdge 1], [.next, .next], ?_, _, _, _, _, rfl, rfl, rfl⟩
  intro h
  have h1 := (h _ _ _ _ rfl rfl (by decide +kernel)).alive [] 1 [.last] rfl
  revert h1
  decide +kernel

/-! ## Loops that end -/

theorem scan_open (hs : HState.run ops = some h) (hv : Spec.ValidHistory ops) (hf : FiledOk ops) :
    h.Wf ∧ Core h.abs (Spec.run ops) ∧ ∃ it W, h.openEdges .all .all = some it ∧
      EdgesInv .all (misfiled ops) (fun l => Want.all.has .all l = true) h (Spec.run ops) it W ∧
      (∀ e, e ∈ W ↔ e ∈ (Spec.run ops).edges) := by
  obtain ⟨w, hs'⟩ : h.Wf ∧ LPG.run ops = some h.abs := by
    rcases (run_abs ops).cases with ⟨h2, -⟩ | ⟨x, h2, h3, w1⟩
    · rw [hs] at h2; cases h2
    · rw [hs] at h2; cases h2; exact ⟨w1, h3⟩
  have c := Core.run hv hs'
  obtain ⟨g, xs, hp, hr, hg⟩ := misfiled_rep hv hf hs'
  obtain ⟨it, W, h1, h2, h3⟩ := EdgesInv.start (R := misfiled ops) (m := .all) (k := .all) w.all c hr
    (fun e he => hg e (hp.mem_iff.1 he)) (fun e => by rw [hp.mem_iff]; simp [Spec.At]) (.inl rfl) (by simp)
  exact ⟨w, c, it, W, h1, h2, fun e => (h3 e).trans ⟨fun h => h.1, fun h => ⟨h, trivial, rfl⟩⟩⟩

/-- Without an index, a loop that sets the property of every edge it visits returns, and visits exactly the edges that had the
property when it began. With a hash index it does not end (`C61_edges_forever`).
Missing: histories that removed an edge filed under an old label. -/
theorem C61_edge_scan_set_partial (f : Nat → Value) (hs : HState.run ops = some h) (hv : Spec.ValidHistory ops) (hc : FiledOk ops)
    (hk : AMap.get h.base.edgeIx k = none) :
    ∃ xs h' it', xs.Nodup ∧ (∀ e, e ∈ xs ↔ (Spec.run ops).EHas k e) ∧
      h.liveEdgeScan k (eachEvents (fun e => .setEdgeProp e k (f e)) xs) = some (eachLog (fun e => .setEdgeProp e k (f e)) xs, h', it') ∧
      HState.run (ops ++ xs.map (fun e => .setEdgeProp e k (f e))) = some h' := by
  obtain ⟨w, c, it, W, ho, hi, hW⟩ := scan_open hs hv hc
  obtain ⟨-, h', it', a2, a3⟩ := scanEdges_each (k := k) (op := fun e => .setEdgeProp e k (f e))
    (Q := fun h _ => AMap.get h.base.edgeIx k = none) (by
      intro h σ it W x c w hq hi hx hp hxW
      refine ⟨{ h with base := { h.base with eProps := upd h.base.eProps x ((h.base.eProps x).set k (f x)) } }, ?_, hx, hq,
        hi.base rfl rfl rfl rfl rfl rfl rfl, ?_⟩
      · simp only [HState.step, LPG.step, State.setEdgeProp, Indexes.add, Indexes.remove]
        cases AMap.get (h.base.eProps x) k <;> simp [hq]
      · intro y hy
        have : y ≠ x := fun e => hxW (e ▸ hy)
        simp [Spec.step, upd, this]) W.length (Nat.le_refl _) c w hk hi
  refine ⟨_, h', it', hi.nodup.filter _, ?_, by rw [HState.liveEdgeScan, hk, ho]; exact a2, ?_⟩
  · intro e
    rw [List.mem_filter, hW, Spec.EHas]
    cases (Spec.run ops).eprop e k <;> simp
  · rw [HState.run] at hs ⊢
    rw [HState.runFrom_append, hs]
    exact a3

/-- Without an index, a loop that removes every edge it visits returns, visits exactly the edges that had the property when it
began, and afterwards none has it.
Missing: graphs that have edges filed under an old label. -/
theorem C61_edge_scan_remove_partial (hs : HState.run ops = some h) (hv : Spec.ValidHistory ops) (hc : FiledOk ops)
    (hm : misfiled ops = []) (hk : AMap.get h.base.edgeIx k = none) :
    ∃ xs h' it', xs.Nodup ∧ (∀ e, e ∈ xs ↔ (Spec.run ops).EHas k e) ∧
      h.liveEdgeScan k (eachEvents .removeEdge xs) = some (eachLog .removeEdge xs, h', it') ∧
      HState.run (ops ++ xs.map .removeEdge) = some h' ∧ ∀ e, ¬ (Spec.run (ops ++ xs.map .removeEdge)).EHas k e := by
  obtain ⟨w, c, it, W, ho, hi, hW⟩ := scan_open hs hv hc
  rw [hm] at hi
  obtain ⟨-, h', it', a2, a3⟩ := scanEdges_each (k := k) (op := Op.removeEdge) (Q := fun _ _ => True) (by
      intro h σ it W x c w hq hi hx hp hxW
      exact ⟨_, rfl, hx, trivial, hi.drop c w hx (fun _ => ⟨by simp, hxW⟩), fun y hy => rfl⟩) W.length (Nat.le_refl _) c w trivial hi
  have hmem : ∀ e, e ∈ W.filter (fun y => ((Spec.run ops).eprop y k).isSome) ↔ (Spec.run ops).EHas k e := by
    intro e
    rw [List.mem_filter, hW, Spec.EHas]
    cases (Spec.run ops).eprop e k <;> simp
  refine ⟨_, h', it', hi.nodup.filter _, hmem, by rw [HState.liveEdgeScan, hk, ho]; exact a2, ?_, ?_⟩
  · rw [HState.run] at hs ⊢
    rw [HState.runFrom_append, hs]
    exact a3
  · rintro e ⟨h1, h2⟩
    rw [Spec.run_append, mem_removeEdges] at h1
    refine h1.2 ((hmem e).2 ⟨h1.1, ?_⟩)
    have : ∀ (xs : List Nat) (σ : Spec), (σ.runFrom (xs.map .removeEdge)).eprop = σ.eprop := by
      intro xs
      induction xs with
      | nil => intro σ; rfl
      | cons x xs ih => intro σ; exact ih (σ.step (.removeEdge x))
    rw [Spec.run_append, this] at h2
    exact h2

example : ∃ h h1 h2 it1 it2, HState.run scanOps = some h ∧
    h.liveEdgeScan "p" (eachEvents (fun e => .setEdgeProp e "p" (.int 0)) [2, 3, 4, 6]) =
      some (eachLog (fun e => .setEdgeProp e "p" (.int 0)) [2, 3, 4, 6], h1, it1) ∧
    h.liveEdgeScan "p" (eachEvents .removeEdge [2, 3, 4, 6]) = some (eachLog .removeEdge [2, 3, 4, 6], h2, it2) ∧
    Spec.ValidHistory scanOps ∧ FiledOk scanOps ∧ misfiled scanOps = [] := by
  refine ⟨_, _, _, _, _, rfl, rfl, rfl, ?_⟩
  decide +kernel

end LPG
