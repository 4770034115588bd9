import Verif.Proofs.LiveBoth
import Verif.Props.C57
/-!
# C58: loops over edges that change the graph

`h.liveEdges m k evs` runs a program that holds an iterator over edges, made in the state `h`. `m` says which edges: those of
the graph (`GetEdges`, `GetEdgesWithAnyLabel`), or the outgoing or incoming ones of a node (`GetEdges(dir)`,
`GetEdgesWithLabel(dir, l)`, `GetEdgesWithAnyLabel(dir, ls)`). `k` says which labels. `evs` says when the program calls `Next`
and when it calls operations of the graph. The log says what happened. Every loop body is covered.
-/
namespace LPG
open HState

/-- The model of this file agrees with `Verif.Model.Graph` on every history. -/
theorem C58_model (ops : List Op) : (HState.run ops).map HState.abs = LPG.run ops := (run_abs ops).2

/-- The node whose edges are sought exists. -/
def Spec.Has (σ : Spec) : Sel → Prop
  | .all => True
  | .out n => n ∈ σ.nodes
  | .inc n => n ∈ σ.nodes

instance (σ : Spec) (m : Sel) : Decidable (σ.Has m) := by
  cases m <;> unfold Spec.Has <;> infer_instance

/-- The set of labels is a set. -/
def Want.Set : Want → Prop
  | .any ls => ls.Nodup
  | _ => True

instance (k : Want) : Decidable k.Set := by
  cases k <;> unfold Want.Set <;> infer_instance

/-- The full property: any valid calls between the calls of `Next`. -/
def C58_statement (m : Sel) (k : Want) (ops : List Op) (evs : List Event) : Prop :=
  ∀ h log h' it, HState.run ops = some h → h.liveEdges m k evs = some (log, h', it) →
    Spec.ValidHistory (ops ++ Seen.ops log) → (Spec.run ops).Has m → k.Set → VisitsEdges m k ops log

/-- The edges that a query by label does not find under the label they have. -/
def misfiled (ops : List Op) : List Nat := (Spec.run ops).edges.filter (fun e => foundUnder ops e ≠ (Spec.run ops).label e)

/-- What the history and the loop may do to the edges if the graph is asked for its edges. The history removed no edge that is
filed under an old label. In a loop over all edges none of these is removed, either; in a loop over the edges with a label there
are none. A node may be asked for its edges always. -/
def EdgesFiled : Sel → Want → List Op → List Op → Prop
  | .all, .all, ops, body => FiledOk ops ∧ (Spec.run ops).KeepRelabeled (misfiled ops) body
  | .all, _, ops, body => FiledOk ops ∧ misfiled ops = [] ∧ (Spec.run ops).AlwaysFrom (fun σ op => σ.Relabeled [] op = []) body
  | _, _, _, _ => True

instance (m : Sel) (k : Want) (ops body : List Op) : Decidable (EdgesFiled m k ops body) := by
  cases m <;> cases k <;> unfold EdgesFiled <;> infer_instance

theorem relOk_node {m : Sel} {k : Want} (hm : m ≠ .all) : ∀ {log : List Seen} {σ : Spec}, σ.RelOk m k [] log
  | [], _ => .inr rfl
  | .did op :: log, σ => by
    refine ⟨.inr rfl, by simp, ?_⟩
    have : σ.relNext m [] op = [] := by cases m <;> first | rfl | exact absurd rfl hm
    rw [this]; exact relOk_node hm
  | .item _ :: log, σ => relOk_node (log := log) hm
  | .last :: log, σ => relOk_node (log := log) hm

theorem relOk_all : ∀ {log : List Seen} {σ : Spec} {R : List Nat}, σ.KeepRelabeled R (Seen.ops log) → σ.RelOk .all .all R log
  | [], _, _, _ => .inl rfl
  | .did _ :: log, _, _, h => ⟨.inl rfl, h.1, relOk_all (log := log) h.2⟩
  | .item _ :: log, _, _, h => relOk_all (log := log) h
  | .last :: log, _, _, h => relOk_all (log := log) h

theorem relOk_filter {k : Want} : ∀ {log : List Seen} {σ : Spec},
    σ.AlwaysFrom (fun σ op => σ.Relabeled [] op = []) (Seen.ops log) → σ.RelOk .all k [] log
  | [], _, _ => .inr rfl
  | .did op :: log, σ, h => by
    refine ⟨.inr rfl, by simp, ?_⟩
    show Spec.RelOk .all k _ (σ.Relabeled [] op) log
    rw [h.1]; exact relOk_filter (log := log) h.2
  | .item _ :: log, _, h => relOk_filter (log := log) h
  | .last :: log, _, h => relOk_filter (log := log) h

theorem misfiled_rep {ops : List Op} {s : State} (hv : Spec.ValidHistory ops) (hc : FiledOk ops) (hs : run ops = some s) :
    AERep (misfiled ops) s (Spec.run ops) := by
  have c := Core.run hv hs
  have h : AEx _ s (Spec.run ops) := AEx.runFrom Core.init AEx.init hv hc hs
  by_cases hl : (Spec.run ops).edges.length ≤ 1
  · obtain ⟨xs, hp, hr⟩ := h.any (g' := s.eLabel) hl
    exact ⟨_, xs, hp, hr, fun _ _ _ => rfl⟩
  · obtain ⟨xs, hp, hr⟩ := h
    refine ⟨_, xs, hp, hr, ?_⟩
    intro e he hn
    rw [(c.eattr e he).2.2]
    have : ¬ (foundUnder ops e ≠ (Spec.run ops).label e) := fun hh => hn (List.mem_filter.2 ⟨he, by simpa using hh⟩)
    have := Classical.not_not.1 this
    rwa [foundUnder, if_neg hl] at this

theorem misfiled_lt {ops : List Op} {s : State} (hv : Spec.ValidHistory ops) (hs : run ops = some s) :
    ∀ e ∈ misfiled ops, e < (Spec.run ops).next := fun e he => (Core.run hv hs).eLt e (List.mem_filter.1 he).1

/-- The iterator when it is made. -/
theorem edges_open {m : Sel} {k : Want} {ops : List Op} {h : HState} {log : List Seen}
    (hs : HState.run ops = some h) (hv : Spec.ValidHistory ops) (hm : (Spec.run ops).Has m) (hk : k.Set)
    (hf : EdgesFiled m k ops (Seen.ops log)) :
    h.Wf ∧ Core h.abs (Spec.run ops) ∧ m.Lt (Spec.run ops).next ∧ ∃ R it W, (∀ e ∈ R, e < (Spec.run ops).next) ∧
      (m ≠ .all → R = []) ∧ h.openEdges m k = some it ∧ EdgesInv m R (fun l => k.has m l = true) h (Spec.run ops) it W ∧
      (∀ e, e ∈ W ↔ (Spec.run ops).Sought m k e) ∧ (Spec.run ops).RelOk m k R log := by
  obtain ⟨w, hs'⟩ : h.Wf ∧ LPG.run ops = some h.abs := by
    rcases (run_abs ops).cases with ⟨h2, -⟩ | ⟨x, h2, h3, w1⟩
    · rw [hs] at h2; cases h2
    · rw [hs] at h2; cases h2; exact ⟨w1, h3⟩
  have c := Core.run hv hs'
  have hlt : m.Lt (Spec.run ops).next := by
    cases m with
    | all => trivial
    | out n => exact c.nLt n hm
    | inc n => exact c.nLt n hm
  have hls : ∀ ls, k = .any ls → ls.Nodup := by rintro ls rfl; exact hk
  refine ⟨w, c, hlt, ?_⟩
  cases m with
  | out n =>
    obtain ⟨xs, hp, hr⟩ := c.out n hm
    obtain ⟨it, W, h1, h2, h3⟩ := EdgesInv.start (R := []) (m := .out n) (k := k) (w.out n) c hr (fun _ _ _ => rfl)
      (fun e => by rw [hp.mem_iff]; simp [Spec.At]) (.inr rfl) hls
    exact ⟨[], it, W, by simp, fun _ => rfl, h1, h2, h3, relOk_node (by simp)⟩
  | inc n =>
    obtain ⟨xs, hp, hr⟩ := c.inc n hm
    obtain ⟨it, W, h1, h2, h3⟩ := EdgesInv.start (R := []) (m := .inc n) (k := k) (w.inc n) c hr (fun _ _ _ => rfl)
      (fun e => by rw [hp.mem_iff]; simp [Spec.At]) (.inr rfl) hls
    exact ⟨[], it, W, by simp, fun _ => rfl, h1, h2, h3, relOk_node (by simp)⟩
  | all =>
    have fin : ∀ {R}, AERep R h.abs (Spec.run ops) → (∀ e ∈ R, e < (Spec.run ops).next) → (k = .all ∨ R = []) →
        (Spec.run ops).RelOk .all k R log → ∃ R it W, (∀ e ∈ R, e < (Spec.run ops).next) ∧
        (Sel.all ≠ .all → R = []) ∧ h.openEdges .all k = some it ∧
        EdgesInv .all R (fun l => k.has .all l = true) h (Spec.run ops) it W ∧
        (∀ e, e ∈ W ↔ (Spec.run ops).Sought .all k e) ∧ (Spec.run ops).RelOk .all k R log := by
      rintro R ⟨g, xs, hp, hr, hg⟩ hlt hkR hro
      obtain ⟨it, W, h1, h2, h3⟩ := EdgesInv.start (R := R) (m := .all) (k := k) w.all c hr
        (fun e he => hg e (hp.mem_iff.1 he)) (fun e => by rw [hp.mem_iff]; simp [Spec.At]) hkR hls
      exact ⟨R, it, W, hlt, fun h => absurd rfl h, h1, h2, h3, hro⟩
    cases k with
    | all => exact fin (misfiled_rep hv hf.1 hs') (misfiled_lt hv hs') (.inl rfl) (relOk_all hf.2)
    | label l =>
      obtain ⟨f1, f2, f3⟩ := hf
      exact fin (f2 ▸ misfiled_rep hv f1 hs') (by simp) (.inr rfl) (relOk_filter f3)
    | any ls =>
      obtain ⟨f1, f2, f3⟩ := hf
      exact fin (f2 ▸ misfiled_rep hv f1 hs') (by simp) (.inr rfl) (relOk_filter f3)

/-- A body may remove the edge it is at, and other edges visited before; it may relabel them, if the new label is not sought;
it may create edges and call anything else.
Missing: bodies that remove or relabel edges not visited yet, and those that give an edge visited before another label that is
sought; for the edges of the graph, edges filed under an old label. The property is false for each of these (`C58_false_ahead`,
`C58_false_relabel`, `C58_false_all`). -/
theorem C58_partial {m : Sel} {k : Want} {ops : List Op} {evs : List Event} {h h' : HState} {log : List Seen} {it : EdgeIt}
    (hs : HState.run ops = some h) (hl : h.liveEdges m k evs = some (log, h', it))
    (hv : Spec.ValidHistory (ops ++ Seen.ops log)) (hm : (Spec.run ops).Has m) (hk : k.Set)
    (hf : EdgesFiled m k ops (Seen.ops log)) (hg : GentleLoop m k ops log) : VisitsEdges m k ops log := by
  obtain ⟨hv1, hv2⟩ := Spec.validFrom_append.1 hv
  obtain ⟨w, c, hlt, R, it0, W, hR, hRm, ho, hi, hW, hro⟩ := edges_open hs hv1 hm hk hf
  rw [HState.liveEdges, ho] at hl
  obtain ⟨h1, h2, h3⟩ := edges_live (K := (Spec.run ops).Sought m k) c w hlt hR hRm hi List.nodup_nil (by simp)
    (fun x hx => .inr ((hW x).2 hx)) (by simp) hl hv2 hro hg
  refine ⟨by simpa using h1, ?_, ?_⟩
  · intro p x r hp; rw [Spec.run_append]; exact h2 p x r hp
  · intro p r hp e he; simpa using h3 p r hp e he

/-- Two nodes, five edges. -/
def edgeLoopOps : List Op :=
  [.newNode [] [], .newNode [] [], .newEdge 0 1 "a" [], .newEdge 0 1 "a" [], .newEdge 0 0 "a" [], .newEdge 0 1 "b" [],
   .newEdge 1 0 "c" []]

/-- A loop over the outgoing edges of node 0 with label `a` that removes one, relabels one and creates one. -/
def edgeLoopEvents : List Event :=
  [.next, .op (.removeEdge 2), .next, .op (.setEdgeLabel 3 "b"), .op (.newEdge 0 1 "a" []), .next, .op (.removeEdge 3), .next,
   .next]

example : ∃ h log h' it, HState.run edgeLoopOps = some h ∧
    h.liveEdges (.out 0) (.label "a") edgeLoopEvents = some (log, h', it) ∧
    Spec.ValidHistory (edgeLoopOps ++ Seen.ops log) ∧ (Spec.run edgeLoopOps).Has (.out 0) ∧
    GentleLoop (.out 0) (.label "a") edgeLoopOps log ∧ Seen.visited log = [2, 3, 4, 7] ∧ log.length = 9 := by
  refine ⟨_, _, _, _, rfl, rfl, ?_⟩
  decide +kernel

/-- The same for all edges of the graph. -/
example : ∃ h log h' it, HState.run edgeLoopOps = some h ∧
    h.liveEdges .all .all
      [.next, .op (.removeEdge 2), .next, .next, .op (.removeEdge 4), .op (.removeEdge 3), .next, .op (.newNode [] []), .next,
       .op (.setEdgeLabel 5 "x"), .next] = some (log, h', it) ∧
    Spec.ValidHistory (edgeLoopOps ++ Seen.ops log) ∧ EdgesFiled .all .all edgeLoopOps (Seen.ops log) ∧
    GentleLoop .all .all edgeLoopOps log ∧ Seen.visited log = [2, 3, 4, 5, 6] := by
  refine ⟨_, _, _, _, rfl, rfl, ?_⟩
  decide +kernel

/-- The edge 3 is filed under an old label. -/
example : misfiled (edgeLoopOps ++ [.setEdgeLabel 3 "b"]) = [3] ∧
    ∃ h log h' it, HState.run (edgeLoopOps ++ [.setEdgeLabel 3 "b"]) = some h ∧
    h.liveEdges .all .all [.next, .op (.removeEdge 2), .next, .next, .op (.removeEdge 4), .next, .op (.newEdge 1 1 "c" []), .next,
       .next, .next] = some (log, h', it) ∧
    Spec.ValidHistory (edgeLoopOps ++ [.setEdgeLabel 3 "b"] ++ Seen.ops log) ∧
    EdgesFiled .all .all (edgeLoopOps ++ [.setEdgeLabel 3 "b"]) (Seen.ops log) ∧
    GentleLoop .all .all (edgeLoopOps ++ [.setEdgeLabel 3 "b"]) log ∧ Seen.visited log = [2, 3, 4, 5, 6, 7] := by
  refine ⟨by decide +kernel, _, _, _, _, rfl, rfl, ?_⟩
  decide +kernel

/-- And for `GetEdgesWithAnyLabel` of the graph. -/
example : ∃ h log h' it, HState.run edgeLoopOps = some h ∧
    h.liveEdges .all (.any ["c", "a"])
      [.next, .op (.removeEdge 6), .next, .op (.removeEdge 5), .next, .next, .op (.removeEdge 4), .next] =
        some (log, h', it) ∧
    Spec.ValidHistory (edgeLoopOps ++ Seen.ops log) ∧ EdgesFiled .all (.any ["c", "a"]) edgeLoopOps (Seen.ops log) ∧
    GentleLoop .all (.any ["c", "a"]) edgeLoopOps log ∧ Seen.visited log = [6, 2, 3, 4] := by
  refine ⟨_, _, _, _, rfl, rfl, ?_⟩
  decide +kernel

/-! ## Where it is false -/

/-- The body removes the edge that comes next: the loop visits it, though it is gone. -/
theorem C58_false_ahead : ∃ m ops evs, ¬ C58_statement m .all ops evs ∧ m ≠ .all := by
  refine ⟨.out 0, edgeLoopOps, [.next, .op (.removeEdge 3), .next], ?_, by simp⟩
  intro h
  have := (h _ _ _ _ rfl rfl (by decide +kernel) (by decide +kernel) trivial).alive [.item 2, .did (.removeEdge 3)] 3 [] rfl
  revert this
  decide +kernel

/-- And edges that stay are not visited. -/
theorem C58_false_skip : ∃ m ops evs, ¬ C58_statement m .all ops evs ∧ m ≠ .all := by
  refine ⟨.out 0, edgeLoopOps, [.next, .op (.removeEdge 3), .next, .next, .next], ?_, by simp⟩
  intro h
  have := (h _ _ _ _ rfl rfl (by decide +kernel) (by decide +kernel) trivial).all
    [.item 2, .did (.removeEdge 3), .item 3, .item 5] [] rfl 4 (by decide +kernel)
  revert this
  decide +kernel

/-- The body relabels the edge it is at: the loop visits it twice. -/
theorem C58_false_relabel : ∃ m ops evs, ¬ C58_statement m .all ops evs ∧ m ≠ .all := by
  refine ⟨.out 0, edgeLoopOps, [.next, .op (.setEdgeLabel 2 "d"), .next, .next, .next, .next], ?_, by simp⟩
  intro h
  have := (h _ _ _ _ rfl rfl (by decide +kernel) (by decide +kernel) trivial).once
  revert this
  decide +kernel

/-- A loop over the edges of the graph with a label: an edge that got the label is not found. -/
theorem C58_false_all : ∃ k ops evs, ¬ C58_statement .all k ops evs := by
  refine ⟨.any ["a"], [.newNode [] [], .newEdge 0 0 "b" [], .newEdge 0 0 "b" [], .setEdgeLabel 1 "a"], [.next], ?_⟩
  intro h
  have := (h _ _ _ _ rfl rfl (by decide +kernel) trivial (by decide +kernel)).all [] [] rfl 1 (by decide +kernel)
  revert this
  decide +kernel

/-! ## Loops end -/

/-- How often the program calls `Next`. -/
def Event.calls : List Event → Nat
  | [] => 0
  | .next :: evs => Event.calls evs + 1
  | .op _ :: evs => Event.calls evs

/-- The program creates no edge. -/
def NoNewEdge : List Op → Prop
  | [] => True
  | .newEdge _ _ _ _ :: _ => False
  | _ :: ops => NoNewEdge ops

theorem noNewEdge_cons {op : Op} {ops : List Op} (h : NoNewEdge (op :: ops)) :
    NoNewEdge ops ∧ ∀ σ : Spec, ∀ e ∈ (σ.step op).edges, e ∈ σ.edges := by
  cases op <;> simp only [NoNewEdge] at h <;> refine ⟨h, ?_⟩ <;> intro σ e he <;>
    first | exact he | exact (List.mem_filter.1 he).1

theorem noNewEdge_append : ∀ {ops ops' : List Op}, NoNewEdge (ops ++ ops') → NoNewEdge ops
  | [], _, _ => trivial
  | op :: ops, _, h => by
    cases op <;> first | exact h | exact noNewEdge_append (ops := ops) h

theorem noNewEdge_sub : ∀ {ops : List Op} {σ : Spec}, NoNewEdge ops → ∀ e ∈ (σ.runFrom ops).edges, e ∈ σ.edges
  | [], _, _, _, he => he
  | op :: ops, σ, h, e, he => by
    obtain ⟨h1, h2⟩ := noNewEdge_cons h
    exact h2 σ e (noNewEdge_sub (σ := σ.step op) h1 e he)

theorem live_calls {evs : List Event} : ∀ {h : HState} {m : Sel} {it : EdgeIt} {log : List Seen} {z : HState × EdgeIt},
    live HState.step (HState.adv m) h it evs = some (log, z) → .last ∉ log → Event.calls evs = (Seen.visited log).length := by
  induction evs with
  | nil =>
    intro h m it log z hl _
    simp only [live, Option.some.injEq, Prod.mk.injEq] at hl
    rw [← hl.1]; rfl
  | cons ev evs ih =>
    intro h m it log z hl hn
    cases ev with
    | next =>
      simp only [live] at hl
      split at hl
      · cases hl
      · split at hl
        · cases hl
        · rename_i x1 o it1 _ x2 log1 z1 h1
          simp only [Option.some.injEq, Prod.mk.injEq] at hl
          obtain ⟨rfl, rfl⟩ := hl
          cases o with
          | none => simp at hn
          | some x =>
            have := ih h1 (fun hh => hn (by simp [hh]))
            simp [Event.calls, Seen.visited, this]
    | op o =>
      simp only [live] at hl
      split at hl
      · cases hl
      · split at hl
        · cases hl
        · rename_i log1 z1 h1
          simp only [Option.some.injEq, Prod.mk.injEq] at hl
          obtain ⟨rfl, rfl⟩ := hl
          have := ih h1 (fun hh => hn (by simp [hh]))
          simp [Event.calls, Seen.visited, this]

/-- `Next` returns false at last, if the body creates no edges. -/
theorem C58_ends_partial {m : Sel} {k : Want} {ops : List Op} {evs : List Event} {h h' : HState} {log : List Seen} {it : EdgeIt}
    (hs : HState.run ops = some h) (hl : h.liveEdges m k evs = some (log, h', it))
    (hv : Spec.ValidHistory (ops ++ Seen.ops log)) (hm : (Spec.run ops).Has m) (hk : k.Set)
    (hf : EdgesFiled m k ops (Seen.ops log)) (hg : GentleLoop m k ops log) (hn : NoNewEdge (Seen.ops log))
    (hc : (Spec.run ops).edges.length < Event.calls evs) : Seen.last ∈ log := by
  refine Classical.byContradiction fun hno => ?_
  have hvis := C58_partial hs hl hv hm hk hf hg
  rw [HState.liveEdges] at hl
  split at hl
  · cases hl
  · have := live_calls hl hno
    rw [this] at hc
    refine absurd hc (Nat.not_lt.2 ?_)
    refine List.Subperm.length_le (List.subperm_of_subset hvis.once ?_)
    intro x hx
    obtain ⟨p, r, rfl⟩ : ∃ p r, log = p ++ .item x :: r := by
      clear hvis this hc hno hg hf hv hl
      induction log with
      | nil => simp [Seen.visited] at hx
      | cons y log ih =>
        have tl : x ∈ Seen.visited log → ∃ p r, y :: log = p ++ .item x :: r := by
          intro h1
          have : NoNewEdge (Seen.ops log) := by
            cases y with
            | did op => exact (noNewEdge_cons hn).1
            | item z => exact hn
            | last => exact hn
          obtain ⟨p, r, h2⟩ := ih this h1
          exact ⟨y :: p, r, by rw [h2]; rfl⟩
        cases y with
        | item z =>
          simp only [Seen.visited, List.mem_cons] at hx
          rcases hx with rfl | hx
          · exact ⟨[], log, rfl⟩
          · exact tl hx
        | did op => exact tl hx
        | last => exact tl hx
    have ha := (hvis.alive p x r rfl).1
    rw [Spec.run_append] at ha
    refine noNewEdge_sub ?_ x ha
    have : Seen.ops (p ++ .item x :: r) = Seen.ops p ++ Seen.ops r := by
      clear hvis hc this hno hg hf hv hl hx hn ha
      induction p with
      | nil => rfl
      | cons y p ih => cases y <;> simp [Seen.ops, ih]
    rw [this] at hn
    exact noNewEdge_append hn

/-! ## Loops that remove every edge they visit -/

/-- `for edges.Next() { edges.Edge().Remove() }`, for these edges. -/
def removeEvents : List Nat → List Event
  | [] => [.next]
  | x :: xs => .next :: .op (.removeEdge x) :: removeEvents xs

def removeLog : List Nat → List Seen
  | [] => [.last]
  | x :: xs => .item x :: .did (.removeEdge x) :: removeLog xs

theorem edges_remove {m : Sel} {q : String → Prop} {R : List Nat} {W : List Nat} : ∀ {h : HState} {σ : Spec} {it : EdgeIt},
    Core h.abs σ → h.Wf → EdgesInv m R q h σ it W → (∀ x ∈ W, x ∉ R) → σ.ValidFrom (W.map .removeEdge) ∧ ∃ h' it',
      live HState.step (HState.adv m) h it (removeEvents W) = some (removeLog W, h', it') ∧
      HState.runFrom h (W.map .removeEdge) = some h' := by
  induction W with
  | nil =>
    intro h σ it c w hi _
    refine ⟨trivial, ?_⟩
    obtain ⟨xs, f, h1, h2⟩ := hi
    obtain ⟨it1, h3, h4⟩ := h1.adv
    refine ⟨h, it1, ?_, rfl⟩
    simp only [removeEvents, removeLog, live]
    rw [show h.adv m it = some (none, it1) from h3]
  | cons x W ih =>
    intro h σ it c w hi hR
    obtain ⟨it1, h3, hi1⟩ : ∃ it1, h.adv m it = some (some x, it1) ∧ EdgesInv m R q h σ it1 W := by
      obtain ⟨xs, f, h1, h2⟩ := hi
      obtain ⟨it1, h3, h4⟩ := h1.adv
      exact ⟨it1, h3, xs, f, h4, h2⟩
    obtain ⟨hx, hxW⟩ : x ∈ σ.edges ∧ x ∉ W := by
      obtain ⟨xs, f, h1, h2⟩ := hi
      exact ⟨((h2 x).1 (h1.sub x (by simp))).1, (List.nodup_cons.1 h1.nodup).1⟩
    obtain ⟨h1, hs1⟩ : ∃ h1, h.step (.removeEdge x) = some h1 := ⟨_, rfl⟩
    obtain ⟨w1, c1⟩ : h1.Wf ∧ Core h1.abs (σ.step (.removeEdge x)) := by
      rcases (step_abs w (.removeEdge x)).cases with ⟨h2, -⟩ | ⟨y, h2, h4, w1⟩
      · rw [hs1] at h2; cases h2
      · rw [hs1] at h2; cases h2
        exact ⟨w1, c.step hx h4⟩
    have hi2 : EdgesInv m R q h1 (σ.step (.removeEdge x)) it1 W := by
      cases hs1
      exact hi1.drop c w hx (fun _ => ⟨hR x (by simp), hxW⟩)
    obtain ⟨a1, h', it', a2, a3⟩ := ih c1 w1 hi2 (fun y hy => hR y (by simp [hy]))
    refine ⟨⟨hx, a1⟩, h', it', ?_, ?_⟩
    · simp only [removeEvents, removeLog, live, h3, hs1, a2]
    · simp only [List.map_cons, HState.runFrom, hs1, a3]

theorem mem_removeEdges {xs : List Nat} : ∀ {σ : Spec} {e : Nat},
    e ∈ (σ.runFrom (xs.map .removeEdge)).edges ↔ e ∈ σ.edges ∧ e ∉ xs := by
  induction xs with
  | nil => intro σ e; simp [Spec.runFrom]
  | cons x xs ih =>
    intro σ e
    show e ∈ ((σ.step (.removeEdge x)).runFrom (xs.map .removeEdge)).edges ↔ _
    rw [ih]
    simp [Spec.step, Spec.dropEdge, and_assoc]

theorem HState.runFrom_append {ops ops' : List Op} : ∀ {h : HState},
    HState.runFrom h (ops ++ ops') = (HState.runFrom h ops).bind (HState.runFrom · ops') := by
  induction ops with
  | nil => intro h; rfl
  | cons op ops ih =>
    intro h
    simp only [List.cons_append, HState.runFrom]
    split
    · rfl
    · exact ih

/-- A loop that removes every edge it visits returns, and removes exactly the edges that were sought when it began.
Missing: for the edges of the graph, edges filed under an old label. -/
theorem C58_remove_partial {m : Sel} {k : Want} {ops : List Op} {h : HState} (hs : HState.run ops = some h)
    (hv : Spec.ValidHistory ops) (hm : (Spec.run ops).Has m) (hk : k.Set) (hf : m = .all → FiledOk ops ∧ misfiled ops = []) :
    ∃ xs h' it', xs.Nodup ∧ (∀ e, e ∈ xs ↔ (Spec.run ops).Sought m k e) ∧ h.liveEdges m k (removeEvents xs) = some (removeLog xs, h', it') ∧
      HState.run (ops ++ xs.map .removeEdge) = some h' ∧ Spec.ValidHistory (ops ++ xs.map .removeEdge) ∧
      ∀ e, e ∈ (Spec.run (ops ++ xs.map .removeEdge)).edges ↔
        e ∈ (Spec.run ops).edges ∧ ¬ (Spec.run ops).Sought m k e := by
  obtain ⟨w, c, hlt, R, it, W, ho, hi, hW, hRe⟩ : h.Wf ∧ Core h.abs (Spec.run ops) ∧ m.Lt (Spec.run ops).next ∧ ∃ R it W,
      h.openEdges m k = some it ∧ EdgesInv m R (fun l => k.has m l = true) h (Spec.run ops) it W ∧
      (∀ e, e ∈ W ↔ (Spec.run ops).Sought m k e) ∧ R = [] := by
    obtain ⟨w, hs'⟩ : h.Wf ∧ LPG.run ops = some h.abs := by
      rcases (run_abs ops).cases with ⟨h2, -⟩ | ⟨x, h2, h3, w1⟩
      · rw [hs] at h2; cases h2
      · rw [hs] at h2; cases h2; exact ⟨w1, h3⟩
    have c := Core.run hv hs'
    have hls : ∀ ls, k = .any ls → ls.Nodup := by rintro ls rfl; exact hk
    cases m with
    | all =>
      obtain ⟨g, xs, hp, hr, hg⟩ := (hf rfl).2 ▸ misfiled_rep hv (hf rfl).1 hs'
      obtain ⟨it, W, h1, h2, h3⟩ := EdgesInv.start (R := []) (m := .all) (k := k) w.all c hr
        (fun e he => hg e (hp.mem_iff.1 he)) (fun e => by rw [hp.mem_iff]; simp [Spec.At, Spec.run]) (.inr rfl) hls
      exact ⟨w, c, trivial, [], it, W, h1, h2, h3, rfl⟩
    | out n =>
      obtain ⟨w, c, hlt, R, it0, W, hR, hRm, ho, hi, hW, -⟩ := edges_open (log := []) hs hv hm hk trivial
      exact ⟨w, c, hlt, R, it0, W, ho, hi, hW, hRm (by simp)⟩
    | inc n =>
      obtain ⟨w, c, hlt, R, it0, W, hR, hRm, ho, hi, hW, -⟩ := edges_open (log := []) hs hv hm hk trivial
      exact ⟨w, c, hlt, R, it0, W, ho, hi, hW, hRm (by simp)⟩
  subst hRe
  obtain ⟨a1, h', it', a2, a3⟩ := edges_remove c w hi (by simp)
  refine ⟨W, h', it', ?_, hW, ?_, ?_, Spec.validFrom_append.2 ⟨hv, a1⟩, ?_⟩
  · obtain ⟨xs, f, h1, h2⟩ := hi; exact h1.nodup
  · simp only [HState.liveEdges, ho, a2]
  · rw [HState.run, HState.runFrom_append, show HState.runFrom HState.new ops = some h from hs]; exact a3
  · intro e; rw [Spec.run_append, mem_removeEdges, hW]

example : ∃ h h' it', HState.run edgeLoopOps = some h ∧ (Spec.run edgeLoopOps).Has (.out 0) ∧
    h.liveEdges (.out 0) .all (removeEvents [2, 3, 4, 5]) = some (removeLog [2, 3, 4, 5], h', it') ∧
    (Spec.run (edgeLoopOps ++ [2, 3, 4, 5].map .removeEdge)).edges = [6] := by
  refine ⟨_, _, _, rfl, ?_, rfl, ?_⟩ <;> decide +kernel

/-! ## Both directions -/

/-- The full property for `GetEdges(AnyEdge)` and the like. -/
def C58_both_statement (n : Nat) (k : Want) (ops : List Op) (evs : List Event) : Prop :=
  ∀ h log h' its, HState.run ops = some h → h.liveBoth n k evs = some (log, h', its) →
    Spec.ValidHistory (ops ++ Seen.ops log) → n ∈ (Spec.run ops).nodes → k.Set → VisitsBoth n k ops log

/-- Missing: nodes with an edge to themselves (`C58_false_self`), and what is missing in `C58_partial`. -/
theorem C58_both_partial {n : Nat} {k : Want} {ops : List Op} {evs : List Event} {h h' : HState} {log : List Seen}
    {its : List (Sel × EdgeIt)} (hs : HState.run ops = some h) (hl : h.liveBoth n k evs = some (log, h', its))
    (hv : Spec.ValidHistory (ops ++ Seen.ops log)) (hm : n ∈ (Spec.run ops).nodes) (hk : k.Set)
    (hn : (Spec.run ops).NoSelfFrom n (Seen.ops log)) (hg1 : GentleLoop (.inc n) k ops log)
    (hg2 : GentleLoop (.out n) k ops log) : VisitsBoth n k ops log := by
  obtain ⟨hv1, hv2⟩ := Spec.validFrom_append.1 hv
  obtain ⟨w, c, hlt, R, it1, W1, hR, hRm, ho1, hi1, hW1, -⟩ := edges_open (m := .inc n) (log := []) hs hv1 hm hk trivial
  obtain ⟨-, -, -, R', it2, W2, hR', hRm', ho2, hi2, hW2, -⟩ := edges_open (m := .out n) (log := []) hs hv1 hm hk trivial
  rw [hRm (by simp)] at hi1
  rw [hRm' (by simp)] at hi2
  simp only [HState.liveBoth, HState.openBoth, ho1, ho2] at hl
  obtain ⟨h1, h2, h3⟩ := both_live (K := (Spec.run ops).SoughtBoth n k) c w hlt (.inl ⟨it1, it2, rfl, hi1, hi2⟩) List.nodup_nil
    (by simp) (by simp) (fun x hx => .inr (hx.imp (hW1 x).2 (hW2 x).2)) (by simp) hl hv2 hn hg1 hg2
  refine ⟨by simpa using h1, ?_, ?_⟩
  · intro p x r hp; rw [Spec.run_append]; exact h2 p x r hp
  · intro p r hp e he; simpa using h3 p r hp e he

example : ∃ h log h' its, HState.run edgeLoopOps = some h ∧
    h.liveBoth 1 .all [.next, .op (.removeEdge 2), .next, .next, .op (.removeEdge 3), .op (.removeEdge 5), .next,
      .op (.removeEdge 6), .next] = some (log, h', its) ∧
    Spec.ValidHistory (edgeLoopOps ++ Seen.ops log) ∧ 1 ∈ (Spec.run edgeLoopOps).nodes ∧
    (Spec.run edgeLoopOps).NoSelfFrom 1 (Seen.ops log) ∧ GentleLoop (.inc 1) .all edgeLoopOps log ∧
    GentleLoop (.out 1) .all edgeLoopOps log ∧ Seen.visited log = [2, 3, 5, 6] := by
  refine ⟨_, _, _, _, rfl, rfl, ?_⟩
  decide +kernel

/-- The loop that removes every edge of a node meets an edge from the node to itself twice, the second time when it is gone. -/
theorem C58_false_self : ∃ n ops evs, ¬ C58_both_statement n .all ops evs := by
  refine ⟨0, [.newNode [] [], .newEdge 0 0 "a" []], [.next, .op (.removeEdge 1), .next], ?_⟩
  intro h
  have := (h _ _ _ _ rfl rfl (by decide +kernel) (by decide +kernel) trivial).alive [.item 1, .did (.removeEdge 1)] 1 [] rfl
  revert this
  decide +kernel

end LPG
