import Verif.Proofs.World
/-!
# C42: graphs are isolated from each other

The theorems range over programs with any number of graphs on one heap (`Verif.Model.World`). `W.N g` and `W.E g` are
the nodes and edges of graph `g` (the removed ones too), `SameAnswers` lists the queries.
-/
namespace LPG
open World

/-- `NewEdge` on graph `g` panics if one of the nodes is not a node of `g`, and the program state is as before. -/
theorem C42_foreign {W : World} {g a b : Nat} {l : String} {ps : Props}
    (h : W.nodeGraph a ≠ some g ∨ W.nodeGraph b ≠ some g) : W.step g (.newEdge a b l ps) = some (W, true) := by
  have hf : W.foreign g (.newEdge a b l ps) = true := by simpa [foreign] using h
  simp only [World.step, target, hf, if_true]

/-- Only `NewEdge` with a node of another graph panics in this way. -/
theorem C42_foreign_only {W W' : World} {g : Nat} {op : Op} (h : W.step g op = some (W', true)) :
    ∃ a b l ps, op = .newEdge a b l ps ∧ (W.nodeGraph a ≠ some g ∨ W.nodeGraph b ≠ some g) := by
  obtain ⟨t, ht, ⟨hf, _, _⟩ | ⟨_, hb, _⟩⟩ := step_cases h
  · cases op <;> simp only [foreign, Bool.false_eq_true] at hf
    rename_i a b l ps
    simp only [target, Option.some.injEq] at ht
    subst ht
    exact ⟨a, b, l, ps, rfl, by simpa using hf⟩
  · cases hb

/-- Every edge has a graph, and both of its ends are nodes of that graph. -/
theorem C42_ends {ops : List (Nat × Op)} {W : World} (h : World.run ops = some W) :
    (∀ e, W.isEdge e = true → ∃ g, W.edgeGraph e = some g) ∧
    ∀ e g, W.edgeGraph e = some g → W.nodeGraph (W.heap.eFrom e) = some g ∧ W.nodeGraph (W.heap.eTo e) = some g := by
  have i := Inv.init.runFrom h
  refine ⟨fun e he => ?_, fun e g he => (i.closed g).ends e he⟩
  obtain ⟨g, hg⟩ := i.known e he
  exact ⟨g, by simp [edgeGraph, he, hg]⟩

/-- What a graph enumerates is its own: nodes, edges, and the edges of its nodes. -/
theorem C42_own {ops : List (Nat × Op)} {W : World} (h : World.run ops = some W) (g : Nat) :
    (∀ ns, (W.view g).getNodes = some ns → ∀ n ∈ ns, W.N g n) ∧
    (∀ es, (W.view g).getEdges = some es → ∀ e ∈ es, W.E g e) ∧
    (∀ n, W.N g n → ∀ d es, (W.view g).nodeEdges n d = some es → ∀ e ∈ es, W.E g e) := by
  have c := (Inv.init.runFrom h).closed g
  refine ⟨fun ns hn => walk_in (fun x hx => (c.link x hx).1) c.head hn, fun es he => EdgeMap.enum_in c.sl0 c.all he,
    fun n hn d es he => ?_⟩
  cases d with
  | incoming => exact EdgeMap.enum_in c.sl2 (c.maps n hn).1 he
  | outgoing => exact EdgeMap.enum_in c.sl1 (c.maps n hn).2 he
  | any =>
    simp only [State.nodeEdges] at he
    intro e hm
    cases h1 : EdgeMap.enum (W.view g).slot2 (W.view g).idBase ((W.view g).incoming n) with
    | none => rw [h1] at he; simp [State.cat2] at he
    | some xs =>
      cases h2 : EdgeMap.enum (W.view g).slot1 (W.view g).idBase ((W.view g).outgoing n) with
      | none => rw [h1, h2] at he; simp [State.cat2] at he
      | some ys =>
        rw [h1, h2] at he
        simp only [State.cat2, Option.some.injEq] at he
        subst he
        rcases List.mem_append.1 hm with hm | hm
        · exact EdgeMap.enum_in c.sl2 (c.maps n hn).1 h1 e hm
        · exact EdgeMap.enum_in c.sl1 (c.maps n hn).2 h2 e hm

/-- A call that acts on graph `t` changes nothing observable of any other graph: no query of the graph, of its nodes
or of its edges has another answer, and it has the same nodes and edges. -/
theorem C42_isolated {ops : List (Nat × Op)} {W W' : World} {g t g' : Nat} {op : Op} {b : Bool}
    (h : World.run ops = some W) (hs : W.step g op = some (W', b)) (ht : W.target g op = some t) (hg : g' ≠ t) :
    SameAnswers (W.N g') (W.E g') (W.view g') (W'.view g') ∧
    (∀ x, W'.N g' x ↔ W.N g' x) ∧ (∀ x, W'.E g' x ↔ W.E g' x) := by
  have i := Inv.init.runFrom h
  obtain ⟨t', ht', ⟨_, _, rfl⟩ | ⟨hf, _, s, hs', rfl⟩⟩ := step_cases hs
  · have a : Agree (W'.N g') (W'.E g') (W'.view g') (W'.view g') :=
      ⟨rfl, rfl, rfl, rfl, rfl, fun _ _ => ⟨rfl, rfl, rfl, rfl, rfl, rfl⟩,
       fun _ _ => ⟨rfl, rfl, rfl, rfl, rfl, rfl, rfl⟩⟩
    exact ⟨a.answers (i.closed g') (fun x hx => i.nodeLt x _ hx) (fun x hx => i.eLt hx) (Nat.le_refl _),
      fun _ => Iff.rfl, fun _ => Iff.rfl⟩
  · rw [ht] at ht'; cases ht'
    have o := owners i hf hs' g'
    refine ⟨(others i (args_in ht hf) hs' hg).answers (i.closed g') (fun x hx => i.nodeLt x _ hx) (fun x hx => i.eLt hx) ?_,
      fun x => (o.1 x).trans (by simp [hg]), fun x => (o.2 x).trans (by simp [hg])⟩
    have := (step_alloc hs').2.1
    show W.heap.idBase ≤ s.idBase
    rw [this]
    exact Nat.le_add_right _ _

/-- The calls of a continuation act on graphs other than `g`. -/
def Elsewhere (g : Nat) : World → List (Nat × Op) → Prop
  | _, [] => True
  | W, (r, op) :: ops => W.target r op ≠ some g ∧ ∀ W' b, W.step r op = some (W', b) → Elsewhere g W' ops

theorem SameAnswers.refl {N E : Nat → Prop} {s : State} : SameAnswers N E s s := by
  constructor <;> intros <;> first | rfl | exact ⟨rfl, rfl⟩

theorem SameAnswers.trans {N E N' E' : Nat → Prop} {a b c : State} (h1 : SameAnswers N E a b)
    (h2 : SameAnswers N' E' b c) (hN : ∀ x, N' x ↔ N x) (hE : ∀ x, E' x ↔ E x) : SameAnswers N E a c where
  getNodes := h2.getNodes.trans h1.getNodes
  getEdges := h2.getEdges.trans h1.getEdges
  numNodes := h2.numNodes.trans h1.numNodes
  numEdges := h2.numEdges.trans h1.numEdges
  withAnyLabel ls := (h2.withAnyLabel ls).trans (h1.withAnyLabel ls)
  withAllLabels ls := (h2.withAllLabels ls).trans (h1.withAllLabels ls)
  nodesWithProperty k := (h2.nodesWithProperty k).trans (h1.nodesWithProperty k)
  edgesWithProperty k := (h2.edgesWithProperty k).trans (h1.edgesWithProperty k)
  findNodes ls ps := (h2.findNodes ls ps).trans (h1.findNodes ls ps)
  findEdges ls ps := (h2.findEdges ls ps).trans (h1.findEdges ls ps)
  labels n hn := (h2.labels n ((hN n).2 hn)).trans (h1.labels n hn)
  nodeProperty n hn k := (h2.nodeProperty n ((hN n).2 hn) k).trans (h1.nodeProperty n hn k)
  nodeEdges n hn d := (h2.nodeEdges n ((hN n).2 hn) d).trans (h1.nodeEdges n hn d)
  nodeEdgesWithLabel n hn l d := (h2.nodeEdgesWithLabel n ((hN n).2 hn) l d).trans (h1.nodeEdgesWithLabel n hn l d)
  nodeEdgesWithAnyLabel n hn l d :=
    (h2.nodeEdgesWithAnyLabel n ((hN n).2 hn) l d).trans (h1.nodeEdgesWithAnyLabel n hn l d)
  ends e he := ⟨((h2.ends e ((hE e).2 he)).1).trans (h1.ends e he).1, ((h2.ends e ((hE e).2 he)).2).trans (h1.ends e he).2⟩
  edgeLabel e he := (h2.edgeLabel e ((hE e).2 he)).trans (h1.edgeLabel e he)
  edgeProperty e he k := (h2.edgeProperty e ((hE e).2 he) k).trans (h1.edgeProperty e he k)

theorem World.runFrom_snoc {p : Nat × Op} : ∀ {ops : List (Nat × Op)} {W W1 W2 : World} {b : Bool},
    World.runFrom W ops = some W1 → W1.step p.1 p.2 = some (W2, b) → World.runFrom W (ops ++ [p]) = some W2
  | [], W, W1, W2, b, h1, h2 => by
    cases h1; obtain ⟨g, op⟩ := p; simp only [List.nil_append, World.runFrom, h2]
  | (g, op) :: ops, W, W1, W2, b, h1, h2 => by
    rw [World.runFrom] at h1
    split at h1
    · cases h1
    · rename_i W' b' h'
      simp only [List.cons_append, World.runFrom, h']
      exact World.runFrom_snoc h1 h2

/-- Any continuation that acts on other graphs leaves graph `g` as it is. -/
theorem C42_isolated_run {g : Nat} : ∀ {more ops : List (Nat × Op)} {W W' : World}, World.run ops = some W →
    World.runFrom W more = some W' → Elsewhere g W more → SameAnswers (W.N g) (W.E g) (W.view g) (W'.view g)
  | [], ops, W, W', h, hm, _ => by cases hm; exact SameAnswers.refl
  | (r, op) :: more, ops, W, W', h, hm, he => by
    rw [World.runFrom] at hm
    split at hm
    · cases hm
    · rename_i W1 b h1
      obtain ⟨t, ht, _⟩ := step_cases h1
      have hne : g ≠ t := fun e => he.1 (by rw [e]; exact ht)
      obtain ⟨a, b1, b2⟩ := C42_isolated h h1 ht hne
      have hr : World.run (ops ++ [(r, op)]) = some W1 := World.runFrom_snoc (p := (r, op)) h h1
      exact a.trans (C42_isolated_run hr hm (he.2 _ _ h1)) b1 b2

/-- Two graphs that grow in turns; then a call with a foreign node, which panics, and changes of graph 1. -/
def twoGraphs : List (Nat × Op) :=
  [(0, .newNode ["A"] []), (1, .newNode ["B"] []), (0, .newNode ["A"] []), (1, .newNode [] []),
   (0, .newEdge 0 2 "e" []), (1, .newEdge 1 3 "f" []), (0, .newEdge 0 1 "x" [])]

example : (World.run twoGraphs).map (fun W => (W.view 0).getNodes) = some (some [0, 2]) ∧
    (World.run twoGraphs).map (fun W => (W.view 1).getNodes) = some (some [1, 3]) ∧
    (World.run twoGraphs).map (fun W => (W.view 0).getEdges) = some (some [4]) ∧
    (World.run twoGraphs).map (fun W => (W.step 0 (.newEdge 0 1 "x" [])).map (·.2)) = some (some true) ∧
    (World.run twoGraphs).map (fun W => W.target 0 (.detachRemove 1)) = some (some 1) ∧
    ((World.run (twoGraphs ++ [(0, .detachRemove 1)])).map (fun W => (W.view 1).getEdges)) = some (some []) := by
  decide +kernel

end LPG
