import Verif.Proofs.SpecAlone
import Verif.Props.C51Exact
import Verif.Props.C56
/-!
# C56: the calls on one graph, and what they give alone

`alone g ops` (Verif.Spec.AloneCalls) are the calls of the program on graph `g`.
-/
namespace LPG
open World

/-- After every program over any number of graphs that gives to each call nodes and edges of its own graph, live or removed:
the calls on graph `g` alone also return, and the graph they build gives the same answer to every query. -/
theorem C56_explicit {ops : List (Nat × Op)} {W : World} (ho : OwnHandles ops) (h : World.run ops = some W) (g : Nat) :
    ∃ s, run (alone g ops) = some s ∧
      ∃ ρ, RenAnswers (W.N g) (W.E g) ρ s (W.view g) ∧
        ∀ x, W.Owned g x → ρ ((Owners.run ops).rank g x) = x ∧ (Owners.run ops).rank g x < s.idBase := by
  obtain ⟨s, h1, a, o⟩ := Along.run (g := g) Table.init ho (Along.init _ g) h
  have bel := a.below (v := []) o (by simp)
  refine ⟨s, h1, _, a.ren.answers (o.inv.closed g) bel, fun x hx => ?_⟩
  rcases hx with hx | hx
  · have := Owners.pos_rank ((o.node x g).1 hx)
    exact ⟨this, bel.n _ (by rw [show Owners.pos g (Owners.runFrom [] ops) ((Owners.run ops).rank g x) = x from this]; exact hx)⟩
  · have := Owners.pos_rank ((o.edge x g).1 hx)
    exact ⟨this, bel.e _ (by rw [show Owners.pos g (Owners.runFrom [] ops) ((Owners.run ops).rank g x) = x from this]; exact hx)⟩

/-- The program returns from all its calls exactly if the calls on each graph alone do. -/
theorem C56_returns {ops : List (Nat × Op)} (ho : OwnHandles ops) :
    World.run ops ≠ none ↔ ∀ g, run (alone g ops) ≠ none := by
  constructor
  · intro h g
    obtain ⟨W, hW⟩ := Option.ne_none_iff_exists'.1 h
    obtain ⟨s, hs, _⟩ := C56_explicit ho hW g
    rw [hs]; simp
  · intro h
    exact Along.returns (s := fun _ => State.new) Table.init ho (fun g => Along.init _ g) h

/-- Two objects of a graph have different numbers in this graph, and an older object has a smaller number. -/
theorem C56_ids {ops : List (Nat × Op)} {g x y : Nat} {b c : Bool} (hx : (Owners.run ops)[x]? = some (g, b))
    (hy : (Owners.run ops)[y]? = some (g, c)) (h : x < y) : (Owners.run ops).rank g x < (Owners.run ops).rank g y := by
  have key : ∀ {w : Owners} {x y : Nat}, w[x]? = some (g, b) → x < y → w.rank g x < w.rank g y := by
    intro w
    induction w with
    | nil => intro x y h; simp at h
    | cons p w ih =>
      obtain ⟨k, d⟩ := p
      intro x y hx hlt
      cases y with
      | zero => omega
      | succ y =>
        cases x with
        | zero =>
          have : k = g := by simp at hx; exact hx.1
          rw [Owners.rank_zero, Owners.rank_cons, if_pos this]
          omega
        | succ x =>
          have := ih (x := x) (y := y) (by simpa using hx) (by omega)
          rw [Owners.rank_cons, Owners.rank_cons]
          split <;> omega
  exact key hx h

/-- A program that uses live handles gives to each call nodes and edges of its own graph. The calls on each graph alone also use
live handles, and the abstract graph they build is the one of the program, renumbered. -/
theorem C56_valid {ops : List (Nat × Op)} (hv : WSpec.ValidHistory ops) :
    OwnHandles ops ∧ ∀ g, Spec.ValidHistory (alone g ops) ∧
      (Spec.run (alone g ops)).nodes = (WSpec.run ops g).nodes.map ((Owners.run ops).rank g) ∧
      (Spec.run (alone g ops)).edges = (WSpec.run ops g).edges.map ((Owners.run ops).rank g) ∧
      (∀ n ∈ (WSpec.run ops g).nodes, (Spec.run (alone g ops)).labels ((Owners.run ops).rank g n) = (WSpec.run ops g).labels n ∧
        ∀ k, (Spec.run (alone g ops)).nprop ((Owners.run ops).rank g n) k = (WSpec.run ops g).nprop n k) ∧
      (∀ e ∈ (WSpec.run ops g).edges,
        (Spec.run (alone g ops)).src ((Owners.run ops).rank g e) = (Owners.run ops).rank g ((WSpec.run ops g).src e) ∧
        (Spec.run (alone g ops)).dst ((Owners.run ops).rank g e) = (Owners.run ops).rank g ((WSpec.run ops g).dst e) ∧
        (Spec.run (alone g ops)).label ((Owners.run ops).rank g e) = (WSpec.run ops g).label e ∧
        ∀ k, (Spec.run (alone g ops)).eprop ((Owners.run ops).rank g e) k = (WSpec.run ops g).eprop e k) := by
  have ho : OwnHandles ops := SOwned.init.ok hv
  refine ⟨ho, fun g => ?_⟩
  have h0 : SSim (Owners.pos g (Owners.runFrom [] ops)) (Owners.cnt [] g) Spec.new (WSpec.new g) := by
    constructor
    case src => intro x hx; simp [Spec.new] at hx
    case dst => intro x hx; simp [Spec.new] at hx
    all_goals intros; rfl
  obtain ⟨m, h2⟩ := SSim.run g SOwned.init ho h0
  have hc : ((Owners.run ops).rank g) ∘ (Owners.pos g (Owners.runFrom [] ops)) = id := funext (Owners.rank_pos _)
  have rp := Owners.rank_pos (g := g) (Owners.runFrom [] ops)
  have hm : ∀ {l l' : List Nat}, l' = l.map (Owners.pos g (Owners.runFrom [] ops)) → l = l'.map ((Owners.run ops).rank g) := by
    rintro l l' rfl
    rw [List.map_map, hc, List.map_id]
  refine ⟨h2 hv, hm m.nodes, hm m.edges, fun n hn => ?_, fun e he => ?_⟩
  · have hn : n ∈ (WSpec.runFrom WSpec.new ops g).nodes := hn
    rw [m.nodes] at hn
    obtain ⟨x, hx, rfl⟩ := List.mem_map.1 hn
    have := rp x
    rw [show (Owners.run ops).rank g (Owners.pos g (Owners.runFrom [] ops) x) = x from this]
    exact ⟨(m.labels x).symm, fun k => (congrFun (m.nprop x) k).symm⟩
  · have he : e ∈ (WSpec.runFrom WSpec.new ops g).edges := he
    rw [m.edges] at he
    obtain ⟨x, hx, rfl⟩ := List.mem_map.1 he
    have := rp x
    rw [show (Owners.run ops).rank g (Owners.pos g (Owners.runFrom [] ops) x) = x from this]
    refine ⟨?_, ?_, (m.label x).symm, fun k => (congrFun (m.eprop x) k).symm⟩
    · have := m.src x hx
      rw [show (WSpec.run ops g).src (Owners.pos g (Owners.runFrom [] ops) x) = _ from this]
      exact (rp _).symm
    · have := m.dst x hx
      rw [show (WSpec.run ops g).dst (Owners.pos g (Owners.runFrom [] ops) x) = _ from this]
      exact (rp _).symm

/-- The two graphs of `spoiledNeighbour`, alone: graph 0 has its nodes 0, 1 and 3, graph 1 is spoiled. A removed node is
relabelled. -/
example : OwnHandles (spoiledNeighbour ++ [(1, .setLabels 3 ["Z"])]) ∧
    alone 0 spoiledNeighbour = [.newNode ["A"] [("k", .str "v")], .newNode ["A"] [], .newEdge 0 1 "e" [], .newNode [] [],
      .newEdge 3 0 "e" [], .setLabels 1 ["C"], .detachRemove 0] ∧
    (World.run spoiledNeighbour).map (fun W => (W.view 0).getNodes) = some (some [2, 7]) ∧
    (run (alone 0 spoiledNeighbour)).map (fun s => s.getNodes) = some (some [1, 3]) ∧
    (Owners.run spoiledNeighbour).rank 0 7 = 3 ∧
    (run (alone 1 spoiledNeighbour)).map (fun s => s.getNodes) = some (some [0]) := by
  refine ⟨by decide +kernel, rfl, ?_⟩
  decide +kernel

end LPG
