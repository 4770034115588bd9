import Verif.Proofs.RenameWorld
import Verif.Proofs.WorldCore
/-!
# C56: a graph among others behaves exactly as if it were alone

No condition on the program: calls with removed nodes and edges, calls that panic because of a foreign node, and graphs
that were spoiled by earlier removals are all included.
-/
namespace LPG
open World

/-- Take any program over any number of graphs and any graph `g` of it. There is a history of a single graph that consists
of the calls of the program on `g`, with the objects named by the ids 0, 1, 2, … that the counter of a graph gives. Its
ids stand in increasing order for exactly the nodes and edges of `g`. It runs, and after it the single graph answers every
query as `g` does. And whatever call on `g` comes next, it panics in the program exactly if it panics on the single
graph. -/
theorem C56_alone {ops : List (Nat × Op)} {W : World} (h : World.run ops = some W) (g : Nat) :
    ∃ (ρ : Nat → Nat) (ops0 : List Op) (s : State), StrictMono ρ ∧ (∀ x, W.Owned g x ↔ ∃ i, i < s.idBase ∧ ρ i = x) ∧
      ops0.map (Op.ren ρ) = callsOn g World.new ops ∧ LPG.run ops0 = some s ∧
      RenAnswers (W.N g) (W.E g) ρ s (W.view g) ∧
      (∀ k op, W.target k op = some g → W.foreign g op = false →
        ∃ op0 : Op, op0.ren ρ = op ∧ (W.step k op = none ↔ LPG.step s op0 = none)) := by
  classical
  obtain ⟨p, hp⟩ : ∃ p : Nat → Prop, ∀ x, p x ↔ W.Owned g x ∨ W.heap.idBase ≤ x := ⟨_, fun _ => Iff.rfl⟩
  have hinf : (Set.ofPred p).Infinite := by
    refine Set.infinite_of_not_bddAbove ?_
    rintro ⟨b, hb⟩
    have := hb (a := max b W.heap.idBase + 1) ((hp _).2 (Or.inr (by omega)))
    omega
  have i : Inv W := Inv.init.runFrom h
  have r0 : Ren (World.new.N g) (World.new.E g) (Nat.nth p) State.new (World.new.view g) := by
    have hN : ∀ x, ¬ (World.new.N g) x := fun x h => by simp [World.N, World.new] at h
    have hE : ∀ x, ¬ (World.new.E g) x := fun x h => by simp [World.E, edgeGraph, World.new] at h
    exact ⟨rfl, rfl, rfl, rfl, rfl, fun x h => absurd h (hN _), fun x h => absurd h (hN _), fun x h => absurd h (hN _),
      fun x h => absurd h (hN _), fun x h => absurd h (hN _), fun x h => absurd h (hN _), fun x h => absurd h (hE _),
      fun x h => absurd h (hE _), fun x h => absurd h (hE _), fun x h => absurd h (hE _), fun x h => absurd h (hE _),
      fun x h => absurd h (hE _), fun x h => absurd h (hE _)⟩
  obtain ⟨ops0, s, h1, h2, r, hb⟩ := alone_run (F := W) (g := g) (p := p) hp hinf rfl Inv.init h r0
    (by simp [State.new, World.new])
  have hinj := Nat.nth_injective hinf
  have low : ∀ x, Nat.nth p x < W.heap.idBase → x < s.idBase := by
    intro x hx
    by_contra hc
    rw [hb, Nat.not_lt, Nat.count_le_iff_le_nth hinf] at hc
    omega
  have bel : Below (W.N g) (W.E g) (Nat.nth p) s (W.view g) :=
    ⟨fun x hx => low x (i.nodeLt _ _ hx), fun x hx => low x (i.eLt hx), fun x hx => i.nodeLt _ _ hx, fun x hx => i.eLt hx⟩
  have sur : ∀ x, W.Owned g x → ∃ y, Nat.nth p y = x :=
    fun x hx => ⟨Nat.count p x, Nat.nth_count ((hp x).2 (Or.inl hx))⟩
  refine ⟨Nat.nth p, ops0, s, Nat.nth_strictMono hinf, fun x => ⟨fun hx => ?_, ?_⟩, h1, h2, r.answers (i.closed g) bel, ?_⟩
  · obtain ⟨y, rfl⟩ := sur x hx
    exact ⟨y, low y (hx.lt i), rfl⟩
  · rintro ⟨y, hy, rfl⟩
    have h3 : Nat.nth p y < W.heap.idBase := Nat.nth_lt_of_lt_count (by rw [← hb]; exact hy)
    have h4 : p (Nat.nth p y) := Nat.nth_mem_of_infinite hinf y
    rcases (hp _).1 h4 with h4 | h4
    · exact h4
    · omega
  · intro k op ht hf
    have ha := args_in ht hf
    obtain ⟨op0, rfl⟩ := Op.exists_ren ha (fun x hx => sur x (Or.inl hx)) (fun x hx => sur x (Or.inr hx))
    refine ⟨op0, rfl, ?_⟩
    have hid : Nat.nth p s.idBase = W.heap.idBase := by
      rw [hb]; exact Nat.nth_count ((hp _).2 (Or.inr (Nat.le_refl _)))
    have hnew : (W.view g).newId (op0.ren (Nat.nth p)) = (s.newId op0).map (Nat.nth p) := by
      cases op0 <;> first | rfl | exact congrArg some hid.symm
    unfold World.step
    simp only [ht, hf]
    rcases (r.step hinj (i.closed g) bel ha hnew).elim with ⟨e1, e2⟩ | ⟨a, b, e1, e2, _⟩
    · simp [e1, e2]
    · simp [e1, e2]

/-- In a program that uses live handles the calls on `g` are those written with `g`. -/
theorem C56_calls {ops : List (Nat × Op)} {W : World} (hv : WSpec.ValidHistory ops) (h : World.run ops = some W) (g : Nat) :
    callsOn g World.new ops = (ops.filter (fun c => c.1 = g)).map (fun c => c.2) := by
  have go : ∀ {ops : List (Nat × Op)} {W F : World} {ω : WSpec}, Rep W ω → ω.ValidFrom ops → World.runFrom W ops = some F →
      callsOn g W ops = (ops.filter (fun c => c.1 = g)).map (fun c => c.2) := by
    intro ops
    induction ops with
    | nil => intros; rfl
    | cons c ops ih =>
      obtain ⟨k, op⟩ := c
      intro W F ω r hv h
      rw [World.runFrom] at h
      split at h
      · cases h
      · rename_i W' b hs
        obtain ⟨hb, r', _⟩ := r.step hv.1 hs
        rw [callsOn, hs]
        simp only [(r.target hv.1).1, hb, and_true, Option.some.injEq, ih r' hv.2 h]
        by_cases hk : k = g
        · simp [hk]
        · simp [hk]
  exact go Rep.init hv h

/-- A graph that was spoiled, in a program with another graph and with calls on removed objects and on foreign nodes. -/
def aloneOps : List (Nat × Op) :=
  [(0, .newNode ["A"] []), (1, .newNode ["B"] []), (0, .newNode ["A"] [("k", .str "v")]), (1, .newNode [] []),
   (1, .newEdge 1 3 "f" []), (0, .newEdge 0 1 "x" []), (0, .newEdge 2 0 "e" []), (1, .newEdge 1 1 "f" []),
   (1, .setEdgeLabel 4 "g"), (1, .removeEdge 4), (7, .setLabels 3 ["C"]), (1, .detachRemove 3), (0, .newNode [] []),
   (1, .newNode ["B"] []), (1, .setNodeProp 3 "p" (.str "q"))]

/-- The history of graph 1 alone: nodes 0, 1, 4 and edges 2, 3. -/
def alone1 : List Op :=
  [.newNode ["B"] [], .newNode [] [], .newEdge 0 1 "f" [], .newEdge 0 0 "f" [], .setEdgeLabel 2 "g", .removeEdge 2,
   .setLabels 1 ["C"], .detachRemove 1, .newNode ["B"] [], .setNodeProp 1 "p" (.str "q")]

example : alone1.map (Op.ren (fun i => [1, 3, 4, 6, 8].getD i (i + 4))) = callsOn 1 World.new aloneOps := by rfl

example : (World.run aloneOps).map (fun W => ((W.view 1).getNodes, (W.view 1).getEdges, (W.view 1).numNodes)) =
      some (some [1], some [4, 6], 2) ∧
    (LPG.run alone1).map (fun s => (s.getNodes, s.getEdges, s.numNodes)) = some (some [0], some [2, 3], 2) ∧
    (World.run aloneOps).map (fun W => (W.view 1).getNodesWithAllLabels ["B"]) = some (some [1, 8]) ∧
    (LPG.run alone1).map (fun s => s.getNodesWithAllLabels ["B"]) = some (some [0, 4]) := by decide +kernel

end LPG
