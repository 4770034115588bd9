import Verif.Props.C51
import Verif.Props.C49Exact
/-!
# C51: exactly which programs over several graphs return
-/
namespace LPG
open World

/-- The call looks at all edges of the graph: it creates an edge, or the first edge index on a property of this graph. -/
def UsesAllEdgesOf (g : Nat) (ops : List (Nat × Op)) : Op → Prop
  | .newEdge _ _ _ _ => True
  | .addEdgeIndex k _ => ∀ t, (g, Op.addEdgeIndex k t) ∉ ops
  | _ => False

/-- The values that the program gives to properties with an index suit the index. -/
def WSpec.IndexableValues (ops : List (Nat × Op)) : Prop :=
  (∀ g k ty, (g, Op.addNodeIndex k ty) ∈ ops → Indexable (WSpec.NodeValue ops k) ty) ∧
  (∀ g k ty, (g, Op.addEdgeIndex k ty) ∈ ops → Indexable (WSpec.EdgeValue ops k) ty)

theorem WSpec.validFrom_append {ops1 ops2 : List (Nat × Op)} : ∀ {ω : WSpec},
    ω.ValidFrom (ops1 ++ ops2) ↔ ω.ValidFrom ops1 ∧ (ω.runFrom ops1).ValidFrom ops2 := by
  induction ops1 with
  | nil => intro ω; simp [WSpec.ValidFrom, WSpec.runFrom]
  | cons p ops ih => intro ω; simp only [List.cons_append, WSpec.ValidFrom, WSpec.runFrom, ih, and_assoc]

theorem World.runFrom_append {ops1 ops2 : List (Nat × Op)} : ∀ {W : World},
    World.runFrom W (ops1 ++ ops2) = (World.runFrom W ops1).bind (fun W => World.runFrom W ops2) := by
  induction ops1 with
  | nil => intro W; rfl
  | cons p ops ih =>
    intro W
    simp only [List.cons_append, World.runFrom]
    split
    · rfl
    · exact ih

/-- A graph has an index on the edge properties for which the program asked. -/
theorem world_edgeIx {g : Nat} {k : String} : ∀ {ops : List (Nat × Op)} {W W' : World} {ω : WSpec}, Rep W ω → ω.ValidFrom ops →
    World.runFrom W ops = some W' →
    (AMap.get (W'.view g).edgeIx k = none ↔ AMap.get (W.view g).edgeIx k = none ∧ ∀ t, (g, Op.addEdgeIndex k t) ∉ ops)
  | [], W, W', ω, _, _, h => by cases h; simp
  | (h', op) :: ops, W, W', ω, r, hv, h => by
    rw [World.runFrom] at h
    split at h
    · cases h
    · rename_i W1 b hs
      obtain ⟨_, r1, hs', ag⟩ := r.step hv.1 hs
      rw [world_edgeIx r1 hv.2 h]
      by_cases hg : h' = g
      · subst hg
        have h1 := edgeIx_type_step hs' k
        have h2 : AMap.get (W1.view h').edgeIx k = none ↔ AMap.get (W.view h').edgeIx k = none ∧ edgeIndexType [op] k = none := by
          have := congrArg (· = none) h1
          simpa [Indexes.kind, Option.map_eq_none_iff] using this
        rw [h2]
        have h3 : edgeIndexType [op] k = none ↔ ∀ t, op ≠ .addEdgeIndex k t := by
          cases op with
          | addEdgeIndex k' t =>
            simp only [edgeIndexType]
            by_cases hk : k' = k <;> simp [hk]
          | _ => simp [edgeIndexType]
        rw [h3]
        simp only [List.mem_cons, not_or, Prod.mk.injEq, true_and, and_assoc]
        grind
      · rw [(ag g (Ne.symm hg)).edgeIx]
        have : ∀ t, (g, Op.addEdgeIndex k t) ∈ (h', op) :: ops ↔ (g, Op.addEdgeIndex k t) ∈ ops := by
          intro t
          simp only [List.mem_cons, Prod.mk.injEq, Ne.symm hg, false_and, false_or]
        simp only [this]

/-- After every program, if the values of indexed properties suit the index: a valid call panics exactly if it uses all edges of
its graph and `GetEdges` of this graph cannot be run. What happened to the other graphs makes no difference. -/
theorem C51_operation {ops : List (Nat × Op)} {g : Nat} {op : Op} (hv : WSpec.ValidHistory (ops ++ [(g, op)]))
    (hi : WSpec.IndexableValues (ops ++ [(g, op)])) {W : World} (hr : World.run ops = some W) :
    (W.step g op = none ↔ UsesAllEdgesOf g ops op ∧ (W.view g).getEdges = none) ∧
    ((W.view g).getEdges = none → (W.view g).numEdges = 1) := by
  have hv' := WSpec.validFrom_append.1 (show WSpec.ValidFrom _ (ops ++ [(g, op)]) from hv)
  have r : Rep W (WSpec.run ops) := Rep.init.runFrom hv'.1 hr
  have o : Ordered W (WSpec.run ops) := Ordered.init.runFrom Rep.init hv'.1 hr
  have hu : (W.view g).NeedsEdges op ↔ UsesAllEdgesOf g ops op := by
    cases op with
    | addEdgeIndex k t =>
      have := world_edgeIx (g := g) (k := k) Rep.init hv'.1 hr
      show AMap.get (W.view g).edgeIx k = none ↔ _
      rw [this]
      exact ⟨fun h => h.2, fun h => ⟨rfl, h⟩⟩
    | _ => exact Iff.rfl
  have hx : SafeIx (WSpec.NodeValue (ops ++ [(g, op)])) (WSpec.EdgeValue (ops ++ [(g, op)])) (W.view g) :=
    SafeIx.world Rep.init Ordered.init hv'.1 (SafeIx.init _ _) (fun p hp k v h => ⟨p, by simp [hp], h⟩)
      (fun p hp k v h => ⟨p, by simp [hp], h⟩) (fun k ty h => hi.1 g k ty (by simp [h])) (fun k ty h => hi.2 g k ty (by simp [h])) hr
  have hval : (WSpec.run ops g).Valid op := hv'.2.1
  refine ⟨⟨fun h => ?_, fun ⟨h1, h2⟩ => ?_⟩, fun h => ?_⟩
  · refine Classical.byContradiction (fun hne => ?_)
    obtain ⟨s', h1, _⟩ := step_total (r.core g) (fun hn hg => hne ⟨hu.1 hn, hg⟩) (fun _ _ _ => (o.nodes g).lists) hx hval
      (fun k v h => ⟨(g, op), by simp, h⟩) (fun k v h => ⟨(g, op), by simp, h⟩) (fun k t h => hi.1 g k t (by simp [h]))
      (fun k t h => hi.2 g k t (by simp [h]))
    obtain ⟨W', hW⟩ := step_of_view r hval (by rw [h1]; simp)
    rw [h] at hW; cases hW
  · obtain ⟨ht, hf⟩ := r.target hval
    rw [World.step, ht]
    simp only [hf, Bool.false_eq_true, if_false, step_needs (o.edges g) (hu.2 h1) h2]
  · refine Classical.byContradiction (fun hne => ?_)
    obtain ⟨es, hes, _⟩ := EMono.enum (o.edges g) hne
    rw [State.getEdges, hes] at h
    cases h

/-- A program of valid calls, whose values suit the indexes, returns from all calls if and only if `GetEdges` of a graph can be
run whenever a call uses all edges of this graph. -/
theorem C51_returns (ops : List (Nat × Op)) (hv : WSpec.ValidHistory ops) (hi : WSpec.IndexableValues ops) :
    World.run ops ≠ none ↔ ∀ pre g op post, ops = pre ++ (g, op) :: post → UsesAllEdgesOf g pre op →
      ∀ W, World.run pre = some W → (W.view g).getEdges ≠ none := by
  have sub : ∀ {pre post : List (Nat × Op)}, ops = pre ++ post → WSpec.IndexableValues pre := by
    rintro pre post rfl
    have hn : ∀ k v, WSpec.NodeValue pre k v → WSpec.NodeValue (pre ++ post) k v := fun k v ⟨o, ho, h⟩ => ⟨o, by simp [ho], h⟩
    have he : ∀ k v, WSpec.EdgeValue pre k v → WSpec.EdgeValue (pre ++ post) k v := fun k v ⟨o, ho, h⟩ => ⟨o, by simp [ho], h⟩
    refine ⟨fun g k t h => ?_, fun g k t h => ?_⟩
    · have := hi.1 g k t (by simp [h])
      cases t
      · exact fun v w h1 h2 => this v w (hn k v h1) (hn k w h2)
      · exact fun v h1 => this v (hn k v h1)
    · have := hi.2 g k t (by simp [h])
      cases t
      · exact fun v w h1 h2 => this v w (he k v h1) (he k w h2)
      · exact fun v h1 => this v (he k v h1)
  have val : ∀ {pre post : List (Nat × Op)}, ops = pre ++ post → WSpec.ValidHistory pre := by
    rintro pre post rfl
    exact (WSpec.validFrom_append.1 hv).1
  constructor
  · rintro h pre g op post rfl hu W1 hs1 hg
    have e : pre ++ (g, op) :: post = (pre ++ [(g, op)]) ++ post := by simp
    have := (C51_operation (val e) (sub e) hs1).1.2 ⟨hu, hg⟩
    apply h
    unfold World.run at hs1 ⊢
    rw [World.runFrom_append, hs1]
    simp only [Option.bind_some, World.runFrom, this]
  · intro h
    have key : ∀ n ≤ ops.length, ∃ W, World.run (ops.take n) = some W := by
      intro n
      induction n with
      | zero => intro _; exact ⟨World.new, rfl⟩
      | succ n ih =>
        intro hn
        obtain ⟨W, hW⟩ := ih (by omega)
        have e : ops = ops.take n ++ ops[n] :: ops.drop (n + 1) := by
          rw [List.getElem_cons_drop, List.take_append_drop]
        have e' : ops = (ops.take n ++ [ops[n]]) ++ ops.drop (n + 1) := by
          rw [List.append_assoc, List.singleton_append, List.getElem_cons_drop, List.take_append_drop]
        have hstep : W.step ops[n].1 ops[n].2 ≠ none := fun hc => by
          obtain ⟨h1, h2⟩ := (C51_operation (val e') (sub e') hW).1.1 hc
          exact h _ _ _ _ e h1 W hW h2
        obtain ⟨W', hW'⟩ := Option.ne_none_iff_exists'.1 hstep
        refine ⟨W'.1, ?_⟩
        rw [List.take_succ_eq_append_getElem (by omega)]
        unfold World.run at hW ⊢
        rw [World.runFrom_append, hW]
        simp only [Option.bind_some, World.runFrom, hW']
    obtain ⟨W, hW⟩ := key ops.length (Nat.le_refl _)
    rw [List.take_length] at hW
    rw [hW]; simp

/-- Graph 1 gets into the state in which its edges cannot be listed; graph 0 has a node. -/
def spoiledBeside : List (Nat × Op) := spoiledOps.map (fun op => (1, op)) ++ [(0, .newNode [] [])]

theorem spoiledBeside_indexable (p : Nat × Op) (h : p.2.nodeVals = [] ∧ p.2.edgeVals = [] ∧ (∀ k t, p.2 ≠ .addNodeIndex k t) ∧
    ∀ k t, p.2 ≠ .addEdgeIndex k t) : WSpec.IndexableValues (spoiledBeside ++ [p]) := by
  refine ⟨fun g k t hm => ?_, fun g k t hm => ?_⟩
  · simp [spoiledBeside, spoiledOps] at hm
    exact absurd (congrArg Prod.snd hm).symm (h.2.2.1 k t)
  · simp [spoiledBeside, spoiledOps] at hm
    exact absurd (congrArg Prod.snd hm).symm (h.2.2.2 k t)

example : (∃ W, World.run spoiledBeside = some W ∧ (W.view 1).getEdges = none ∧ W.step 1 (.newEdge 0 0 "C" []) = none ∧
    (W.step 1 (.newNode [] [])).isSome ∧ (W.step 0 (.newEdge 4 4 "C" [])).isSome) ∧
    WSpec.ValidHistory (spoiledBeside ++ [(1, .newEdge 0 0 "C" [])]) ∧
    WSpec.IndexableValues (spoiledBeside ++ [(1, .newEdge 0 0 "C" [])]) ∧
    WSpec.ValidHistory (spoiledBeside ++ [(0, .newEdge 4 4 "C" [])]) ∧
    UsesAllEdgesOf 1 spoiledBeside (.newEdge 0 0 "C" []) := by
  refine ⟨?_, by decide +kernel, spoiledBeside_indexable _ (by simp [Op.nodeVals, Op.edgeVals]),
    by decide +kernel, trivial⟩
  have h : ((World.run spoiledBeside).any (fun W => (W.view 1).getEdges.isNone && (W.step 1 (.newEdge 0 0 "C" [])).isNone &&
    (W.step 1 (.newNode [] [])).isSome && (W.step 0 (.newEdge 4 4 "C" [])).isSome)) = true := by decide +kernel
  cases hr : World.run spoiledBeside with
  | none => rw [hr] at h; cases h
  | some W =>
    rw [hr] at h
    simp only [Option.any_some, Bool.and_eq_true, Option.isNone_iff_eq_none] at h
    exact ⟨W, rfl, h.1.1.1, h.1.1.2, h.1.2, h.2⟩

end LPG
