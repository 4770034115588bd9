import Verif.Props.C49C50
import Verif.Props.C50All
/-!
# C49: exactly which histories panic
-/
namespace LPG
open State

/-- The operation looks at the edges of the whole graph: it creates an edge, or the first edge index on a property. -/
def UsesAllEdges (ops : List Op) : Op → Prop
  | .newEdge _ _ _ _ => True
  | .addEdgeIndex k _ => edgeIndexType ops k = none
  | _ => False

instance (ops : List Op) (op : Op) : Decidable (UsesAllEdges ops op) := by
  cases op <;> unfold UsesAllEdges <;> infer_instance

theorem needsEdges_iff {ops : List Op} {s : State} (hs : run ops = some s) (op : Op) :
    s.NeedsEdges op ↔ UsesAllEdges ops op := by
  cases op with
  | addEdgeIndex k t =>
    have := edgeIx_type_run hs k
    show AMap.get s.edgeIx k = none ↔ edgeIndexType ops k = none
    rw [← this, Indexes.kind, Option.map_eq_none_iff]
  | newEdge a b l ps => exact Iff.rfl
  | _ => exact Iff.rfl

theorem safeIx_run {ops : List Op} (hv : Spec.ValidHistory ops) {all : List Op} (hsub : ∀ op ∈ ops, op ∈ all)
    (hi : IndexableValues all) {s : State} (hs : run ops = some s) : SafeIx (NodeValue all) (EdgeValue all) s :=
  SafeIx.runFrom Core.init EMono.init Mono.init (SafeIx.init _ _) hv hs (fun op ho _ _ h => ⟨op, hsub op ho, h⟩)
    (fun op ho _ _ h => ⟨op, hsub op ho, h⟩) (fun k t h => hi.1 k t (hsub _ h)) (fun k t h => hi.2 k t (hsub _ h))

/-- After every history, if the values of indexed properties suit the index: a valid operation panics exactly if it uses the
edges of the whole graph and `GetEdges` cannot be run, because it would yield a nil edge. Then `NumEdges` is 1. -/
theorem C49_operation {ops : List Op} {op : Op} (hv : Spec.ValidHistory (ops ++ [op]))
    (hi : IndexableValues (ops ++ [op])) {s : State} (hs : run ops = some s) :
    (step s op = none ↔ UsesAllEdges ops op ∧ s.getEdges = none) ∧ (s.getEdges = none → s.numEdges = 1) := by
  have hv' := Spec.validFrom_append.1 (show Spec.ValidFrom Spec.new (ops ++ [op]) from hv)
  have c := Core.run hv'.1 hs
  have hm : s.AllMono := EMono.runFrom EMono.init hs
  refine ⟨⟨fun h => ?_, fun ⟨h1, h2⟩ => step_needs hm ((needsEdges_iff hs op).2 h1) h2⟩, fun h => ?_⟩
  · refine Classical.byContradiction (fun hne => ?_)
    obtain ⟨s', h1, _⟩ := step_total c (fun hn hg => hne ⟨(needsEdges_iff hs op).1 hn, hg⟩)
      (fun _ _ _ => (Mono.init.runFrom Core.init hv'.1 hs).lists) (safeIx_run hv'.1 (fun o ho => by simp [ho]) hi hs) hv'.2.1
      (fun k v h => ⟨op, by simp, h⟩) (fun k v h => ⟨op, by simp, h⟩) (fun k t h => hi.1 k t (by simp [h]))
      (fun k t h => hi.2 k t (by simp [h]))
    rw [h] at h1
    cases h1
  · refine Classical.byContradiction (fun hne => ?_)
    obtain ⟨es, hes, _⟩ := EMono.enum hm hne
    rw [State.getEdges, hes] at h
    cases h

/-- C49, exactly: a history of valid calls, whose values suit the indexes, does not panic if and only if `GetEdges` can be
run whenever an operation uses the edges of the whole graph. -/
theorem C49_exact (ops : List Op) (hv : Spec.ValidHistory ops) (hi : IndexableValues ops) :
    C49_statement ops ↔ ∀ pre op post, ops = pre ++ op :: post → UsesAllEdges pre op →
      ∀ s, run pre = some s → s.getEdges ≠ none := by
  have sub : ∀ {pre post : List Op}, ops = pre ++ post → IndexableValues pre := by
    rintro pre post rfl
    have hn : ∀ k v, NodeValue pre k v → NodeValue (pre ++ post) k v := fun k v ⟨o, ho, h⟩ => ⟨o, by simp [ho], h⟩
    have he : ∀ k v, EdgeValue pre k v → EdgeValue (pre ++ post) k v := fun k v ⟨o, ho, h⟩ => ⟨o, by simp [ho], h⟩
    refine ⟨fun k t h => ?_, fun k t h => ?_⟩
    · have := hi.1 k t (by simp [h])
      cases t
      · exact fun v w h1 h2 => this v w (hn k v h1) (hn k w h2)
      · exact fun v h1 => this v (hn k v h1)
    · have := hi.2 k t (by simp [h])
      cases t
      · exact fun v w h1 h2 => this v w (he k v h1) (he k w h2)
      · exact fun v h1 => this v (he k v h1)
  have val : ∀ {pre post : List Op}, ops = pre ++ post → Spec.ValidHistory pre := by
    rintro pre post rfl
    exact (Spec.validFrom_append.1 hv).1
  constructor
  · rintro ⟨s, hs⟩ pre op post rfl hu s1 hs1 hg
    have e : pre ++ op :: post = (pre ++ [op]) ++ post := by simp
    obtain ⟨s2, h2, _⟩ := run_split (p := pre ++ [op]) (q := post) (by rw [← e]; exact hs)
    obtain ⟨s3, h3, h4⟩ := run_split h2
    rw [hs1] at h3
    cases h3
    have := (C49_operation (val e) (sub e) hs1).1.2 ⟨hu, hg⟩
    rw [LPG.runFrom, this] at h4
    cases h4
  · intro h
    have key : ∀ n ≤ ops.length, ∃ s, run (ops.take n) = some s := by
      intro n
      induction n with
      | zero => intro _; exact ⟨State.new, rfl⟩
      | succ n ih =>
        intro hn
        obtain ⟨s, hs⟩ := ih (by omega)
        have e : ops = ops.take n ++ ops[n] :: ops.drop (n + 1) := by
          rw [List.getElem_cons_drop, List.take_append_drop]
        have e' : ops = (ops.take n ++ [ops[n]]) ++ ops.drop (n + 1) := by
          rw [List.append_assoc, List.singleton_append, List.getElem_cons_drop, List.take_append_drop]
        have hstep : step s ops[n] ≠ none := fun hc => by
          obtain ⟨h1, h2⟩ := (C49_operation (val e') (sub e') hs).1.1 hc
          exact h _ _ _ e h1 s hs h2
        obtain ⟨s', hs'⟩ := Option.ne_none_iff_exists'.1 hstep
        refine ⟨s', ?_⟩
        rw [List.take_succ_eq_append_getElem (by omega)]
        unfold run at hs ⊢
        rw [runFrom_append, hs]
        simp only [LPG.runFrom, hs']
    obtain ⟨s, hs⟩ := key ops.length (Nat.le_refl _)
    exact ⟨s, by rwa [List.take_length] at hs⟩

/-- the history of `C04_false_panic`: the last operation uses the edges of the graph, and they cannot be run through -/
def spoiledOps : List Op :=
  [.newNode [] [], .newEdge 0 0 "A" [], .newEdge 0 0 "B" [], .newEdge 0 0 "B" [],
   .setEdgeLabel 1 "B", .removeEdge 1, .setEdgeLabel 2 "A", .removeEdge 2]

theorem spoiled_indexable (op : Op) (h : ∀ k t, op ≠ .addNodeIndex k t ∧ op ≠ .addEdgeIndex k t) :
    IndexableValues (spoiledOps ++ [op]) := by
  refine ⟨fun k t hm => ?_, fun k t hm => ?_⟩
  · simp [spoiledOps] at hm
    exact absurd hm.symm (h k t).1
  · simp [spoiledOps] at hm
    exact absurd hm.symm (h k t).2

example : (∃ s, run spoiledOps = some s ∧ s.getEdges = none ∧ step s (.newEdge 0 0 "C" []) = none ∧
    (step s (.newNode [] [])).isSome ∧ (step s (.removeEdge 3)).isSome) ∧
    Spec.ValidHistory (spoiledOps ++ [.newEdge 0 0 "C" []]) ∧ IndexableValues (spoiledOps ++ [.newEdge 0 0 "C" []]) ∧
    UsesAllEdges spoiledOps (.newEdge 0 0 "C" []) := by
  refine ⟨?_, by decide +kernel, spoiled_indexable _ (by simp), trivial⟩
  have h : ((run spoiledOps).any (fun s => s.getEdges.isNone && (step s (.newEdge 0 0 "C" [])).isNone &&
    (step s (.newNode [] [])).isSome && (step s (.removeEdge 3)).isSome)) = true := by decide +kernel
  cases hr : run spoiledOps with
  | none => rw [hr] at h; cases h
  | some s =>
    rw [hr] at h
    simp only [Option.any_some, Bool.and_eq_true, Option.isNone_iff_eq_none] at h
    exact ⟨s, rfl, h.1.1.1, h.1.1.2, h.1.2, h.2⟩

end LPG
