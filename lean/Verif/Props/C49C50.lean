import Verif.Proofs.Total
import Verif.Props.C12C16
/-!
# C49 valid histories do not panic; C50 order of btree lookups
-/
namespace LPG
open State

/-! ## C49 -/

/-- C49 for one history. -/
def C49_statement (ops : List Op) : Prop := ∃ s, run ops = some s

/-- A history of valid calls never panics if it does not remove relabeled edges and gives indexed properties only
values that suit the index. Missing: histories that remove a relabeled edge, for which the property is false
(`C49_false`); unsuitable values, for which it is not claimed. -/
theorem C49_partial (ops : List Op) (hv : Spec.ValidHistory ops) (hr : FiledOk ops)
    (hi : IndexableValues ops) : C49_statement ops := by
  obtain ⟨s, hs, _⟩ := runFrom_total (Pn := NodeValue ops) (Pe := EdgeValue ops) Core.init AEx.init Mono.init (SafeIx.init _ _)
    hv hr (fun op ho _ _ h => ⟨op, ho, h⟩) (fun op ho _ _ h => ⟨op, ho, h⟩) hi.1 hi.2
  exact ⟨s, hs⟩

/-- In particular: without property indexes, all values are fine. -/
theorem C49_noindex_partial (ops : List Op) (hv : Spec.ValidHistory ops) (hr : FiledOk ops)
    (hi : ∀ k t, Op.addNodeIndex k t ∉ ops ∧ Op.addEdgeIndex k t ∉ ops) : C49_statement ops :=
  C49_partial ops hv hr ⟨fun k t h => absurd h (hi k t).1, fun k t h => absurd h (hi k t).2⟩

example : IndexableValues edgeIndexOps ∧ Spec.ValidHistory edgeIndexOps ∧ FiledOk edgeIndexOps := by
  refine ⟨⟨?_, ?_⟩, by decide +kernel, by decide +kernel⟩
  · intro k t h; simp [edgeIndexOps] at h
  · intro k t h
    simp [edgeIndexOps] at h
    rcases h with ⟨rfl, rfl⟩ | ⟨rfl, rfl⟩
    · have hval : ∀ v, EdgeValue edgeIndexOps "w" v → ∃ i, v = .int i := by
        rintro v ⟨op, ho, hv⟩
        simp [edgeIndexOps] at ho
        rcases ho with rfl | rfl | rfl | rfl | rfl | rfl | rfl | rfl | rfl | rfl | rfl | rfl | rfl | rfl <;>
          simp [Op.edgeVals] at hv <;> exact ⟨_, hv⟩
      intro v w hv hw
      obtain ⟨i, rfl⟩ := hval v hv
      obtain ⟨j, rfl⟩ := hval w hw
      rw [cmp_int_int]; simp
    · rintro v ⟨op, ho, hv⟩
      simp [edgeIndexOps] at ho
      rcases ho with rfl | rfl | rfl | rfl | rfl | rfl | rfl | rfl | rfl | rfl | rfl | rfl | rfl | rfl <;>
        simp [Op.edgeVals] at hv <;> subst hv <;> simp [hkey, unwrap1]

/-- C49 fails: after relabeling and removing edges, creating an edge between live nodes panics. -/
theorem C49_false : ∃ ops, Spec.ValidHistory ops ∧ IndexableValues ops ∧ ¬ C49_statement ops := by
  refine ⟨_, C04_false_panic.1, ⟨?_, ?_⟩, ?_⟩
  · intro k t h; simp at h
  · intro k t h; simp at h
  · rintro ⟨s, hs⟩
    rw [C04_false_panic.2.2] at hs; cases hs

/-! ## C50 -/

/-- A lookup through a btree index lists the nodes in increasing order of the property, for histories that do not
remove relabeled edges, create indexes while `GetNodes` is right, and index comparable values. Missing: the other
histories (the lookup itself is wrong there, `C12_false`). -/
theorem C50_partial (ops : List Op) (hv : Spec.ValidHistory ops) (hr : FiledOk ops) (hx : IndexableValues ops)
    (hi : NodeIndexSafe ops) (k : String) (hk : Op.addNodeIndex k .btree ∈ ops) (hk' : Op.addNodeIndex k .hash ∉ ops)
    (s : State) (hs : run ops = some s) (ns : List Nat) (h : s.getNodesWithProperty k = some ns) :
    ns.Pairwise (fun a b => ∃ v w r, (Spec.run ops).nprop a k = some v ∧ (Spec.run ops).nprop b k = some w ∧
      cmp v w = some r ∧ r ≤ 0) := by
  have c := Core.run hv hs
  obtain ⟨s', hs', sx⟩ := runFrom_total (Pn := NodeValue ops) (Pe := EdgeValue ops) Core.init AEx.init
    Mono.init (SafeIx.init _ _) hv hr (fun op ho _ _ h => ⟨op, ho, h⟩) (fun op ho _ _ h => ⟨op, ho, h⟩) hx.1 hx.2
  have : s' = s := by
    have h2 : run ops = some s' := hs'
    rw [hs] at h2; exact (Option.some.inj h2).symm
  subst this
  have hrep := nodeIx_run hv hi hs
  cases hg : AMap.get s'.nodeIx k with
  | none => exact absurd hg (nodeIx_indexed hs (Or.inr ⟨_, hk⟩))
  | some ix =>
    have hkind : s'.nodeIx.kind k = some ix.kind := by simp [Indexes.kind, hg]
    cases ix with
    | hash t =>
      exfalso
      rcases nodeIx_kind_run hs hkind with h' | h'
      · simp [Indexes.kind, State.new, AMap.get] at h'
      · exact hk' h'
    | btree t =>
      have hns : ns = SetTree.valueItr t := by
        simp only [State.getNodesWithProperty, hg, Index.valueItr, Option.some.injEq] at h
        exact h.symm
      subst hns
      have hsound : ∀ id v, s'.nval (Spec.run ops) k id = some v →
          id ∈ (Spec.run ops).nodes ∧ AMap.get (s'.nProps id) k = some v := by
        intro id v hv
        simp only [State.nval] at hv
        split at hv
        · exact ⟨by assumption, hv⟩
        · cases hv
      refine (BRep.ordered (hrep k _ hg) (sx.nix k _ hg) ?_).imp ?_
      · intro id v hv
        exact sx.nvals id k v (AMap.mem_of_get (hsound id v hv).2)
      · rintro a b ⟨v, w, r, h1, h2, h3, h4⟩
        have m1 := hsound a v h1
        have m2 := hsound b w h2
        exact ⟨v, w, r, by rw [← (c.nprops a m1.1).2 k]; exact m1.2, by rw [← (c.nprops b m2.1).2 k]; exact m2.2, h3, h4⟩

/-- btree index with values out of order and wrapped values -/
def orderOps : List Op :=
  [.newNode [] [("p", .int 5)], .addNodeIndex "p" .btree, .newNode [] [("p", .int 7)], .newNode [] [("p", .native (.int 6))],
   .newNode [] [("p", .int 1)], .newNode [] [("p", .int 6)], .setNodeProp 0 "p" (.int 9), .removeNodeProp 1 "p"]

example : Spec.ValidHistory orderOps ∧ FiledOk orderOps ∧ NodeIndexSafe orderOps ∧
    (run orderOps).bind (fun s => s.getNodesWithProperty "p") = some [3, 2, 4, 0] := by decide +kernel

example : IndexableValues orderOps := by
  refine ⟨?_, by intro k t h; simp [orderOps] at h⟩
  intro k t h
  simp [orderOps] at h
  obtain ⟨rfl, rfl⟩ := h
  have hval : ∀ v, NodeValue orderOps "p" v → ∃ i, v = .int i ∨ v = .native (.int i) := by
    rintro v ⟨op, ho, hv⟩
    simp [orderOps] at ho
    rcases ho with rfl | rfl | rfl | rfl | rfl | rfl | rfl | rfl <;> simp [Op.nodeVals] at hv
    all_goals first | exact ⟨_, Or.inl hv⟩ | exact ⟨_, Or.inr hv⟩
  intro v w hv hw
  obtain ⟨i, rfl | rfl⟩ := hval v hv <;> obtain ⟨j, rfl | rfl⟩ := hval w hw <;> simp [cmp_int_int]

end LPG
