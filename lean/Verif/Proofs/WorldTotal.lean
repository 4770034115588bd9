import Verif.Proofs.Total
import Verif.Proofs.WorldListing
import Verif.Spec.Clone
/-! That programs over several graphs return. -/
namespace LPG
namespace World

/-- All values stored are allowed, and the indexes of graph `t` accept them. -/
theorem SafeIx.world {t : Nat} {Pn Pe : String → Value → Prop} : ∀ {ops : List (Nat × Op)} {W W' : World} {ω : WSpec},
    Rep W ω → Ordered W ω → ω.ValidFrom ops → SafeIx Pn Pe (W.view t) →
    (∀ p ∈ ops, ∀ k v, (k, v) ∈ p.2.nodeVals → Pn k v) → (∀ p ∈ ops, ∀ k v, (k, v) ∈ p.2.edgeVals → Pe k v) →
    (∀ k ty, (t, Op.addNodeIndex k ty) ∈ ops → Indexable (Pn k) ty) →
    (∀ k ty, (t, Op.addEdgeIndex k ty) ∈ ops → Indexable (Pe k) ty) → World.runFrom W ops = some W' → SafeIx Pn Pe (W'.view t)
  | [], W, W', ω, _, _, _, hx, _, _, _, _, h => by cases h; exact hx
  | (g, op) :: ops, W, W', ω, r, o, hv, hx, h1, h2, h3, h4, h => by
    rw [World.runFrom] at h
    split at h
    · cases h
    · rename_i W1 b hs
      obtain ⟨_, r1, hs', ag⟩ := r.step hv.1 hs
      refine SafeIx.world (ops := ops) r1 (o.step r hv.1 hs) hv.2 ?_ (fun p hp => h1 p (by simp [hp])) (fun p hp => h2 p (by simp [hp]))
        (fun k ty hp => h3 k ty (by simp [hp])) (fun k ty hp => h4 k ty (by simp [hp])) h
      have vals := step_vals (Pn := Pn) (Pe := Pe) hs' hx.nvals hx.evals (h1 (g, op) (by simp)) (h2 (g, op) (by simp))
      by_cases hg : g = t
      · subst hg
        obtain ⟨s', hs2, hx2⟩ := step_total (r.core g) (fun hn hg => by rw [step_needs (o.edges g) hn hg] at hs'; cases hs')
          (fun _ _ _ => (o.nodes g).lists) hx hv.1 (h1 (g, op) (by simp)) (h2 (g, op) (by simp))
          (fun k ty e => h3 k ty (by simp [e])) (fun k ty e => h4 k ty (by simp [e]))
        rw [hs'] at hs2
        cases hs2
        exact hx2
      · have a := ag t (Ne.symm hg)
        exact ⟨vals.1, vals.2, by rw [a.nodeIx]; exact hx.nix, by rw [a.edgeIx]; exact hx.eix⟩

/-- A valid call returns if the call on the graph alone does. -/
theorem step_of_view {W : World} {ω : WSpec} (r : Rep W ω) {g : Nat} {op : Op} (hv : (ω g).Valid op)
    (h : LPG.step (W.view g) op ≠ none) : ∃ W', W.step g op = some (W', false) := by
  obtain ⟨ht, hf⟩ := r.target hv
  obtain ⟨s, hs⟩ := Option.ne_none_iff_exists'.1 h
  refine ⟨(W.alloc g op).store g s, ?_⟩
  rw [step, ht]
  simp only [hf, Bool.false_eq_true, if_false, hs]

/-- The invariant of `world_total`. -/
structure AllLists (W : World) (ω : WSpec) (ops : List (Nat × Op)) : Prop where
  rep : Rep W ω
  ordered : Ordered W ω
  lists : ∀ g, ∃ d R, Lists W ω d R g ∧ ω.CleanFrom g d R ops

theorem world_total {Pn Pe : String → Value → Prop} : ∀ {ops : List (Nat × Op)} {W : World} {ω : WSpec}, AllLists W ω ops →
    ω.ValidFrom ops → (∀ g, SafeIx Pn Pe (W.view g)) → (∀ p ∈ ops, ∀ k v, (k, v) ∈ p.2.nodeVals → Pn k v) →
    (∀ p ∈ ops, ∀ k v, (k, v) ∈ p.2.edgeVals → Pe k v) →
    (∀ g k ty, (g, Op.addNodeIndex k ty) ∈ ops → Indexable (Pn k) ty) →
    (∀ g k ty, (g, Op.addEdgeIndex k ty) ∈ ops → Indexable (Pe k) ty) → World.runFrom W ops ≠ none
  | [], W, ω, _, _, _, _, _, _, _ => by simp [World.runFrom]
  | (g, op) :: ops, W, ω, a, hv, hx, h1, h2, h3, h4 => by
    obtain ⟨d, R, l, hc⟩ := a.lists g
    obtain ⟨s', hs2, hx2⟩ := step_total (a.rep.core g)
      (fun _ => by obtain ⟨es, hes, _⟩ := l.edges.getEdges (a.rep.core g); rw [hes]; simp)
      (fun _ _ _ => by rw [l.nodes.getNodes (a.rep.core g)]; simp) (hx g) hv.1 (h1 (g, op) (by simp)) (h2 (g, op) (by simp))
      (fun k ty e => h3 g k ty (by simp [e])) (fun k ty e => h4 g k ty (by simp [e]))
    obtain ⟨W1, hs⟩ := step_of_view a.rep hv.1 (by rw [hs2]; simp)
    rw [World.runFrom, hs]
    refine world_total (ops := ops) (ω := ω.step g op) ⟨(a.rep.step hv.1 hs).2.1, a.ordered.step a.rep hv.1 hs, fun h => ?_⟩ hv.2 (fun h => ?_)
      (fun p hp => h1 p (by simp [hp])) (fun p hp => h2 p (by simp [hp]))
      (fun h k ty hp => h3 h k ty (by simp [hp])) (fun h k ty hp => h4 h k ty (by simp [hp]))
    · obtain ⟨d, R, l, hc⟩ := a.lists h
      obtain ⟨d1, R1, l1, hm⟩ := Rep.lists (ops := [(g, op)]) a.rep l ⟨hv.1, trivial⟩ ⟨hc.1, trivial⟩ (W' := W1)
        (by rw [World.runFrom, hs]; rfl)
      exact ⟨d1, R1, l1, (hm ops).1 hc⟩
    · exact SafeIx.world (ops := [(g, op)]) a.rep a.ordered ⟨hv.1, trivial⟩ (hx h) (fun p hp => h1 p (by simp_all))
        (fun p hp => h2 p (by simp_all)) (fun k ty hp => h3 h k ty (by simp_all)) (fun k ty hp => h4 h k ty (by simp_all))
        (by rw [World.runFrom, hs]; rfl)

end World
end LPG
