import Verif.Props.C01Exact
import Verif.Proofs.FiledEdges
/-!
# C04 and C07 with relabelled edges

What the graph-wide queries about edges yield when labels of edges were changed. `foundUnder` and `FiledOk`
(`Verif.Spec.Filed`) speak about the operations and the abstract graph only.
-/
namespace LPG

/-- C04 holds for the histories that never remove an edge while it is filed under a label it no longer has.
Missing: the other histories, for which the property is false (`C04_false`). -/
theorem C04_filed_partial (ops : List Op) (hv : Spec.ValidHistory ops) (hc : FiledOk ops) : C04_statement ops := by
  intro s hs
  have h := AEx.runFrom Core.init AEx.init hv hc hs
  exact ⟨h.numEdges, h.getEdges (Core.run hv hs)⟩

/-- The condition of `C04_partial` is a special case. -/
theorem FiledOk.of_keep {ops : List Op} (hv : Spec.ValidHistory ops) (hc : NoRelabeledRemoval ops) : FiledOk ops := by
  have key : ∀ (ops : List Op) (σ : Spec) (R : List Nat) (g : Nat → String), (∀ e ∈ σ.edges, e < σ.next) →
      (∀ e ∈ R, e < σ.next) → (∀ e ∈ σ.edges, e ∉ R → g e = σ.label e) →
      σ.ValidFrom ops → σ.KeepRelabeled R ops → σ.FiledOkFrom g ops := by
    intro ops
    induction ops with
    | nil => intros; trivial
    | cons op ops ih =>
      intro σ R g hlt hRlt hg hv h
      refine ⟨Or.inr ?_, ih _ _ _ ?_ ?_ ?_ hv.2 h.2⟩
      · intro e he hn
        exact hg e he (fun hR => hn (h.1 e hR he))
      · intro e he
        cases op with
        | newEdge a b l ps =>
          simp [Spec.step] at he ⊢
          rcases he with he | he
          · have := hlt e he; omega
          · omega
        | newNode ls ps => have := hlt e he; show e < σ.next + 1; omega
        | detach n => exact hlt e (List.mem_filter.1 he).1
        | detachRemove n => exact hlt e (List.mem_filter.1 he).1
        | removeEdge x => exact hlt e (List.mem_filter.1 he).1
        | _ => exact hlt e he
      · intro e he
        refine Nat.lt_of_lt_of_le ?_ Spec.next_mono
        cases op with
        | setEdgeLabel e' l =>
          simp only [Spec.Relabeled] at he
          split at he
          · exact hRlt e he
          · rcases List.mem_cons.1 he with rfl | he
            · exact hlt _ hv.1
            · exact hRlt e he
        | _ => exact hRlt e he
      · intro e he hR
        cases op with
        | newEdge a b l ps =>
          simp only [Spec.filed]
          split
          · rfl
          · simp only [Spec.step]
            by_cases hen : e = σ.next
            · simp [hen]
            · rw [upd_other _ _ hen, upd_other _ _ hen]
              simp [Spec.step, hen] at he
              exact hg e he hR
        | setEdgeLabel e' l =>
          simp only [Spec.Relabeled] at hR
          simp only [Spec.filed, Spec.step]
          split at hR
          · rename_i hl
            by_cases hee : e = e'
            · subst hee; simp [hl, hg e he hR]
            · rw [upd_other _ _ hee]; exact hg e he hR
          · simp at hR
            rw [upd_other _ _ hR.1]; exact hg e he hR.2
        | detach n => exact hg e (List.mem_filter.1 he).1 hR
        | detachRemove n => exact hg e (List.mem_filter.1 he).1 hR
        | removeEdge x => exact hg e (List.mem_filter.1 he).1 hR
        | _ => exact hg e he hR
  exact key ops _ [] _ (by simp [Spec.new]) (by simp) (by simp [Spec.new]) hv hc

/-- an edge relabelled twice and then removed, and one that keeps a new label -/
def refiledOps : List Op :=
  [.newNode [] [], .newEdge 0 0 "A" [], .newEdge 0 0 "B" [], .newEdge 0 0 "B" [], .setEdgeLabel 1 "C",
   .setEdgeLabel 1 "A", .removeEdge 1, .setEdgeLabel 3 "D"]

example : Spec.ValidHistory refiledOps ∧ FiledOk refiledOps ∧ ¬ NoRelabeledRemoval refiledOps ∧
    (run refiledOps).bind State.getEdges = some [2, 3] ∧ (run refiledOps).map State.numEdges = some 2 := by
  decide +kernel

/-- What the query by labels yields, with or without relabelling: the edges that are filed under one of the
labels. -/
theorem C07_filed (ops : List Op) (hv : Spec.ValidHistory ops) (hc : FiledOk ops) (s : State) (hs : run ops = some s)
    (ls : List String) (hls : ls.Nodup) :
    ∃ es, s.getEdgesWithAnyLabel ls = some es ∧ es.Perm ((Spec.run ops).edges.filter (fun e => foundUnder ops e ∈ ls)) :=
  (AEx.runFrom Core.init AEx.init hv hc hs).getEdgesWithAnyLabel (Core.run hv hs) hls

example : (run refiledOps).bind (fun s => s.getEdgesWithAnyLabel ["D"]) = some [] ∧ foundUnder refiledOps 3 = "B" ∧
    (run refiledOps).bind (fun s => s.getEdgesWithAnyLabel ["B"]) = some [2, 3] := by decide +kernel

/-- C07 holds after such a history exactly if every edge is filed under the label it has. -/
theorem C07_iff (ops : List Op) (hv : Spec.ValidHistory ops) (hc : FiledOk ops) (s : State) (hs : run ops = some s) :
    C07_statement ops ↔ ∀ e ∈ (Spec.run ops).edges, foundUnder ops e = (Spec.run ops).label e := by
  constructor
  · intro h e he
    obtain ⟨es, h1, h2⟩ := h s hs [(Spec.run ops).label e] (by simp)
    obtain ⟨es', h3, h4⟩ := C07_filed ops hv hc s hs [(Spec.run ops).label e] (by simp)
    rw [h1] at h3; cases h3
    have := (h4.symm.trans h2).mem_iff (a := e)
    simp [he] at this
    exact this
  · intro h s' hs' ls hls
    rw [hs] at hs'; cases hs'
    obtain ⟨es, h1, h2⟩ := C07_filed ops hv hc s hs ls hls
    refine ⟨es, h1, h2.trans (List.Perm.of_eq ?_)⟩
    apply List.filter_congr
    intro e he; simp [h e he]

theorem Spec.filedFrom_append {p q : List Op} : ∀ {σ : Spec} {g : Nat → String},
    σ.filedFrom g (p ++ q) = (σ.runFrom p).filedFrom (σ.filedFrom g p) q := by
  induction p with
  | nil => intros; rfl
  | cons op p ih => intro σ g; exact ih

/-- Whenever the label of an edge that is not the only one is changed, the edge stays filed where it was: it is
found under the label it was found under before, and not under the new one. -/
theorem C07_stale (ops : List Op) (e : Nat) (l : String) (hv : Spec.ValidHistory (ops ++ [.setEdgeLabel e l]))
    (hc : FiledOk (ops ++ [.setEdgeLabel e l])) (h2 : 2 ≤ (Spec.run ops).edges.length)
    (hl : foundUnder ops e ≠ l) (s : State) (hs : run (ops ++ [.setEdgeLabel e l]) = some s) :
    (∃ es, s.getEdgesWithAnyLabel [l] = some es ∧ e ∉ es) ∧
    (∃ es, s.getEdgesWithAnyLabel [foundUnder ops e] = some es ∧ e ∈ es) := by
  have he : e ∈ (Spec.run (ops ++ [.setEdgeLabel e l])).edges := by
    rw [Spec.run_append]; exact (Spec.validFrom_append.1 hv).2.1
  have hf : foundUnder (ops ++ [.setEdgeLabel e l]) e = foundUnder ops e := by
    unfold foundUnder
    have h3 : ¬ (Spec.run ops).edges.length ≤ 1 := by omega
    have h4 : ¬ (Spec.run (ops ++ [.setEdgeLabel e l])).edges.length ≤ 1 := by
      rw [Spec.run_append]; exact h3
    rw [if_neg h3, if_neg h4, Spec.filedFrom_append]; rfl
  constructor
  · obtain ⟨es, h5, h6⟩ := C07_filed _ hv hc s hs [l] (by simp)
    refine ⟨es, h5, fun hh => ?_⟩
    have := h6.mem_iff.1 hh
    simp [hf] at this
    exact hl this.2
  · obtain ⟨es, h5, h6⟩ := C07_filed _ hv hc s hs [foundUnder ops e] (by simp)
    exact ⟨es, h5, h6.mem_iff.2 (by simp [hf, he])⟩

example : Spec.ValidHistory (refiledOps ++ [.setEdgeLabel 2 "Q"]) ∧ FiledOk (refiledOps ++ [.setEdgeLabel 2 "Q"]) ∧
    (Spec.run refiledOps).edges = [2, 3] ∧ foundUnder refiledOps 2 = "B" := by decide +kernel

end LPG
