import Verif.Proofs.LabelIndex
import Verif.Props.C01C04
/-!
# C10, C11: label lookup of nodes
-/
namespace LPG
open State

/-- `GetNodesWithAllLabels(S)` for a non-empty `S` lists exactly the live nodes carrying all labels of `S`, each
once, in every history. (`ls` is the set in the arbitrary order in which Go ranges over it.) -/
theorem C10 (ops : List Op) (hv : Spec.ValidHistory ops) (s : State) (hs : run ops = some s)
    (ls : List String) (hls : ls ≠ []) :
    ∃ ns, s.getNodesWithAllLabels ls = some ns ∧
      ns.Perm ((Spec.run ops).nodes.filter (fun n => ∀ l ∈ ls, l ∈ (Spec.run ops).labels n)) := by
  have c := Core.run hv hs
  have r := LblRep.run hv hs
  obtain ⟨xs, k, h1, h2, _, h4, h5, h6⟩ := NodeMap.allLabels_nonempty s.byLabel r.ok s.nLabels ls hls
  refine ⟨xs, by simp [State.getNodesWithAllLabels, h1], ?_⟩
  rw [List.perm_ext_iff_of_nodup h2 (c.nNodup.filter _)]
  intro n
  rw [List.mem_filter, decide_eq_true_iff]
  constructor
  · intro hn
    obtain ⟨l, hl, hm⟩ := h5 n hn
    have halive := r.alive n l hm (h4 n hn l hl)
    exact ⟨halive, fun l' hl' => ((c.labels n halive).2 l').1 (h4 n hn l' hl')⟩
  · rintro ⟨hn, hl⟩
    apply h6
    intro l hl'
    have := ((c.labels n hn).2 l).2 (hl l hl')
    exact ⟨this, r.filed n hn l this⟩

/-- labels cleared and set again, a removed node with stale entries, a second node -/
def labelOps : List Op :=
  [.newNode ["A", "B"] [], .newNode ["A", "B"] [], .newNode ["B", "A", "B"] [],
   .setLabels 0 [], .setLabels 0 ["B"], .setLabels 1 [], .setLabels 1 ["A", "B"], .setLabels 2 [],
   .detachRemove 2, .newNode ["B"] []]

example : Spec.ValidHistory labelOps ∧
    (run labelOps).bind (fun s => s.getNodesWithAllLabels ["B"]) = some [0, 1, 3] ∧
    (run labelOps).bind (fun s => s.getNodesWithAllLabels ["B", "A"]) = some [1] ∧
    (run labelOps).bind (fun s => s.getNodesWithAllLabels ["C"]) = some [] := by decide +kernel

/-! ## C11 -/

/-- The full statement of C11. -/
def C11_statement : Prop := ∀ (ops : List Op), Spec.ValidHistory ops → ∀ s, run ops = some s →
  ∃ ns, s.getNodesWithAllLabels [] = some ns ∧ ns.Perm (Spec.run ops).nodes

/-- The lookup panics on the empty set in every state. -/
theorem C11_panics (s : State) : s.getNodesWithAllLabels [] = none := rfl

/-- C11 is false, already for a new graph. -/
theorem C11_false : ¬ C11_statement := by
  intro h
  obtain ⟨ns, h1, _⟩ := h [] (by decide) State.new rfl
  rw [C11_panics] at h1
  cases h1

/-- What holds instead: the lookup answers, and never panics, exactly if the set is not empty. Missing for C11: the
empty set. -/
theorem C11_partial (ops : List Op) (hv : Spec.ValidHistory ops) (s : State) (hs : run ops = some s)
    (ls : List String) : s.getNodesWithAllLabels ls ≠ none ↔ ls ≠ [] := by
  constructor
  · rintro h rfl; exact h (C11_panics s)
  · intro h
    obtain ⟨ns, h1, _⟩ := C10 ops hv s hs ls h
    rw [h1]; simp

example : (run labelOps).isSome = true ∧ (["A"] : List String) ≠ [] := by decide +kernel

end LPG
