import Verif.Proofs.Mono
import Verif.Proofs.AllEdges
import Verif.Model.Queries
/-! Consequences of `Core` for the adjacency queries. -/
namespace LPG
open State

theorem runFrom_append {ops1 ops2 : List Op} : ∀ {s : State}, runFrom s (ops1 ++ ops2) =
    match runFrom s ops1 with
    | none => none
    | some s => runFrom s ops2 := by
  induction ops1 with
  | nil => intro s; rfl
  | cons op ops ih =>
    intro s
    simp only [List.cons_append, runFrom]
    cases step s op with
    | none => rfl
    | some s1 => exact ih

theorem Spec.validFrom_append {ops1 ops2 : List Op} : ∀ {σ : Spec},
    σ.ValidFrom (ops1 ++ ops2) ↔ σ.ValidFrom ops1 ∧ (σ.runFrom ops1).ValidFrom ops2 := by
  induction ops1 with
  | nil => intro σ; simp [Spec.ValidFrom, Spec.runFrom]
  | cons op ops ih =>
    intro σ
    simp only [List.cons_append, Spec.ValidFrom, ih, and_assoc]
    rfl

theorem Core.out_enum {s : State} {σ : Spec} (c : Core s σ) {n : Nat} (hn : n ∈ σ.nodes) :
    ∃ es, s.nodeEdges n .outgoing = some es ∧ es.Perm (σ.edges.filter (fun e => σ.src e = n)) := by
  obtain ⟨xs, h1, h2⟩ := c.out n hn
  obtain ⟨ys, h3, h4⟩ := h2.enum (c.fuel h1)
  exact ⟨ys, h3, h4.trans h1⟩

theorem Core.inc_enum {s : State} {σ : Spec} (c : Core s σ) {n : Nat} (hn : n ∈ σ.nodes) :
    ∃ es, s.nodeEdges n .incoming = some es ∧ es.Perm (σ.edges.filter (fun e => σ.dst e = n)) := by
  obtain ⟨xs, h1, h2⟩ := c.inc n hn
  obtain ⟨ys, h3, h4⟩ := h2.enum (c.fuel h1)
  exact ⟨ys, h3, h4.trans h1⟩

theorem Core.out_label {s : State} {σ : Spec} (c : Core s σ) {n : Nat} (hn : n ∈ σ.nodes) (l : String) :
    ∃ es, s.nodeEdgesWithLabel n l .outgoing = some es ∧
      es.Perm (σ.edges.filter (fun e => σ.src e = n ∧ σ.label e = l)) := by
  obtain ⟨xs, h1, h2⟩ := c.out n hn
  refine ⟨_, h2.enumLabel l (c.fuel h1), ?_⟩
  refine (h1.filter _).trans (List.Perm.of_eq ?_)
  rw [List.filter_filter]
  apply List.filter_congr
  intro x hx
  rw [(c.eattr x hx).2.2]
  by_cases a : σ.src x = n <;> by_cases b : σ.label x = l <;> simp [a, b]

theorem Core.inc_label {s : State} {σ : Spec} (c : Core s σ) {n : Nat} (hn : n ∈ σ.nodes) (l : String) :
    ∃ es, s.nodeEdgesWithLabel n l .incoming = some es ∧
      es.Perm (σ.edges.filter (fun e => σ.dst e = n ∧ σ.label e = l)) := by
  obtain ⟨xs, h1, h2⟩ := c.inc n hn
  refine ⟨_, h2.enumLabel l (c.fuel h1), ?_⟩
  refine (h1.filter _).trans (List.Perm.of_eq ?_)
  rw [List.filter_filter]
  apply List.filter_congr
  intro x hx
  rw [(c.eattr x hx).2.2]
  by_cases a : σ.dst x = n <;> by_cases b : σ.label x = l <;> simp [a, b]

theorem Core.out_any {s : State} {σ : Spec} (c : Core s σ) {n : Nat} (hn : n ∈ σ.nodes) {ls : List String}
    (hls : ls.Nodup) :
    ∃ es, s.nodeEdgesWithAnyLabel n ls .outgoing = some es ∧
      es.Perm (σ.edges.filter (fun e => σ.src e = n ∧ (ls = [] ∨ σ.label e ∈ ls))) := by
  simp only [State.nodeEdgesWithAnyLabel, State.nodeEdgesAny1]
  by_cases hl : ls.length = 0
  · have : ls = [] := List.length_eq_zero_iff.1 hl
    subst this
    obtain ⟨es, h1, h2⟩ := c.out_enum hn
    refine ⟨es, by rw [if_pos hl]; exact h1, h2.trans (List.Perm.of_eq ?_)⟩
    apply List.filter_congr; intro x _; simp
  · rw [if_neg hl]
    have hne : ls ≠ [] := fun h => hl (by simp [h])
    obtain ⟨xs, h1, h2⟩ := c.out n hn
    obtain ⟨ys, h3, h4⟩ := h2.enumAny (fuel := s.idBase) hls (c.fuel h1)
    refine ⟨ys, h3, h4.trans ((h1.filter _).trans (List.Perm.of_eq ?_))⟩
    rw [List.filter_filter]
    apply List.filter_congr
    intro x hx
    rw [(c.eattr x hx).2.2]
    by_cases a : σ.src x = n <;> by_cases b : σ.label x ∈ ls <;> simp [a, b, hne]

theorem Core.inc_any {s : State} {σ : Spec} (c : Core s σ) {n : Nat} (hn : n ∈ σ.nodes) {ls : List String}
    (hls : ls.Nodup) :
    ∃ es, s.nodeEdgesWithAnyLabel n ls .incoming = some es ∧
      es.Perm (σ.edges.filter (fun e => σ.dst e = n ∧ (ls = [] ∨ σ.label e ∈ ls))) := by
  simp only [State.nodeEdgesWithAnyLabel, State.nodeEdgesAny1]
  by_cases hl : ls.length = 0
  · have : ls = [] := List.length_eq_zero_iff.1 hl
    subst this
    obtain ⟨es, h1, h2⟩ := c.inc_enum hn
    refine ⟨es, by rw [if_pos hl]; exact h1, h2.trans (List.Perm.of_eq ?_)⟩
    apply List.filter_congr; intro x _; simp
  · rw [if_neg hl]
    have hne : ls ≠ [] := fun h => hl (by simp [h])
    obtain ⟨xs, h1, h2⟩ := c.inc n hn
    obtain ⟨ys, h3, h4⟩ := h2.enumAny (fuel := s.idBase) hls (c.fuel h1)
    refine ⟨ys, h3, h4.trans ((h1.filter _).trans (List.Perm.of_eq ?_))⟩
    rw [List.filter_filter]
    apply List.filter_congr
    intro x hx
    rw [(c.eattr x hx).2.2]
    by_cases a : σ.dst x = n <;> by_cases b : σ.label x ∈ ls <;> simp [a, b, hne]

theorem filterOpt_some {f : Nat → Option Bool} {g : Nat → Bool} : ∀ {xs : List Nat}, (∀ x ∈ xs, f x = some (g x)) →
    State.filterOpt f xs = some (xs.filter g)
  | [], _ => rfl
  | x :: xs, h => by
    rw [State.filterOpt, h x (by simp)]
    simp only [filterOpt_some (fun y hy => h y (List.mem_cons_of_mem _ hy)), List.filter_cons]

end LPG
