import Verif.Proofs.LiveAny
import Verif.Proofs.LivePropsTotal
/-!
# Loops over the nodes or edges with a property, without an index

Such a loop is a loop over all nodes or edges that skips some of them.
-/
namespace LPG
open State

/-- The second log is the first one without the items that do not have the property `P` when they are yielded. What `P` says
about items that do not exist (`A`) does not matter. -/
inductive Thin (A P : Spec → Nat → Prop) : Spec → List Seen → List Seen → Prop
  | nil (σ : Spec) : Thin A P σ [] []
  | skip {σ : Spec} {x : Nat} {l l' : List Seen} : (A σ x → ¬ P σ x) → Thin A P σ l l' →
      Thin A P σ (.item x :: l) l'
  | item {σ : Spec} {x : Nat} {l l' : List Seen} : (A σ x → P σ x) → Thin A P σ l l' →
      Thin A P σ (.item x :: l) (.item x :: l')
  | last {σ : Spec} {l l' : List Seen} : Thin A P σ l l' → Thin A P σ (.last :: l) (.last :: l')
  | did {σ : Spec} {op : Op} {l l' : List Seen} : Thin A P (σ.step op) l l' → Thin A P σ (.did op :: l) (.did op :: l')

variable {A P : Spec → Nat → Prop} {k : String} {σ : Spec} {l l' : List Seen}

theorem Thin.ops (h : Thin A P σ l l') : Seen.ops l = Seen.ops l' := by
  induction h with
  | nil => rfl
  | skip _ _ ih => exact ih
  | item _ _ ih => exact ih
  | last _ ih => exact ih
  | did _ ih => simp [Seen.ops, ih]

theorem Thin.visited (h : Thin A P σ l l') : (Seen.visited l').Sublist (Seen.visited l) := by
  induction h with
  | nil => exact .slnil
  | skip _ _ ih => exact ih.cons _
  | item _ _ ih => exact ih.cons_cons _
  | last _ ih => exact ih
  | did _ ih => exact ih

theorem Thin.removes (h : Thin A P σ l l') : ∀ {Y Y' : List Nat}, (∀ y ∈ Y', y ∈ Y) → RemovesVisited Y' l' →
    RemovesVisited Y l := by
  induction h with
  | nil => intro _ _ _ _; trivial
  | skip _ _ ih => intro Y Y' hY hr; exact ih (fun y hy => List.mem_append_left _ (hY y hy)) hr
  | item _ _ ih =>
    intro Y Y' hY hr
    refine ih (fun y hy => ?_) hr
    rcases List.mem_append.1 hy with hy | hy
    · exact List.mem_append_left _ (hY y hy)
    · exact List.mem_append_right _ hy
  | last _ ih => intro Y Y' hY hr; exact ih hY hr
  | did _ ih =>
    rename_i op _ _ _
    intro Y Y' hY hr
    cases op
    case detachRemove => exact ⟨hY _ hr.1, ih hY hr.2⟩
    all_goals exact ih hY hr

theorem Thin.split_item (h : Thin A P σ l l') : ∀ {p r : List Seen} {x : Nat}, l' = p ++ .item x :: r →
    ∃ p2 r2, l = p2 ++ .item x :: r2 ∧ Seen.ops p2 = Seen.ops p ∧
      (A (σ.runFrom (Seen.ops p)) x → P (σ.runFrom (Seen.ops p)) x) := by
  induction h with
  | nil => intro p r x e; simp at e
  | skip _ _ ih =>
    intro p r x e
    obtain ⟨p2, r2, rfl, h1, h2⟩ := ih e
    exact ⟨.item _ :: p2, r2, rfl, h1, h2⟩
  | item hx _ ih =>
    intro p r x e
    cases p with
    | nil => cases e; exact ⟨[], _, rfl, rfl, hx⟩
    | cons y p =>
      cases e
      obtain ⟨p2, r2, rfl, h1, h2⟩ := ih rfl
      exact ⟨.item _ :: p2, r2, rfl, h1, h2⟩
  | last _ ih =>
    intro p r x e
    cases p with
    | nil => cases e
    | cons y p =>
      cases e
      obtain ⟨p2, r2, rfl, h1, h2⟩ := ih rfl
      exact ⟨.last :: p2, r2, rfl, h1, h2⟩
  | did _ ih =>
    intro p r x e
    cases p with
    | nil => cases e
    | cons y p =>
      cases e
      obtain ⟨p2, r2, rfl, h1, h2⟩ := ih rfl
      exact ⟨.did _ :: p2, r2, rfl, by simp [Seen.ops, h1], h2⟩

theorem Thin.split_last (h : Thin A P σ l l') : ∀ {p r : List Seen}, l' = p ++ .last :: r →
    ∃ p2 r2, l = p2 ++ .last :: r2 ∧ Thin A P σ p2 p := by
  induction h with
  | nil => intro p r e; simp at e
  | skip hx _ ih =>
    intro p r e
    obtain ⟨p2, r2, rfl, h1⟩ := ih e
    exact ⟨.item _ :: p2, r2, rfl, .skip hx h1⟩
  | item hx _ ih =>
    intro p r e
    cases p with
    | nil => cases e
    | cons y p =>
      cases e
      obtain ⟨p2, r2, rfl, h1⟩ := ih rfl
      exact ⟨.item _ :: p2, r2, rfl, .item hx h1⟩
  | last _ ih =>
    intro p r e
    cases p with
    | nil => cases e; exact ⟨[], _, rfl, .nil _⟩
    | cons y p =>
      cases e
      obtain ⟨p2, r2, rfl, h1⟩ := ih rfl
      exact ⟨.last :: p2, r2, rfl, .last h1⟩
  | did _ ih =>
    intro p r e
    cases p with
    | nil => cases e
    | cons y p =>
      cases e
      obtain ⟨p2, r2, rfl, h1⟩ := ih rfl
      exact ⟨.did _ :: p2, r2, rfl, .did h1⟩

/-- An item that the full loop yields and the other one does not. -/
theorem Thin.find (h : Thin A P σ l l') : ∀ {n : Nat}, n ∈ Seen.visited l → n ∈ Seen.visited l' ∨
    ∃ q t, l' = q ++ t ∧ (A (σ.runFrom (Seen.ops q)) n → ¬ P (σ.runFrom (Seen.ops q)) n) := by
  induction h with
  | nil => intro n hn; simp [Seen.visited] at hn
  | skip hx _ ih =>
    intro n hn
    rcases List.mem_cons.1 hn with rfl | hn
    · exact .inr ⟨[], _, rfl, hx⟩
    · exact ih hn
  | item hx _ ih =>
    intro n hn
    rcases List.mem_cons.1 hn with rfl | hn
    · exact .inl (by simp [Seen.visited])
    · rcases ih hn with h1 | ⟨q, t, rfl, h1⟩
      · exact .inl (List.mem_cons_of_mem _ h1)
      · exact .inr ⟨.item _ :: q, t, rfl, h1⟩
  | last _ ih =>
    intro n hn
    rcases ih hn with h1 | ⟨q, t, rfl, h1⟩
    · exact .inl h1
    · exact .inr ⟨.last :: q, t, rfl, h1⟩
  | did _ ih =>
    intro n hn
    rcases ih hn with h1 | ⟨q, t, rfl, h1⟩
    · exact .inl h1
    · exact .inr ⟨.did _ :: q, t, rfl, h1⟩

theorem scan_sim {s : State} {f : Nat} (c : Core s σ) : ∀ {it it' : NodeIt} {r : Option Nat} {evs : List Event}
    {log l : List Seen} {z : State × NodeIt}, scanNodes k s f it = some (r, it') →
    live LPG.step NodeIt.adv s it' evs = some (log, z) → Thin (fun σ x => x ∈ σ.nodes) (fun σ x => σ.nprop x k ≠ none) σ log l →
    ∃ evs' log', live LPG.step NodeIt.adv s it evs' = some (log', z) ∧
      Thin (fun σ x => x ∈ σ.nodes) (fun σ x => σ.nprop x k ≠ none) σ log' ((match r with | some x => Seen.item x | none => Seen.last) :: l) := by
  induction f with
  | zero => intro it it' r evs log l z hs; cases hs
  | succ f ih =>
    intro it it' r evs log l z hs hl ht
    rw [scanNodes] at hs
    split at hs
    · cases hs
    · rename_i it1 ha
      cases hs
      exact ⟨.next :: evs, .last :: log, by simp only [live, ha, hl], .last ht⟩
    · rename_i x it1 ha
      split at hs
      · rename_i hp
        cases hs
        refine ⟨.next :: evs, .item x :: log, by simp only [live, ha, hl], .item ?_ ht⟩
        intro hx
        rw [State.nodeProperty, (c.nprops x hx).2 k] at hp
        intro h0
        rw [h0] at hp
        cases hp
      · rename_i hp
        obtain ⟨evs', log', h1, h2⟩ := ih hs hl ht
        refine ⟨.next :: evs', .item x :: log', by simp only [live, ha, h1], .skip ?_ h2⟩
        intro hx
        rw [State.nodeProperty, (c.nprops x hx).2 k] at hp
        intro h0
        cases h1 : σ.nprop x k with
        | none => exact h0 h1
        | some v => rw [h1] at hp; simp at hp

/-- A loop over the nodes with the property is a loop over all nodes that skips some. -/
theorem scan_live {evs : List Event} : ∀ {s : State} {σ : Spec} {it : NodeIt} {log : List Seen} {z : State × NodeIt}, Core s σ →
    live LPG.step (fun s it => scanNodes k s (s.idBase + 1) it) s it evs = some (log, z) → σ.ValidFrom (Seen.ops log) →
    ∃ evs' log', live LPG.step NodeIt.adv s it evs' = some (log', z) ∧ Thin (fun σ x => x ∈ σ.nodes) (fun σ x => σ.nprop x k ≠ none) σ log' log := by
  induction evs with
  | nil => intro s σ it log z c hl _; cases hl; exact ⟨[], [], rfl, .nil _⟩
  | cons ev evs ih =>
    intro s σ it log z c hl hv
    cases ev with
    | next =>
      simp only [live] at hl
      split at hl
      · cases hl
      · rename_i r it1 ha
        split at hl
        · cases hl
        · rename_i log1 z1 hl1
          cases hl
          have hv1 : σ.ValidFrom (Seen.ops log1) := by cases r <;> exact hv
          obtain ⟨evs', log', h1, h2⟩ := ih c hl1 hv1
          exact scan_sim c ha h1 h2
    | op o =>
      simp only [live] at hl
      split at hl
      · cases hl
      · rename_i s1 hs1
        split at hl
        · cases hl
        · rename_i log1 z1 hl1
          cases hl
          obtain ⟨evs', log', h1, h2⟩ := ih (c.step hv.1 hs1) hl1 hv.2
          exact ⟨.op o :: evs', .did o :: log', by simp only [live, hs1, h1], .did h2⟩

/-! ## `Next` returns -/

theorem scan_total {s : State} (hm : Mono s.nptr s.allNodes s.idBase) (f : Nat) : ∀ {it : NodeIt},
    (∀ x, it.next = some x → x < s.idBase ∧ s.idBase ≤ x + f) →
    ∃ r it', scanNodes k s (f + 1) it = some (r, it') := by
  induction f with
  | zero =>
    intro it h
    rw [scanNodes, NodeIt.adv]
    cases hn : it.next with
    | none => exact ⟨_, _, rfl⟩
    | some x => have := h x hn; omega
  | succ f ih =>
    intro it h
    rw [scanNodes, NodeIt.adv]
    cases hn : it.next with
    | none => exact ⟨_, _, rfl⟩
    | some x =>
      dsimp only
      split
      · exact ⟨_, _, rfl⟩
      · refine ih ?_
        intro y hy
        have h1 := hm.next x y hy
        have h2 := h x hn
        omega

end LPG
