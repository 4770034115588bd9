import Verif.Proofs.Core
import Verif.Spec.LiveLabels
/-!
# Loops, for any iterator

An invariant between the calls gives what a loop visits.
-/
namespace LPG

/-- `Inv s σ it Y`: the state, the abstract graph, the iterator, and the items visited so far. -/
theorem live_loop {S ι : Type} {stp : S → Op → Option S} {adv : S → ι → Option (Option Nat × ι)}
    {Inv : S → Spec → ι → List Nat → Prop} {G : Spec → List Nat → Op → Prop} {A : Spec → Nat → Prop} {K : Nat → Prop}
    (hitem : ∀ s σ it Y x it', Inv s σ it Y → adv s it = some (some x, it') → x ∉ Y ∧ A σ x ∧ Inv s σ it' (Y ++ [x]))
    (hlast : ∀ s σ it Y it', Inv s σ it Y → adv s it = some (none, it') → (∀ x, K x → x ∈ Y) ∧ Inv s σ it' Y)
    (hop : ∀ s σ it Y op s', Inv s σ it Y → σ.Valid op → G σ Y op → stp s op = some s' → Inv s' (σ.step op) it Y)
    {evs : List Event} : ∀ {s s' : S} {σ : Spec} {it it' : ι} {Y : List Nat} {log : List Seen}, Inv s σ it Y → Y.Nodup →
      live stp adv s it evs = some (log, s', it') → σ.ValidFrom (Seen.ops log) → σ.AllowsFrom G Y log →
      (Y ++ Seen.visited log).Nodup ∧ (∀ p x r, log = p ++ .item x :: r → A (σ.runFrom (Seen.ops p)) x) ∧
      (∀ p r, log = p ++ .last :: r → ∀ x, K x → x ∈ Y ++ Seen.visited p) ∧
      Inv s' (σ.runFrom (Seen.ops log)) it' (Y ++ Seen.visited log) := by
  induction evs with
  | nil =>
    intro s s' σ it it' Y log hi hY hl _ _
    simp only [live, Option.some.injEq, Prod.mk.injEq] at hl
    obtain ⟨rfl, rfl, rfl⟩ := hl
    exact ⟨by simpa [Seen.visited] using hY, by simp, by simp, by simpa [Seen.visited, Seen.ops, Spec.runFrom] using hi⟩
  | cons ev evs ih =>
    intro s s' σ it it' Y log hi hY hl hv hg
    cases ev with
    | next =>
      simp only [live] at hl
      split at hl
      · cases hl
      · rename_i r it1 ha
        split at hl
        · cases hl
        · rename_i log1 z hl1
          simp only [Option.some.injEq, Prod.mk.injEq] at hl
          obtain ⟨rfl, rfl⟩ := hl
          cases r with
          | none =>
            obtain ⟨hK, hi1⟩ := hlast s σ it Y it1 hi ha
            obtain ⟨a1, a2, a3, a4⟩ := ih hi1 hY hl1 hv hg
            refine ⟨a1, ?_, ?_, a4⟩
            · intro p y r hp
              cases p with
              | nil => simp at hp
              | cons z p =>
                simp only [List.cons_append, List.cons.injEq] at hp
                obtain ⟨rfl, hp⟩ := hp
                exact a2 p y r hp
            · intro p r hp x hx
              exact List.mem_append_left _ (hK x hx)
          | some x =>
            obtain ⟨hxY, hal, hi1⟩ := hitem s σ it Y x it1 hi ha
            obtain ⟨a1, a2, a3, a4⟩ := ih hi1
              (by rw [List.nodup_append]; exact ⟨hY, by simp, fun a haY b hb => by simp at hb; subst hb; rintro rfl; exact hxY haY⟩)
              hl1 hv hg
            refine ⟨by simpa [Seen.visited] using a1, ?_, ?_, by simpa [Seen.visited, Seen.ops] using a4⟩
            · intro p y r hp
              cases p with
              | nil =>
                simp only [List.nil_append, List.cons.injEq, Seen.item.injEq] at hp
                obtain ⟨rfl, -⟩ := hp
                exact hal
              | cons z p =>
                simp only [List.cons_append, List.cons.injEq] at hp
                obtain ⟨rfl, hp⟩ := hp
                exact a2 p y r hp
            · intro p r hp y hy
              cases p with
              | nil => simp at hp
              | cons z p =>
                simp only [List.cons_append, List.cons.injEq] at hp
                obtain ⟨rfl, hp⟩ := hp
                simpa [Seen.visited] using a3 p r hp y hy
    | op o =>
      simp only [live] at hl
      split at hl
      · cases hl
      · rename_i s1 hs
        split at hl
        · cases hl
        · rename_i log1 z hl1
          simp only [Option.some.injEq, Prod.mk.injEq] at hl
          obtain ⟨rfl, rfl⟩ := hl
          obtain ⟨hv1, hv2⟩ := hv
          obtain ⟨hg1, hg2⟩ := hg
          obtain ⟨a1, a2, a3, a4⟩ := ih (hop s σ it Y o s1 hi hv1 hg1 hs) hY hl1 hv2 hg2
          refine ⟨a1, ?_, ?_, a4⟩
          · intro p y r hp
            cases p with
            | nil => simp at hp
            | cons z p =>
              simp only [List.cons_append, List.cons.injEq] at hp
              obtain ⟨rfl, hp⟩ := hp
              exact a2 p y r hp
          · intro p r hp y hy
            cases p with
            | nil => simp at hp
            | cons z p =>
              simp only [List.cons_append, List.cons.injEq] at hp
              obtain ⟨rfl, hp⟩ := hp
              exact a3 p r hp y hy

end LPG
