import Verif.Model.Live
import Verif.Proofs.LiveAnyLoop
/-!
# Loops that call one operation in each round, for any iterator
-/
namespace LPG

/-- `for it.Next() { f(it.Value()) }`, for these items. -/
def eachEvents (f : Nat → Op) : List Nat → List Event
  | [] => [.next]
  | x :: xs => .next :: .op (f x) :: eachEvents f xs

def eachLog (f : Nat → Op) : List Nat → List Seen
  | [] => [.last]
  | x :: xs => .item x :: .did (f x) :: eachLog f xs

/-- The first rounds of such a loop. -/
def someRounds (f : Nat → Op) : List Nat → List Event
  | [] => []
  | x :: xs => .next :: .op (f x) :: someRounds f xs

def someLog (f : Nat → Op) : List Nat → List Seen
  | [] => []
  | x :: xs => .item x :: .did (f x) :: someLog f xs

/-- If each round keeps `Inv` and the items are bounded, the loop ends. -/
theorem live_each {S ι : Type} {stp : S → Op → Option S} {adv : S → ι → Option (Option Nat × ι)} {f : Nat → Op}
    {Inv : S → Spec → ι → List Nat → Prop} {K : Nat → Prop} {B : Nat}
    (hrnd : ∀ s σ it Y, Inv s σ it Y → ∃ r it', adv s it = some (r, it') ∧
      (∀ x, r = some x → x ∉ Y ∧ x < B ∧ ∃ s', stp s (f x) = some s' ∧ Inv s' (σ.step (f x)) it' (Y ++ [x])) ∧
      (r = none → ∀ x, K x → x ∈ Y)) (m : Nat) :
    ∀ {s : S} {σ : Spec} {it : ι} {Y : List Nat}, Inv s σ it Y → Y.Nodup → (∀ y ∈ Y, y < B) → B ≤ Y.length + m →
      ∃ xs s' it' it'', live stp adv s it (eachEvents f xs) = some (eachLog f xs, s', it') ∧
        Inv s' (σ.runFrom (xs.map f)) it'' (Y ++ xs) ∧ (∀ x, K x → x ∈ Y ++ xs) ∧ (Y ++ xs).Nodup := by
  induction m with
  | zero =>
    intro s σ it Y hi hn hb hm
    obtain ⟨r, it', h1, h2, h3⟩ := hrnd s σ it Y hi
    cases r with
    | none =>
      exact ⟨[], s, it', it, by simp only [eachEvents, eachLog, live, h1], by simpa [Spec.runFrom] using hi,
        by simpa using h3 rfl, by simpa using hn⟩
    | some x =>
      exfalso
      obtain ⟨h4, h5, -⟩ := h2 x rfl
      have hn2 : (x :: Y).Nodup := List.nodup_cons.2 ⟨h4, hn⟩
      have := List.Subperm.length_le (List.subperm_of_subset hn2 (l₂ := List.range B) (by
        intro y hy
        rcases List.mem_cons.1 hy with rfl | hy
        · exact List.mem_range.2 h5
        · exact List.mem_range.2 (hb y hy)))
      simp at this
      omega
  | succ m ih =>
    intro s σ it Y hi hn hb hm
    obtain ⟨r, it', h1, h2, h3⟩ := hrnd s σ it Y hi
    cases r with
    | none =>
      exact ⟨[], s, it', it, by simp only [eachEvents, eachLog, live, h1], by simpa [Spec.runFrom] using hi,
        by simpa using h3 rfl, by simpa using hn⟩
    | some x =>
      obtain ⟨h4, h5, s1, h6, h7⟩ := h2 x rfl
      have hn2 : (Y ++ [x]).Nodup := by
        rw [List.nodup_append]; exact ⟨hn, by simp, fun a ha b hb => by simp at hb; subst hb; rintro rfl; exact h4 ha⟩
      obtain ⟨xs, s', it1, it2, a1, a2, a3, a4⟩ := ih h7 hn2 (by
        intro y hy
        rcases List.mem_append.1 hy with hy | hy
        · exact hb y hy
        · have : y = x := by simpa using hy
          omega) (by simp; omega)
      refine ⟨x :: xs, s', it1, it2, ?_, ?_, ?_, ?_⟩
      · simp only [eachEvents, eachLog, live, h1, h6, a1]
      · simpa [Spec.runFrom] using a2
      · simpa using a3
      · simpa using a4

/-- If each round yields an item and keeps `Inv`, the loop does not end. -/
theorem live_rounds {S ι : Type} {stp : S → Op → Option S} {adv : S → ι → Option (Option Nat × ι)} {f : Nat → Op}
    {Inv : S → Spec → ι → Prop}
    (hrnd : ∀ s σ it, Inv s σ it → ∃ x it' s', adv s it = some (some x, it') ∧ stp s (f x) = some s' ∧
      Inv s' (σ.step (f x)) it') (m : Nat) :
    ∀ {s : S} {σ : Spec} {it : ι}, Inv s σ it → ∃ xs s' it', xs.length = m ∧
      live stp adv s it (someRounds f xs) = some (someLog f xs, s', it') := by
  induction m with
  | zero => intro s σ it _; exact ⟨[], s, it, rfl, rfl⟩
  | succ m ih =>
    intro s σ it hi
    obtain ⟨x, it1, s1, h1, h2, h3⟩ := hrnd s σ it hi
    obtain ⟨xs, s', it', h4, h5⟩ := ih h3
    exact ⟨x :: xs, s', it', by simp [h4], by simp only [someRounds, someLog, live, h1, h2, h5]⟩

end LPG
