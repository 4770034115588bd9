/-!
# How often an element occurs in a list, without decidable equality
-/
namespace LPG

open Classical in
/-- the number of times that `x` occurs in the list -/
noncomputable def times {α : Type} (x : α) : List α → Nat
  | [] => 0
  | y :: l => (if y = x then 1 else 0) + times x l

theorem times_append {α : Type} {x : α} : ∀ {l m : List α}, times x (l ++ m) = times x l + times x m
  | [], m => by simp [times]
  | y :: l, m => by rw [List.cons_append, times, times, times_append]; omega

theorem times_zero {α : Type} {x : α} : ∀ {l : List α}, x ∉ l → times x l = 0
  | [], _ => rfl
  | y :: l, h => by
    rw [times, times_zero (fun h' => h (List.mem_cons_of_mem _ h')), if_neg (fun e => h (by rw [e]; exact List.mem_cons_self))]

theorem times_pos {α : Type} {x : α} : ∀ {l : List α}, 0 < times x l ↔ x ∈ l
  | [] => by simp [times]
  | y :: l => by
    rw [times, List.mem_cons]
    by_cases h : y = x
    · rw [if_pos h]; exact ⟨fun _ => .inl h.symm, fun _ => by omega⟩
    · rw [if_neg h, Nat.zero_add, times_pos]
      exact ⟨.inr, fun h' => h'.resolve_left (fun e => h e.symm)⟩

theorem times_nodup {α : Type} {x : α} : ∀ {l : List α}, l.Nodup → x ∈ l → times x l = 1
  | [], _, h => by simp at h
  | y :: l, hn, h => by
    rw [List.nodup_cons] at hn
    rw [times]
    by_cases hy : y = x
    · subst hy; rw [if_pos rfl, times_zero hn.1]
    · rw [if_neg hy, times_nodup hn.2 ((List.mem_cons.1 h).resolve_left (fun e => hy e.symm))]

theorem times_map {α β : Type} {f : α → β} {x : α} : ∀ {l : List α}, (∀ y ∈ l, f y = f x → y = x) →
    times (f x) (l.map f) = times x l
  | [], _ => rfl
  | y :: l, h => by
    rw [List.map_cons, times, times, times_map (fun z hz => h z (List.mem_cons_of_mem _ hz))]
    by_cases hy : y = x
    · rw [if_pos hy, if_pos (by rw [hy])]
    · rw [if_neg hy, if_neg (fun e => hy (h y List.mem_cons_self e))]

theorem times_flatMap {α β : Type} {f : α → List β} {x : β} {v : α} : ∀ {l : List α}, (∀ y ∈ l, y ≠ v → x ∉ f y) →
    times x (l.flatMap f) = times v l * times x (f v)
  | [], _ => by simp [times]
  | y :: l, h => by
    rw [List.flatMap_cons, times_append, times, times_flatMap (fun z hz => h z (List.mem_cons_of_mem _ hz))]
    by_cases hy : y = v
    · rw [if_pos hy, hy, Nat.add_mul, Nat.one_mul]
    · rw [if_neg hy, times_zero (h y List.mem_cons_self hy), Nat.zero_add, Nat.zero_add]

theorem times_count {α : Type} [BEq α] [LawfulBEq α] {x : α} : ∀ {l : List α}, times x l = l.count x
  | [] => rfl
  | y :: l => by
    rw [times, times_count, List.count_cons]
    by_cases hy : y = x
    · subst hy; simp; omega
    · rw [if_neg hy, if_neg (by simpa using hy)]; omega

end LPG
