import Verif.Model.Base

namespace LPG

@[simp] theorem upd_same {α : Type u} {β : Type v} [DecidableEq α] (f : α → β) (a : α) (b : β) :
    upd f a b a = b := by simp [upd]

theorem upd_other {α : Type u} {β : Type v} [DecidableEq α] (f : α → β) {a x : α} (b : β) (h : x ≠ a) :
    upd f a b x = f x := by simp [upd, h]

theorem upd_apply {α : Type u} {β : Type v} [DecidableEq α] (f : α → β) (a x : α) (b : β) :
    upd f a b x = if x = a then b else f x := rfl

namespace AMap
variable {α : Type u} {β : Type v} [DecidableEq α]

@[simp] theorem get_nil (a : α) : get ([] : AMap α β) a = none := rfl

theorem get_set (m : AMap α β) (a : α) (b : β) (x : α) :
    get (set m a b) x = if x = a then some b else get m x := by
  induction m with
  | nil =>
    by_cases h : x = a
    · simp [set, get, h]
    · simp [set, get, h, Ne.symm h]
  | cons p m ih =>
    obtain ⟨k, v⟩ := p
    by_cases hk : k = a
    · subst hk
      by_cases hx : x = k
      · simp [set, get, hx]
      · simp [set, get, hx, Ne.symm hx]
    · by_cases hx : k = x
      · subst hx; simp [set, get, hk]
      · simp only [set, hk, if_false, get, hx]; exact ih

@[simp] theorem get_set_same (m : AMap α β) (a : α) (b : β) : get (set m a b) a = some b := by
  simp [get_set]

theorem get_set_other (m : AMap α β) {a x : α} (b : β) (h : x ≠ a) : get (set m a b) x = get m x := by
  simp [get_set, h]

theorem get_del (m : AMap α β) (a x : α) : get (del m a) x = if x = a then none else get m x := by
  induction m with
  | nil => simp [del, get]
  | cons p m ih =>
    obtain ⟨k, v⟩ := p
    by_cases hk : k = a
    · subst hk
      by_cases hx : k = x
      · subst hx; simp [del, get, ih]
      · simp [del, get, hx, ih]
    · by_cases hx : k = x
      · subst hx; simp [del, get, hk]
      · simp only [del, hk, if_false, get, hx]; exact ih

theorem mem_of_get {m : AMap α β} {a : α} {b : β} (h : get m a = some b) : (a, b) ∈ m := by
  induction m with
  | nil => simp at h
  | cons p m ih =>
    obtain ⟨k, v⟩ := p
    by_cases hk : k = a
    · simp [get, hk] at h; simp [hk, h]
    · simp [get, hk] at h; exact List.mem_cons_of_mem _ (ih h)

theorem mem_keys {m : AMap α β} {a : α} : a ∈ keys m ↔ ∃ b, get m a = some b := by
  induction m with
  | nil => simp [keys]
  | cons p m ih =>
    obtain ⟨k, v⟩ := p
    by_cases hk : k = a
    · simp [keys, get, hk]
    · have : a ∈ keys ((k, v) :: m) ↔ a ∈ keys m := by simp [keys, Ne.symm hk]
      rw [this, ih]; simp [get, hk]

theorem not_mem_keys {m : AMap α β} {a : α} : a ∉ keys m ↔ get m a = none := by
  rw [mem_keys]; cases get m a <;> simp

theorem get_of_mem {m : AMap α β} (hn : (keys m).Nodup) {a : α} {b : β} (h : (a, b) ∈ m) :
    get m a = some b := by
  induction m with
  | nil => simp at h
  | cons p m ih =>
    obtain ⟨k, v⟩ := p
    simp only [keys, List.map_cons, List.nodup_cons] at hn
    rcases List.mem_cons.1 h with h | h
    · cases h; simp [get]
    · have : k ≠ a := by
        rintro rfl
        exact hn.1 (List.mem_map.2 ⟨_, h, rfl⟩)
      simp [get, this, ih hn.2 h]

theorem keys_set (m : AMap α β) (a : α) (b : β) :
    keys (set m a b) = if a ∈ keys m then keys m else keys m ++ [a] := by
  induction m with
  | nil => simp [set, keys]
  | cons p m ih =>
    obtain ⟨k, v⟩ := p
    by_cases hk : k = a
    · simp [set, keys, hk]
    · simp only [set, hk, if_false]
      simp only [keys, List.map_cons, List.mem_cons, Ne.symm hk, false_or] at ih ⊢
      rw [ih]; by_cases hm : a ∈ List.map Prod.fst m <;> simp [hm]

theorem nodup_set {m : AMap α β} (h : (keys m).Nodup) (a : α) (b : β) : (keys (set m a b)).Nodup := by
  rw [keys_set]; split
  · exact h
  · rename_i hn
    rw [List.nodup_append]
    refine ⟨h, by simp, ?_⟩
    intro x hx y hy
    simp at hy; subst hy
    intro e; subst e; exact hn hx

theorem keys_del_sublist (m : AMap α β) (a : α) : (del m a).Sublist m := by
  induction m with
  | nil => simp [del]
  | cons p m ih =>
    obtain ⟨k, v⟩ := p
    by_cases hk : k = a
    · simp only [del, hk, if_true]; exact ih.cons _
    · simp only [del, hk, if_false]; exact ih.cons_cons _

theorem nodup_del {m : AMap α β} (h : (keys m).Nodup) (a : α) : (keys (del m a)).Nodup :=
  ((keys_del_sublist m a).map _).nodup h

theorem set_of_not_mem {m : AMap α β} {a : α} (h : get m a = none) (b : β) : set m a b = m ++ [(a, b)] := by
  induction m with
  | nil => simp [set]
  | cons p m ih =>
    obtain ⟨k, v⟩ := p
    by_cases hk : k = a
    · simp [get, hk] at h
    · simp [get, hk] at h; simp [set, hk, ih h]

theorem del_of_not_mem {m : AMap α β} {a : α} (h : get m a = none) : del m a = m := by
  induction m with
  | nil => simp [del]
  | cons p m ih =>
    obtain ⟨k, v⟩ := p
    by_cases hk : k = a
    · simp [get, hk] at h
    · simp [get, hk] at h; simp [del, hk, ih h]

end AMap

end LPG
