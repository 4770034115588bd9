import Verif.Model.Filter
import Verif.Proofs.Base

namespace LPG

theorem propLoop_true (req props : AMap String Value) :
    propLoop req props = some true ↔
      ∀ k v, (k, v) ∈ req → ∃ pv, props.get k = some pv ∧ cmp v pv = some 0 := by
  induction req with
  | nil => simp [propLoop]
  | cons p req ih =>
    obtain ⟨k, v⟩ := p
    rw [propLoop]
    cases hg : AMap.get props k with
    | none =>
      constructor
      · intro h
        exfalso
        cases v <;> simp [Value.isNil, cmp] at h
      · intro h
        obtain ⟨pv, h1, _⟩ := h k v (by simp)
        rw [hg] at h1; cases h1
    | some pv =>
      cases hc : cmp v pv with
      | none =>
        simp only [hc, reduceCtorEq, false_iff]
        intro h
        obtain ⟨pv', h1, h2⟩ := h k v (by simp)
        rw [hg] at h1; cases h1; rw [hc] at h2; cases h2
      | some c =>
        by_cases h0 : c = 0
        · subst h0
          simp only [hc, ne_eq, not_true_eq_false, if_false, ih]
          constructor
          · intro h k' v' hm
            rcases List.mem_cons.1 hm with e | hm
            · cases e; exact ⟨pv, hg, hc⟩
            · exact h k' v' hm
          · intro h k' v' hm
            exact h k' v' (List.mem_cons_of_mem _ hm)
        · simp only [hc, ne_eq, h0, not_false_eq_true, if_true, Option.some.injEq, Bool.false_eq_true, false_iff]
          intro h
          obtain ⟨pv', h1, h2⟩ := h k v (by simp)
          rw [hg] at h1; cases h1; rw [hc] at h2; cases h2; exact h0 rfl

theorem nodeFilter_iff (S : List String) (req : AMap String Value) (L : List String) (P : AMap String Value) :
    nodeFilter S req L P = true ↔
      (∀ l ∈ S, l ∈ L) ∧ ∀ k v, (k, v) ∈ req → ∃ pv, P.get k = some pv ∧ cmp v pv = some 0 := by
  rw [← propLoop_true]
  unfold nodeFilter
  have hA : hasAllSet L S = true ↔ ∀ l ∈ S, l ∈ L := by simp [hasAllSet]
  by_cases h : hasAllSet L S = true
  · simp only [h, Bool.not_true, Bool.and_false, Bool.false_eq_true, if_false, hA.1 h]
    cases propLoop req P <;> simp; exact fun _ a ha => hA.1 h a ha
  · have h' : ¬ ∀ l ∈ S, l ∈ L := fun e => h (hA.2 e)
    have hS : S.length > 0 := by
      cases S with
      | nil => simp at h'
      | cons => simp
    simp only [Bool.not_eq_true] at h
    simp [hS, h]
    intro h2; exact absurd h2 h'

theorem edgeFilter_iff (S : List String) (req : AMap String Value) (l : String) (P : AMap String Value) :
    edgeFilter S req l P = true ↔
      (S = [] ∨ l ∈ S) ∧ ∀ k v, (k, v) ∈ req → ∃ pv, P.get k = some pv ∧ cmp v pv = some 0 := by
  rw [← propLoop_true]
  unfold edgeFilter
  have hA : strHas S l = true ↔ l ∈ S := by simp [strHas]
  cases S with
  | nil => simp; cases propLoop req P <;> simp
  | cons a S =>
    by_cases h : strHas (a :: S) l = true
    · simp only [h, Bool.not_true, Bool.and_false, Bool.false_eq_true, if_false, hA.1 h]
      cases propLoop req P <;> simp
    · have h' : ¬ l ∈ a :: S := fun e => h (hA.2 e)
      simp only [Bool.not_eq_true] at h
      rw [h]; simp only [List.length_cons, gt_iff_lt, Nat.zero_lt_succ, decide_true, Bool.not_false, Bool.and_self, if_true]
      simp; intro h2; simp at h'; grind

end LPG
