import Verif.Spec.StringTable
import Verif.Proofs.Base
/-!
# C22: the string table
-/
namespace LPG

/-- The free list: a chain of slots starting at `f`, linked through the `c` fields. -/
def FreeChain (strs : List (String × Int)) : Int → List Nat → Prop
  | f, [] => f = -1
  | f, i :: is => f = (i : Int) ∧ ∃ s c, strs[i]? = some (s, c) ∧ FreeChain strs c is

theorem FreeChain.congr {strs strs' : List (String × Int)} : ∀ {f : Int} {fs : List Nat}, FreeChain strs f fs →
    (∀ i ∈ fs, strs'[i]? = strs[i]?) → FreeChain strs' f fs
  | _, [], h, _ => h
  | f, i :: is, ⟨h1, s, c, h2, h3⟩, hs =>
    ⟨h1, s, c, by rw [hs i (by simp)]; exact h2, h3.congr (fun j hj => hs j (by simp [hj]))⟩

structure TabRep (t : StrTable) (σ : TabSpec) : Prop where
  free : ∃ fs : List Nat, FreeChain t.strs t.firstFree fs ∧ fs.Nodup ∧ (∀ i, i ∈ fs ↔ i < t.strs.length ∧ σ i = none)
  held : ∀ i s c, σ i = some (s, c) → 0 < c ∧ t.strs[i]? = some (s, (c : Int))
  map : ∀ s i, t.strmap.get s = some i ↔ ∃ c, σ i = some (s, c)

theorem TabRep.init : TabRep StrTable.init (fun _ => none) :=
  ⟨⟨[], rfl, by simp, by simp [StrTable.init]⟩, by simp, by simp [StrTable.init]⟩

open Classical in
theorem TabRep.allocate {t : StrTable} {σ : TabSpec} (h : TabRep t σ) (s : String) :
    ∃ t' ret, t.allocate s = some (t', ret) ∧ TabSpec.Legal σ ret (.alloc s) ∧ TabRep t' (σ.step ret (.alloc s)) ∧
      (t'.strs.length = if (∃ i c, σ i = some (s, c)) ∨ ∃ i < t.strs.length, σ i = none then t.strs.length
        else t.strs.length + 1) := by
  obtain ⟨fs, f1, f2, f3⟩ := h.free
  unfold StrTable.allocate
  cases hg : t.strmap.get s with
  | some i =>
    obtain ⟨c, hc⟩ := (h.map s i).1 hg
    obtain ⟨c0, hi⟩ := h.held i s c hc
    simp only [hi]
    refine ⟨_, _, rfl, ?_, ?_, ?_⟩
    · refine ⟨?_, fun hn => absurd ⟨i, c, hc⟩ hn⟩
      intro j d hj
      have := (h.map s j).2 ⟨d, hj⟩
      rw [hg] at this; exact Option.some.inj this
    · have hst : σ.step i (.alloc s) = upd σ i (some (s, c + 1)) := by simp [TabSpec.step, hc]
      rw [hst]
      have hil : i < t.strs.length := by
        rw [List.getElem?_eq_some_iff] at hi; exact hi.1
      refine ⟨⟨fs, ?_, f2, ?_⟩, ?_, ?_⟩
      · refine f1.congr ?_
        intro j hj
        have hne : i ≠ j := by rintro rfl; have := ((f3 i).1 hj).2; rw [hc] at this; cases this
        simp only; rw [List.getElem?_set_ne hne]
      · intro j
        rw [f3]; simp only [List.length_set, upd_apply]
        by_cases hj : j = i
        · subst hj; simp [hc]
        · simp [hj]
      · intro j x d hj
        simp only [upd_apply] at hj
        split at hj
        · rename_i hji; subst hji; cases hj
          refine ⟨by omega, ?_⟩
          simp [List.getElem?_set_self, hil]
        · rename_i hji
          rw [List.getElem?_set_ne (Ne.symm hji)]; exact h.held j x d hj
      · intro x j
        show t.strmap.get x = some j ↔ _
        rw [h.map]
        simp only [upd_apply]
        by_cases hj : j = i
        · subst hj
          simp only [hc, if_true, Option.some.injEq, Prod.mk.injEq]
          constructor
          · rintro ⟨d, rfl, rfl⟩; exact ⟨c + 1, rfl, rfl⟩
          · rintro ⟨d, rfl, rfl⟩; exact ⟨c, rfl, rfl⟩
        · simp [hj]
    · rw [if_pos (Or.inl ⟨i, c, hc⟩)]; simp
  | none =>
    have hnh : ∀ i c, σ i ≠ some (s, c) := by
      intro i c hc
      have := (h.map s i).2 ⟨c, hc⟩
      rw [hg] at this; cases this
    simp only
    -- what a new entry at a slot not in use gives
    cases fs with
    | nil =>
      have hff : t.firstFree = -1 := f1
      simp only [hff, ne_eq, not_true_eq_false, if_false]
      have hnone : σ t.strs.length = none := by
        cases hx : σ t.strs.length with
        | none => rfl
        | some p =>
          obtain ⟨x, d⟩ := p
          have := (h.held _ x d hx).2
          rw [List.getElem?_eq_some_iff] at this
          obtain ⟨hlt, _⟩ := this
          omega
      have hst : σ.step t.strs.length (.alloc s) = upd σ t.strs.length (some (s, 1)) := by simp [TabSpec.step, hnone]
      refine ⟨_, _, rfl, ⟨fun i c hc => absurd hc (hnh i c), fun _ => hnone⟩, ?_, ?_⟩
      · rw [hst]
        refine ⟨⟨[], ?_, by simp, ?_⟩, ?_, ?_⟩
        · exact rfl
        · intro j
          have := f3 j
          simp only [List.length_append, List.length_singleton, upd_apply]
          simp only [List.not_mem_nil, false_iff] at this ⊢
          rintro ⟨h1, h2⟩
          by_cases hj : j = t.strs.length
          · simp [hj] at h2
          · simp only [hj, if_false] at h2
            exact this ⟨by omega, h2⟩
        · intro j x d hj
          simp only [upd_apply] at hj
          split at hj
          · rename_i hji; subst hji; cases hj
            exact ⟨by omega, by simp⟩
          · obtain ⟨h1, h2⟩ := h.held j x d hj
            refine ⟨h1, ?_⟩
            have hlt := (List.getElem?_eq_some_iff.1 h2).1
            rw [List.getElem?_append_left hlt]; exact h2
        · intro x j
          show AMap.get (t.strmap.set s _) x = some j ↔ _
          rw [AMap.get_set]
          simp only [upd_apply]
          by_cases hx : x = s
          · subst hx
            rw [if_pos rfl]
            constructor
            · intro hj; cases hj; exact ⟨1, by simp⟩
            · rintro ⟨c, hc⟩
              split at hc
              · rename_i hj; rw [hj]
              · exact absurd hc (hnh j c)
          · rw [if_neg hx, h.map]
            by_cases hj : j = t.strs.length
            · subst hj; simp [hnone, Ne.symm hx]
            · simp [hj]
      · have : ¬ ((∃ i c, σ i = some (s, c)) ∨ ∃ i < t.strs.length, σ i = none) := by
          rintro (⟨i, c, hc⟩ | ⟨i, h1, h2⟩)
          · exact hnh i c hc
          · have := (f3 i).2 ⟨h1, h2⟩; cases this
        rw [if_neg this]; simp
    | cons i fs =>
      obtain ⟨hf, x0, c0, hi, hch⟩ := f1
      have hne : t.firstFree ≠ -1 := by omega
      have hnn : ¬ t.firstFree < 0 := by omega
      have htn : t.firstFree.toNat = i := by omega
      obtain ⟨hil, hin⟩ := (f3 i).1 (by simp)
      rw [List.nodup_cons] at f2
      simp only [hne, ne_eq, not_false_iff, if_true, hnn, if_false, htn, hi]
      have hst : σ.step i (.alloc s) = upd σ i (some (s, 1)) := by simp [TabSpec.step, hin]
      refine ⟨_, _, rfl, ⟨fun i c hc => absurd hc (hnh i c), fun _ => hin⟩, ?_, ?_⟩
      · rw [hst]
        refine ⟨⟨fs, ?_, f2.2, ?_⟩, ?_, ?_⟩
        · refine hch.congr ?_
          intro j hj
          have hne : i ≠ j := by rintro rfl; exact f2.1 hj
          simp only; rw [List.getElem?_set_ne hne]
        · intro j
          have := f3 j
          simp only [List.length_set, upd_apply]
          by_cases hj : j = i
          · subst hj; simp [f2.1]
          · simp only [List.mem_cons, hj, false_or] at this
            simp [hj, this]
        · intro j x d hj
          simp only [upd_apply] at hj
          split at hj
          · rename_i hji; subst hji; cases hj
            refine ⟨by omega, ?_⟩
            simp [List.getElem?_set_self, hil]
          · rename_i hji
            rw [List.getElem?_set_ne (Ne.symm hji)]; exact h.held j x d hj
        · intro x j
          show AMap.get (t.strmap.set s _) x = some j ↔ _
          rw [AMap.get_set]
          simp only [upd_apply]
          by_cases hx : x = s
          · subst hx
            rw [if_pos rfl]
            constructor
            · intro hj; cases hj; exact ⟨1, by simp⟩
            · rintro ⟨c, hc⟩
              split at hc
              · rename_i hj; rw [hj]
              · exact absurd hc (hnh j c)
          · rw [if_neg hx, h.map]
            by_cases hj : j = i
            · subst hj; simp [hin, Ne.symm hx]
            · simp [hj]
      · rw [if_pos (Or.inr ⟨i, hil, hin⟩)]; simp

theorem TabRep.free' {t : StrTable} {σ : TabSpec} (h : TabRep t σ) (i : Nat) (hi : σ i ≠ none) :
    ∃ t', t.free i = some t' ∧ TabRep t' (σ.step 0 (.free i)) ∧ t'.strs.length = t.strs.length := by
  obtain ⟨fs, f1, f2, f3⟩ := h.free
  cases hc : σ i with
  | none => exact absurd hc hi
  | some p =>
    obtain ⟨s, c⟩ := p
    obtain ⟨c0, hg⟩ := h.held i s c hc
    have hil : i < t.strs.length := (List.getElem?_eq_some_iff.1 hg).1
    have hinf : i ∉ fs := fun hh => by have := ((f3 i).1 hh).2; rw [hc] at this; cases this
    unfold StrTable.free
    simp only [hg]
    have hst : σ.step 0 (.free i) = upd σ i (if c = 1 then none else some (s, c - 1)) := by simp [TabSpec.step, hc]
    rw [hst]
    split
    · rename_i hgt
      have hc1 : c ≠ 1 := by omega
      refine ⟨_, rfl, ⟨⟨fs, ?_, f2, ?_⟩, ?_, ?_⟩, by simp⟩
      · refine f1.congr ?_
        intro j hj
        have hne : i ≠ j := by rintro rfl; exact hinf hj
        simp only; rw [List.getElem?_set_ne hne]
      · intro j
        rw [f3]; simp only [List.length_set, upd_apply]
        by_cases hj : j = i
        · subst hj; simp [hc, hc1]
        · simp [hj]
      · intro j x d hj
        simp only [upd_apply, hc1, if_false] at hj
        split at hj
        · rename_i hji; subst hji; cases hj
          refine ⟨by omega, ?_⟩
          simp only [List.getElem?_set_self hil]
          congr 2; omega
        · rename_i hji
          rw [List.getElem?_set_ne (Ne.symm hji)]; exact h.held j x d hj
      · intro x j
        show t.strmap.get x = some j ↔ _
        rw [h.map]
        simp only [upd_apply, hc1, if_false]
        by_cases hj : j = i
        · subst hj
          simp only [hc, if_true, Option.some.injEq, Prod.mk.injEq]
          constructor
          · rintro ⟨d, rfl, rfl⟩; exact ⟨c - 1, rfl, rfl⟩
          · rintro ⟨d, rfl, rfl⟩; exact ⟨c, rfl, rfl⟩
        · simp [hj]
    · rename_i hgt
      have hc1 : c = 1 := by omega
      refine ⟨_, rfl, ⟨⟨i :: fs, ⟨rfl, s, t.firstFree, by simp [hil], ?_⟩, List.nodup_cons.2 ⟨hinf, f2⟩, ?_⟩, ?_, ?_⟩,
        by simp⟩
      · refine f1.congr ?_
        intro j hj
        have hne : i ≠ j := by rintro rfl; exact hinf hj
        simp only; rw [List.getElem?_set_ne hne]
      · intro j
        rw [List.mem_cons, f3]; simp only [List.length_set, upd_apply]
        by_cases hj : j = i
        · subst hj; simp [hc1, hil]
        · simp [hj]
      · intro j x d hj
        simp only [upd_apply, hc1, if_true] at hj
        split at hj
        · cases hj
        · rename_i hji
          rw [List.getElem?_set_ne (Ne.symm hji)]; exact h.held j x d hj
      · intro x j
        show AMap.get (t.strmap.del s) x = some j ↔ _
        rw [AMap.get_del]
        simp only [upd_apply, hc1, if_true]
        by_cases hx : x = s
        · subst hx
          simp only [if_true]
          constructor
          · intro hh; cases hh
          · rintro ⟨d, hd⟩
            split at hd
            · cases hd
            · rename_i hj
              have h1 := (h.map x j).2 ⟨d, hd⟩
              have h2 := (h.map x i).2 ⟨c, hc⟩
              rw [h1] at h2; exact absurd (Option.some.inj h2) hj
        · rw [if_neg hx, h.map]
          by_cases hj : j = i
          · subst hj; simp [hc, Ne.symm hx]
          · simp [hj]

theorem Reach.rep {t : StrTable} {σ : TabSpec} (h : Reach t σ) : TabRep t σ := by
  induction h with
  | init => exact TabRep.init
  | @step t t' σ op ret _ hv hs ih =>
    cases op with
    | alloc s =>
      obtain ⟨t1, r1, h1, _, h2, _⟩ := ih.allocate s
      simp only [StrTable.step] at hs
      rw [h1] at hs; cases hs
      exact h2
    | free i =>
      obtain ⟨t1, h1, h2, _⟩ := ih.free' i hv
      simp only [StrTable.step, h1, Option.map_some] at hs
      cases hs
      exact h2

/-- A call that only frees held references never panics, and `allocate` returns the index of the string if it is
held, and otherwise an index that is not in use. -/
theorem C22_legal {t : StrTable} {σ : TabSpec} (h : Reach t σ) (op : TabOp) (hv : σ.Valid op) :
    ∃ t' ret, t.step op = some (t', ret) ∧ σ.Legal ret op := by
  cases op with
  | alloc s =>
    obtain ⟨t1, r1, h1, h2, _⟩ := h.rep.allocate s
    exact ⟨t1, r1, h1, h2⟩
  | free i =>
    obtain ⟨t1, h1, _⟩ := h.rep.free' i hv
    exact ⟨t1, 0, by simp [StrTable.step, h1], trivial⟩

/-- In every reachable state: `str` returns the held string, `lookup` finds exactly the held strings, equal held
strings have equal indexes and different ones different indexes, counts are positive. -/
theorem C22_held {t : StrTable} {σ : TabSpec} (h : Reach t σ) :
    (∀ i s c, σ i = some (s, c) → 0 < c ∧ t.str i = some s ∧ t.lookup s = some i) ∧
    (∀ s i, t.lookup s = some i ↔ ∃ c, σ i = some (s, c)) ∧
    (∀ s, t.lookup s = none ↔ ¬ σ.Held s) ∧
    (∀ i j s c d, σ i = some (s, c) → σ j = some (s, d) → i = j) := by
  have r := h.rep
  refine ⟨?_, r.map, ?_, ?_⟩
  · intro i s c hc
    exact ⟨(r.held i s c hc).1, by simp [StrTable.str, (r.held i s c hc).2], (r.map s i).2 ⟨c, hc⟩⟩
  · intro s
    constructor
    · rintro hl ⟨i, c, hc⟩
      have := (r.map s i).2 ⟨c, hc⟩
      rw [StrTable.lookup] at hl
      rw [hl] at this; cases this
    · intro hn
      cases hl : t.lookup s with
      | none => rfl
      | some i => obtain ⟨c, hc⟩ := (r.map s i).1 hl; exact absurd ⟨i, c, hc⟩ hn
  · intro i j s c d h1 h2
    have a := (r.map s i).2 ⟨c, h1⟩
    have b := (r.map s j).2 ⟨d, h2⟩
    rw [a] at b; exact Option.some.inj b

/-- A string disappears exactly when its last reference is freed. -/
theorem C22_last {t t' : StrTable} {σ : TabSpec} (h : Reach t σ) (i : Nat) (s : String) (c : Nat) (hi : σ i = some (s, c))
    (hs : t.free i = some t') : (t'.lookup s = none ↔ c = 1) ∧ (c ≠ 1 → t'.lookup s = some i ∧ t'.str i = some s) := by
  have hr : Reach t' (σ.step 0 (.free i)) :=
    h.step (op := .free i) (ret := 0) (by simp [TabSpec.Valid, hi]) (by simp [StrTable.step, hs])
  have hst : σ.step 0 (.free i) = upd σ i (if c = 1 then none else some (s, c - 1)) := by simp [TabSpec.step, hi]
  rw [hst] at hr
  obtain ⟨h1, h2, h3, h4⟩ := C22_held hr
  have hne : c ≠ 1 → t'.lookup s = some i ∧ t'.str i = some s := by
    intro hc
    obtain ⟨_, a, b⟩ := h1 i s (c - 1) (by simp [upd_apply, hc])
    exact ⟨b, a⟩
  refine ⟨⟨?_, ?_⟩, hne⟩
  · intro hl
    by_cases hc : c = 1
    · exact hc
    · rw [(hne hc).1] at hl; cases hl
  · intro hc
    rw [h3]
    rintro ⟨j, d, hd⟩
    simp only [upd_apply, hc, if_true] at hd
    split at hd
    · cases hd
    · rename_i hj
      exact hj ((C22_held h).2.2.2 j i s d c hd hi)

/-- The table grows only if the string is new and every slot is in use: freed slots are reused first. -/
theorem C22_growth {t t' : StrTable} {σ : TabSpec} (h : Reach t σ) (s : String) (ret : Nat)
    (hs : t.allocate s = some (t', ret)) :
    t'.strs.length = t.strs.length ∨ (t'.strs.length = t.strs.length + 1 ∧ ¬ σ.Held s ∧ ∀ i < t.strs.length, σ i ≠ none) := by
  obtain ⟨t1, r1, h1, _, _, h2⟩ := h.rep.allocate s
  rw [h1] at hs; cases hs
  split at h2
  · exact Or.inl h2
  · rename_i hn
    exact Or.inr ⟨h2, fun hh => hn (Or.inl hh), fun i hi hx => hn (Or.inr ⟨i, hi, hx⟩)⟩

theorem C22_free_length {t t' : StrTable} {σ : TabSpec} (h : Reach t σ) (i : Nat) (hi : σ i ≠ none)
    (hs : t.free i = some t') : t'.strs.length = t.strs.length := by
  obtain ⟨t1, h1, _, h2⟩ := h.rep.free' i hi
  rw [h1] at hs; cases hs; exact h2

/-- Run a list of calls. -/
def StrTable.runOps : StrTable → List TabOp → Option StrTable
  | t, [] => some t
  | t, op :: ops => (t.step op).bind (fun r => r.1.runOps ops)

/-- slots 0 and 1 are freed and reused in reverse order, "b" is held twice -/
example : StrTable.runOps StrTable.init [.alloc "a", .alloc "b", .alloc "c", .alloc "c", .free 0, .free 1, .alloc "d",
    .free 2, .alloc "e"] =
    some { strs := [("e", 1), ("d", 1), ("c", 1)], strmap := [("c", 2), ("d", 1), ("e", 0)], firstFree := -1 } := by decide

/-- a reachable state with a held string and a freed slot -/
example : ∃ t σ, Reach t σ ∧ σ 1 = some ("b", 2) ∧ σ 0 = none ∧ t.firstFree = 0 := by
  have h1 := Reach.init.step (op := .alloc "a") (ret := 0) (t' := ⟨[("a", 1)], [("a", 0)], -1⟩) trivial (by decide)
  have h2 := h1.step (op := .alloc "b") (ret := 1) (t' := ⟨[("a", 1), ("b", 1)], [("a", 0), ("b", 1)], -1⟩) trivial (by decide)
  have h3 := h2.step (op := .alloc "b") (ret := 1) (t' := ⟨[("a", 1), ("b", 2)], [("a", 0), ("b", 1)], -1⟩) trivial (by decide)
  have h4 := h3.step (op := .free 0) (ret := 0) (t' := ⟨[("a", -1), ("b", 2)], [("b", 1)], 0⟩)
    (by simp [TabSpec.Valid, TabSpec.step, upd]) (by decide)
  exact ⟨_, _, h4, by simp [TabSpec.step, upd], by simp [TabSpec.step, upd], rfl⟩

end LPG
