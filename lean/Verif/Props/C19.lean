import Verif.Spec.StringSet
import Verif.Proofs.Base
import Mathlib.Data.List.Perm.Subperm
/-!
# C19: StringSet is a set of strings, copies are independent
-/
namespace LPG
namespace SHeap

theorem put_other (h : SHeap) (a : Nat) (x : String) {b : Nat} (hb : b ≠ a) : (h.put (some a) x).mem b = h.mem b := by
  simp only [put]; split
  · rfl
  · exact upd_other _ _ hb

theorem put_next (h : SHeap) (r : SRef) (x : String) : (h.put r x).next = h.next := by
  cases r <;> simp only [put]; split <;> rfl

theorem putAll_spec (a : Nat) : ∀ (xs : List String) (h : SHeap), (h.mem a).Nodup →
    ((h.putAll (some a) xs).mem a).Nodup ∧ (∀ x, x ∈ (h.putAll (some a) xs).mem a ↔ x ∈ h.mem a ∨ x ∈ xs) ∧
    (∀ b, b ≠ a → (h.putAll (some a) xs).mem b = h.mem b) ∧ (h.putAll (some a) xs).next = h.next
  | [], h, hn => ⟨hn, by simp [putAll], by simp [putAll], rfl⟩
  | y :: ys, h, hn => by
    have hp : ((h.put (some a) y).mem a).Nodup ∧ ∀ x, x ∈ (h.put (some a) y).mem a ↔ x ∈ h.mem a ∨ x = y := by
      simp only [put]
      split
      · rename_i hc
        refine ⟨hn, fun x => ⟨Or.inl, ?_⟩⟩
        rintro (hx | rfl)
        · exact hx
        · simpa using hc
      · rename_i hc
        simp only [upd_same]
        refine ⟨?_, by simp⟩
        rw [List.nodup_append]
        refine ⟨hn, by simp, ?_⟩
        intro b hb c hc'
        simp at hc'
        subst hc'
        rintro rfl
        exact hc (by simpa using hb)
    obtain ⟨h1, h2, h3, h4⟩ := putAll_spec a ys (h.put (some a) y) hp.1
    have e : h.putAll (some a) (y :: ys) = (h.put (some a) y).putAll (some a) ys := rfl
    rw [e]
    refine ⟨h1, ?_, ?_, by rw [h4, put_next]⟩
    · intro x; rw [h2, hp.2, List.mem_cons]; grind
    · intro b hb; rw [h3 b hb, put_other _ _ _ hb]

/-- A new map filled by two loops. -/
theorem fill (h : SHeap) (xs : List String) :
    ((h.alloc.1.putAll (some h.next) xs).mem h.next).Nodup ∧
    (∀ x, x ∈ (h.alloc.1.putAll (some h.next) xs).mem h.next ↔ x ∈ xs) ∧
    (∀ b, b ≠ h.next → (h.alloc.1.putAll (some h.next) xs).mem b = h.mem b) ∧
    (h.alloc.1.putAll (some h.next) xs).next = h.next + 1 := by
  obtain ⟨h1, h2, h3, h4⟩ := putAll_spec h.next xs h.alloc.1 (by simp [alloc])
  refine ⟨h1, ?_, ?_, h4⟩
  · intro x; rw [h2]; simp [alloc]
  · intro b hb; rw [h3 b hb]; simp [alloc, upd_other _ _ hb]

theorem hasLoop_eq (x : String) : ∀ ys, hasLoop x ys = decide (x ∈ ys)
  | [] => by simp [hasLoop]
  | y :: ys => by
    unfold hasLoop
    rw [hasLoop_eq x ys]
    by_cases h : y = x
    · simp [h]
    · simp [h, Ne.symm h]

theorem hasAny_eq (h : SHeap) (r : SRef) : ∀ xs, h.hasAny r xs = decide (∃ x ∈ xs, x ∈ h.keys r)
  | [] => by simp [hasAny]
  | x :: xs => by
    unfold hasAny
    rw [hasAny_eq h r xs]
    by_cases hx : x ∈ h.keys r <;> simp [has, hx]

theorem hasAll_eq (h : SHeap) (r : SRef) : ∀ xs, h.hasAll r xs = decide (∀ x ∈ xs, x ∈ h.keys r)
  | [] => by simp [hasAll]
  | x :: xs => by
    unfold hasAll
    rw [hasAll_eq h r xs]
    by_cases hx : x ∈ h.keys r <;> simp [has, hx]

end SHeap

/-- The variables denote the sets of the specification. -/
structure SSRep (s : SSState) (σ : SSSpec) : Prop where
  bound : ∀ v a, s.vars v = some a → a < s.heap.next
  nodup : ∀ v, (s.heap.keys (s.vars v)).Nodup
  mem : ∀ v x, x ∈ s.heap.keys (s.vars v) ↔ σ v x

/-- A step that makes a new map for `v` and leaves the other maps alone. -/
theorem SSRep.fresh {s : SSState} {σ : SSSpec} (h : SSRep s σ) (v : Nat) (H : SHeap) (P : String → Prop)
    (h1 : (H.mem s.heap.next).Nodup) (h2 : ∀ x, x ∈ H.mem s.heap.next ↔ P x)
    (h3 : ∀ b, b ≠ s.heap.next → H.mem b = s.heap.mem b) (h4 : H.next = s.heap.next + 1) :
    SSRep { heap := H, vars := upd s.vars v (some s.heap.next) } (upd σ v P) := by
  have hk : ∀ w, w ≠ v → H.keys (s.vars w) = s.heap.keys (s.vars w) := by
    intro w _
    cases hr : s.vars w with
    | none => rfl
    | some a =>
      have := h.bound w a hr
      exact h3 a (by omega)
  refine ⟨?_, ?_, ?_⟩
  · intro w a ha
    simp only [upd_apply] at ha ⊢
    split at ha
    · cases ha; omega
    · have := h.bound w a ha; omega
  · intro w
    simp only [upd_apply]
    split
    · exact h1
    · rename_i hw; rw [hk w hw]; exact h.nodup w
  · intro w x
    simp only [upd_apply]
    split
    · exact h2 x
    · rename_i hw; rw [hk w hw]; exact h.mem w x

theorem SSRep.share {s : SSState} {σ : SSSpec} (h : SSRep s σ) (v w : Nat) :
    SSRep { s with vars := upd s.vars v (s.vars w) } (upd σ v (σ w)) := by
  refine ⟨?_, ?_, ?_⟩
  · intro u a ha
    simp only [upd_apply] at ha
    split at ha
    · exact h.bound w a ha
    · exact h.bound u a ha
  · intro u
    simp only [upd_apply]
    split
    · exact h.nodup w
    · exact h.nodup u
  · intro u x
    simp only [upd_apply]
    split
    · exact h.mem w x
    · exact h.mem u x

theorem SSRep.step {s : SSState} {σ : SSSpec} (h : SSRep s σ) (op : SSOp) : SSRep (s.step op) (σ.step op) := by
  cases op with
  | new v xs =>
    obtain ⟨h1, h2, h3, h4⟩ := s.heap.fill xs
    exact h.fresh v _ _ h1 h2 h3 h4
  | clone v w => exact h.share v w
  | copy v w => exact h.share v w
  | add v xs =>
    obtain ⟨h1, h2, h3, h4⟩ := s.heap.fill (s.heap.keys (s.vars v))
    obtain ⟨g1, g2, g3, g4⟩ := SHeap.putAll_spec s.heap.next xs _ h1
    refine h.fresh v _ _ g1 (fun x => (g2 x).trans ?_) (fun b hb => (g3 b hb).trans (h3 b hb)) (g4.trans h4)
    rw [h2, h.mem]
  | addSet v w =>
    obtain ⟨h1, h2, h3, h4⟩ := s.heap.fill (s.heap.keys (s.vars v))
    obtain ⟨g1, g2, g3, g4⟩ := SHeap.putAll_spec s.heap.next
      ((s.heap.alloc.1.putAll (some s.heap.next) (s.heap.keys (s.vars v))).keys (s.vars w)) _ h1
    refine h.fresh v _ _ g1 (fun x => (g2 x).trans ?_) (fun b hb => (g3 b hb).trans (h3 b hb)) (g4.trans h4)
    rw [h2, h.mem, ← h.mem w]
    cases hr : s.vars w with
    | none => rfl
    | some a =>
      have := h.bound w a hr
      show _ ∨ x ∈ SHeap.mem _ a ↔ _ ∨ x ∈ SHeap.mem _ a
      rw [h3 a (by omega)]
  | remove v xs =>
    obtain ⟨h1, h2, h3, h4⟩ := s.heap.fill ((s.heap.keys (s.vars v)).filter (fun x => !SHeap.hasLoop x xs))
    refine h.fresh v _ _ h1 (fun x => (h2 x).trans ?_) h3 h4
    rw [List.mem_filter, h.mem, SHeap.hasLoop_eq]; simp

theorem SSRep.run (ops : List SSOp) : SSRep (SSState.run ops) (SSSpec.run ops) := by
  have : ∀ (ops : List SSOp) (s : SSState) (σ : SSSpec), SSRep s σ → SSRep (ops.foldl SSState.step s) (ops.foldl SSSpec.step σ) := by
    intro ops
    induction ops with
    | nil => intro s σ h; exact h
    | cons op ops ih => intro s σ h; exact ih _ _ (h.step op)
  exact this ops _ _ ⟨by simp [SSState.init], by simp [SSState.init, SHeap.keys], by simp [SSState.init, SHeap.keys]⟩

/-- After any sequence of operations on any number of set variables that may share storage, every variable holds
the set it would hold if sets were values: an operation changes only the variable it is applied to. `Slice` lists
each member once. -/
theorem C19_sets (ops : List SSOp) (v : Nat) : let s := SSState.run ops
    (s.heap.slice (s.vars v)).Nodup ∧ ∀ x, x ∈ s.heap.slice (s.vars v) ↔ SSSpec.run ops v x :=
  ⟨(SSRep.run ops).nodup v, (SSRep.run ops).mem v⟩

/-- The queries answer as on finite sets. -/
theorem C19_queries (ops : List SSOp) (v w : Nat) : let s := SSState.run ops; let σ := SSSpec.run ops
    (∀ x, s.heap.has (s.vars v) x = true ↔ σ v x) ∧
    (∀ xs, s.heap.hasAny (s.vars v) xs = true ↔ ∃ x ∈ xs, σ v x) ∧
    (∀ xs, s.heap.hasAll (s.vars v) xs = true ↔ ∀ x ∈ xs, σ v x) ∧
    (s.heap.hasAnySet (s.vars v) (s.vars w) = true ↔ ∃ x, σ w x ∧ σ v x) ∧
    (s.heap.hasAllSet (s.vars v) (s.vars w) = true ↔ ∀ x, σ w x → σ v x) ∧
    (s.heap.isEqual (s.vars v) (s.vars w) = true ↔ ∀ x, σ v x ↔ σ w x) ∧
    (∀ xs : List String, xs.Nodup → (∀ x, x ∈ xs ↔ σ v x) → s.heap.len (s.vars v) = xs.length) := by
  have r := SSRep.run ops
  refine ⟨?_, ?_, ?_, ?_, ?_, ?_, ?_⟩
  · intro x; rw [← r.mem]; simp [SHeap.has]
  · intro xs; rw [SHeap.hasAny_eq]; simp [r.mem]
  · intro xs; rw [SHeap.hasAll_eq]; simp [r.mem]
  · rw [SHeap.hasAnySet, SHeap.hasAny_eq]; simp [r.mem]
  · rw [SHeap.hasAllSet, SHeap.hasAll_eq]; simp [r.mem]
  · simp only [SHeap.isEqual, SHeap.hasAllSet, SHeap.hasAll_eq, Bool.and_eq_true, decide_eq_true_eq]
    have nv := r.nodup v
    have nw := r.nodup w
    constructor
    · rintro ⟨h1, h2⟩
      have hp : (((SSState.run ops).heap.keys ((SSState.run ops).vars w))).Perm
          ((SSState.run ops).heap.keys ((SSState.run ops).vars v)) :=
        (List.subperm_of_subset nw h2).perm_of_length_le (by unfold SHeap.len at h1; omega)
      intro x
      rw [← r.mem, ← r.mem]; exact hp.mem_iff.symm
    · intro h
      have hp : (((SSState.run ops).heap.keys ((SSState.run ops).vars w))).Perm
          ((SSState.run ops).heap.keys ((SSState.run ops).vars v)) := by
        rw [List.perm_ext_iff_of_nodup nw nv]
        intro x; rw [r.mem, r.mem]; exact (h x).symm
      exact ⟨hp.length_eq.symm, fun x hx => hp.mem_iff.1 hx⟩
  · intro xs hn hx
    have : ((SSState.run ops).heap.keys ((SSState.run ops).vars v)).Perm xs := by
      rw [List.perm_ext_iff_of_nodup (r.nodup v) hn]
      intro x; rw [r.mem, hx]
    exact this.length_eq

/-- `SortedSlice` lists the members in strictly increasing order. -/
theorem C19_sorted (ops : List SSOp) (v : Nat) : let s := SSState.run ops
    (s.heap.sortedSlice (s.vars v)).Pairwise (· < ·) ∧ ∀ x, x ∈ s.heap.sortedSlice (s.vars v) ↔ SSSpec.run ops v x := by
  have r := SSRep.run ops
  intro s
  have hperm := List.mergeSort_perm (s.heap.keys (s.vars v)) (fun a b => decide (a ≤ b))
  refine ⟨?_, ?_⟩
  · have hs := List.pairwise_mergeSort (le := fun (a b : String) => decide (a ≤ b))
      (fun a b c h1 h2 => by simp only [decide_eq_true_eq] at *; exact String.le_trans h1 h2)
      (fun a b => by simp only [Bool.or_eq_true, decide_eq_true_eq]; exact String.le_total a b)
      (s.heap.keys (s.vars v))
    have hn : ((s.heap.keys (s.vars v)).mergeSort (fun a b => decide (a ≤ b))).Nodup :=
      hperm.nodup_iff.2 (r.nodup v)
    refine (hs.and hn).imp ?_
    rintro a b ⟨h1, h2⟩
    simp only [decide_eq_true_eq] at h1
    by_cases hlt : a < b
    · exact hlt
    · exact absurd (String.le_antisymm h1 (String.not_lt.1 hlt)) h2
  · intro x
    rw [← r.mem]
    exact hperm.mem_iff

/-- clones, a set added to itself, a cleared set; variable 0 is a node's label set -/
def ssDemo : List SSOp :=
  [.new 0 ["b", "a", "b"], .clone 1 0, .add 1 ["c"], .copy 2 0, .remove 0 ["a"], .addSet 2 1, .addSet 1 1, .remove 3 ["z"]]

example : let s := SSState.run ssDemo
    s.heap.slice (s.vars 0) = ["b"] ∧ s.heap.slice (s.vars 1) = ["b", "a", "c"] ∧
    s.heap.slice (s.vars 2) = ["b", "a", "c"] ∧ s.heap.isEqual (s.vars 1) (s.vars 2) = true ∧
s.heap.slice (s.vars 3) = [] := by decide +kernel

end LPG
