import Verif.Proofs.PatternRun
/-!
# The steps of a plan
-/
namespace LPG
namespace Pat
open VPath

/-! ## Assignments -/

section
variable {s : State} {σ : Spec} {symbols : Symbols} {legs : LegFun}

theorem enum_mem : ∀ {sts done : List Step} {pend : Option Nat} {ρ x : Asg}, WF σ symbols done pend sts →
    (x ∈ enum s symbols legs sts ρ ↔ (∀ i, (∀ st ∈ sts, st.ix ≠ i) → x i = ρ i) ∧ Done s symbols legs x sts)
  | [], done, pend, ρ, x, _ => by
    rw [enum, List.mem_singleton]
    constructor
    · rintro rfl; exact ⟨fun _ _ => rfl, fun _ h => by simp at h⟩
    · rintro ⟨h, _⟩; funext i; exact h i (fun _ h => by simp at h)
  | st :: sts, done, pend, ρ, x, ⟨h1, h2⟩ => by
    have hlat : ∀ st' ∈ sts, st'.ix ≠ st.ix := fun st' h' => h2.later st (by simp) st' h'
    have hdone : (∀ i, (∀ st' ∈ st :: sts, st'.ix ≠ i) → x i = ρ i) → ∀ st' ∈ done, x st'.ix = ρ st'.ix := by
      intro h st' h'
      refine h _ (fun st2 h3 => ?_)
      rcases List.mem_cons.1 h3 with rfl | h3
      · exact (h1.fresh st' h').symm
      · exact h2.later st' (by simp [h']) st2 h3
    rw [enum, List.mem_flatMap]
    constructor
    · rintro ⟨v, hv, hx⟩
      obtain ⟨k1, k2⟩ := (enum_mem h2).1 hx
      have hst : x st.ix = some v := by rw [k1 st.ix hlat]; simp
      have hoff : ∀ i, (∀ st' ∈ st :: sts, st'.ix ≠ i) → x i = ρ i := fun i hi => by
        rw [k1 i (fun st' h' => hi st' (by simp [h'])), upd_other _ _ (Ne.symm (hi st (by simp)))]
      refine ⟨hoff, fun st' h' => ?_⟩
      rcases List.mem_cons.1 h' with rfl | h'
      · exact ⟨v, hst, by rw [vals_dep h1.src (hdone hoff)]; exact hv⟩
      · exact k2 st' h'
    · rintro ⟨hoff, hd⟩
      obtain ⟨v, hst, hv⟩ := hd st (by simp)
      refine ⟨v, by rw [← vals_dep h1.src (hdone hoff)]; exact hv, (enum_mem h2).2 ⟨fun i hi => ?_, fun st' h' =>
        hd st' (by simp [h'])⟩⟩
      by_cases hi' : i = st.ix
      · rw [hi', hst]; simp
      · rw [upd_other _ _ hi']
        refine hoff i (fun st' h' => ?_)
        rcases List.mem_cons.1 h' with rfl | h'
        · exact fun h => hi' h.symm
        · exact hi st' h'

theorem enum_times {x : Asg} {tw : Step → Bool} : ∀ {sts done : List Step} {pend : Option Nat} {ρ : Asg},
    WF σ symbols done pend sts →
    (∀ st ∈ sts, times (x st.ix) ((vals s symbols legs st x).map some) = if tw st then 2 else 1) →
    x ∈ enum s symbols legs sts ρ → times x (enum s symbols legs sts ρ) = 2 ^ sts.countP tw
  | [], _, _, ρ, _, _, h => by
    rw [enum, List.mem_singleton] at h
    subst h
    simp [enum, times]
  | st :: sts, done, pend, ρ, ⟨h1, h2⟩, hw, h => by
    have hlat : ∀ st' ∈ sts, st'.ix ≠ st.ix := fun st' h' => h2.later st (by simp) st' h'
    have hdone : ∀ st' ∈ done, ρ st'.ix = x st'.ix := by
      intro st' h'
      refine (enum_frame h _ (fun st2 h3 => ?_)).symm
      rcases List.mem_cons.1 h3 with rfl | h3
      · exact (h1.fresh st' h').symm
      · exact h2.later st' (by simp [h']) st2 h3
    rw [enum, List.mem_flatMap] at h
    obtain ⟨v, hv, hx⟩ := h
    have hst : x st.ix = some v := by rw [enum_frame hx st.ix hlat]; simp
    have hwt := hw st (by simp)
    rw [hst, times_map (fun _ _ h => by simpa using h), ← vals_dep h1.src hdone] at hwt
    rw [enum, times_flatMap (v := v), hwt, enum_times h2 (fun st' h' => hw st' (by simp [h'])) hx, List.countP_cons]
    · split
      · rw [Nat.pow_succ, Nat.mul_comm]
      · rw [Nat.one_mul, Nat.add_zero]
    · intro w _ hwv hxw
      have := enum_frame hxw st.ix hlat
      rw [hst] at this
      simp only [upd_same, Option.some.injEq] at this
      exact hwv this.symm

theorem enum_nodup : ∀ {sts done : List Step} {pend : Option Nat} {ρ : Asg}, WF σ symbols done pend sts →
    (∀ st ∈ sts, ∀ ρ, (vals s symbols legs st ρ).Nodup) → (enum s symbols legs sts ρ).Nodup
  | [], _, _, _, _, _ => by simp [enum]
  | st :: sts, done, pend, ρ, ⟨h1, h2⟩, hn => by
    have hlat : ∀ st' ∈ sts, st'.ix ≠ st.ix := fun st' h' => h2.later st (by simp) st' h'
    unfold List.Nodup
    rw [enum, List.pairwise_flatMap]
    refine ⟨fun v _ => enum_nodup h2 (fun st' h' => hn st' (by simp [h'])), (hn st (by simp) ρ).imp ?_⟩
    intro v w hvw x hx y hy hxy
    subst hxy
    have e1 := enum_frame hx st.ix hlat
    have e2 := enum_frame hy st.ix hlat
    rw [e1] at e2
    simp only [upd_same, Option.some.injEq] at e2
    exact hvw e2

end

/-! ## The plan -/

/-- the step of the item `i` in a plan that starts at `index` -/
def stepOf (p : Pattern) (itr : Option (List Nat)) (index i : Nat) : Step :=
  if i < index then
    { ix := i, item := itemAt p i,
      proc :=
        if i % 2 = 1 then .connEdges (i + 1) (flipDir (itemDir (itemAt p i)))
        else .connNodes (i + 1) (useOf (flipDir (itemDir (itemAt p (i + 1)))))
          (if itemDir (itemAt p (i + 1)) = .any then some (i + 2) else none) }
  else if i = index then
    { ix := i, item := itemAt p i, proc := if i % 2 = 0 then .nodes itr else .edges itr }
  else
    { ix := i, item := itemAt p i,
      proc :=
        if i % 2 = 1 then .connEdges (i - 1) (itemDir (itemAt p i))
        else .connNodes (i - 1) (useOf (itemDir (itemAt p (i - 1))))
          (if itemDir (itemAt p (i - 1)) = .any then (if index ≤ i - 2 then some (i - 2) else none) else none) }

@[simp] theorem stepOf_ix {p : Pattern} {itr : Option (List Nat)} {index i : Nat} : (stepOf p itr index i).ix = i := by
  unfold stepOf; split
  · rfl
  · split <;> rfl

@[simp] theorem stepOf_item {p : Pattern} {itr : Option (List Nat)} {index i : Nat} :
    (stepOf p itr index i).item = itemAt p i := by
  unfold stepOf; split
  · rfl
  · split <;> rfl

theorem back_proc {p : Pattern} {itr : Option (List Nat)} {index i : Nat} (h : i < index) :
    (stepOf p itr index i).proc = if i % 2 = 1 then .connEdges (i + 1) (flipDir (itemDir (itemAt p i)))
      else .connNodes (i + 1) (useOf (flipDir (itemDir (itemAt p (i + 1)))))
        (if itemDir (itemAt p (i + 1)) = .any then some (i + 2) else none) := by
  unfold stepOf; rw [if_pos h]

theorem start_proc {p : Pattern} {itr : Option (List Nat)} {index : Nat} :
    (stepOf p itr index index).proc = if index % 2 = 0 then .nodes itr else .edges itr := by
  unfold stepOf; rw [if_neg (Nat.lt_irrefl _), if_pos rfl]

theorem fwd_proc {p : Pattern} {itr : Option (List Nat)} {index i : Nat} (h : index < i) :
    (stepOf p itr index i).proc = if i % 2 = 1 then .connEdges (i - 1) (itemDir (itemAt p i))
      else .connNodes (i - 1) (useOf (itemDir (itemAt p (i - 1))))
        (if itemDir (itemAt p (i - 1)) = .any then (if index ≤ i - 2 then some (i - 2) else none) else none) := by
  unfold stepOf
  rw [if_neg (show ¬ i < index by omega), if_neg (show ¬ i = index by omega)]

theorem forwardStep_eq {p : Pattern} {itr : Option (List Nat)} {index i : Nat} (h : index < i) :
    forwardStep p index i = stepOf p itr index i := by
  unfold forwardStep stepOf
  rw [if_neg (show ¬ i < index by omega), if_neg (show ¬ i = index by omega)]
  unfold itemDir
  cases (itemAt p i).toLeft <;> cases (itemAt p i).undirected <;> cases (itemAt p (i - 1)).toLeft <;>
    cases (itemAt p (i - 1)).undirected <;> by_cases ho : i % 2 = 1 <;> simp [ho, useOf]

theorem backwardStep_eq {p : Pattern} {itr : Option (List Nat)} {index i : Nat} (h : i < index) (h2 : i % 2 = 0 → i + 2 < p.length) :
    backwardStep p i = some (stepOf p itr index i) := by
  unfold backwardStep stepOf
  rw [if_pos h]
  unfold itemDir
  cases (itemAt p i).toLeft <;> cases (itemAt p i).undirected <;> cases (itemAt p (i + 1)).toLeft <;>
    cases (itemAt p (i + 1)).undirected <;> by_cases ho : i % 2 = 1 <;> simp [ho, useOf, flipDir] <;> exact h2 (by omega)

theorem backwardSteps_eq {p : Pattern} {itr : Option (List Nat)} {index : Nat} (ho : p.length % 2 = 1) (hi : index < p.length) :
    ∀ i, i ≤ index → backwardSteps p i = some ((List.range i).reverse.map (stepOf p itr index))
  | 0, _ => rfl
  | i + 1, h => by
    have ih := backwardSteps_eq (itr := itr) ho hi i (by omega)
    rw [backwardSteps, backwardStep_eq (itr := itr) (index := index) (by omega) (by omega), ih, List.range_succ,
      List.reverse_append]
    rfl

/-- the order in which the items are visited -/
def order (index len : Nat) : List Nat := index :: (List.range' (index + 1) (len - (index + 1)) ++ (List.range index).reverse)

theorem mem_order {index len i : Nat} (h : index < len) : i ∈ order index len ↔ i < len := by
  unfold order
  simp only [List.mem_cons, List.mem_append, List.mem_range'_1, List.mem_reverse, List.mem_range]
  omega

theorem countP_order {index len : Nat} (h : index < len) (f : Nat → Bool) :
    (order index len).countP f = (List.range len).countP f := by
  have e : List.range len = List.range index ++ index :: List.range' (index + 1) (len - (index + 1)) := by
    rw [List.range_eq_range', List.range_eq_range', ← List.range'_succ, show len - (index + 1) + 1 = len - index by omega]
    have := List.range'_append (s := 0) (m := index) (n := len - index) (step := 1)
    rw [Nat.zero_add, Nat.one_mul] at this
    rw [this, Nat.add_sub_cancel' (Nat.le_of_lt h)]
  rw [e]
  unfold order
  rw [List.countP_cons, List.countP_append, List.countP_append, List.countP_cons, List.countP_reverse]
  omega

theorem planFrom_eq {p : Pattern} {itr : Option (List Nat)} {index : Nat} (ho : p.length % 2 = 1) (hi : index < p.length) :
    planFrom p itr index =
      some { steps := (order index p.length).map (stepOf p itr index), nForward := p.length - (index + 1) } := by
  unfold planFrom
  rw [backwardSteps_eq (itr := itr) ho hi index (Nat.le_refl _)]
  simp only [Option.some.injEq, Plan.mk.injEq, List.length_map, List.length_range', and_true]
  unfold order
  rw [List.map_cons, List.map_append]
  congr 1
  · unfold stepOf; rw [if_neg (Nat.lt_irrefl _), if_pos rfl]
  · congr 1
    apply List.map_congr_left
    intro i hi
    rw [List.mem_range'_1] at hi
    exact forwardStep_eq (by omega)

/-- The conditions under which a plan can be run. -/
structure Admissible (σ : Spec) (symbols : Symbols) (p : Pattern) (xs : List Nat) (index : Nat) : Prop where
  odd : p.length % 2 = 1
  lt : index < p.length
  labels : ∀ i, i < p.length → i % 2 = 1 → (itemAt p i).labels.Nodup
  bound : ∀ i, i < p.length → i % 2 = 0 → (itemAt p i).name ≠ "" → ∀ sym, AMap.get symbols (itemAt p i).name = some sym →
    sym.edges = none ∧ sym.nodes.isSome
  kinds : ∀ i j, i < p.length → j < p.length → i % 2 = 0 → j % 2 = 1 → (itemAt p i).name = (itemAt p j).name →
    (itemAt p i).name = ""
  directed : index % 2 = 1 → itemDir (itemAt p index) ≠ .any
  nodes : index % 2 = 0 → ∀ n ∈ xs, n ∈ σ.nodes
  edges : index % 2 = 1 → ∀ e ∈ xs, e ∈ σ.edges

section
variable {σ : Spec} {symbols : Symbols} {p : Pattern} {xs : List Nat} {index : Nat}

theorem isNode_stepOf {itr : Option (List Nat)} {i : Nat} : isNode (stepOf p itr index i) ↔ i % 2 = 0 := by
  unfold isNode
  rcases Nat.lt_trichotomy i index with h | h | h
  · rw [back_proc h]
    by_cases ho : i % 2 = 1
    · rw [if_pos ho]; simp [ho]
    · rw [if_neg ho]; simp; omega
  · subst h
    rw [start_proc]
    by_cases ho : i % 2 = 0
    · rw [if_pos ho]; simp [ho]
    · rw [if_neg ho]; simp; omega
  · rw [fwd_proc h]
    by_cases ho : i % 2 = 1
    · rw [if_pos ho]; simp [ho]
    · rw [if_neg ho]; simp; omega

theorem pendAfter_node {itr : Option (List Nat)} {i : Nat} (h : i % 2 = 0) : pendAfter (stepOf p itr index i) = none := by
  unfold pendAfter
  rcases Nat.lt_trichotomy i index with h' | h' | h'
  · rw [back_proc h', if_neg (by omega)]
  · subst h'; rw [start_proc, if_pos h]
  · rw [fwd_proc h', if_neg (by omega)]

theorem pendAfter_start {itr : Option (List Nat)} : pendAfter (stepOf p itr index index) = none := by
  unfold pendAfter
  rw [start_proc]
  by_cases ho : index % 2 = 0
  · rw [if_pos ho]
  · rw [if_neg ho]

/-- the steps from `lo` to `hi` -/
def Between (p : Pattern) (xs : List Nat) (index lo hi : Nat) (done : List Step) : Prop :=
  ∀ st, st ∈ done ↔ ∃ j, lo ≤ j ∧ j < hi ∧ st = stepOf p (some xs) index j

theorem Between.mem {lo hi : Nat} {done : List Step} (h : Between p xs index lo hi done) {j : Nat} (h1 : lo ≤ j) (h2 : j < hi) :
    stepOf p (some xs) index j ∈ done := (h _).2 ⟨j, h1, h2, rfl⟩

theorem useOf_any {d : State.Dir} : useOf d = .anyNode ↔ d = .any := by cases d <;> simp [useOf]

theorem flip_any {d : State.Dir} : flipDir d = .any ↔ d = .any := by cases d <;> simp [flipDir]

theorem forward_ok (A : Admissible σ symbols p xs index) {i : Nat} {done : List Step} (h : Between p xs index index i done)
    (hi : index < i) (hl : i < p.length) :
    StepOk σ symbols done (pendAfter (stepOf p (some xs) index (i - 1))) (stepOf p (some xs) index i) := by
  have hproc : (stepOf p (some xs) index i).proc = if i % 2 = 1 then .connEdges (i - 1) (itemDir (itemAt p i))
      else .connNodes (i - 1) (useOf (itemDir (itemAt p (i - 1))))
        (if itemDir (itemAt p (i - 1)) = .any then (if index ≤ i - 2 then some (i - 2) else none) else none) := by
    exact fwd_proc hi
  have hprev := h.mem (j := i - 1) (by omega) (by omega)
  have hsource : i % 2 = 0 → Source done (i - 1) (useOf (itemDir (itemAt p (i - 1))))
      (if itemDir (itemAt p (i - 1)) = .any then (if index ≤ i - 2 then some (i - 2) else none) else none)
      (stepOf p (some xs) index (i - 1)) := by
    intro he
    refine ⟨hprev, by simp, ?_⟩
    by_cases hix : index = i - 1
    · right
      refine ⟨some xs, ?_, ?_⟩
      · rw [← hix, start_proc, if_neg (by omega)]
      · intro hu
        have := A.directed (by omega)
        rw [hix] at this
        exact this (useOf_any.1 hu)
    · left
      refine ⟨i - 1 - 1, itemDir (itemAt p (i - 1)), ?_, rfl, fun hu => ?_⟩
      · rw [fwd_proc (by omega), if_pos (by omega)]
      · rw [if_pos (useOf_any.1 hu), if_pos (by omega)]
        congr 1
  refine ⟨?_, ?_, ?_, ?_, ?_, ?_⟩
  · intro st' h'
    obtain ⟨j, j1, j2, rfl⟩ := (h st').1 h'
    simp; omega
  · unfold SrcOk
    rw [hproc]
    by_cases ho : i % 2 = 1
    · rw [if_pos ho]
      simp only [stepOf_item]
      exact ⟨A.labels i hl ho, _, hprev, by simp, isNode_stepOf.2 (by omega)⟩
    · rw [if_neg ho]
      exact ⟨_, hsource (by omega)⟩
  · intro itr hor
    rw [hproc] at hor
    split at hor <;> rcases hor with hor | hor <;> cases hor
  · intro src d hc
    rw [hproc] at hc
    split at hc
    · exact pendAfter_node (by omega)
    · cases hc
  · intro src use pn hc
    rw [hproc] at hc
    split at hc
    · cases hc
    · cases hc
      exact ⟨_, hsource (by omega), rfl⟩
  · intro hn hname
    rw [isNode_stepOf] at hn
    simp only [stepOf_item] at hname ⊢
    refine ⟨fun st' h' hnn => ?_, fun sym => A.bound i hl hn hname sym⟩
    obtain ⟨j, j1, j2, rfl⟩ := (h st').1 h'
    rw [isNode_stepOf]
    rw [stepOf_item] at hnn
    by_cases hj : j % 2 = 0
    · exact hj
    · exact absurd (A.kinds i j hl (by omega) hn (by omega) hnn.symm) hname

theorem backward_ok (A : Admissible σ symbols p xs index) {i : Nat} {done : List Step}
    (h : Between p xs index (i + 1) p.length done) (hi : i < index) :
    StepOk σ symbols done (pendAfter (stepOf p (some xs) index (i + 1))) (stepOf p (some xs) index i) := by
  have hlt := A.lt
  have hproc : (stepOf p (some xs) index i).proc = if i % 2 = 1 then .connEdges (i + 1) (flipDir (itemDir (itemAt p i)))
      else .connNodes (i + 1) (useOf (flipDir (itemDir (itemAt p (i + 1)))))
        (if itemDir (itemAt p (i + 1)) = .any then some (i + 2) else none) := by
    exact back_proc hi
  have hprev := h.mem (j := i + 1) (by omega) (by omega)
  have hsource : i % 2 = 0 → Source done (i + 1) (useOf (flipDir (itemDir (itemAt p (i + 1)))))
      (if itemDir (itemAt p (i + 1)) = .any then some (i + 2) else none)
      (stepOf p (some xs) index (i + 1)) := by
    intro he
    refine ⟨hprev, by simp, ?_⟩
    by_cases hix : index = i + 1
    · right
      refine ⟨some xs, ?_, ?_⟩
      · rw [← hix, start_proc, if_neg (by omega)]
      · intro hu
        have := A.directed (by omega)
        rw [hix] at this
        exact this (flip_any.1 (useOf_any.1 hu))
    · left
      refine ⟨i + 2, flipDir (itemDir (itemAt p (i + 1))), ?_, rfl, fun hu => ?_⟩
      · rw [back_proc (by omega), if_pos (by omega)]
      · rw [if_pos (flip_any.1 (useOf_any.1 hu))]
  refine ⟨?_, ?_, ?_, ?_, ?_, ?_⟩
  · intro st' h'
    obtain ⟨j, j1, j2, rfl⟩ := (h st').1 h'
    simp; omega
  · unfold SrcOk
    rw [hproc]
    by_cases ho : i % 2 = 1
    · rw [if_pos ho]
      simp only [stepOf_item]
      exact ⟨A.labels i (by omega) ho, _, hprev, by simp, isNode_stepOf.2 (by omega)⟩
    · rw [if_neg ho]
      exact ⟨_, hsource (by omega)⟩
  · intro itr hor
    rw [hproc] at hor
    split at hor <;> rcases hor with hor | hor <;> cases hor
  · intro src d hc
    rw [hproc] at hc
    split at hc
    · exact pendAfter_node (by omega)
    · cases hc
  · intro src use pn hc
    rw [hproc] at hc
    split at hc
    · cases hc
    · cases hc
      exact ⟨_, hsource (by omega), rfl⟩
  · intro hn hname
    rw [isNode_stepOf] at hn
    simp only [stepOf_item] at hname ⊢
    refine ⟨fun st' h' hnn => ?_, fun sym => A.bound i (by omega) hn hname sym⟩
    obtain ⟨j, j1, j2, rfl⟩ := (h st').1 h'
    rw [isNode_stepOf]
    rw [stepOf_item] at hnn
    by_cases hj : j % 2 = 0
    · exact hj
    · exact absurd (A.kinds i j (by omega) (by omega) hn (by omega) hnn.symm) hname

theorem backward_wf (A : Admissible σ symbols p xs index) : ∀ (i : Nat), i ≤ index → ∀ (done : List Step) (pend : Option Nat),
    Between p xs index i p.length done → (0 < i → pend = pendAfter (stepOf p (some xs) index i)) → (i = 0 → pend = none) →
    WF σ symbols done pend ((List.range i).reverse.map (stepOf p (some xs) index))
  | 0, _, done, pend, _, _, hp0 => hp0 rfl
  | i + 1, hi, done, pend, hb, hp, _ => by
    rw [List.range_succ, List.reverse_append]
    refine ⟨by rw [hp (by omega)]; exact backward_ok A hb (by omega), ?_⟩
    refine backward_wf A i (by omega) _ _ (fun st => ?_) (fun _ => rfl) (fun h => ?_)
    · rw [List.mem_append, hb, List.mem_singleton]
      constructor
      · rintro (⟨j, a, b, c⟩ | rfl)
        · exact ⟨j, by omega, b, c⟩
        · exact ⟨i, by omega, by have := A.lt; omega, rfl⟩
      · rintro ⟨j, a, b, c⟩
        by_cases hj : j = i
        · right; rw [c, hj]
        · left; exact ⟨j, by omega, b, c⟩
    · exact pendAfter_node (by omega)

theorem forward_wf (A : Admissible σ symbols p xs index) : ∀ (m i : Nat), index < i → i + m = p.length → ∀ (done : List Step),
    Between p xs index index i done →
    WF σ symbols done (pendAfter (stepOf p (some xs) index (i - 1)))
      ((List.range' i m).map (stepOf p (some xs) index) ++ (List.range index).reverse.map (stepOf p (some xs) index))
  | 0, i, hi, hm, done, hb => by
    have hlast : pendAfter (stepOf p (some xs) index (i - 1)) = none := pendAfter_node (by have := A.odd; omega)
    rw [hlast]
    have hin : pendAfter (stepOf p (some xs) index index) = none := pendAfter_start
    exact backward_wf A index (Nat.le_refl _) done none (by rw [← hm]; exact hb) (fun _ => hin.symm) (fun _ => rfl)
  | m + 1, i, hi, hm, done, hb => by
    rw [List.range'_succ]
    refine ⟨forward_ok A hb hi (by omega), ?_⟩
    have := forward_wf A m (i + 1) (by omega) (by omega) (done ++ [stepOf p (some xs) index i]) (fun st => by
      rw [List.mem_append, hb, List.mem_singleton]
      constructor
      · rintro (⟨j, a, b, c⟩ | rfl)
        · exact ⟨j, a, by omega, c⟩
        · exact ⟨i, by omega, by omega, rfl⟩
      · rintro ⟨j, a, b, c⟩
        by_cases hj : j = i
        · right; rw [c, hj]
        · left; exact ⟨j, a, by omega, c⟩)
    simpa using this

theorem plan_wf (A : Admissible σ symbols p xs index) :
    WF σ symbols [] none ((order index p.length).map (stepOf p (some xs) index)) := by
  unfold order
  rw [List.map_cons, List.map_append]
  have hproc : (stepOf p (some xs) index index).proc = if index % 2 = 0 then .nodes (some xs) else .edges (some xs) := by
    exact start_proc
  have hlt := A.lt
  refine ⟨⟨by simp, ?_, fun _ _ => ⟨rfl, rfl⟩, fun _ _ _ => rfl, ?_, ?_⟩, ?_⟩
  · unfold SrcOk
    rw [hproc]
    by_cases h : index % 2 = 0
    · rw [if_pos h]; exact ⟨xs, rfl, A.nodes h⟩
    · rw [if_neg h]; exact ⟨xs, rfl, A.edges (by omega)⟩
  · intro src use pn hc
    rw [hproc] at hc
    split at hc <;> cases hc
  · intro hn hname
    rw [isNode_stepOf] at hn
    rw [stepOf_item] at hname ⊢
    exact ⟨by simp, fun sym => A.bound index A.lt hn hname sym⟩
  · have := forward_wf A (p.length - (index + 1)) (index + 1) (by omega) (by omega) [stepOf p (some xs) index index]
      (fun st => by
        rw [List.mem_singleton]
        constructor
        · rintro rfl; exact ⟨index, by omega, by omega, rfl⟩
        · rintro ⟨j, a, b, c⟩
          have : j = index := by omega
          rw [c, this])
    simpa using this

end

end Pat
end LPG
