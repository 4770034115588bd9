import Verif.Proofs.PatternReport
/-!
# Names that are used twice in a pattern
-/
namespace LPG
namespace Pat
open VPath

theorem UpTo.refl {index j : Nat} : UpTo index j j := by unfold UpTo; split <;> omega

theorem UpTo.antisymm {index i j : Nat} (h1 : UpTo index j i) (h2 : UpTo index i j) : i = j := by
  unfold UpTo at h1 h2
  split at h1 <;> split at h2 <;> omega

theorem visited_upTo {index j : Nat} (he : j % 2 = 0) : Visited (UpTo index j) index := by
  constructor <;> unfold UpTo
  · split <;> omega
  · intro i h; split <;> omega
  · intro i h; split <;> omega
  · intro i ho h; split <;> omega
  · intro i ho h; split <;> omega

/-- the items visited up to one -/
theorem order_split {index len j : Nat} (hi : index < len) (hj : j < len) :
    ∃ pre post, order index len = pre ++ j :: post ∧ ∀ k, k ∈ pre ++ [j] ↔ k < len ∧ UpTo index j k := by
  unfold order UpTo
  rcases Nat.lt_trichotomy j index with h | h | h
  · refine ⟨index :: (List.range' (index + 1) (len - (index + 1)) ++ (List.range' (j + 1) (index - (j + 1))).reverse),
      (List.range j).reverse, ?_, fun k => ?_⟩
    · have e : List.range index = List.range j ++ j :: List.range' (j + 1) (index - (j + 1)) := by
        rw [List.range_eq_range', List.range_eq_range', ← List.range'_succ, show index - (j + 1) + 1 = index - j by omega]
        have := List.range'_append (s := 0) (m := j) (n := index - j) (step := 1)
        rw [Nat.zero_add, Nat.one_mul] at this
        rw [this, Nat.add_sub_cancel' (Nat.le_of_lt h)]
      rw [e]
      simp
    · simp only [List.mem_append, List.mem_cons, List.mem_range'_1, List.mem_reverse, List.not_mem_nil, or_false]
      rw [if_neg (by omega)]
      omega
  · subst h
    refine ⟨[], _, rfl, fun k => ?_⟩
    simp
    omega
  · refine ⟨index :: List.range' (index + 1) (j - (index + 1)), List.range' (j + 1) (len - (j + 1)) ++ (List.range index).reverse, ?_,
      fun k => ?_⟩
    · have e : List.range' (index + 1) (len - (index + 1)) =
          List.range' (index + 1) (j - (index + 1)) ++ j :: List.range' (j + 1) (len - (j + 1)) := by
        rw [← List.range'_succ, show len - (j + 1) + 1 = len - j by omega]
        have := List.range'_append (s := index + 1) (m := j - (index + 1)) (n := len - j) (step := 1)
        rw [Nat.one_mul, show index + 1 + (j - (index + 1)) = j by omega,
          show j - (index + 1) + (len - j) = len - (index + 1) by omega] at this
        exact this.symm
      rw [e]
      simp
    · simp only [List.mem_append, List.mem_cons, List.mem_range'_1, List.not_mem_nil, or_false]
      rw [if_pos (by omega)]
      omega

/-- the node at which the edge of the start begins -/
def tipBefore (σ : Spec) (d : State.Dir) : Option Res → Option Res
  | some (.path q) =>
    match q.path with
    | [pe] => some (.node (tipOf σ d pe.edge))
    | _ => none
  | _ => none

section
variable {ops : List Op} (hv : Spec.ValidHistory ops) {s : State} (hs : run ops = some s)
variable {symbols : Symbols} {p : Pattern} {xs : List Nat} {index : Nat}
include hv hs

open Classical in
/-- the match of a report -/
theorem sound_respected {symbols' : Symbols} (A : Admissible (Spec.run ops) symbols p xs index)
    (E : Fair (Spec.run ops) symbols' p xs index)
    (hsame : ∀ i, i < p.length → i % 2 = 0 → (itemAt p i).name ≠ "" →
      AMap.get symbols' (itemAt p i).name = AMap.get symbols (itemAt p i).name) {ρ : Asg}
    (h : Sound s symbols (legsOf hv hs) (stepsOf p xs index) (stepsOf p xs index) ρ) :
    Respected (Spec.run ops) symbols' p index (matchOf index p.length ρ) := by
  intro i j U
  have hlt := A.lt
  have hodd := A.odd
  obtain ⟨pre, post, o1, o2⟩ := order_split hlt U.left.1
  obtain ⟨pre', post', p1, p2⟩ := order_split hlt U.right.1
  have hij : ¬ UpTo index i j := fun h => U.after.2 (UpTo.antisymm U.after.1 h)
  -- `i` comes before `j`
  have hi' : i ∈ pre' := by
    have := (p2 i).2 ⟨U.left.1, U.after.1⟩
    rcases List.mem_append.1 this with h | h
    · exact h
    · exact absurd (List.mem_singleton.1 h) U.after.2
  obtain ⟨pre2, mid, rfl⟩ := List.append_of_mem hi'
  have hnd : (order index p.length).Nodup := by
    unfold order
    rw [List.nodup_cons, List.nodup_append]
    refine ⟨?_, List.nodup_range', List.pairwise_reverse.2 (List.nodup_range.imp Ne.symm), ?_⟩
    · simp only [List.mem_append, List.mem_range'_1, List.mem_reverse, List.mem_range]; omega
    · intro a ha b hb
      simp only [List.mem_range'_1, List.mem_reverse, List.mem_range] at ha hb
      omega
  have hpre : pre = pre2 := by
    have heq : pre ++ i :: post = pre2 ++ i :: (mid ++ j :: post') := by rw [← o1, p1]; simp
    have hnd' := hnd
    rw [o1] at hnd
    rw [p1] at hnd'
    refine (first_unique (P := fun z => z = i) heq (fun z hz hzi => ?_) (fun z hz hzi => ?_) rfl rfl).1
    · rw [List.nodup_append] at hnd
      exact hnd.2.2 z hz i (by simp) hzi
    · rw [List.append_assoc, List.nodup_append] at hnd'
      exact hnd'.2.2 z hz i (by simp) hzi
  subst hpre
  let f := stepOf p (some xs) index
  have hsteps : stepsOf p xs index = (pre.map f ++ f i :: (mid.map f ++ [f j])) ++ post'.map f := by
    unfold stepsOf
    rw [p1]
    simp [f]
  have hF : Follows symbols (stepsOf p xs index) (pre.map f) (f i) (mid.map f) (f j) := by
    refine ⟨⟨_, hsteps.symm⟩, ⟨isNode_stepOf.2 U.left.2, isNode_stepOf.2 U.right.2⟩, ?_, ?_, ?_, ?_⟩
    · simpa [f] using U.name
    · simpa [f] using U.ne
    · have := U.free
      rw [hsame j U.right.1 U.right.2 U.ne] at this
      simpa [f] using this
    · intro st hst
      obtain ⟨k, hk, rfl⟩ := List.mem_map.1 hst
      simp only [f, stepOf_item]
      have hk' := (p2 k).1 (by simp [hk])
      refine U.next k hk'.1 hk'.2 (fun hu => ?_) (fun hkj => ?_)
      · have h1 := (o2 k).2 ⟨hk'.1, hu⟩
        rw [p1, List.append_assoc, show pre ++ ((i :: mid) ++ j :: post') = (pre ++ [i]) ++ (mid ++ j :: post') by simp,
          List.nodup_append] at hnd
        exact hnd.2.2 k h1 k (by simp [hk]) rfl
      · rw [p1, List.nodup_append] at hnd
        exact hnd.2.2 k (by simp [hk]) j (by simp) hkj
  obtain ⟨y, y1, y2, y3⟩ := h _ _ _ _ hF ⟨_, hsteps.symm⟩
  simp only [f, stepOf_ix] at y3
  -- the steps up to `j`
  have hmem : ∀ k, k < p.length → UpTo index j k → f k ∈ pre.map f ++ f i :: (mid.map f ++ [f j]) := by
    intro k hk hu
    have := List.mem_map_of_mem (f := f) ((p2 k).2 ⟨hk, hu⟩)
    simpa using this
  have hmem' : ∀ st ∈ pre.map f ++ f i :: (mid.map f ++ [f j]), ∃ k, k < p.length ∧ UpTo index j k ∧ st = f k := by
    intro st hst
    have : st ∈ (pre ++ i :: mid ++ [j]).map f := by simpa using hst
    obtain ⟨k, hk, rfl⟩ := List.mem_map.1 this
    exact ⟨k, ((p2 k).1 hk).1, ((p2 k).1 hk).2, rfl⟩
  have hg : ∀ st ∈ pre.map f ++ f i :: (mid.map f ++ [f j]), SrcOk (Spec.run ops) (pre.map f ++ f i :: (mid.map f ++ [f j])) st := by
    have w : WF (Spec.run ops) symbols [] none (stepsOf p xs index) := plan_wf A
    rw [hsteps] at w
    have := w.srcOk_prefix (by simp)
    rw [List.nil_append] at this
    exact this
  have hnode : ∀ k, k < p.length → UpTo index j k → k % 2 = 0 → ∃ n, y k = some (.node n) ∧ n ∈ (Spec.run ops).nodes := by
    intro k hk hu he
    have := node_val (legsOf_ok hv hs) hg y2 (hmem k hk hu) (isNode_stepOf.2 he)
    simpa [f] using this
  -- the node before the edge at which the search starts
  let w : Asg := if index % 2 = 1 ∧ ¬ UpTo index j (index - 1) then
    upd y (index - 1) (tipBefore (Spec.run ops) (flipDir (itemDir (itemAt p index))) (y index)) else y
  have hw : ∀ k, UpTo index j k → w k = y k := by
    intro k hu
    simp only [w]
    split
    · rename_i hc
      exact upd_other _ _ (fun hk => hc.2 (by rw [← hk]; exact hu))
    · rfl
  have G : GoodOn (UpTo index j) (Spec.run ops) symbols p xs index w := by
    refine done_goodOn hv hs A (visited_upTo U.right.2) ?_ ?_ ?_
    · intro k hk hu
      obtain ⟨v, v1, v2⟩ := y2 _ (hmem k hk hu)
      refine ⟨v, ?_, ?_⟩
      · rw [hw k hu]; simpa [f] using v1
      · rw [vals_dep (ρ' := y) (hg _ (hmem k hk hu)) (fun st hst => ?_)]
        · exact v2
        · obtain ⟨l, _, l2, rfl⟩ := hmem' st hst
          simpa [f] using hw l l2
    · intro k hk hu he
      rw [hw k hu]
      exact hnode k hk hu he
    · intro ho hS e hval
      rw [hw index (visited_upTo U.right.2).start] at hval
      simp only [w]
      rw [if_pos ⟨ho, hS⟩]
      simp [hval, tipBefore]
  have G' : GoodOn (UpTo index j) (Spec.run ops) symbols' p xs index w := by
    refine ⟨fun k hk hu he => ?_, G.edge⟩
    obtain ⟨n, h1, h2, h3⟩ := G.node k hk hu he
    exact ⟨n, h1, node_fits_congr (hsame k hk he) h2, h3⟩
  refine ⟨matchOf index p.length w, matchOf_length, fun k hk hu => ?_, goodOn_matches E G', ?_⟩
  · have hku : UpTo index j k := by
      have h1 := (o2 k).2 ⟨hk, hu⟩
      refine ((p2 k).1 ?_).2
      rcases List.mem_append.1 h1 with h1 | h1
      · simp [h1]
      · rw [List.mem_singleton.1 h1]; simp
    have := y1 (f k) (by
      have := List.mem_map_of_mem (f := f) ((o2 k).2 ⟨hk, hu⟩)
      simpa using this)
    simp only [f, stepOf_ix] at this
    rw [matchOf_get hk, matchOf_get hk, hw k hku, this]
  · obtain ⟨n, hn, _⟩ := hnode i U.left.1 U.after.1 U.left.2
    rw [matchOf_get U.right.1, matchOf_get U.left.1, hw j UpTo.refl, hw i U.after.1, y3, hn]
    rfl

end

end Pat
end LPG
