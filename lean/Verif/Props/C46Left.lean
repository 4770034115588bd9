import Verif.Props.C20C21C46
import Verif.Proofs.LabelLeft
import Verif.Proofs.IndexAlways
/-!
# C46: what NodeMap.Iterator yields after every history

`leftLabels` (`Verif.Spec.LabelLeft`): the labels that were cleared and not given again.
-/
namespace LPG
open State

theorem filter_split {α : Type} (p q : α → Prop) [DecidablePred p] [DecidablePred q] : ∀ m : List α,
    (m.filter (fun x => p x)).length = (m.filter (fun x => p x ∧ ¬ q x)).length + (m.filter (fun x => p x ∧ q x)).length
  | [] => rfl
  | x :: m => by
    have := filter_split p q m
    rw [List.filter_cons, List.filter_cons, List.filter_cons]
    by_cases h1 : p x <;> by_cases h2 : q x <;> simp only [h1, h2, not_true, not_false_eq_true, and_self, and_true, and_false,
      true_and, false_and, decide_true, decide_false, if_true, Bool.false_eq_true, if_false, List.length_cons] <;> omega

theorem LblLeft.perm {left : Nat → List String} {s : State} {σ : Spec} (h : LblLeft left s σ) (n : Nat) :
    (s.byLabel.m.filter (fun p => n ∈ AMap.keys p.2 ∧ p.1 ∉ s.nLabels n)).length = (left n).length := by
  rw [← List.length_map (f := Prod.fst)]
  apply List.Perm.length_eq
  rw [List.perm_ext_iff_of_nodup (List.Nodup.sublist (List.filter_sublist.map _) h.ok.keys) (h.nodup n)]
  intro l
  have hm := h.mem n l
  have ha := h.apart n l
  unfold NodeMap.members at hm
  simp only [List.mem_map, List.mem_filter, decide_eq_true_eq]
  constructor
  · rintro ⟨⟨l', t⟩, ⟨g1, g2, g3⟩, rfl⟩
    rw [AMap.get_of_mem h.ok.keys g1] at hm
    rcases hm.1 g2 with h | h
    · exact absurd h.2 g3
    · exact h
  · intro hl
    have := hm.2 (Or.inr hl)
    cases hg : s.byLabel.m.get l with
    | none => rw [hg] at this; cases this
    | some t =>
      rw [hg] at this
      exact ⟨(l, t), ⟨AMap.get_mem hg, this, ha hl⟩, rfl⟩

/-- C46 after every history: every node is listed, and how often a node can be listed is known from the labels that were left;
exactly, if the node has at most one label. (With more labels it depends on the order in which the labels are in the
map.) -/
theorem C46_left (ops : List Op) (hv : Spec.ValidHistory ops) (s : State) (hs : run ops = some s) :
    ∃ ns, s.byLabel.iterator s.nLabels = some ns ∧ ∀ n,
      (n ∈ (Spec.run ops).nodes → 1 ≤ ns.count n ∧ ns.count n ≤ 1 + (leftLabels ops n).length) ∧
      (n ∉ (Spec.run ops).nodes → ns.count n ≤ (leftLabels ops n).length) ∧
      (((Spec.run ops).labels n).length ≤ 1 →
        ns.count n = (leftLabels ops n).length + if n ∈ (Spec.run ops).nodes then 1 else 0) := by
  have c := Core.run hv hs
  have kp := Kept.run hs
  have r := LblLeft.run hv hs
  have hget : ∀ l t, (l, t) ∈ s.byLabel.m → s.byLabel.m.get l = some t :=
    fun l t h => AMap.get_of_mem r.ok.keys h
  have hm : ∀ l t, (l, t) ∈ s.byLabel.m → t ≠ [] ∧ FSet.Ok t :=
    fun l t h => ⟨r.ok.nonempty l t (hget l t h), r.ok.sets l t (hget l t h)⟩
  have hmem : ∀ n l t, (l, t) ∈ s.byLabel.m →
      (n ∈ AMap.keys t ↔ (n ∈ (Spec.run ops).nodes ∧ l ∈ s.nLabels n) ∨ l ∈ leftLabels ops n) := by
    intro n l t h
    have := r.mem n l
    unfold NodeMap.members at this
    rw [hget l t h] at this
    exact this
  obtain ⟨xs, h0, _⟩ := iterLabels_count s.nLabels 0 s.byLabel.m [] hm
  refine ⟨xs ++ s.byLabel.nolabels.items, by simp only [NodeMap.iterator, h0], fun n => ?_⟩
  obtain ⟨ys, h1, h2, h3, h4⟩ := iterLabels_count s.nLabels n s.byLabel.m [] hm
  rw [h0] at h1; cases h1
  rw [r.perm] at h2
  have hno : s.byLabel.nolabels.items.count n = if n ∈ (Spec.run ops).nodes ∧ s.nLabels n = [] then 1 else 0 := by
    rw [r.ok.nolabels.items, (r.ok.nolabels.nodup : List.Nodup _).count]
    simp only [r.nolab]
  have hkey : n ∈ (Spec.run ops).nodes → s.nLabels n ≠ [] → ∃ p ∈ s.byLabel.m, p.1 ∈ s.nLabels n := by
    intro hn hl
    obtain ⟨l, hl⟩ := List.exists_mem_of_ne_nil _ hl
    have := (r.mem n l).2 (Or.inl ⟨hn, hl⟩)
    unfold NodeMap.members at this
    cases hg : s.byLabel.m.get l with
    | none => rw [hg] at this; cases this
    | some t => exact ⟨(l, t), AMap.get_mem hg, hl⟩
  rw [List.count_append, hno]
  refine ⟨fun hn => ?_, fun hn => ?_, fun hl => ?_⟩
  · by_cases he : s.nLabels n = []
    · have hz : (if (∃ l ∈ ([] : List String), l ∈ s.nLabels n) ∨
          ∀ p ∈ s.byLabel.m, p.1 ∈ s.nLabels n → n ∉ AMap.keys p.2 then 0 else 1) = 0 :=
        if_pos (Or.inr fun p _ h => by rw [he] at h; cases h)
      rw [hz] at h2
      rw [if_pos ⟨hn, he⟩]
      omega
    · rw [if_neg (fun h => he h.2)]
      have := h3 (by simp) (fun p hp h => (hmem n p.1 p.2 hp).2 (Or.inl ⟨hn, h⟩)) (hkey hn he)
      have : (if (∃ l ∈ ([] : List String), l ∈ s.nLabels n) ∨
          ∀ p ∈ s.byLabel.m, p.1 ∈ s.nLabels n → n ∉ AMap.keys p.2 then 0 else 1) ≤ 1 := by split <;> omega
      omega
  · have hz : (if (∃ l ∈ ([] : List String), l ∈ s.nLabels n) ∨
        ∀ p ∈ s.byLabel.m, p.1 ∈ s.nLabels n → n ∉ AMap.keys p.2 then 0 else 1) = 0 := by
      refine if_pos (Or.inr fun p hp h hk => ?_)
      rcases (hmem n p.1 p.2 hp).1 hk with g | g
      · exact hn g.1
      · exact r.apart n p.1 g h
    rw [hz] at h2
    rw [if_neg (fun h => hn h.1)]
    omega
  · have hone : ∀ a ∈ s.nLabels n, ∀ b ∈ s.nLabels n, a = b := by
      intro a ha b hb
      rw [kp.labels] at ha hb
      match hx : (Spec.run ops).labels n, hl with
      | [], _ => rw [hx] at ha; cases ha
      | [x], _ => rw [hx] at ha hb; rw [List.mem_singleton.1 ha, List.mem_singleton.1 hb]
      | _ :: _ :: _, hl => simp at hl
    rw [h4 hone (by simpa using r.ok.keys)]
    have hsplit : (s.byLabel.m.filter (fun p => n ∈ AMap.keys p.2)).length =
        (leftLabels ops n).length + (s.byLabel.m.filter (fun p => n ∈ AMap.keys p.2 ∧ p.1 ∈ s.nLabels n)).length := by
      rw [← r.perm n]
      exact filter_split (fun p : String × FSet Nat => n ∈ AMap.keys p.2) (fun p => p.1 ∈ s.nLabels n) _
    have hlab : (s.byLabel.m.filter (fun p => n ∈ AMap.keys p.2 ∧ p.1 ∈ s.nLabels n)).length =
        if n ∈ (Spec.run ops).nodes ∧ s.nLabels n ≠ [] then 1 else 0 := by
      have hk : ((s.byLabel.m.filter (fun p => n ∈ AMap.keys p.2 ∧ p.1 ∈ s.nLabels n)).map Prod.fst).Nodup :=
        List.Nodup.sublist (List.filter_sublist.map _) r.ok.keys
      have hall : ∀ p ∈ s.byLabel.m.filter (fun p => n ∈ AMap.keys p.2 ∧ p.1 ∈ s.nLabels n),
          n ∈ (Spec.run ops).nodes ∧ p.1 ∈ s.nLabels n := by
        intro p hp
        simp only [List.mem_filter, decide_eq_true_eq] at hp
        rcases (hmem n p.1 p.2 hp.1).1 hp.2.1 with g | g
        · exact g
        · exact absurd hp.2.2 (r.apart n p.1 g)
      split
      · rename_i hc
        obtain ⟨p, hp, hq⟩ := hkey hc.1 hc.2
        have hin : p ∈ s.byLabel.m.filter (fun p => n ∈ AMap.keys p.2 ∧ p.1 ∈ s.nLabels n) := by
          simp only [List.mem_filter, decide_eq_true_eq]
          exact ⟨hp, (hmem n p.1 p.2 hp).2 (Or.inl ⟨hc.1, hq⟩), hq⟩
        revert hk hall hin
        generalize s.byLabel.m.filter (fun p => n ∈ AMap.keys p.2 ∧ p.1 ∈ s.nLabels n) = f
        intro hk hall hin
        match f, hk, hall, hin with
        | [a], _, _, _ => rfl
        | a :: b :: f, hk, hall, _ =>
          have := hone a.1 (hall a (by simp)).2 b.1 (hall b (by simp)).2
          simp [this] at hk
      · rename_i hc
        rw [List.length_eq_zero_iff, List.eq_nil_iff_forall_not_mem]
        intro p hp
        have := hall p hp
        exact hc ⟨this.1, fun h => by rw [h] at this; cases this.2⟩
    rw [hsplit, hlab]
    by_cases g1 : n ∈ (Spec.run ops).nodes <;> by_cases g2 : s.nLabels n = [] <;> simp [g1, g2]

/-- So it is right if no labels are left (`C46_partial` is the case of histories that never clear labels) … -/
theorem C46_safe_partial (ops : List Op) (hv : Spec.ValidHistory ops) (hc : ∀ n, leftLabels ops n = []) :
    C46_statement ops := by
  intro s hs
  have c := Core.run hv hs
  obtain ⟨ns, h1, h2⟩ := C46_left ops hv s hs
  refine ⟨ns, h1, List.perm_iff_count.2 fun n => ?_⟩
  obtain ⟨g1, g2, _⟩ := h2 n
  rw [hc n] at g1 g2
  rw [(c.nNodup : List.Nodup _).count]
  by_cases hn : n ∈ (Spec.run ops).nodes
  · have := g1 hn
    rw [List.length_nil] at this
    rw [if_pos hn]
    omega
  · have := g2 hn
    rw [List.length_nil] at this
    rw [if_neg hn]
    omega

/-- … and only then, if no node has several labels. -/
theorem C46_iff (ops : List Op) (hv : Spec.ValidHistory ops) (hl : ∀ n, ((Spec.run ops).labels n).length ≤ 1) (s : State)
    (hs : run ops = some s) : C46_statement ops ↔ ∀ n, leftLabels ops n = [] := by
  refine ⟨fun h n => ?_, C46_safe_partial ops hv⟩
  have c := Core.run hv hs
  obtain ⟨ns, h1, h2⟩ := C46_left ops hv s hs
  obtain ⟨ms, h3, h4⟩ := h s hs
  rw [h1] at h3; cases h3
  have := (h2 n).2.2 (hl n)
  rw [h4.count_eq, (c.nNodup : List.Nodup _).count] at this
  apply List.length_eq_zero_iff.1
  omega

/-- `IsEmpty` after every history. -/
theorem C46_isEmpty_left (ops : List Op) (hv : Spec.ValidHistory ops) (s : State) (hs : run ops = some s) :
    s.byLabel.isEmpty = true ↔
      (∀ n ∈ (Spec.run ops).nodes, (Spec.run ops).labels n = []) ∧ ∀ n, leftLabels ops n = [] := by
  have kp := Kept.run hs
  have r := LblLeft.run hv hs
  have h1 : s.byLabel.isEmpty = true ↔ s.byLabel.m = [] := by
    unfold NodeMap.isEmpty
    split
    · rename_i h; simpa using List.length_eq_zero_iff.1 h
    · rename_i h; simpa using fun h' => h (by rw [h']; rfl)
  have h2 : s.byLabel.m = [] ↔ ∀ n l, n ∉ s.byLabel.members l := by
    constructor
    · intro h n l hm
      unfold NodeMap.members at hm
      rw [h] at hm; cases hm
    · intro h
      cases hm : s.byLabel.m with
      | nil => rfl
      | cons a m =>
        obtain ⟨l, t⟩ := a
        have hg : s.byLabel.m.get l = some t := AMap.get_of_mem r.ok.keys (by rw [hm]; simp)
        cases t with
        | nil => exact absurd rfl (r.ok.nonempty l _ hg)
        | cons x t =>
          refine absurd ?_ (h x.1 l)
          unfold NodeMap.members
          rw [hg]
          simp [AMap.keys]
  rw [h1, h2]
  simp only [r.mem, kp.labels, List.eq_nil_iff_forall_not_mem]
  grind

/-- labels are cleared and some are given again: the node 0 is listed twice, the removed node 1 once -/
def clearOps : List Op :=
  [.newNode ["A", "B"] [], .newNode ["A"] [], .newNode ["B"] [], .setLabels 0 [], .setLabels 1 [], .setLabels 2 [],
   .setLabels 0 ["B"], .setLabels 2 ["B"], .detachRemove 1]

example : Spec.ValidHistory clearOps ∧ leftLabels clearOps 0 = ["A"] ∧ leftLabels clearOps 1 = ["A"] ∧
    leftLabels clearOps 2 = [] ∧
    (run clearOps).bind (fun s => s.byLabel.iterator s.nLabels) = some [0, 1, 0, 2] := by decide +kernel

/-- labels are cleared and given again -/
example : Spec.ValidHistory [.newNode ["A", "B"] [], .setLabels 0 [], .setLabels 0 ["B", "C", "A"]] ∧
    ¬ NoLabelClearing [.newNode ["A", "B"] [], .setLabels 0 [], .setLabels 0 ["B", "C", "A"]] ∧
    leftLabels [.newNode ["A", "B"] [], .setLabels 0 [], .setLabels 0 ["B", "C", "A"]] 0 = [] := by decide +kernel

end LPG
