import Verif.Spec.LabelLeft
import Verif.Proofs.Sets
import Verif.Proofs.Kept
/-! # The label index after every history -/
namespace LPG
open State

/-- The label index has the labels of the nodes and what was left. -/
structure LblLeft (left : Nat → List String) (s : State) (σ : Spec) : Prop where
  ok : s.byLabel.Ok
  mem : ∀ n l, n ∈ s.byLabel.members l ↔ (n ∈ σ.nodes ∧ l ∈ s.nLabels n) ∨ l ∈ left n
  apart : ∀ n, ∀ l ∈ left n, l ∉ s.nLabels n
  nodup : ∀ n, (left n).Nodup
  nolab : ∀ n, n ∈ AMap.keys s.byLabel.nolabels ↔ n ∈ σ.nodes ∧ s.nLabels n = []
  fresh : ∀ n, s.idBase ≤ n → left n = []

theorem LblLeft.init : LblLeft (fun _ => []) State.new Spec.new :=
  ⟨NodeMap.Ok.empty, by simp [State.new, NodeMap.members_empty, Spec.new], by simp, by simp,
    by simp [State.new, NodeMap.empty, AMap.keys, Spec.new], by simp⟩

theorem LblLeft.congr {left : Nat → List String} {s s' : State} {σ σ' : Spec} (h : LblLeft left s σ)
    (h1 : s'.byLabel = s.byLabel) (h2 : s'.nLabels = s.nLabels) (h3 : s.idBase ≤ s'.idBase)
    (h4 : σ'.nodes = σ.nodes) : LblLeft left s' σ' :=
  ⟨h1 ▸ h.ok, by rw [h1, h2, h4]; exact h.mem, by rw [h2]; exact h.apart, h.nodup, by rw [h1, h2, h4]; exact h.nolab,
    fun n hn => h.fresh n (Nat.le_trans h3 hn)⟩

theorem LblLeft.step {left : Nat → List String} {s s' : State} {σ : Spec} {op : Op} (c : Core s σ) (h : LblLeft left s σ)
    (hv : σ.Valid op) (hs : LPG.step s op = some s') : LblLeft (op.leftLabels σ left) s' (σ.step op) := by
  cases op with
  | newNode ls ps =>
    obtain ⟨ixs, _, rfl⟩ := newNode_frame hs
    have hnx := c.next
    have hlt := c.nLt
    refine ⟨h.ok.add _ _, ?_, ?_, h.nodup, ?_, fun n hn => h.fresh n (Nat.le_of_succ_le hn)⟩
    · intro n l
      simp only
      rw [NodeMap.mem_add, h.mem]
      simp only [Spec.step, List.mem_append, List.mem_singleton, upd_apply, Op.leftLabels]
      by_cases hnn : n = s.idBase
      · subst hnn
        have : σ.next ∉ σ.nodes := fun hh => by have := hlt _ hh; omega
        have h0 : left σ.next = [] := h.fresh _ (by omega)
        simp [this, hnx, h0]
      · have : n ≠ σ.next := by omega
        simp [hnn, this]
    · intro n l hl
      simp only [Op.leftLabels] at hl
      simp only [upd_apply]
      by_cases hnn : n = s.idBase
      · rw [hnn, h.fresh _ (Nat.le_refl _)] at hl; cases hl
      · rw [if_neg hnn]; exact h.apart n l hl
    · intro n
      simp only
      rw [NodeMap.mem_nolabels_add, h.nolab]
      simp only [Spec.step, List.mem_append, List.mem_singleton, upd_apply]
      by_cases hnn : n = s.idBase
      · subst hnn
        have : σ.next ∉ σ.nodes := fun hh => by have := hlt _ hh; omega
        simp [this, hnx]
      · have : n ≠ σ.next := by omega
        simp [hnn, this]
  | newEdge a b l ps =>
    obtain ⟨h1, h2, h3, h4, h5, h6, _⟩ := newEdge_frame hs
    exact h.congr h6 h4 (by rw [h3]; exact Nat.le_succ _) rfl
  | setLabels n ls =>
    cases hs
    simp only [Spec.Valid] at hv
    have hlab := (c.labels n hv.1).2
    have hnl : ∀ l, l ∈ (if ls = [] then (left n ++ σ.labels n).eraseDups else (left n).filter (fun l => l ∉ ls)) ↔
        (if ls = [] then l ∈ left n ∨ l ∈ s.nLabels n else l ∈ left n ∧ l ∉ ls) := by
      intro l
      split
      · rw [List.mem_eraseDups, List.mem_append, hlab]
      · simp
    refine ⟨h.ok.replace _ _ _, ?_, ?_, ?_, ?_, ?_⟩
    · intro m l
      simp only [State.setLabels, Spec.step, Op.leftLabels]
      rw [NodeMap.mem_replace, h.mem]
      simp only [upd_apply]
      by_cases hmn : m = n
      · subst hmn
        simp only [hv.1, if_true, true_and]
        rw [hnl]
        have ha := h.apart m l
        by_cases hl : ls = []
        · subst hl; simp [or_comm]
        · simp only [hl, false_or, if_false]; grind
      · simp [hmn]
    · intro m l hl
      simp only [Op.leftLabels, upd_apply] at hl
      simp only [State.setLabels, upd_apply]
      by_cases hmn : m = n
      · rw [if_pos hmn] at hl ⊢
        rw [hnl] at hl
        split at hl
        · rename_i h0; simp [h0]
        · exact hl.2
      · rw [if_neg hmn] at hl ⊢; exact h.apart m l hl
    · intro m
      simp only [Op.leftLabels, upd_apply]
      split
      · split
        · exact (eraseDups_spec _).1
        · exact (h.nodup n).filter _
      · exact h.nodup m
    · intro m
      simp only [State.setLabels, Spec.step]
      rw [NodeMap.mem_nolabels_replace, h.nolab, upd_apply]
      by_cases hmn : m = n
      · subst hmn
        simp only [hv.1, if_true, true_and]
        by_cases hl : ls = []
        · subst hl
          cases hx : s.nLabels m <;> simp
        · simp [hl]
      · simp [hmn]
    · intro m hm
      have : m ≠ n := by
        rintro rfl
        have := c.nLt m hv.1
        have := c.next
        simp only [State.setLabels] at hm
        omega
      simp only [Op.leftLabels, upd_other _ _ this]
      exact h.fresh m hm
  | setNodeProp n k v => obtain ⟨ixs, rfl⟩ := setNodeProp_frame hs; exact h.congr rfl rfl (Nat.le_refl _) rfl
  | removeNodeProp n k => obtain ⟨ixs, rfl⟩ := removeNodeProp_frame hs; exact h.congr rfl rfl (Nat.le_refl _) rfl
  | detach n =>
    obtain ⟨p0, p1, p2, im, om, ae, ix, rfl⟩ := detachNode_frame hs
    exact h.congr rfl rfl (Nat.le_refl _) rfl
  | detachRemove n =>
    simp only [LPG.step, State.detachRemoveNode] at hs
    split at hs
    · cases hs
    · rename_i s1 h1
      obtain ⟨p0, p1, p2, im, om, ae, ix, rfl⟩ := detachNode_frame h1
      split at hs
      · cases hs
      · cases hs
        refine ⟨h.ok.remove _ _, ?_, h.apart, h.nodup, ?_, h.fresh⟩
        · intro m l
          simp only [Spec.step, List.mem_filter, State.withEdges]
          rw [NodeMap.mem_remove, h.mem]
          by_cases hmn : m = n
          · subst hmn
            have := h.apart m l
            simp only [Op.leftLabels]
            grind
          · simp [hmn, Op.leftLabels]
        · intro m
          simp only [Spec.step, List.mem_filter, State.withEdges]
          rw [NodeMap.mem_nolabels_remove, h.nolab]
          by_cases hmn : m = n
          · subst hmn; simp
          · simp [hmn]
  | setEdgeLabel e l =>
    simp only [LPG.step, State.setEdgeLabel] at hs
    split at hs
    · cases hs; exact h.congr rfl rfl (Nat.le_refl _) rfl
    · obtain ⟨p1, p2, im, om, rfl⟩ := connect_frame hs
      exact h.congr rfl rfl (Nat.le_refl _) rfl
  | setEdgeProp n k v => obtain ⟨ixs, rfl⟩ := setEdgeProp_frame hs; exact h.congr rfl rfl (Nat.le_refl _) rfl
  | removeEdgeProp n k => obtain ⟨ixs, rfl⟩ := removeEdgeProp_frame hs; exact h.congr rfl rfl (Nat.le_refl _) rfl
  | removeEdge e => cases hs; exact h.congr rfl rfl (Nat.le_refl _) rfl
  | addNodeIndex k t => obtain ⟨ixs, rfl⟩ := addNodeIndex_frame hs; exact h.congr rfl rfl (Nat.le_refl _) rfl
  | addEdgeIndex k t => obtain ⟨ixs, rfl⟩ := addEdgeIndex_frame hs; exact h.congr rfl rfl (Nat.le_refl _) rfl

theorem LblLeft.runFrom {ops : List Op} : ∀ {left : Nat → List String} {s s' : State} {σ : Spec}, Core s σ →
    LblLeft left s σ → σ.ValidFrom ops → LPG.runFrom s ops = some s' → LblLeft (σ.labelsLeftFrom left ops) s' (σ.runFrom ops) := by
  induction ops with
  | nil => intro left s s' σ _ h _ hs; simp [LPG.runFrom] at hs; subst hs; exact h
  | cons op ops ih =>
    intro left s s' σ c h hv hs
    rw [LPG.runFrom] at hs
    split at hs
    · cases hs
    · rename_i s1 h1
      exact ih (c.step hv.1 h1) (h.step c hv.1 h1) hv.2 hs

theorem LblLeft.run {ops : List Op} {s : State} (hv : Spec.ValidHistory ops) (hs : run ops = some s) :
    LblLeft (leftLabels ops) s (Spec.run ops) := LblLeft.runFrom Core.init LblLeft.init hv hs

theorem FSet.Ok.count {s : FSet Nat} (h : s.Ok) (p : Nat → Bool) (n : Nat) :
    (s.items.filter p).count n = if n ∈ AMap.keys s ∧ p n = true then 1 else 0 := by
  have hn : ((AMap.keys s).filter p).Nodup := h.nodup.filter p
  rw [h.items, hn.count]
  simp only [List.mem_filter]

/-- how often the iteration over the labels yields a node -/
theorem iterLabels_count (labelsOf : Nat → List String) (n : Nat) :
    ∀ (m : AMap String (FSet Nat)) (seen : List String), (∀ l s, (l, s) ∈ m → s ≠ [] ∧ FSet.Ok s) →
    ∃ xs, NodeMap.iterLabels labelsOf m seen = some xs ∧
      xs.count n ≤ (m.filter (fun p => n ∈ AMap.keys p.2 ∧ p.1 ∉ labelsOf n)).length +
        (if (∃ l ∈ seen, l ∈ labelsOf n) ∨ ∀ p ∈ m, p.1 ∈ labelsOf n → n ∉ AMap.keys p.2 then 0 else 1) ∧
      ((∀ l ∈ seen, l ∉ labelsOf n) → (∀ p ∈ m, p.1 ∈ labelsOf n → n ∈ AMap.keys p.2) → (∃ p ∈ m, p.1 ∈ labelsOf n) →
        1 ≤ xs.count n) ∧
      ((∀ a ∈ labelsOf n, ∀ b ∈ labelsOf n, a = b) → (seen ++ AMap.keys m).Nodup →
        xs.count n = (m.filter (fun p => n ∈ AMap.keys p.2)).length)
  | [], seen, _ => ⟨[], rfl, by simp, by simp, by simp⟩
  | (l, s) :: m, seen, hm => by
    obtain ⟨hne, hok⟩ := hm l s (by simp)
    obtain ⟨ys, h1, h2, h3, h4⟩ := iterLabels_count labelsOf n m (seen ++ [l])
      (fun l' s' h => hm l' s' (List.mem_cons_of_mem _ h))
    have hlen : s.length ≠ 0 := by simpa using hne
    have hone : seenOnce (labelsOf n) (seen ++ [l]) 0 = true ↔
        ((seen ++ [l]).filter (fun l => (labelsOf n).contains l)).length ≤ 1 := by
      rw [seenOnce_iff _ _ _ (by omega)]; omega
    have hseen : ((seen ++ [l]).filter (fun l => (labelsOf n).contains l)).length =
        (seen.filter (fun l => (labelsOf n).contains l)).length + if l ∈ labelsOf n then 1 else 0 := by
      rw [List.filter_append, List.length_append]
      congr 1
      by_cases hl : l ∈ labelsOf n <;> simp [hl]
    have hz : (seen.filter (fun l => (labelsOf n).contains l)).length = 0 ↔ ∀ l ∈ seen, l ∉ labelsOf n := by
      rw [List.length_eq_zero_iff, List.filter_eq_nil_iff]; simp
    refine ⟨s.items.filter (fun n => seenOnce (labelsOf n) (seen ++ [l]) 0) ++ ys,
      by simp only [NodeMap.iterLabels, hlen, if_false, h1], ?_, ?_, ?_⟩
    · rw [List.count_append, hok.count]
      by_cases hl : l ∈ labelsOf n
      · rw [List.filter_cons_of_neg (by simp [hl])]
        rw [if_pos (Or.inl ⟨l, by simp, hl⟩), Nat.add_zero] at h2
        have : (if n ∈ AMap.keys s ∧ seenOnce (labelsOf n) (seen ++ [l]) 0 = true then 1 else 0) ≤
            (if (∃ l ∈ seen, l ∈ labelsOf n) ∨ ∀ p ∈ (l, s) :: m, p.1 ∈ labelsOf n → n ∉ AMap.keys p.2 then 0 else 1) := by
          split
          · rename_i hc
            refine Nat.le_of_eq (if_neg ?_).symm
            rintro (⟨l', g1, g2⟩ | g)
            · have := hone.1 hc.2
              rw [hseen, if_pos hl] at this
              exact hz.1 (by omega) l' g1 g2
            · exact g (l, s) (by simp) hl hc.1
          · omega
        omega
      · have hx : ((∃ l' ∈ seen ++ [l], l' ∈ labelsOf n) ∨ ∀ p ∈ m, p.1 ∈ labelsOf n → n ∉ AMap.keys p.2) ↔
            ((∃ l ∈ seen, l ∈ labelsOf n) ∨ ∀ p ∈ (l, s) :: m, p.1 ∈ labelsOf n → n ∉ AMap.keys p.2) := by
          simp only [List.mem_append, List.mem_singleton, List.mem_cons, forall_eq_or_imp]
          grind
        simp only [hx] at h2
        by_cases hn : n ∈ AMap.keys s
        · rw [List.filter_cons_of_pos (by simp [hl, hn]), List.length_cons]
          have : (if n ∈ AMap.keys s ∧ seenOnce (labelsOf n) (seen ++ [l]) 0 = true then 1 else 0) ≤ 1 := by split <;> omega
          omega
        · rw [List.filter_cons_of_neg (by simp [hn]), if_neg (fun h => hn h.1)]
          omega
    · intro g1 g2 g3
      rw [List.count_append, hok.count]
      by_cases hl : l ∈ labelsOf n
      · rw [if_pos ⟨g2 (l, s) (by simp) hl, hone.2 (by rw [hseen, if_pos hl, hz.2 g1]; omega)⟩]
        omega
      · have := h3 (by
          intro l' hl'
          rcases List.mem_append.1 hl' with hl' | hl'
          · exact g1 l' hl'
          · rw [List.mem_singleton.1 hl']; exact hl) (fun p hp => g2 p (List.mem_cons_of_mem _ hp)) (by
          obtain ⟨p, hp, hq⟩ := g3
          rcases List.mem_cons.1 hp with rfl | hp
          · exact absurd hq hl
          · exact ⟨p, hp, hq⟩)
        omega
    · intro g1 g2
      have hnd : (seen ++ [l] ++ AMap.keys m).Nodup := by
        rw [List.append_assoc]; exact g2
      rw [List.count_append, hok.count, h4 g1 hnd]
      have hle : ((seen ++ [l]).filter (fun l => (labelsOf n).contains l)).length ≤ 1 := by
        have hnd1 := (List.nodup_append.1 hnd).1.filter (fun l => (labelsOf n).contains l)
        generalize hf : (seen ++ [l]).filter (fun l => (labelsOf n).contains l) = f at hnd1
        match f, hf, hnd1 with
        | [], _, _ => simp
        | [a], _, _ => simp
        | a :: b :: f, hf, hnd1 =>
          have ha : a ∈ (seen ++ [l]).filter (fun l => (labelsOf n).contains l) := by rw [hf]; simp
          have hb : b ∈ (seen ++ [l]).filter (fun l => (labelsOf n).contains l) := by rw [hf]; simp
          have e := g1 a (by simpa using (List.mem_filter.1 ha).2) b (by simpa using (List.mem_filter.1 hb).2)
          subst e
          simp at hnd1
      rw [List.filter_cons]
      by_cases hn : n ∈ AMap.keys s
      · simp only [hn, hone.2 hle, and_self, if_true, decide_true, List.length_cons]; omega
      · simp [hn]

end LPG
