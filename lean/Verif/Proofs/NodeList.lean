import Verif.Proofs.Core
import Verif.Spec.Conditions

namespace LPG
open State

/-- The node pointers in the shape of a list slot. -/
def NPtr.slot (P : NPtr) : Slot := fun x => { next := P.next x, prev := P.prev x }

/-- The node list shows exactly `xs`. `tail` is right unless `dirty`. -/
structure NRep (P : NPtr) (l : NList) (xs : List Nat) (dirty : Bool) : Prop where
  head : l.head = xs.head?
  tail : dirty = false → l.tail = xs.getLast?
  seg : Seg P.slot none xs none

theorem NRep.init : NRep State.new.nptr State.new.allNodes [] false := by
  constructor <;> simp [State.new, Seg]

theorem NRep.add {P : NPtr} {l : NList} {xs : List Nat} {x : Nat} (h : NRep P l xs false) (hn : xs.Nodup)
    (hx : x ∉ xs) (hnx : P.next x = none) : NRep (l.add P x).1 (l.add P x).2 (xs ++ [x]) false := by
  obtain ⟨hh, ht, hs⟩ := h
  have ht := ht rfl
  rcases List.eq_nil_or_concat xs with rfl | ⟨ys, t, rfl⟩
  · simp only [List.head?_nil, List.getLast?_nil] at hh ht
    constructor
    · simp [NList.add, hh]
    · simp [NList.add]
    · simp [NList.add, ht, Seg, NPtr.slot, hnx]
  · simp only [List.concat_eq_append] at *
    have ht' : l.tail = some t := by simpa using ht
    have hty : t ∉ ys := by
      rw [List.nodup_append] at hn
      intro h; exact hn.2.2 t h t (by simp) rfl
    have hxt : x ≠ t := by rintro rfl; simp at hx
    constructor
    · cases hq : (ys ++ [t]).head? with
      | none => simp at hq
      | some a =>
        rw [hq] at hh
        simp only [NList.add, hh]
        cases ys <;> simpa using hq.symm
    · simp [NList.add]
    · rw [seg_append]
      constructor
      · have key := seg_setNext (nxt' := some x) hty hs
        simp only [List.head?_cons, Option.some_or]
        refine Seg.congr ?_ key
        intro y hy
        have hyx : y ≠ x := by rintro rfl; exact hx hy
        by_cases hyt : y = t
        · subst hyt; simp [NList.add, ht', NPtr.slot, upd_apply, hyx]
        · simp [NList.add, ht', NPtr.slot, upd_apply, hyx, hyt]
      · simp [NList.add, ht', Seg, NPtr.slot, upd_apply, hxt, hnx]

theorem NRep.remove {P : NPtr} {l : NList} {as bs : List Nat} {e : Nat} {d : Bool}
    (h : NRep P l (as ++ e :: bs) d) (hn : (as ++ e :: bs).Nodup) :
    NRep (l.remove P e).1 (l.remove P e).2 (as ++ bs) (d || bs.isEmpty) := by
  obtain ⟨hh, ht, hs⟩ := h
  rw [List.nodup_append] at hn
  obtain ⟨hna, hnb, hdis⟩ := hn
  simp only [List.nodup_cons] at hnb
  have hea : e ∉ as := fun h => hdis e h e (by simp) rfl
  rw [seg_append] at hs
  obtain ⟨hsa, hpe, hne, hsb⟩ := hs
  simp only [List.head?_cons, Option.some_or, Option.or_none, NPtr.slot] at hsa hne hpe
  rcases List.eq_nil_or_concat as with rfl | ⟨as', p, rfl⟩
  · have hpe' : P.prev e = none := by simpa using hpe
    cases bs with
    | nil =>
      have hne' : P.next e = none := by simpa using hne
      exact ⟨by simp [NList.remove, hpe', hne'], by simp, by simp [Seg]⟩
    | cons b bs =>
      have hne' : P.next e = some b := by simpa using hne
      have hbb : b ∉ bs := (List.nodup_cons.1 hnb.2).1
      refine ⟨by simp [NList.remove, hpe', hne'], ?_, ?_⟩
      · intro hd
        simp only [Bool.or_eq_false_iff] at hd
        simp [NList.remove, hpe', hne', ht hd.1]
      · have key := seg_setPrev (prev' := none) hbb hsb
        refine Seg.congr ?_ key
        intro x _
        by_cases hxb : x = b
        · subst hxb; simp [NList.remove, hpe', hne', NPtr.slot]
        · simp [NList.remove, hpe', hne', upd_apply, hxb, NPtr.slot]
  · simp only [List.concat_eq_append] at *
    have hpe' : P.prev e = some p := by simpa using hpe
    have hpe2 : p ≠ e := by rintro rfl; simp at hea
    have hpa : p ∉ as' := by
      rw [List.nodup_append] at hna
      intro h; exact hna.2.2 p h p (by simp) rfl
    have hpb : p ∉ bs := fun h => hdis p (by simp) p (by simp [h]) rfl
    cases bs with
    | nil =>
      have hne' : P.next e = none := by simpa using hne
      refine ⟨?_, by simp, ?_⟩
      · simp [NList.remove, hpe', hne', upd_apply, hpe2.symm]; rw [hh]; cases as' <;> simp
      · have key := seg_setNext (nxt' := none) hpa hsa
        simp only [List.append_nil]
        refine Seg.congr ?_ key
        intro x hx
        by_cases hxp : x = p
        · subst hxp; simp [NList.remove, hpe', hne', upd_apply, hpe2.symm, NPtr.slot]
        · simp [NList.remove, hpe', hne', upd_apply, hpe2.symm, hxp, NPtr.slot]
    | cons b bs =>
      have hne' : P.next e = some b := by simpa using hne
      have hbe : b ≠ e := by rintro rfl; simp at hnb
      have hbp : b ≠ p := by rintro rfl; simp at hpb
      have hbb : b ∉ bs := (List.nodup_cons.1 hnb.2).1
      refine ⟨?_, ?_, ?_⟩
      · simp [NList.remove, hpe', hne', upd_apply, hpe2.symm]; rw [hh]; cases as' <;> simp
      · intro hd
        simp only [Bool.or_eq_false_iff] at hd
        simp [NList.remove, hpe', hne', upd_apply, hpe2.symm, ht hd.1]
      · rw [seg_append]
        constructor
        · have key := seg_setNext (nxt' := some b) hpa hsa
          simp only [List.head?_cons, Option.some_or]
          refine Seg.congr ?_ key
          intro x hx
          have hxb : x ≠ b := by rintro rfl; exact hdis x hx x (by simp) rfl
          by_cases hxp : x = p
          · subst hxp; simp [NList.remove, hpe', hne', upd_apply, hpe2.symm, hxb, NPtr.slot]
          · simp [NList.remove, hpe', hne', upd_apply, hpe2.symm, hxp, hxb, NPtr.slot]
        · have key := seg_setPrev (prev' := some p) hbb hsb
          simp only [List.getLast?_append, List.getLast?_singleton, Option.some_or]
          refine Seg.congr ?_ key
          intro x hx
          have hxp : x ≠ p := by rintro rfl; exact hpb hx
          by_cases hxb : x = b
          · subst hxb; simp [NList.remove, hpe', hne', upd_apply, hpe2.symm, hxp, NPtr.slot]
          · simp [NList.remove, hpe', hne', upd_apply, hpe2.symm, hxp, hxb, NPtr.slot]

theorem perm_sublist_length {xs : List Nat} {b : Nat} (hn : xs.Nodup) (h : ∀ x ∈ xs, x < b) : xs.length ≤ b := by
  have hs : xs ⊆ List.range b := fun x hx => List.mem_range.2 (h x hx)
  have := (List.subperm_of_subset hn hs).length_le
  simpa using this

theorem detachNode_nodes {s s' : State} {n : Nat} (h : s.detachNode n = some s') :
    s'.nptr = s.nptr ∧ s'.allNodes = s.allNodes := by
  obtain ⟨p0, p1, p2, im, om, ae, ix, rfl⟩ := detachNode_frame h
  exact ⟨rfl, rfl⟩

theorem NRep.step {s s' : State} {σ : Spec} {op : Op} {d : Bool} (c : Core s σ)
    (h : NRep s.nptr s.allNodes σ.nodes d) (hv : σ.Valid op) (hs : LPG.step s op = some s')
    (hd : op.creates = true → d = false) : NRep s'.nptr s'.allNodes (σ.step op).nodes (σ.TailGone d op) := by
  cases op with
  | newNode ls ps =>
    obtain ⟨ixs, _, rfl⟩ := newNode_frame hs
    have hd := hd rfl
    subst hd
    have hnx := c.next
    have hnn : σ.next ∉ σ.nodes := fun hh => Nat.lt_irrefl _ (c.nLt _ hh)
    have h' : NRep { next := upd s.nptr.next s.idBase none, prev := upd s.nptr.prev s.idBase none } s.allNodes
        σ.nodes false := by
      refine ⟨h.head, h.tail, Seg.congr ?_ h.seg⟩
      intro x hx
      have : x ≠ s.idBase := by rw [hnx]; rintro rfl; exact hnn hx
      simp [NPtr.slot, upd_apply, this]
    have := h'.add (x := s.idBase) c.nNodup (by rw [hnx]; exact hnn) (by simp)
    rw [hnx] at this
    simpa [Spec.step, Spec.TailGone, hnx] using this
  | newEdge a b l ps =>
    simp only [LPG.step, newEdge_eq] at hs
    split at hs
    · cases hs
    · split at hs
      · cases hs
      · rename_i s1 h1
        obtain ⟨p1, p2, im, om, rfl⟩ := connect_frame h1
        simp only at hs
        split at hs
        · cases hs
        · cases hs; exact h
  | setLabels n ls => cases hs; exact h
  | setNodeProp n k v => obtain ⟨ixs, rfl⟩ := setNodeProp_frame hs; exact h
  | removeNodeProp n k => obtain ⟨ixs, rfl⟩ := removeNodeProp_frame hs; exact h
  | detach n =>
    obtain ⟨h1, h2⟩ := detachNode_nodes hs
    rw [h1, h2]; exact h
  | detachRemove n =>
    simp only [LPG.step, State.detachRemoveNode] at hs
    split at hs
    · cases hs
    · rename_i s1 h1
      obtain ⟨h2, h3⟩ := detachNode_nodes h1
      split at hs
      · cases hs
      · cases hs
        obtain ⟨as, bs, hsp, her⟩ := split_of_mem c.nNodup hv
        have hr := NRep.remove (hsp ▸ h) (hsp ▸ c.nNodup)
        have hf : (σ.step (.detachRemove n)).nodes = as ++ bs := by
          rw [← her, List.Nodup.erase_eq_filter c.nNodup]
          apply List.filter_congr; intro x _; by_cases hx : x = n <;> simp [hx]
        have ht : σ.TailGone d (.detachRemove n) = (d || bs.isEmpty) := by
          simp only [Spec.TailGone]
          congr 1
          rw [hsp, List.getLast?_append, List.getLast?_cons]
          have hnd := c.nNodup
          rw [hsp] at hnd
          cases hb : bs.getLast? with
          | none =>
            have := List.getLast?_eq_none_iff.1 hb
            simp [this]
          | some z =>
            have hz : z ∈ bs := List.mem_of_getLast? hb
            have hzn : z ≠ n := by
              rintro rfl
              rw [List.nodup_append] at hnd
              exact (List.nodup_cons.1 hnd.2.1).1 hz
            have : bs ≠ [] := by rintro rfl; simp at hz
            simp [hzn, this]
        rw [hf, ht]
        simp only [h2, h3]; exact hr
  | setEdgeLabel e l =>
    simp only [LPG.step, State.setEdgeLabel] at hs
    split at hs
    · cases hs; exact h
    · obtain ⟨p1, p2, im, om, rfl⟩ := connect_frame hs
      exact h
  | setEdgeProp n k v => obtain ⟨ixs, rfl⟩ := setEdgeProp_frame hs; exact h
  | removeEdgeProp n k => obtain ⟨ixs, rfl⟩ := removeEdgeProp_frame hs; exact h
  | removeEdge e => cases hs; exact h
  | addNodeIndex k t => obtain ⟨ixs, rfl⟩ := addNodeIndex_frame hs; exact h
  | addEdgeIndex k t => obtain ⟨ixs, rfl⟩ := addEdgeIndex_frame hs; exact h

theorem NRep.runFrom {ops : List Op} : ∀ {s s' : State} {σ : Spec} {d : Bool}, Core s σ →
    NRep s.nptr s.allNodes σ.nodes d → σ.ValidFrom ops → σ.NoCreateAfterTail d ops →
    LPG.runFrom s ops = some s' → ∃ d', NRep s'.nptr s'.allNodes (σ.runFrom ops).nodes d' := by
  induction ops with
  | nil => intro s s' σ d _ h _ _ hs; simp [LPG.runFrom] at hs; subst hs; exact ⟨d, h⟩
  | cons op ops ih =>
    intro s s' σ d c h hv hd hs
    rw [LPG.runFrom] at hs
    split at hs
    · cases hs
    · rename_i s1 h1
      exact ih (c.step hv.1 h1) (h.step c hv.1 h1 hd.1) hv.2 hd.2 hs

theorem NRep.getNodes {s : State} {σ : Spec} {d : Bool} (c : Core s σ)
    (h : NRep s.nptr s.allNodes σ.nodes d) : s.getNodes = some σ.nodes := by
  unfold State.getNodes
  rw [h.head]
  have := walk_seg (P := s.nptr.slot) (fuel := s.idBase) h.seg
    (perm_sublist_length c.nNodup (by rw [c.next]; exact c.nLt))
  exact this

end LPG
