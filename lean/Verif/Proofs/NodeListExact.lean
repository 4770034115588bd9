import Verif.Proofs.Mono
import Verif.Spec.ListOk

namespace LPG
open State

/-- The list shows `xs` when it is walked from the head; `pr` is what the first node points back to. -/
structure NVis (P : NPtr) (l : NList) (xs : List Nat) (pr : Option Nat) : Prop where
  head : l.head = xs.head?
  seg : Seg P.slot pr xs none

/-- appending behind the real last node -/
theorem NVis.add {P : NPtr} {l : NList} {xs : List Nat} {x : Nat} {pr : Option Nat} (h : NVis P l xs pr)
    (ht : l.tail = xs.getLast?) (hne : xs ≠ []) (hn : xs.Nodup)
    (hx : x ∉ xs) (hnx : P.next x = none) : NVis (l.add P x).1 (l.add P x).2 (xs ++ [x]) pr := by
  obtain ⟨hh, hs⟩ := h
  rcases List.eq_nil_or_concat xs with rfl | ⟨ys, t, rfl⟩
  · exact absurd rfl hne
  · simp only [List.concat_eq_append] at *
    have ht' : l.tail = some t := by simpa using ht
    have hty : t ∉ ys := by
      rw [List.nodup_append] at hn
      intro h; exact hn.2.2 t h t (by simp) rfl
    have hxt : x ≠ t := by rintro rfl; simp at hx
    constructor
    · cases hq : (ys ++ [t]).head? with
      | none => simp at hq
      | some a =>
        rw [hq] at hh
        simp only [NList.add, hh]
        cases ys <;> simpa using hq.symm
    · rw [seg_append]
      constructor
      · have key := seg_setNext (nxt' := some x) hty hs
        simp only [List.head?_cons, Option.some_or]
        refine Seg.congr ?_ key
        intro y hy
        have hyx : y ≠ x := by rintro rfl; exact hx hy
        by_cases hyt : y = t
        · subst hyt; simp [NList.add, ht', NPtr.slot, upd_apply, hyx]
        · simp [NList.add, ht', NPtr.slot, upd_apply, hyx, hyt]
      · simp [NList.add, ht', Seg, NPtr.slot, upd_apply, hxt, hnx]

/-- the first node of an empty list -/
theorem NVis.addFirst {P : NPtr} {l : NList} {x : Nat} (hh : l.head = none) (hnx : P.next x = none)
    (ht : l.tail ≠ some x) : NVis (l.add P x).1 (l.add P x).2 [x] l.tail := by
  constructor
  · simp [NList.add, hh]
  · cases hq : l.tail with
    | none => simp [NList.add, hq, Seg, NPtr.slot, hnx]
    | some t =>
      have : x ≠ t := by rintro rfl; exact ht hq
      simp [NList.add, hq, Seg, NPtr.slot, hnx, upd_apply, this]

/-- appending behind a node that the list does not show -/
theorem NVis.addLost {P : NPtr} {l : NList} {xs : List Nat} {x t : Nat} {pr : Option Nat} (h : NVis P l xs pr)
    (ht : l.tail = some t) (htx : t ∉ xs) (hne : xs ≠ []) (hx : x ∉ xs) :
    NVis (l.add P x).1 (l.add P x).2 xs pr := by
  obtain ⟨hh, hs⟩ := h
  constructor
  · cases hq : xs.head? with
    | none => simp at hq; exact absurd hq hne
    | some a => rw [hq] at hh; simp [NList.add, hh]
  · refine Seg.congr ?_ hs
    intro y hy
    have h1 : y ≠ x := by rintro rfl; exact hx hy
    have h2 : y ≠ t := by rintro rfl; exact htx hy
    simp [NList.add, ht, NPtr.slot, upd_apply, h1, h2]

/-- removing a node that the list shows -/
theorem NVis.remove {P : NPtr} {l : NList} {as bs : List Nat} {e : Nat} {pr : Option Nat}
    (h : NVis P l (as ++ e :: bs) pr) (hn : (as ++ e :: bs).Nodup) (hpr : as = [] → pr = none) :
    NVis (l.remove P e).1 (l.remove P e).2 (as ++ bs) pr := by
  obtain ⟨hh, hs⟩ := h
  rw [List.nodup_append] at hn
  obtain ⟨hna, hnb, hdis⟩ := hn
  simp only [List.nodup_cons] at hnb
  have hea : e ∉ as := fun h => hdis e h e (by simp) rfl
  rw [seg_append] at hs
  obtain ⟨hsa, hpe, hne, hsb⟩ := hs
  simp only [List.head?_cons, Option.some_or, Option.or_none, NPtr.slot] at hsa hne hpe
  rcases List.eq_nil_or_concat as with rfl | ⟨as', p, rfl⟩
  · have hp0 := hpr rfl
    rw [hp0] at hpe ⊢
    have hpe' : P.prev e = none := by simpa using hpe
    cases bs with
    | nil =>
      have hne' : P.next e = none := by simpa using hne
      exact ⟨by simp [NList.remove, hpe', hne'], by simp [Seg]⟩
    | cons b bs =>
      have hne' : P.next e = some b := by simpa using hne
      have hbb : b ∉ bs := (List.nodup_cons.1 hnb.2).1
      refine ⟨by simp [NList.remove, hpe', hne'], ?_⟩
      have key := seg_setPrev (prev' := none) hbb hsb
      refine Seg.congr ?_ key
      intro x _
      by_cases hxb : x = b
      · subst hxb; simp [NList.remove, hpe', hne', NPtr.slot]
      · simp [NList.remove, hpe', hne', upd_apply, hxb, NPtr.slot]
  · simp only [List.concat_eq_append] at *
    have hpe' : P.prev e = some p := by simpa using hpe
    have hpe2 : p ≠ e := by rintro rfl; simp at hea
    have hpa : p ∉ as' := by
      rw [List.nodup_append] at hna
      intro h; exact hna.2.2 p h p (by simp) rfl
    have hpb : p ∉ bs := fun h => hdis p (by simp) p (by simp [h]) rfl
    cases bs with
    | nil =>
      have hne' : P.next e = none := by simpa using hne
      refine ⟨?_, ?_⟩
      · simp [NList.remove, hpe', hne', upd_apply, hpe2.symm]; rw [hh]; cases as' <;> simp
      · have key := seg_setNext (nxt' := none) hpa hsa
        simp only [List.append_nil]
        refine Seg.congr ?_ key
        intro x hx
        by_cases hxp : x = p
        · subst hxp; simp [NList.remove, hpe', hne', upd_apply, hpe2.symm, NPtr.slot]
        · simp [NList.remove, hpe', hne', upd_apply, hpe2.symm, hxp, NPtr.slot]
    | cons b bs =>
      have hne' : P.next e = some b := by simpa using hne
      have hbe : b ≠ e := by rintro rfl; simp at hnb
      have hbp : b ≠ p := by rintro rfl; simp at hpb
      have hbb : b ∉ bs := (List.nodup_cons.1 hnb.2).1
      refine ⟨?_, ?_⟩
      · simp [NList.remove, hpe', hne', upd_apply, hpe2.symm]; rw [hh]; cases as' <;> simp
      · rw [seg_append]
        constructor
        · have key := seg_setNext (nxt' := some b) hpa hsa
          simp only [List.head?_cons, Option.some_or]
          refine Seg.congr ?_ key
          intro x hx
          have hxb : x ≠ b := by rintro rfl; exact hdis x hx x (by simp) rfl
          by_cases hxp : x = p
          · subst hxp; simp [NList.remove, hpe', hne', upd_apply, hpe2.symm, hxb, NPtr.slot]
          · simp [NList.remove, hpe', hne', upd_apply, hpe2.symm, hxp, hxb, NPtr.slot]
        · have key := seg_setPrev (prev' := some p) hbb hsb
          simp only [List.getLast?_append, List.getLast?_singleton, Option.some_or]
          refine Seg.congr ?_ key
          intro x hx
          have hxp : x ≠ p := by rintro rfl; exact hpb hx
          by_cases hxb : x = b
          · subst hxb; simp [NList.remove, hpe', hne', upd_apply, hpe2.symm, hxp, NPtr.slot]
          · simp [NList.remove, hpe', hne', upd_apply, hpe2.symm, hxp, hxb, NPtr.slot]

/-- what removing a node does to the tail -/
theorem NList.remove_tail (P : NPtr) (l : NList) (e : Nat) :
    (l.remove P e).2.tail = if P.next e = none then some e else l.tail := by
  cases hp : P.prev e <;> cases hn : P.next e <;> simp [NList.remove, hp, hn] <;>
    grind [upd_apply]

theorem step_nodeList {s s' : State} {op : Op} (hs : LPG.step s op = some s') :
    match op with
    | .newNode _ _ =>
      s'.nptr = (s.allNodes.add { next := upd s.nptr.next s.idBase none, prev := upd s.nptr.prev s.idBase none } s.idBase).1 ∧
      s'.allNodes = (s.allNodes.add { next := upd s.nptr.next s.idBase none, prev := upd s.nptr.prev s.idBase none } s.idBase).2
    | .detachRemove n => s'.nptr = (s.allNodes.remove s.nptr n).1 ∧ s'.allNodes = (s.allNodes.remove s.nptr n).2
    | _ => s'.nptr = s.nptr ∧ s'.allNodes = s.allNodes := by
  cases op with
  | newNode ls ps => obtain ⟨ixs, _, rfl⟩ := newNode_frame hs; exact ⟨rfl, rfl⟩
  | newEdge a b l ps => obtain ⟨h1, h2, h3, _⟩ := newEdge_frame hs; exact ⟨h1, h2⟩
  | setLabels n ls => cases hs; exact ⟨rfl, rfl⟩
  | setNodeProp n k v => obtain ⟨ixs, rfl⟩ := setNodeProp_frame hs; exact ⟨rfl, rfl⟩
  | removeNodeProp n k => obtain ⟨ixs, rfl⟩ := removeNodeProp_frame hs; exact ⟨rfl, rfl⟩
  | detach n => exact detachNode_nodes hs
  | detachRemove n =>
    simp only [LPG.step, State.detachRemoveNode] at hs
    split at hs
    · cases hs
    · rename_i s1 h1
      obtain ⟨h2, h3⟩ := detachNode_nodes h1
      split at hs
      · cases hs
      · cases hs; refine ⟨?_, ?_⟩ <;> simp only [h2, h3]
  | setEdgeLabel e l =>
    simp only [LPG.step, State.setEdgeLabel] at hs
    split at hs
    · cases hs; exact ⟨rfl, rfl⟩
    · obtain ⟨p1, p2, im, om, rfl⟩ := connect_frame hs
      exact ⟨rfl, rfl⟩
  | setEdgeProp n k v => obtain ⟨ixs, rfl⟩ := setEdgeProp_frame hs; exact ⟨rfl, rfl⟩
  | removeEdgeProp n k => obtain ⟨ixs, rfl⟩ := removeEdgeProp_frame hs; exact ⟨rfl, rfl⟩
  | removeEdge e => cases hs; exact ⟨rfl, rfl⟩
  | addNodeIndex k t => obtain ⟨ixs, rfl⟩ := addNodeIndex_frame hs; exact ⟨rfl, rfl⟩
  | addEdgeIndex k t => obtain ⟨ixs, rfl⟩ := addEdgeIndex_frame hs; exact ⟨rfl, rfl⟩

/-! ## While the operations are safe -/

/-- The list is as the flags say. -/
structure NOk (s : State) (σ : Spec) (f : ListFlags) : Prop where
  vis : ∃ pr, NVis s.nptr s.allNodes σ.nodes pr ∧ (f.restart = none → pr = none) ∧
    ∀ x, f.restart = some x → σ.nodes.head? = some x ∧ pr ≠ none
  good : f.gone = false → s.allNodes.tail = σ.nodes.getLast?
  bad : f.gone = true → ∃ t, s.allNodes.tail = some t ∧ t ∉ σ.nodes ∧ t < σ.next

theorem NOk.init : NOk State.new Spec.new { gone := false, restart := none } := by
  refine ⟨⟨none, ⟨rfl, trivial⟩, fun _ => rfl, by simp⟩, fun _ => rfl, by simp⟩

/-- the pointers of a new node are clear before it is added -/
theorem NVis.fresh {s : State} {xs : List Nat} {pr : Option Nat} (h : NVis s.nptr s.allNodes xs pr)
    (hx : s.idBase ∉ xs) :
    NVis { next := upd s.nptr.next s.idBase none, prev := upd s.nptr.prev s.idBase none } s.allNodes xs pr := by
  refine ⟨h.head, Seg.congr ?_ h.seg⟩
  intro x hx'
  have : x ≠ s.idBase := by rintro rfl; exact hx hx'
  simp [NPtr.slot, upd_apply, this]

theorem NList.add_tail (P : NPtr) (l : NList) (x : Nat) : (l.add P x).2.tail = some x := rfl

theorem Spec.remove_nodes {σ : Spec} {n : Nat} {as bs : List Nat} (hn : σ.nodes.Nodup)
    (hsp : σ.nodes = as ++ n :: bs) : (σ.step (.detachRemove n)).nodes = as ++ bs := by
  have hn' := hn
  rw [hsp, List.nodup_append] at hn'
  obtain ⟨_, h2, h3⟩ := hn'
  have h1 : n ∉ as := fun h => h3 n h n (by simp) rfl
  have h4 : n ∉ bs := (List.nodup_cons.1 h2).1
  show σ.nodes.filter (· ≠ n) = as ++ bs
  rw [hsp, List.filter_append, List.filter_cons_of_neg (by simp)]
  rw [List.filter_eq_self.2, List.filter_eq_self.2]
  · intro x hx; simp; rintro rfl; exact h4 hx
  · intro x hx; simp; rintro rfl; exact h1 hx

theorem NOk.step {s s' : State} {σ : Spec} {op : Op} {f : ListFlags} (c : Core s σ) (h : NOk s σ f)
    (hv : σ.Valid op) (hs : LPG.step s op = some s') (hd : σ.ListSafe f op) :
    NOk s' (σ.step op) (σ.listFlags f op) := by
  obtain ⟨⟨pr, hvis, hr0, hr1⟩, hgood, hbad⟩ := h
  have hnx := c.next
  have hN := step_nodeList hs
  cases op with
  | newNode ls ps =>
    simp only at hN
    have hnn : s.idBase ∉ σ.nodes := by rw [hnx]; exact fun hh => Nat.lt_irrefl _ (c.nLt _ hh)
    have hvf := hvis.fresh hnn
    have htl : s'.allNodes.tail = some s.idBase := by rw [hN.2]; rfl
    have hnodes : (σ.step (.newNode ls ps)).nodes = σ.nodes ++ [s.idBase] := by rw [hnx]; rfl
    refine ⟨?_, fun _ => by rw [htl, hnodes]; simp, fun hh => by simp [Spec.listFlags] at hh⟩
    rw [hN.1, hN.2, hnodes]
    by_cases hne : σ.nodes = []
    · have hh : s.allNodes.head = none := by rw [hvis.head, hne]; rfl
      have hrn : f.restart = none := by
        cases hq : f.restart with
        | none => rfl
        | some x => have := (hr1 x hq).1; rw [hne] at this; cases this
      rw [hne, List.nil_append]
      cases hg : f.gone with
      | false =>
        have ht : s.allNodes.tail = none := by rw [hgood hg, hne]; rfl
        refine ⟨none, ?_, fun _ => rfl, ?_⟩
        · have := NVis.addFirst (P := { next := upd s.nptr.next s.idBase none, prev := upd s.nptr.prev s.idBase none })
            (x := s.idBase) hh (by simp) (by rw [ht]; simp)
          rw [ht] at this; exact this
        · intro x hx; simp [Spec.listFlags, hg, hrn] at hx
      | true =>
        obtain ⟨t, ht, _, htl⟩ := hbad hg
        refine ⟨some t, ?_, ?_, ?_⟩
        · have := NVis.addFirst (P := { next := upd s.nptr.next s.idBase none, prev := upd s.nptr.prev s.idBase none })
            (x := s.idBase) hh (by simp) (by rw [ht, hnx]; simp; omega)
          rw [ht] at this; exact this
        · intro hh; simp [Spec.listFlags, hg] at hh
        · intro x hx
          simp [Spec.listFlags, hg] at hx
          exact ⟨by simp [hnx, hx], by simp⟩
    · have hg : f.gone = false := hd.resolve_right hne
      refine ⟨pr, hvf.add (hgood hg) hne c.nNodup hnn (by simp), ?_, ?_⟩
      · intro hh; simp [Spec.listFlags, hg] at hh; exact hr0 hh
      · intro x hx
        simp [Spec.listFlags, hg] at hx
        obtain ⟨h1, h2⟩ := hr1 x hx
        exact ⟨by rw [List.head?_append, h1]; rfl, h2⟩
  | detachRemove n =>
    simp only at hN
    obtain ⟨as, bs, hsp, -⟩ := split_of_mem c.nNodup hv
    have hnodes := Spec.remove_nodes c.nNodup hsp
    have hnd := c.nNodup
    rw [hsp] at hnd hvis
    have has : as = [] → pr = none := by
      rintro rfl
      apply hr0
      cases hq : f.restart with
      | none => rfl
      | some x =>
        have := (hr1 x hq).1
        rw [hsp] at this
        simp at this
        exact absurd (by rw [hq, this]) hd
    have hnb : n ∉ as ++ bs := by
      rw [List.nodup_append] at hnd
      rw [List.mem_append]
      rintro (hh | hh)
      · exact hnd.2.2 n hh n (by simp) rfl
      · exact (List.nodup_cons.1 hnd.2.1).1 hh
    have hnext : s.nptr.next n = bs.head? := by
      have := (seg_append.1 hvis.seg).2.2.1
      simpa [NPtr.slot] using this
    have htl : s'.allNodes.tail = if bs = [] then some n else s.allNodes.tail := by
      rw [hN.2, NList.remove_tail, hnext]
      cases bs <;> simp
    have hlast : σ.nodes.getLast? = some n ↔ bs = [] := by
      rw [hsp, List.getLast?_append, List.getLast?_cons]
      cases hb : bs.getLast? with
      | none => have := List.getLast?_eq_none_iff.1 hb; simp [this]
      | some z =>
        have hz : z ∈ bs := List.mem_of_getLast? hb
        have hzn : z ≠ n := by rintro rfl; exact hnb (List.mem_append_right _ hz)
        have : bs ≠ [] := by rintro rfl; simp at hz
        simp [hzn, this]
    refine ⟨?_, ?_, ?_⟩
    · rw [hN.1, hN.2, hnodes]
      refine ⟨pr, hvis.remove hnd has, hr0, ?_⟩
      intro x hx
      obtain ⟨h1, h2⟩ := hr1 x hx
      refine ⟨?_, h2⟩
      rw [hsp] at h1
      cases as with
      | nil => exact absurd (has rfl) h2
      | cons a as => simpa using h1
    · intro hg
      simp only [Spec.listFlags, Bool.or_eq_false_iff, decide_eq_false_iff_not, hlast] at hg
      rw [htl, if_neg hg.2, hgood hg.1, hnodes, hsp, List.getLast?_append, List.getLast?_append, List.getLast?_cons]
      cases hb : bs.getLast? with
      | none => exact absurd (List.getLast?_eq_none_iff.1 hb) hg.2
      | some z => simp
    · intro hg
      rw [htl, hnodes]
      by_cases hb : bs = []
      · rw [if_pos hb]; exact ⟨n, rfl, hnb, c.nLt n hv⟩
      · rw [if_neg hb]
        simp only [Spec.listFlags, Bool.or_eq_true, decide_eq_true_eq, hlast, hb, or_false] at hg
        obtain ⟨t, h1, h2, h3⟩ := hbad hg
        refine ⟨t, h1, fun hh => h2 ?_, h3⟩
        rw [hsp]; simp at hh ⊢; grind
  | _ =>
    simp only at hN
    refine ⟨?_, ?_, ?_⟩ <;> (try rw [hN.1]) <;> rw [hN.2]
    · exact ⟨pr, hvis, hr0, hr1⟩
    · exact hgood
    · intro hg
      obtain ⟨t, h1, h2, h3⟩ := hbad hg
      exact ⟨t, h1, h2, Nat.lt_of_lt_of_le h3 (by simp [Spec.step, Spec.detach, Spec.dropEdge])⟩

theorem NOk.runFrom {ops : List Op} : ∀ {s s' : State} {σ : Spec} {f : ListFlags}, Core s σ → NOk s σ f →
    σ.ValidFrom ops → σ.ListOkFrom f ops →
    LPG.runFrom s ops = some s' → NOk s' (σ.runFrom ops) (σ.flagsFrom f ops) := by
  induction ops with
  | nil => intro s s' σ f _ h _ _ hs; simp [LPG.runFrom] at hs; subst hs; exact h
  | cons op ops ih =>
    intro s s' σ f c h hv hd hs
    rw [LPG.runFrom] at hs
    split at hs
    · cases hs
    · rename_i s1 h1
      exact ih (c.step hv.1 h1) (h.step c hv.1 h1 hd.1) hv.2 hd.2 hs

theorem NVis.walk {s : State} {xs : List Nat} {pr : Option Nat} (h : NVis s.nptr s.allNodes xs pr)
    (hn : xs.Nodup) (hlt : ∀ x ∈ xs, x < s.idBase) : s.getNodes = some xs := by
  unfold State.getNodes
  rw [h.head]
  exact walk_seg (P := s.nptr.slot) (fuel := s.idBase) h.seg (perm_sublist_length hn hlt)

theorem NOk.getNodes {s : State} {σ : Spec} {f : ListFlags} (c : Core s σ) (h : NOk s σ f) :
    s.getNodes = some σ.nodes := by
  obtain ⟨pr, hv, _⟩ := h.vis
  exact hv.walk c.nNodup (by rw [c.next]; exact c.nLt)

/-! ## After an unsafe operation -/

theorem Spec.listOkFrom_append {p q : List Op} : ∀ {σ : Spec} {f : ListFlags},
    σ.ListOkFrom f (p ++ q) ↔ σ.ListOkFrom f p ∧ (σ.runFrom p).ListOkFrom (σ.flagsFrom f p) q := by
  induction p with
  | nil => intro σ f; simp [Spec.ListOkFrom, Spec.runFrom, Spec.flagsFrom]
  | cons op p ih =>
    intro σ f
    simp only [List.cons_append, Spec.ListOkFrom, ih, and_assoc, Spec.flagsFrom]
    rfl

/-- The list is right, and nodes can be added to it. -/
def NReady (s : State) (σ : Spec) : Prop := ∃ f, NOk s σ f ∧ (f.gone = false ∨ σ.nodes = [])

theorem NReady.getNodes {s : State} {σ : Spec} (c : Core s σ) (h : NReady s σ) : s.getNodes = some σ.nodes := by
  obtain ⟨f, h, _⟩ := h
  exact h.getNodes c

theorem NReady.newNode {s s' : State} {σ : Spec} {ls : List String} {ps : Props} (c : Core s σ) (h : NReady s σ)
    (hv : σ.Valid (.newNode ls ps)) (hs : LPG.step s (.newNode ls ps) = some s') : NReady s' (σ.step (.newNode ls ps)) := by
  obtain ⟨f, h, hf⟩ := h
  exact ⟨_, h.step c hv hs hf, Or.inl rfl⟩

theorem NReady.newEdge {s s' : State} {σ : Spec} {a b : Nat} {l : String} {ps : Props} (c : Core s σ) (h : NReady s σ)
    (hv : σ.Valid (.newEdge a b l ps)) (hs : LPG.step s (.newEdge a b l ps) = some s') :
    NReady s' (σ.step (.newEdge a b l ps)) := by
  obtain ⟨f, h, hf⟩ := h
  exact ⟨f, h.step c hv hs trivial, hf⟩


/-- The list shows the live nodes below `k`; the others cannot be reached any more. `m`: the first node shown. -/
structure NLost (s : State) (σ : Spec) (k m : Nat) : Prop where
  vis : ∃ pr, NVis s.nptr s.allNodes (σ.nodes.filter (· < k)) pr
  first : (σ.nodes.filter (· < k)).head? = some m
  le : k ≤ σ.next
  tail : ∃ t, s.allNodes.tail = some t ∧ t ∉ σ.nodes.filter (· < k) ∧ t < σ.next
  prev : ∀ n ∈ σ.nodes, k ≤ n → ∃ p, s.nptr.prev n = some p ∧ p ∉ σ.nodes.filter (· < k)
  next : ∀ n ∈ σ.nodes, k ≤ n → ∀ q, s.nptr.next n = some q → q ∉ σ.nodes.filter (· < k)

theorem NVis.agree {P Q : NPtr} {l l' : NList} {xs : List Nat} {pr : Option Nat} (h : NVis P l xs pr)
    (hl : l'.head = l.head) (hP : ∀ x ∈ xs, Q.next x = P.next x ∧ Q.prev x = P.prev x) : NVis Q l' xs pr := by
  refine ⟨hl.trans h.head, Seg.congr ?_ h.seg⟩
  intro x hx
  obtain ⟨h1, h2⟩ := hP x hx
  simp [NPtr.slot, h1, h2]

theorem NList.remove_next (P : NPtr) (l : NList) (e x : Nat) :
    (l.remove P e).1.next x = if P.prev e = some x then P.next e else P.next x := by
  cases hp : P.prev e <;> cases hn : P.next e <;> simp [NList.remove, hp, hn, upd_apply] <;> grind

theorem NList.remove_prev (P : NPtr) (l : NList) (e x : Nat) :
    (l.remove P e).1.prev x = if P.next e = some x then P.prev e else P.prev x := by
  cases hp : P.prev e <;> cases hn : P.next e <;> simp [NList.remove, hp, hn, upd_apply] <;> grind

theorem NList.remove_head {P : NPtr} {l : NList} {e p : Nat} (hp : P.prev e = some p) :
    (l.remove P e).2.head = l.head := by
  cases hn : P.next e <;> simp [NList.remove, hp, hn, upd_apply] <;> grind

theorem NLost.step {s s' : State} {σ : Spec} {op : Op} {k m : Nat} (c : Core s σ) (h : NLost s σ k m)
    (hv : σ.Valid op) (hs : LPG.step s op = some s') (hm : m ∈ (σ.step op).nodes) :
    NLost s' (σ.step op) k m := by
  obtain ⟨⟨pr, hvis⟩, hfirst, hle, ⟨t, ht, htv, htl⟩, hprev, hnext⟩ := h
  have hnx := c.next
  have hN := step_nodeList hs
  have hmem : ∀ x, x ∈ σ.nodes.filter (· < k) ↔ x ∈ σ.nodes ∧ x < k := by simp
  cases op with
  | newNode ls ps =>
    simp only at hN
    have hnn : s.idBase ∉ σ.nodes.filter (· < k) := by rw [hmem]; omega
    have hfil : (σ.step (.newNode ls ps)).nodes.filter (· < k) = σ.nodes.filter (· < k) := by
      simp [Spec.step]; omega
    have hne : σ.nodes.filter (· < k) ≠ [] := by intro hh; rw [hh] at hfirst; cases hfirst
    have htn : t ≠ s.idBase := by omega
    refine ⟨?_, ?_, ?_, ?_, ?_, ?_⟩
    · rw [hN.1, hN.2, hfil]
      exact ⟨pr, (hvis.fresh hnn).addLost ht htv hne hnn⟩
    · rw [hfil]; exact hfirst
    · show k ≤ σ.next + 1; omega
    · rw [hfil, hN.2]
      exact ⟨s.idBase, rfl, hnn, by show s.idBase < σ.next + 1; omega⟩
    · rw [hfil, hN.1]
      intro n hn hk
      simp only [NList.add, ht, upd_apply]
      by_cases hni : n = s.idBase
      · rw [if_pos hni]; exact ⟨t, rfl, htv⟩
      · rw [if_neg hni, if_neg hni]
        have : n ∈ σ.nodes := by
          simp [Spec.step] at hn; rcases hn with hn | hn
          · exact hn
          · exact absurd (hn.trans hnx.symm) hni
        exact hprev n this hk
    · rw [hfil, hN.1]
      intro n hn hk q
      simp only [NList.add, ht, upd_apply]
      by_cases hnt : n = t
      · rw [if_pos hnt]; rintro ⟨⟩; exact hnn
      · rw [if_neg hnt]
        by_cases hni : n = s.idBase
        · rw [if_pos hni]; rintro ⟨⟩
        · rw [if_neg hni]
          have : n ∈ σ.nodes := by
            simp [Spec.step] at hn; rcases hn with hn | hn
            · exact hn
            · exact absurd (hn.trans hnx.symm) hni
          exact hnext n this hk q
  | detachRemove n =>
    simp only at hN
    have hnm : m ≠ n := by rintro rfl; simp [Spec.step] at hm
    have hnodes : ∀ x, x ∈ (σ.step (.detachRemove n)).nodes ↔ x ∈ σ.nodes ∧ x ≠ n := by simp [Spec.step]
    have hfil : (σ.step (.detachRemove n)).nodes.filter (· < k) = (σ.nodes.filter (· < k)).filter (· ≠ n) := by
      show (σ.nodes.filter (· ≠ n)).filter (· < k) = _
      rw [List.filter_filter, List.filter_filter]; apply List.filter_congr; intro x _; exact Bool.and_comm _ _
    have hsub : ∀ x, x ∉ σ.nodes.filter (· < k) → x ∉ (σ.step (.detachRemove n)).nodes.filter (· < k) := by
      intro x hx hh; rw [hfil] at hh; exact hx (List.mem_filter.1 hh).1
    have htail : ∃ t, s'.allNodes.tail = some t ∧ t ∉ (σ.step (.detachRemove n)).nodes.filter (· < k) ∧
        t < (σ.step (.detachRemove n)).next := by
      rw [hN.2, NList.remove_tail]
      split
      · exact ⟨n, rfl, by simp [Spec.step], c.nLt n hv⟩
      · exact ⟨t, ht, hsub t htv, htl⟩
    by_cases hnk : n < k
    · have hnV : n ∈ σ.nodes.filter (· < k) := (hmem n).2 ⟨hv, hnk⟩
      have hnd : (σ.nodes.filter (· < k)).Nodup := c.nNodup.filter _
      obtain ⟨as, bs, hsp, -⟩ := split_of_mem hnd hnV
      rw [hsp] at hvis hnd
      have has : as ≠ [] := by
        rintro rfl; rw [hsp] at hfirst; simp at hfirst; exact hnm hfirst.symm
      have hf2 : (σ.step (.detachRemove n)).nodes.filter (· < k) = as ++ bs := by
        rw [hfil, hsp, List.filter_append, List.filter_cons_of_neg (by simp)]
        have hnd' := hnd
        rw [List.nodup_append] at hnd'
        rw [List.filter_eq_self.2, List.filter_eq_self.2]
        · intro x hx; simp; rintro rfl; exact (List.nodup_cons.1 hnd'.2.1).1 hx
        · intro x hx; simp; rintro rfl; exact hnd'.2.2 x hx x (by simp) rfl
      have hpn : ∃ p ∈ as, s.nptr.prev n = some p := by
        have := (seg_append.1 hvis.seg).2.1
        simp only [NPtr.slot] at this
        cases hl : as.getLast? with
        | none => exact absurd (List.getLast?_eq_none_iff.1 hl) has
        | some p => rw [hl] at this; exact ⟨p, List.mem_of_getLast? hl, this⟩
      obtain ⟨p, hpa, hp⟩ := hpn
      have hnn : s.nptr.next n = bs.head? := by
        have := (seg_append.1 hvis.seg).2.2.1
        simpa [NPtr.slot] using this
      have hpV : p ∈ σ.nodes.filter (· < k) := by rw [hsp]; simp [hpa]
      refine ⟨⟨pr, ?_⟩, ?_, hle, htail, ?_, ?_⟩
      · rw [hN.1, hN.2, hf2]; exact hvis.remove hnd (fun hh => absurd hh has)
      · rw [hf2]; rw [hsp] at hfirst; cases as with
        | nil => exact absurd rfl has
        | cons a as => simpa using hfirst
      · intro x hx hk
        obtain ⟨hx1, hx2⟩ := (hnodes x).1 hx
        rw [hN.1, NList.remove_prev]
        have : ¬ s.nptr.next n = some x := by
          rw [hnn]; intro hh
          have hxb : x ∈ bs := List.mem_of_head? hh
          have : x ∈ σ.nodes.filter (· < k) := by rw [hsp]; simp [hxb]
          have := ((hmem x).1 this).2; omega
        rw [if_neg this]
        obtain ⟨p, h1, h2⟩ := hprev x hx1 hk
        exact ⟨p, h1, hsub p h2⟩
      · intro x hx hk q
        obtain ⟨hx1, hx2⟩ := (hnodes x).1 hx
        rw [hN.1, NList.remove_next]
        have : ¬ s.nptr.prev n = some x := by
          rw [hp]; intro hh; cases hh
          have := ((hmem p).1 hpV).2; omega
        rw [if_neg this]
        exact fun hq => hsub q (hnext x hx1 hk q hq)
    · have hf2 : (σ.step (.detachRemove n)).nodes.filter (· < k) = σ.nodes.filter (· < k) := by
        rw [hfil, List.filter_eq_self]
        intro x hx; simp; rintro rfl; exact hnk ((hmem x).1 hx).2
      obtain ⟨p, hp, hpV⟩ := hprev n hv (by omega)
      have hnV := hnext n hv (by omega)
      refine ⟨⟨pr, ?_⟩, by rw [hf2]; exact hfirst, hle, htail, ?_, ?_⟩
      · rw [hN.1, hN.2, hf2]
        refine hvis.agree (NList.remove_head hp) ?_
        intro x hx
        rw [NList.remove_next, NList.remove_prev, if_neg, if_neg]
        · exact ⟨rfl, rfl⟩
        · intro hh; exact hnV x hh hx
        · rw [hp]; rintro ⟨⟩; exact hpV hx
      · intro x hx hk
        obtain ⟨hx1, hx2⟩ := (hnodes x).1 hx
        rw [hf2, hN.1, NList.remove_prev]
        split
        · exact ⟨p, hp, hpV⟩
        · exact hprev x hx1 hk
      · intro x hx hk q
        obtain ⟨hx1, hx2⟩ := (hnodes x).1 hx
        rw [hf2, hN.1, NList.remove_next]
        split
        · exact hnV q
        · exact hnext x hx1 hk q
  | _ =>
    simp only at hN
    refine ⟨?_, hfirst, Nat.le_trans hle (by simp [Spec.step, Spec.detach, Spec.dropEdge]), ?_, ?_, ?_⟩ <;>
      (try rw [hN.1]) <;> (try rw [hN.2])
    · exact ⟨pr, hvis⟩
    · exact ⟨t, ht, htv, Nat.lt_of_lt_of_le htl (by simp [Spec.step, Spec.detach, Spec.dropEdge])⟩
    · exact hprev
    · exact hnext

/-- a node that is live now and has an old id was live before -/
theorem Spec.live_before {σ : Spec} {op : Op} {m : Nat} (hm : m ∈ (σ.step op).nodes) (hlt : m < σ.next) :
    m ∈ σ.nodes := by
  cases op with
  | newNode ls ps => simp [Spec.step] at hm; rcases hm with hm | hm; exact hm; omega
  | detachRemove n => exact (List.mem_filter.1 hm).1
  | _ => exact hm

theorem Spec.next_mono {σ : Spec} {op : Op} : σ.next ≤ (σ.step op).next := by
  cases op <;> simp [Spec.step, Spec.detach, Spec.dropEdge]

theorem Spec.live_before_run {ops : List Op} : ∀ {σ : Spec} {m : Nat}, m ∈ (σ.runFrom ops).nodes → m < σ.next →
    m ∈ σ.nodes := by
  induction ops with
  | nil => intro σ m h _; exact h
  | cons op ops ih =>
    intro σ m h hlt
    exact Spec.live_before (ih (σ := σ.step op) h (Nat.lt_of_lt_of_le hlt Spec.next_mono)) hlt

theorem NLost.runFrom {ops : List Op} {k m : Nat} : ∀ {s s' : State} {σ : Spec}, Core s σ → NLost s σ k m →
    m < σ.next → σ.ValidFrom ops → m ∈ (σ.runFrom ops).nodes → LPG.runFrom s ops = some s' →
    NLost s' (σ.runFrom ops) k m := by
  induction ops with
  | nil => intro s s' σ _ h _ _ _ hs; simp [LPG.runFrom] at hs; subst hs; exact h
  | cons op ops ih =>
    intro s s' σ c h hlt hv hm hs
    rw [LPG.runFrom] at hs
    split at hs
    · cases hs
    · rename_i s1 h1
      have hlt' : m < (σ.step op).next := Nat.lt_of_lt_of_le hlt Spec.next_mono
      exact ih (c.step hv.1 h1) (h.step c hv.1 h1 (Spec.live_before_run (σ := σ.step op) hm hlt')) hlt' hv.2 hm hs

/-- creating a node behind the lost end of the list -/
theorem NOk.lost {s s' : State} {σ : Spec} {f : ListFlags} {m : Nat} {ls : List String} {ps : Props} (c : Core s σ)
    (h : NOk s σ f) (hg : f.gone = true) (hm : σ.nodes.head? = some m)
    (hs : LPG.step s (.newNode ls ps) = some s') : NLost s' (σ.step (.newNode ls ps)) σ.next m := by
  obtain ⟨⟨pr, hvis, -, -⟩, -, hbad⟩ := h
  obtain ⟨t, ht, htv, htl⟩ := hbad hg
  have hnx := c.next
  have hN := step_nodeList hs
  simp only at hN
  have hfil : (σ.step (.newNode ls ps)).nodes.filter (· < σ.next) = σ.nodes := by
    show (σ.nodes ++ [σ.next]).filter _ = _
    rw [List.filter_append, List.filter_eq_self.2 (by simpa using c.nLt)]
    simp
  have hnn : s.idBase ∉ σ.nodes := by rw [hnx]; exact fun hh => Nat.lt_irrefl _ (c.nLt _ hh)
  have hne : σ.nodes ≠ [] := by intro hh; rw [hh] at hm; cases hm
  have hnew : ∀ n ∈ (σ.step (.newNode ls ps)).nodes, σ.next ≤ n → n = s.idBase := by
    intro n hn hk
    simp [Spec.step] at hn
    rcases hn with hn | hn
    · have := c.nLt n hn; omega
    · omega
  refine ⟨⟨pr, ?_⟩, by rw [hfil]; exact hm, by show σ.next ≤ σ.next + 1; omega, ?_, ?_, ?_⟩
  · rw [hN.1, hN.2, hfil]
    exact (hvis.fresh hnn).addLost ht htv hne hnn
  · rw [hN.2, hfil]
    exact ⟨s.idBase, rfl, hnn, by show s.idBase < σ.next + 1; omega⟩
  · intro n hn hk
    rw [hnew n hn hk, hfil, hN.1]
    simp only [NList.add, ht, upd_apply, if_true]
    exact ⟨t, rfl, htv⟩
  · intro n hn hk q
    rw [hnew n hn hk, hfil, hN.1]
    simp only [NList.add, ht, upd_apply]
    have : s.idBase ≠ t := by omega
    rw [if_neg this]; simp

/-- The head of the list is `x`, and no live node is first in its chain. -/
structure NGhost (s : State) (σ : Spec) (x : Nat) : Prop where
  head : s.allNodes.head = some x
  tail : s.allNodes.tail ≠ none
  prev : ∀ n ∈ σ.nodes, s.nptr.prev n ≠ none

theorem NGhost.step {s s' : State} {σ : Spec} {op : Op} {x : Nat} (c : Core s σ) (h : NGhost s σ x)
    (hv : σ.Valid op) (hs : LPG.step s op = some s') : NGhost s' (σ.step op) x := by
  obtain ⟨hh, ht, hp⟩ := h
  have hnx := c.next
  have hN := step_nodeList hs
  cases op with
  | newNode ls ps =>
    simp only at hN
    cases hq : s.allNodes.tail with
    | none => exact absurd hq ht
    | some t =>
      refine ⟨by rw [hN.2]; simp [NList.add, hh], by rw [hN.2]; simp [NList.add], ?_⟩
      intro n hn
      rw [hN.1]
      simp only [NList.add, hq, upd_apply]
      split
      · simp
      · rename_i hni
        simp [Spec.step] at hn
        rcases hn with hn | hn
        · exact hp n hn
        · exact absurd (hn.trans hnx.symm) hni
  | detachRemove n =>
    simp only at hN
    cases hq : s.nptr.prev n with
    | none => exact absurd hq (hp n hv)
    | some p =>
      refine ⟨by rw [hN.2, NList.remove_head hq]; exact hh, ?_, ?_⟩
      · rw [hN.2, NList.remove_tail]; split
        · simp
        · exact ht
      · intro y hy
        rw [hN.1, NList.remove_prev, hq]
        split
        · simp
        · exact hp y (List.mem_filter.1 hy).1
  | _ =>
    simp only at hN
    exact ⟨by rw [hN.2]; exact hh, by rw [hN.2]; exact ht, by rw [hN.1]; exact hp⟩

theorem NGhost.runFrom {ops : List Op} {x : Nat} : ∀ {s s' : State} {σ : Spec}, Core s σ → NGhost s σ x →
    σ.ValidFrom ops → LPG.runFrom s ops = some s' → NGhost s' (σ.runFrom ops) x := by
  induction ops with
  | nil => intro s s' σ _ h _ hs; simp [LPG.runFrom] at hs; subst hs; exact h
  | cons op ops ih =>
    intro s s' σ c h hv hs
    rw [LPG.runFrom] at hs
    split at hs
    · cases hs
    · rename_i s1 h1
      exact ih (c.step hv.1 h1) (h.step c hv.1 h1) hv.2 hs

/-- every node behind the first one of a list points back to a node -/
theorem Seg.prev_some {P : Slot} {xs : List Nat} {nxt : Option Nat} : ∀ {pr : Option Nat}, pr ≠ none →
    Seg P pr xs nxt → ∀ n ∈ xs, (P n).prev ≠ none := by
  induction xs with
  | nil => simp
  | cons x xs ih =>
    intro pr hpr h n hn
    obtain ⟨h1, _, h3⟩ := h
    rcases List.mem_cons.1 hn with rfl | hn
    · rw [h1]; exact hpr
    · exact ih (by simp) h3 n hn

theorem NOk.ghost {s : State} {σ : Spec} {f : ListFlags} {x : Nat} (h : NOk s σ f) (hx : f.restart = some x) :
    NGhost s σ x := by
  obtain ⟨⟨pr, hvis, -, hr⟩, hgood, hbad⟩ := h
  obtain ⟨h1, h2⟩ := hr x hx
  refine ⟨hvis.head.trans h1, ?_, fun n hn => Seg.prev_some h2 hvis.seg n hn⟩
  cases hg : f.gone with
  | true => obtain ⟨t, ht, _⟩ := hbad hg; rw [ht]; simp
  | false =>
    rw [hgood hg]; intro hh; rw [List.getLast?_eq_none_iff.1 hh] at h1; cases h1

theorem NGhost.getNodes {s : State} {σ : Spec} {x : Nat} (h : NGhost s σ x)
    (hm : Mono s.nptr s.allNodes s.idBase) : ∃ ns, s.getNodes = some (x :: ns) := by
  obtain ⟨xs, h1, _, h3⟩ := hm.getNodes
  unfold State.getNodes at h1 ⊢
  rw [h.head] at h1 ⊢
  cases hb : s.idBase with
  | zero => rw [hb] at h1; simp [walk] at h1
  | succ b =>
    rw [hb] at h1
    simp only [walk] at h1 ⊢
    split at h1
    · cases h1
    · rename_i ys hy; exact ⟨ys, rfl⟩

end LPG
