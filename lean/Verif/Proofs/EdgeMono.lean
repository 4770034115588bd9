import Verif.Proofs.Mono
/-! The `next` pointers of the graph-wide edge lists always lead to newer edges, also in the histories in which the
lists are damaged. So every iteration over them ends. -/
namespace LPG
open State

structure SMono (P : Slot) (b : Nat) : Prop where
  next : ∀ x y, (P x).next = some y → x < y ∧ y < b
  prev : ∀ x y, (P x).prev = some y → y < x ∧ x < b

structure LMono (l : EList) (b : Nat) : Prop where
  head : ∀ x, l.head = some x → x < b
  tail : ∀ x, l.tail = some x → x < b

structure EMono (P : Slot) (em : EdgeMap) (b : Nat) : Prop where
  slot : SMono P b
  lists : ∀ p ∈ em.lists, LMono p.2 b
  only : ∀ x, em.only = some x → x < b

theorem SMono.le {P : Slot} {b b' : Nat} (h : SMono P b) (hb : b ≤ b') : SMono P b' :=
  ⟨fun x y e => ⟨(h.next x y e).1, Nat.lt_of_lt_of_le (h.next x y e).2 hb⟩,
    fun x y e => ⟨(h.prev x y e).1, Nat.lt_of_lt_of_le (h.prev x y e).2 hb⟩⟩

theorem LMono.le {l : EList} {b b' : Nat} (h : LMono l b) (hb : b ≤ b') : LMono l b' :=
  ⟨fun x e => Nat.lt_of_lt_of_le (h.head x e) hb, fun x e => Nat.lt_of_lt_of_le (h.tail x e) hb⟩

theorem EMono.le {P : Slot} {em : EdgeMap} {b b' : Nat} (h : EMono P em b) (hb : b ≤ b') : EMono P em b' :=
  ⟨h.slot.le hb, fun p hp => (h.lists p hp).le hb, fun x e => Nat.lt_of_lt_of_le (h.only x e) hb⟩

/-- adding an edge that is newer than all that are in the list -/
theorem EList.add_mono {P : Slot} {l : EList} {e b : Nat} (hs : SMono P b) (ht : ∀ x, l.tail = some x → x < e)
    (hh : ∀ x, l.head = some x → x < b) (he : e < b) : SMono (l.add P e).1 b ∧ LMono (l.add P e).2 b := by
  refine ⟨?_, ?_⟩
  · have key : ∀ x, ((l.add P e).1 x).next = (if x = e then none else if l.tail = some x then some e else (P x).next) ∧
        ((l.add P e).1 x).prev = (if x = e then l.tail else (P x).prev) := by
      intro x
      unfold EList.add
      cases h : l.tail with
      | none => by_cases hx : x = e <;> simp [upd_apply, hx]
      | some t =>
        have := ht t h
        by_cases hx : x = e
        · subst hx
          have : ¬ x = t := by omega
          simp [upd_apply, this]
        · by_cases hy : x = t
          · subst hy; simp [upd_apply, hx]
          · have : ¬ t = x := fun h => hy h.symm
            simp [upd_apply, hx, hy, this]
    constructor
    · intro x y h
      rw [(key x).1] at h
      split at h
      · cases h
      · split at h
        · rename_i ht'
          cases h; exact ⟨ht x ht', he⟩
        · exact hs.next x y h
    · intro x y h
      rw [(key x).2] at h
      split at h
      · rename_i hx; subst hx; exact ⟨ht y h, he⟩
      · exact hs.prev x y h
  · constructor
    · intro x h
      simp only [EList.add] at h
      split at h
      · cases h; exact he
      · rename_i y hy; cases h; exact hh _ hy
    · intro x h
      simp only [EList.add] at h
      cases h; exact he

theorem EList.remove_mono {P : Slot} {l : EList} {e b : Nat} (hs : SMono P b) (hl : LMono l b) :
    SMono (l.remove P e).1 b ∧ LMono (l.remove P e).2 b := by
  cases hp : (P e).prev with
  | none =>
    cases hn : (P e).next with
    | none =>
      refine ⟨⟨?_, ?_⟩, ⟨?_, ?_⟩⟩
      · intro x y h; simp [EList.remove, hp, hn, upd_apply] at h; exact hs.next x y (by split at h <;> simp_all)
      · intro x y h; simp [EList.remove, hp, hn, upd_apply] at h; exact hs.prev x y (by split at h <;> simp_all)
      · intro x h; simp [EList.remove, hp, hn] at h
      · intro x h; simp [EList.remove, hp, hn] at h
    | some q =>
      have hq := hs.next e q hn
      refine ⟨⟨?_, ?_⟩, ⟨?_, ?_⟩⟩
      · intro x y h; simp [EList.remove, hp, hn, upd_apply] at h
        split at h
        · cases h
        · split at h
          · rename_i hx; subst hx; exact hs.next _ y h
          · exact hs.next x y h
      · intro x y h; simp [EList.remove, hp, hn, upd_apply] at h
        split at h
        · cases h
        · split at h
          · cases h
          · exact hs.prev x y h
      · intro x h; simp [EList.remove, hp, hn] at h; subst h; exact hq.2
      · intro x h; simp [EList.remove, hp, hn] at h; exact hl.tail x h
  | some p =>
    have hp' := hs.prev e p hp
    have hpe : ¬ e = p := by omega
    cases hn : (P e).next with
    | none =>
      refine ⟨⟨?_, ?_⟩, ⟨?_, ?_⟩⟩
      · intro x y h; simp [EList.remove, hp, hn, upd_apply, hpe] at h
        split at h
        · cases h
        · split at h
          · cases h
          · exact hs.next x y h
      · intro x y h; simp [EList.remove, hp, hn, upd_apply, hpe] at h
        split at h
        · cases h
        · split at h
          · rename_i hx; subst hx; exact hs.prev _ y h
          · exact hs.prev x y h
      · intro x h; simp [EList.remove, hp, hn, upd_apply, hpe] at h; exact hl.head x h
      · intro x h; simp [EList.remove, hp, hn, upd_apply, hpe] at h; subst h; omega
    | some q =>
      have hq := hs.next e q hn
      have hpq' : ¬ q = p := by omega
      refine ⟨⟨?_, ?_⟩, ⟨?_, ?_⟩⟩
      · intro x y h; simp [EList.remove, hp, hn, upd_apply, hpe, hpq'] at h
        split at h
        · cases h
        · split at h
          · rename_i hx; subst hx; exact hs.next _ y h
          · split at h
            · rename_i hx; subst hx; cases h; exact ⟨by omega, hq.2⟩
            · exact hs.next x y h
      · intro x y h; simp [EList.remove, hp, hn, upd_apply, hpe, hpq'] at h
        split at h
        · cases h
        · split at h
          · rename_i hx; subst hx; cases h; exact ⟨by omega, hq.2⟩
          · split at h
            · rename_i hx; subst hx; exact hs.prev _ y h
            · exact hs.prev x y h
      · intro x h; simp [EList.remove, hp, hn, upd_apply, hpe] at h; exact hl.head x h
      · intro x h; simp [EList.remove, hp, hn, upd_apply, hpe] at h; exact hl.tail x h

theorem AMap.mem_of_set {α β : Type} [DecidableEq α] {k : α} {v : β} {p : α × β} : ∀ {m : AMap α β}, p ∈ m.set k v →
    p.2 = v ∨ p ∈ m
  | [], h => by simp [AMap.set] at h; exact Or.inl (by rw [h])
  | (a, b) :: m, h => by
    rw [AMap.set] at h
    split at h
    · rcases List.mem_cons.1 h with h | h
      · exact Or.inl (by rw [h])
      · exact Or.inr (List.mem_cons_of_mem _ h)
    · rcases List.mem_cons.1 h with h | h
      · exact Or.inr (by simp [h])
      · rcases AMap.mem_of_set h with h | h
        · exact Or.inl h
        · exact Or.inr (List.mem_cons_of_mem _ h)

theorem AMap.mem_of_del {α β : Type} [DecidableEq α] {k : α} {p : α × β} : ∀ {m : AMap α β}, p ∈ m.del k → p ∈ m
  | [], h => by cases h
  | (a, b) :: m, h => by
    rw [AMap.del] at h
    split at h
    · exact List.mem_cons_of_mem _ (AMap.mem_of_del h)
    · rcases List.mem_cons.1 h with h | h
      · exact by simp [h]
      · exact List.mem_cons_of_mem _ (AMap.mem_of_del h)

theorem EdgeMap.doAdd_mono {P : Slot} {em : EdgeMap} {l : String} {e b : Nat} (h : EMono P em b)
    (ht : ∀ p ∈ em.lists, ∀ x, p.2.tail = some x → x < e) (he : e < b) :
    EMono (em.doAdd P l e).1 (em.doAdd P l e).2 b := by
  unfold EdgeMap.doAdd
  cases hg : em.lists.get l with
  | none =>
    obtain ⟨h1, h2⟩ := EList.add_mono (l := { head := none, tail := none, n := 0 }) h.slot (by simp) (by simp) he
    refine ⟨h1, fun p hp => ?_, h.only⟩
    rcases AMap.mem_of_set hp with hp | hp
    · rw [hp]; exact h2
    · exact h.lists p hp
  | some el =>
    have hm := AMap.mem_of_get hg
    obtain ⟨h1, h2⟩ := EList.add_mono (l := el) h.slot (ht _ hm) (h.lists _ hm).head he
    refine ⟨h1, fun p hp => ?_, h.only⟩
    rcases AMap.mem_of_set hp with hp | hp
    · rw [hp]; exact h2
    · exact h.lists p hp

theorem EdgeMap.doAdd_tails {P : Slot} {em : EdgeMap} {l : String} {e b : Nat} (he : e < b)
    (ht : ∀ p ∈ em.lists, ∀ x, p.2.tail = some x → x < b) :
    ∀ p ∈ (em.doAdd P l e).2.lists, ∀ x, p.2.tail = some x → x < b := by
  unfold EdgeMap.doAdd
  cases hg : em.lists.get l with
  | none =>
    intro p hp x hx
    rcases AMap.mem_of_set hp with hp | hp
    · rw [hp] at hx; simp only [EList.add] at hx; cases hx; exact he
    · exact ht p hp x hx
  | some el =>
    intro p hp x hx
    rcases AMap.mem_of_set hp with hp | hp
    · rw [hp] at hx; simp only [EList.add] at hx; cases hx; exact he
    · exact ht p hp x hx

theorem EMono.add {P P' : Slot} {label : Nat → String} {em em' : EdgeMap} {b : Nat} (h : EMono P em b)
    (ha : em.add P label b = some (P', em')) : EMono P' em' (b + 1) := by
  have h' := h.le (Nat.le_succ b)
  unfold EdgeMap.add at ha
  split at ha
  · cases ha
    exact ⟨h'.slot, h'.lists, fun x hx => by cases hx; omega⟩
  · split at ha
    · split at ha
      · cases ha
      · rename_i o ho
        have hob := h.only o ho
        simp only at ha
        cases ha
        have h0 : EMono P { em with lists := [] } (b + 1) := ⟨h'.slot, by simp, h'.only⟩
        have h1 := EdgeMap.doAdd_mono (l := label o) h0 (by simp) (show o < b + 1 by omega)
        have ht := EdgeMap.doAdd_tails (P := P) (em := { em with lists := [] }) (l := label o) hob (by simp)
        have h2 : EMono (EdgeMap.doAdd P { em with lists := [] } (label o) o).1
          { (EdgeMap.doAdd P { em with lists := [] } (label o) o).2 with only := none } (b + 1) :=
          ⟨h1.slot, h1.lists, by simp⟩
        have h3 := EdgeMap.doAdd_mono (l := label b) h2 ht (Nat.lt_succ_self b)
        exact ⟨h3.slot, h3.lists, h3.only⟩
    · cases ha
      have h3 := EdgeMap.doAdd_mono (l := label b) h' (fun p hp => (h.lists p hp).tail) (Nat.lt_succ_self b)
      exact ⟨h3.slot, h3.lists, h3.only⟩

theorem EMono.remove {P : Slot} {label : Nat → String} {em : EdgeMap} {b e : Nat} (h : EMono P em b) :
    EMono (em.remove P label e).1 (em.remove P label e).2 b := by
  unfold EdgeMap.remove
  split
  · exact h
  · split
    · split
      · exact h
      · exact ⟨h.slot, h.lists, by simp⟩
    · split
      · exact h
      · rename_i l hg
        obtain ⟨h1, h2⟩ := EList.remove_mono (e := e) h.slot (h.lists _ (AMap.mem_of_get hg))
        have h3 : ∀ p ∈ (if (l.remove P e).2.n = 0 then { em with lists := em.lists.del (label e) }
            else { em with lists := em.lists.set (label e) (l.remove P e).2 }).lists, LMono p.2 b := by
          intro p hp
          split at hp
          · exact h.lists p (AMap.mem_of_del hp)
          · rcases AMap.mem_of_set hp with hp | hp
            · rw [hp]; exact h2
            · exact h.lists p hp
        have h4 : (if (l.remove P e).2.n = 0 then { em with lists := em.lists.del (label e) }
            else { em with lists := em.lists.set (label e) (l.remove P e).2 }).only = em.only := by split <;> rfl
        dsimp only
        generalize (if (l.remove P e).2.n = 0 then { em with lists := em.lists.del (label e) }
          else { em with lists := em.lists.set (label e) (l.remove P e).2 } : EdgeMap) = em1 at h3 h4 ⊢
        by_cases hn : em1.n - 1 = 1
        · rw [if_pos hn]
          refine ⟨h1, by simp, ?_⟩
          intro x hx
          cases hl : em1.lists.getLast? with
          | none => rw [hl] at hx; dsimp only at hx; rw [h4] at hx; exact h.only x hx
          | some p =>
            rw [hl] at hx
            exact (h3 _ (List.mem_of_getLast? hl)).head x hx
        · rw [if_neg hn]
          exact ⟨h1, h3, by dsimp only; rw [h4]; exact h.only⟩

theorem EMono.init : EMono State.new.slot0 State.new.allEdges State.new.idBase := by
  refine ⟨⟨?_, ?_⟩, ?_, ?_⟩ <;> simp [State.new, EdgeMap.empty]

/-- the graph-wide edge map of a state -/
abbrev State.AllMono (s : State) : Prop := EMono s.slot0 s.allEdges s.idBase

theorem EMono.detachEdge {s s' : State} {e : Nat} (h : s.AllMono) (hs : s.detachEdge e = some s') : s'.AllMono := by
  unfold State.detachEdge at hs
  simp only at hs
  split at hs
  · cases hs
  · cases hs
    exact EMono.remove (P := s.slot0) (em := s.allEdges) h

theorem EMono.detachEdges {es : List Nat} : ∀ {s s' : State}, s.AllMono → s.detachEdges es = some s' → s'.AllMono := by
  induction es with
  | nil => intro s s' h hs; simp [State.detachEdges] at hs; subst hs; exact h
  | cons e es ih =>
    intro s s' h hs
    rw [State.detachEdges] at hs
    split at hs
    · cases hs
    · rename_i s1 h1
      exact ih (h.detachEdge h1) hs

theorem EMono.detachNode {s s' : State} {n : Nat} (h : s.AllMono) (hs : s.detachNode n = some s') : s'.AllMono := by
  unfold State.detachNode at hs
  split at hs
  · cases hs
  · split at hs
    · cases hs
    · rename_i s1 h1
      have h2 := h.detachEdges h1
      simp only at hs
      split at hs
      · cases hs
      · split at hs
        · cases hs
        · rename_i s2 h3
          cases hs
          have h4 : s2.AllMono := EMono.detachEdges (s := { s1 with incoming := upd s1.incoming n EdgeMap.empty }) h2 h3
          exact h4

theorem EMono.step {s s' : State} {op : Op} (h : s.AllMono) (hs : LPG.step s op = some s') : s'.AllMono := by
  cases op with
  | newNode ls ps => obtain ⟨ixs, _, rfl⟩ := newNode_frame hs; exact h.le (Nat.le_succ _)
  | newEdge a b l ps =>
    simp only [LPG.step] at hs
    rw [newEdge_eq] at hs
    split at hs
    · cases hs
    · rename_i p0 m ha
      split at hs
      · cases hs
      · rename_i s1 h1
        obtain ⟨p1, p2, im, om, rfl⟩ := connect_frame h1
        simp only at hs
        split at hs
        · cases hs
        · cases hs
          have h0 : EMono (upd s.slot0 s.idBase ⟨none, none⟩) s.allEdges s.idBase := by
            refine ⟨⟨?_, ?_⟩, h.lists, h.only⟩
            · intro x y e
              simp only [upd_apply] at e
              split at e
              · cases e
              · exact h.slot.next x y e
            · intro x y e
              simp only [upd_apply] at e
              split at e
              · cases e
              · exact h.slot.prev x y e
          exact EMono.add h0 ha
  | setLabels n ls => cases hs; exact h
  | setNodeProp n k v => obtain ⟨ixs, rfl⟩ := setNodeProp_frame hs; exact h
  | removeNodeProp n k => obtain ⟨ixs, rfl⟩ := removeNodeProp_frame hs; exact h
  | detach n => exact h.detachNode hs
  | detachRemove n =>
    simp only [LPG.step, State.detachRemoveNode] at hs
    split at hs
    · cases hs
    · rename_i s1 h1
      have h2 := h.detachNode h1
      split at hs
      · cases hs
      · cases hs
        exact h2
  | setEdgeLabel e l =>
    simp only [LPG.step, State.setEdgeLabel] at hs
    split at hs
    · cases hs; exact h
    · obtain ⟨p1, p2, im, om, rfl⟩ := connect_frame hs
      exact h
  | setEdgeProp n k v => obtain ⟨ixs, rfl⟩ := setEdgeProp_frame hs; exact h
  | removeEdgeProp n k => obtain ⟨ixs, rfl⟩ := removeEdgeProp_frame hs; exact h
  | removeEdge e => cases hs; exact EMono.remove (P := s.slot0) (em := s.allEdges) h
  | addNodeIndex k t => obtain ⟨ixs, rfl⟩ := addNodeIndex_frame hs; exact h
  | addEdgeIndex k t => obtain ⟨ixs, rfl⟩ := addEdgeIndex_frame hs; exact h

theorem EMono.runFrom {ops : List Op} : ∀ {s s' : State}, s.AllMono → LPG.runFrom s ops = some s' → s'.AllMono := by
  induction ops with
  | nil => intro s s' h hs; simp [LPG.runFrom] at hs; subst hs; exact h
  | cons op ops ih =>
    intro s s' h hs
    rw [LPG.runFrom] at hs
    split at hs
    · cases hs
    · rename_i s1 h1
      exact ih (h.step h1) hs

theorem EMono.walk {P : Slot} {em : EdgeMap} {b : Nat} (h : EMono P em b) {p : String × EList} (hp : p ∈ em.lists) :
    ∃ xs, walk (fun x => (P x).next) b p.2.head = some xs ∧ xs.Pairwise (· < ·) ∧ ∀ z ∈ xs, z < b := by
  obtain ⟨xs, h1, h2, h3⟩ := walk_increasing h.slot.next b p.2.head
    (fun x hx => ⟨(h.lists p hp).head x hx, by omega⟩)
  exact ⟨xs, h1, h2, fun z hz => (h3 z hz).2⟩

theorem concatOpt_below {b : Nat} : ∀ {xs : List (Option (List Nat))}, (∀ o ∈ xs, ∃ ys, o = some ys ∧ ∀ z ∈ ys, z < b) →
    ∃ ys, concatOpt xs = some ys ∧ ∀ z ∈ ys, z < b
  | [], _ => ⟨[], rfl, by simp⟩
  | o :: xs, h => by
    obtain ⟨ys, rfl, hy⟩ := h o (by simp)
    obtain ⟨zs, hz, hz'⟩ := concatOpt_below (fun o ho => h o (List.mem_cons_of_mem _ ho))
    refine ⟨ys ++ zs, by rw [concatOpt, hz], ?_⟩
    intro z hz
    rcases List.mem_append.1 hz with h | h
    · exact hy z h
    · exact hz' z h

/-- The iteration over the map ends, unless it is the iteration over a single edge that is nil. -/
theorem EMono.enum {P : Slot} {em : EdgeMap} {b : Nat} (h : EMono P em b) (hn : em.n ≠ 1) :
    ∃ es, em.enum P b = some es ∧ ∀ e ∈ es, e < b := by
  unfold EdgeMap.enum
  rw [if_neg hn]
  split
  · exact ⟨[], rfl, by simp⟩
  · refine concatOpt_below (fun o ho => ?_)
    obtain ⟨p, hp, rfl⟩ := List.mem_map.1 ho
    obtain ⟨xs, h1, _, h3⟩ := h.walk hp
    exact ⟨xs, h1, h3⟩

theorem EMono.enumAny {P : Slot} {label : Nat → String} {em : EdgeMap} {b : Nat} (h : EMono P em b) (hn : em.n ≠ 1)
    (ls : List String) : ∃ es, em.enumAny P label b ls = some es ∧ ∀ e ∈ es, e < b := by
  unfold EdgeMap.enumAny
  rw [if_neg hn]
  split
  · exact ⟨[], rfl, by simp⟩
  · rename_i h0
    refine concatOpt_below (fun o ho => ?_)
    obtain ⟨l, hl, rfl⟩ := List.mem_map.1 ho
    unfold EdgeMap.enumLabel
    rw [if_neg h0, if_neg hn]
    cases hg : em.lists.get l with
    | none => exact ⟨[], rfl, by simp⟩
    | some el =>
      obtain ⟨xs, h1, _, h3⟩ := h.walk (AMap.mem_of_get hg)
      exact ⟨xs, h1, h3⟩

end LPG
