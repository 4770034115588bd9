import Verif.Proofs.EdgeMono
/-!
# The lists of an edge map add up

Whatever is called, also on edges that the graph does not have, the sizes of the lists of an edge map are positive
and add up to its number of edges if there are two or more; with fewer edges there is no list. So when the last
list is taken apart (edgemap.go:97-102), the loop over the labels at 98-100 meets exactly one list, whatever the
order of the map: the simplification of `EdgeMap.remove` (`Verif.Model.Lists`) is exact.
-/
namespace LPG

/-- the sizes of the lists -/
def EdgeMap.total (m : AMap String EList) : Int := (m.map (fun p => p.2.n)).sum

theorem EdgeMap.total_cons (p : String × EList) (m : AMap String EList) : EdgeMap.total (p :: m) = p.2.n + EdgeMap.total m := by
  simp [EdgeMap.total]

theorem EdgeMap.total_set {k : String} {l : EList} : ∀ {m : AMap String EList},
    EdgeMap.total (m.set k l) = EdgeMap.total m + l.n - (match m.get k with | none => 0 | some o => o.n)
  | [] => by simp [AMap.set, AMap.get, EdgeMap.total]
  | (a, o) :: m => by
    rw [AMap.set, AMap.get]
    split
    · rw [EdgeMap.total_cons, EdgeMap.total_cons]; dsimp only; omega
    · rw [EdgeMap.total_cons, EdgeMap.total_cons, EdgeMap.total_set]; dsimp only; omega

theorem AMap.del_fresh {β : Type} {k : String} : ∀ {m : AMap String β}, k ∉ AMap.keys m → m.del k = m
  | [], _ => rfl
  | (a, o) :: m, h => by
    have h1 : a ≠ k := by rintro rfl; simp [AMap.keys] at h
    rw [AMap.del, if_neg h1, AMap.del_fresh (by intro hh; apply h; simp [AMap.keys] at hh ⊢; exact .inr hh)]

theorem EdgeMap.total_del {k : String} {o : EList} : ∀ {m : AMap String EList}, (AMap.keys m).Nodup → m.get k = some o →
    EdgeMap.total (m.del k) = EdgeMap.total m - o.n
  | [], _, h => by simp [AMap.get] at h
  | (a, x) :: m, hn, h => by
    have hn' : a ∉ AMap.keys m ∧ (AMap.keys m).Nodup := by simpa [AMap.keys] using hn
    rw [AMap.get] at h
    rw [AMap.del, EdgeMap.total_cons]
    split at h
    · rename_i he
      cases h
      subst he
      rw [if_pos rfl, AMap.del_fresh hn'.1]; dsimp only; omega
    · rename_i he
      rw [if_neg he, EdgeMap.total_cons, EdgeMap.total_del hn'.2 h]; dsimp only; omega

theorem EList.remove_size (P : Slot) (l : EList) (e : Nat) : (l.remove P e).2.n = l.n - 1 := by
  unfold EList.remove
  cases (P e).prev <;> dsimp only <;> split <;> rfl

/-- the sizes are right -/
structure EdgeMap.Sizes (em : EdgeMap) : Prop where
  keys : (AMap.keys em.lists).Nodup
  pos : ∀ p ∈ em.lists, 1 ≤ p.2.n
  few : em.n ≤ 1 → em.lists = []
  sum : 2 ≤ em.n → EdgeMap.total em.lists = em.n
  nonneg : 0 ≤ em.n

theorem EdgeMap.Sizes.empty : EdgeMap.empty.Sizes := by
  constructor <;> simp [EdgeMap.empty, AMap.keys]

theorem EdgeMap.doAdd_sizes {P : Slot} {em : EdgeMap} {l : String} {e : Nat} (hk : (AMap.keys em.lists).Nodup)
    (hp : ∀ p ∈ em.lists, 1 ≤ p.2.n) :
    (AMap.keys (em.doAdd P l e).2.lists).Nodup ∧ (∀ p ∈ (em.doAdd P l e).2.lists, 1 ≤ p.2.n) ∧
    EdgeMap.total (em.doAdd P l e).2.lists = EdgeMap.total em.lists + 1 ∧ (em.doAdd P l e).2.n = em.n := by
  unfold EdgeMap.doAdd
  cases hg : em.lists.get l with
  | none =>
    refine ⟨AMap.nodup_set hk _ _, fun p hm => ?_, ?_, rfl⟩
    · rcases AMap.mem_of_set hm with hm | hm
      · rw [hm]; simp [EList.add]
      · exact hp p hm
    · dsimp only; rw [EdgeMap.total_set, hg]; simp [EList.add]
  | some o =>
    have ho := hp _ (AMap.mem_of_get hg)
    refine ⟨AMap.nodup_set hk _ _, fun p hm => ?_, ?_, rfl⟩
    · rcases AMap.mem_of_set hm with hm | hm
      · rw [hm]; simp only [EList.add] at *; omega
      · exact hp p hm
    · dsimp only; rw [EdgeMap.total_set, hg]; simp only [EList.add]; omega

theorem EdgeMap.Sizes.add {P P' : Slot} {label : Nat → String} {em em' : EdgeMap} {e : Nat} (h : em.Sizes)
    (ha : em.add P label e = some (P', em')) : em'.Sizes := by
  unfold EdgeMap.add at ha
  split at ha
  · rename_i h0
    cases ha
    exact ⟨h.keys, h.pos, fun _ => h.few (by omega), fun hh => by simp at hh, by simp⟩
  · split at ha
    · split at ha
      · cases ha
      · rename_i o ho
        simp only at ha
        cases ha
        obtain ⟨a1, a2, a3, a4⟩ := EdgeMap.doAdd_sizes (P := P) (em := { em with lists := [] }) (l := label o) (e := o)
          (by simp [AMap.keys]) (by simp)
        obtain ⟨b1, b2, b3, b4⟩ := EdgeMap.doAdd_sizes
          (P := (EdgeMap.doAdd P { em with lists := [] } (label o) o).1)
          (em := { (EdgeMap.doAdd P { em with lists := [] } (label o) o).2 with only := none }) (l := label e) (e := e) a1 a2
        refine ⟨b1, b2, fun hh => by simp at hh, fun _ => ?_, by simp⟩
        dsimp only at b3 a3 ⊢
        rw [b3, a3]; simp [EdgeMap.total]
    · cases ha
      have := h.nonneg
      obtain ⟨b1, b2, b3, b4⟩ := EdgeMap.doAdd_sizes (P := P) (em := em) (l := label e) (e := e) h.keys h.pos
      refine ⟨b1, b2, fun hh => ?_, fun _ => ?_, ?_⟩
      · dsimp only at hh; omega
      · show EdgeMap.total (em.doAdd P (label e) e).2.lists = em.n + 1
        rw [b3, h.sum (by omega)]
      · dsimp only; omega

/-- the lists that are left when an edge is taken out of the list `l` of its label -/
def EdgeMap.left (P : Slot) (label : Nat → String) (em : EdgeMap) (e : Nat) (l : EList) : AMap String EList :=
  if (l.remove P e).2.n = 0 then em.lists.del (label e) else em.lists.set (label e) (l.remove P e).2

theorem EdgeMap.Sizes.left {P : Slot} {label : Nat → String} {em : EdgeMap} {e : Nat} {l : EList} (h : em.Sizes)
    (hl : em.lists.get (label e) = some l) (hn : 2 ≤ em.n) :
    (AMap.keys (em.left P label e l)).Nodup ∧ (∀ p ∈ em.left P label e l, 1 ≤ p.2.n) ∧
    EdgeMap.total (em.left P label e l) = em.n - 1 := by
  have hs := EList.remove_size P l e
  have hp := h.pos _ (AMap.mem_of_get hl)
  unfold EdgeMap.left
  split
  · rename_i h0
    refine ⟨List.Sublist.nodup (List.Sublist.map _ (AMap.keys_del_sublist _ _)) h.keys,
      fun p hm => h.pos p (AMap.mem_of_del hm), ?_⟩
    rw [EdgeMap.total_del h.keys hl, h.sum hn]; omega
  · rename_i h0
    refine ⟨AMap.nodup_set h.keys _ _, fun p hm => ?_, ?_⟩
    · rcases AMap.mem_of_set hm with hm | hm
      · rw [hm]; dsimp only at hp ⊢; omega
      · exact h.pos p hm
    · rw [EdgeMap.total_set, hl, h.sum hn]; dsimp only; omega

theorem EdgeMap.total_ge : ∀ {m : AMap String EList}, (∀ p ∈ m, 1 ≤ p.2.n) → (m.length : Int) ≤ EdgeMap.total m
  | [], _ => by simp [EdgeMap.total]
  | p :: m, h => by
    have := EdgeMap.total_ge (m := m) (fun q hq => h q (List.mem_cons_of_mem _ hq))
    have := h p (by simp)
    rw [EdgeMap.total_cons]
    simp only [List.length_cons]
    omega

/-- When one of two edges is removed, exactly one list is left: the loop over the labels takes its head. -/
theorem EdgeMap.Sizes.one_left {P : Slot} {label : Nat → String} {em : EdgeMap} {e : Nat} {l : EList} (h : em.Sizes)
    (hl : em.lists.get (label e) = some l) (hn : em.n - 1 = 1) : ∃ p, em.left P label e l = [p] := by
  obtain ⟨h1, h2, h3⟩ := h.left (P := P) hl (by omega)
  have h4 := EdgeMap.total_ge h2
  match hm : em.left P label e l with
  | [] => rw [hm] at h3; simp [EdgeMap.total] at h3; omega
  | [p] => exact ⟨p, rfl⟩
  | p :: q :: r =>
    rw [hm, ] at h4 h3
    simp only [List.length_cons] at h4
    omega

theorem EdgeMap.Sizes.remove {P : Slot} {label : Nat → String} {em : EdgeMap} {e : Nat} (h : em.Sizes) :
    (em.remove P label e).2.Sizes := by
  have hnn := h.nonneg
  unfold EdgeMap.remove
  split
  · exact h
  · rename_i h0
    split
    · rename_i h1
      split
      · exact h
      · exact ⟨h.keys, h.pos, fun _ => h.few (by omega), fun hh => by simp at hh, by simp⟩
    · rename_i h1
      split
      · exact h
      · rename_i l hg
        obtain ⟨g1, g2, g3⟩ := h.left (P := P) hg (by omega)
        have h4 : (if (l.remove P e).2.n = 0 then { em with lists := em.lists.del (label e) }
            else { em with lists := em.lists.set (label e) (l.remove P e).2 } : EdgeMap) =
            { em with lists := em.left P label e l } := by unfold EdgeMap.left; split <;> rfl
        dsimp only
        rw [h4]
        dsimp only
        by_cases hn : em.n - 1 = 1
        · rw [if_pos hn]
          refine ⟨by simp [AMap.keys], by simp, fun _ => rfl, fun hh => ?_, ?_⟩
          · dsimp only at hh
            split at hh <;> (dsimp only at hh; omega)
          · dsimp only
            split <;> (dsimp only; omega)
        · rw [if_neg hn]
          refine ⟨g1, g2, fun hh => ?_, fun _ => g3, ?_⟩
          · dsimp only at hh; omega
          · dsimp only; omega

/-- the edge maps of a graph -/
structure State.Sizes (s : State) : Prop where
  all : s.allEdges.Sizes
  out : ∀ n, (s.outgoing n).Sizes
  inc : ∀ n, (s.incoming n).Sizes

theorem State.Sizes.init : State.new.Sizes := ⟨EdgeMap.Sizes.empty, fun _ => EdgeMap.Sizes.empty, fun _ => EdgeMap.Sizes.empty⟩

theorem upd_all {α : Type} {p : α → Prop} {f : Nat → α} {a : Nat} {v : α} (h : ∀ n, p (f n)) (hv : p v) : ∀ n, p (upd f a v n) := by
  intro n
  rw [upd_apply]
  split
  · exact hv
  · exact h n

theorem State.Sizes.disconnect {s : State} (h : s.Sizes) (e : Nat) : (s.disconnect e).Sizes :=
  ⟨h.all, upd_all h.out (h.out _).remove, upd_all h.inc (h.inc _).remove⟩

theorem State.Sizes.connect {s s' : State} {e : Nat} (h : s.Sizes) (hs : s.connect e = some s') : s'.Sizes := by
  unfold State.connect at hs
  split at hs
  · cases hs
  · rename_i p2 im h1
    simp only at hs
    split at hs
    · cases hs
    · rename_i p1 om h2
      cases hs
      exact ⟨h.all, upd_all h.out ((h.out _).add h2), upd_all h.inc ((h.inc _).add h1)⟩

theorem State.Sizes.dropEdge {s : State} (h : s.Sizes) (e : Nat) : (s.dropEdge e).Sizes :=
  ⟨h.all.remove, h.out, h.inc⟩

theorem State.Sizes.detachEdge {s s' : State} {e : Nat} (h : s.Sizes) (hs : s.detachEdge e = some s') : s'.Sizes := by
  unfold State.detachEdge at hs
  simp only at hs
  split at hs
  · cases hs
  · cases hs
    have := (h.disconnect e).dropEdge e
    exact ⟨this.all, this.out, this.inc⟩

theorem State.Sizes.detachEdges {es : List Nat} : ∀ {s s' : State}, s.Sizes → s.detachEdges es = some s' → s'.Sizes := by
  induction es with
  | nil => intro s s' h hs; simp [State.detachEdges] at hs; subst hs; exact h
  | cons e es ih =>
    intro s s' h hs
    rw [State.detachEdges] at hs
    split at hs
    · cases hs
    · rename_i s1 h1
      exact ih (h.detachEdge h1) hs

theorem State.Sizes.detachNode {s s' : State} {n : Nat} (h : s.Sizes) (hs : s.detachNode n = some s') : s'.Sizes := by
  unfold State.detachNode at hs
  split at hs
  · cases hs
  · split at hs
    · cases hs
    · rename_i s1 h1
      have h2 := h.detachEdges h1
      simp only at hs
      split at hs
      · cases hs
      · split at hs
        · cases hs
        · rename_i s2 h3
          cases hs
          have h4 := State.Sizes.detachEdges (s := { s1 with incoming := upd s1.incoming n EdgeMap.empty })
            ⟨h2.all, h2.out, upd_all h2.inc .empty⟩ h3
          exact ⟨h4.all, upd_all h4.out .empty, h4.inc⟩

theorem State.Sizes.step {s s' : State} {op : Op} (h : s.Sizes) (hs : LPG.step s op = some s') : s'.Sizes := by
  cases op with
  | newNode ls ps =>
    obtain ⟨ixs, _, rfl⟩ := newNode_frame hs
    exact ⟨h.all, upd_all h.out .empty, upd_all h.inc .empty⟩
  | newEdge a b l ps =>
    simp only [LPG.step] at hs
    rw [newEdge_eq] at hs
    split at hs
    · cases hs
    · rename_i p0 m ha
      split at hs
      · cases hs
      · rename_i s1 h1
        have h2 : s1.Sizes := by
          refine State.Sizes.connect ?_ h1
          exact ⟨EdgeMap.Sizes.add h.all ha, h.out, h.inc⟩
        split at hs
        · cases hs
        · cases hs
          exact ⟨h2.all, h2.out, h2.inc⟩
  | setLabels n ls => cases hs; exact ⟨h.all, h.out, h.inc⟩
  | setNodeProp n k v => obtain ⟨ixs, rfl⟩ := setNodeProp_frame hs; exact ⟨h.all, h.out, h.inc⟩
  | removeNodeProp n k => obtain ⟨ixs, rfl⟩ := removeNodeProp_frame hs; exact ⟨h.all, h.out, h.inc⟩
  | detach n => exact h.detachNode hs
  | detachRemove n =>
    simp only [LPG.step, State.detachRemoveNode] at hs
    split at hs
    · cases hs
    · rename_i s1 h1
      have h2 := h.detachNode h1
      split at hs
      · cases hs
      · cases hs
        exact ⟨h2.all, h2.out, h2.inc⟩
  | setEdgeLabel e l =>
    simp only [LPG.step, State.setEdgeLabel] at hs
    split at hs
    · cases hs; exact h
    · have h1 := h.disconnect e
      refine State.Sizes.connect ?_ hs
      exact ⟨h1.all, h1.out, h1.inc⟩
  | setEdgeProp n k v => obtain ⟨ixs, rfl⟩ := setEdgeProp_frame hs; exact ⟨h.all, h.out, h.inc⟩
  | removeEdgeProp n k => obtain ⟨ixs, rfl⟩ := removeEdgeProp_frame hs; exact ⟨h.all, h.out, h.inc⟩
  | removeEdge e => cases hs; exact (h.disconnect e).dropEdge e
  | addNodeIndex k t => obtain ⟨ixs, rfl⟩ := addNodeIndex_frame hs; exact ⟨h.all, h.out, h.inc⟩
  | addEdgeIndex k t => obtain ⟨ixs, rfl⟩ := addEdgeIndex_frame hs; exact ⟨h.all, h.out, h.inc⟩

theorem State.Sizes.runFrom {ops : List Op} : ∀ {s s' : State}, s.Sizes → LPG.runFrom s ops = some s' → s'.Sizes := by
  induction ops with
  | nil => intro s s' h hs; simp [LPG.runFrom] at hs; subst hs; exact h
  | cons op ops ih =>
    intro s s' h hs
    rw [LPG.runFrom] at hs
    split at hs
    · cases hs
    · rename_i s1 h1
      exact ih (h.step h1) hs

/-- After any calls, removing one of two edges of an edge map leaves exactly one list. -/
theorem one_list_left {ops : List Op} {s : State} (hs : run ops = some s) {em : EdgeMap}
    (hm : em = s.allEdges ∨ ∃ n, em = s.outgoing n ∨ em = s.incoming n) {P : Slot} {label : Nat → String} {e : Nat} {l : EList}
    (hl : em.lists.get (label e) = some l) (hn : em.n - 1 = 1) : ∃ p, em.left P label e l = [p] := by
  have h := State.Sizes.runFrom State.Sizes.init hs
  refine EdgeMap.Sizes.one_left ?_ hl hn
  rcases hm with rfl | ⟨n, rfl | rfl⟩
  · exact h.all
  · exact h.out n
  · exact h.inc n

example : ((run [.newNode [] [], .newEdge 0 0 "a" [], .newEdge 0 0 "b" []]).map (fun s => (s.allEdges.n, s.allEdges.lists.length,
    (s.outgoing 0).n))) = some (2, 2, 2) := by decide +kernel

end LPG
