import Verif.Proofs.NodeList
/-! The `next` pointers of the node list always lead to newer nodes, also in the histories in which the list
loses nodes. -/
namespace LPG
open State

structure Mono (P : NPtr) (l : NList) (b : Nat) : Prop where
  head : ∀ x, l.head = some x → x < b
  tail : ∀ x, l.tail = some x → x < b
  next : ∀ x y, P.next x = some y → x < y ∧ y < b
  prev : ∀ x y, P.prev x = some y → y < x

theorem Mono.init : Mono State.new.nptr State.new.allNodes State.new.idBase := by
  constructor <;> simp [State.new]

theorem Mono.new {P : NPtr} {l : NList} {b : Nat} (h : Mono P l b) :
    Mono (l.add { next := upd P.next b none, prev := upd P.prev b none } b).1
      (l.add { next := upd P.next b none, prev := upd P.prev b none } b).2 (b + 1) := by
  refine ⟨?_, ?_, ?_, ?_⟩
  · intro x hx
    simp only [NList.add] at hx
    split at hx
    · cases hx; omega
    · rename_i y hy; cases hx; have := h.head _ hy; omega
  · intro x hx; simp only [NList.add] at hx; cases hx; omega
  · intro x y hy
    simp only [NList.add] at hy
    split at hy
    · rename_i ht
      simp only [upd_apply] at hy
      split at hy
      · cases hy
      · have := h.next x y hy; omega
    · rename_i t ht
      simp only [upd_apply] at hy
      split at hy
      · rename_i hx; subst hx; cases hy; have := h.tail _ ht; omega
      · split at hy
        · cases hy
        · have := h.next x y hy; omega
  · intro x y hy
    have key : (upd (upd P.prev b none) b l.tail) x = some y → y < x := by
      intro hk
      by_cases hx : x = b
      · rw [hx, upd_same] at hk; rw [hx]; exact h.tail _ hk
      · rw [upd_other _ _ hx, upd_other _ _ hx] at hk; exact h.prev x y hk
    simp only [NList.add] at hy
    split at hy <;> exact key hy

theorem Mono.remove {P : NPtr} {l : NList} {b : Nat} {e : Nat} (h : Mono P l b) (he : e < b) :
    Mono (l.remove P e).1 (l.remove P e).2 b := by
  cases hp : P.prev e with
  | none =>
    cases hn : P.next e with
    | none =>
      simp only [NList.remove, hp, hn]
      refine ⟨by simp, ?_, h.next, h.prev⟩
      intro x hx; cases hx; exact he
    | some y =>
      simp only [NList.remove, hp, hn]
      have hy := h.next e y hn
      refine ⟨?_, h.tail, h.next, ?_⟩
      · intro x hx; cases hx; exact hy.2
      · intro x z hz
        simp only [upd_apply] at hz
        split at hz
        · cases hz
        · exact h.prev x z hz
  | some p =>
    have hpe := h.prev e p hp
    have hne : e ≠ p := by omega
    cases hn : P.next e with
    | none =>
      simp only [NList.remove, hp, upd_other _ _ hne, hn]
      refine ⟨h.head, ?_, ?_, h.prev⟩
      · intro x hx; cases hx; exact he
      · intro x z hz
        simp only [upd_apply] at hz
        split at hz
        · cases hz
        · exact h.next x z hz
    | some y =>
      have hy := h.next e y hn
      simp only [NList.remove, hp, upd_other _ _ hne, hn]
      refine ⟨h.head, h.tail, ?_, ?_⟩
      · intro x z hz
        simp only [upd_apply] at hz
        split at hz
        · cases hz; omega
        · exact h.next x z hz
      · intro x z hz
        simp only [upd_apply] at hz
        split at hz
        · cases hz; omega
        · exact h.prev x z hz

theorem newEdge_frame {s s' : State} {a b : Nat} {l : String} {ps : Props} (hs : s.newEdge a b l ps = some s') :
    s'.nptr = s.nptr ∧ s'.allNodes = s.allNodes ∧ s'.idBase = s.idBase + 1 ∧ s'.nLabels = s.nLabels ∧
    s'.nProps = s.nProps ∧ s'.byLabel = s.byLabel ∧ s'.nodeIx = s.nodeIx ∧
    s'.eProps = upd s.eProps s.idBase ps ∧ s'.eFrom = upd s.eFrom s.idBase a ∧ s'.eTo = upd s.eTo s.idBase b ∧
    s'.eLabel = upd s.eLabel s.idBase l ∧
    Indexes.addAll s.idBase ps s.edgeIx = some s'.edgeIx := by
  rw [newEdge_eq] at hs
  split at hs
  · cases hs
  · split at hs
    · cases hs
    · rename_i s1 h1
      obtain ⟨p1, p2, im, om, rfl⟩ := connect_frame h1
      simp only at hs
      split at hs
      · cases hs
      · rename_i ixs hix
        cases hs
        exact ⟨rfl, rfl, rfl, rfl, rfl, rfl, rfl, rfl, rfl, rfl, rfl, hix⟩

theorem Mono.step {s s' : State} {σ : Spec} {op : Op} (c : Core s σ) (h : Mono s.nptr s.allNodes s.idBase)
    (hv : σ.Valid op) (hs : LPG.step s op = some s') : Mono s'.nptr s'.allNodes s'.idBase := by
  cases op with
  | newNode ls ps => obtain ⟨ixs, _, rfl⟩ := newNode_frame hs; exact h.new
  | newEdge a b l ps =>
    obtain ⟨h1, h2, h3, _⟩ := newEdge_frame hs
    rw [h1, h2, h3]
    exact ⟨fun x hx => Nat.lt_succ_of_lt (h.head x hx), fun x hx => Nat.lt_succ_of_lt (h.tail x hx),
      fun x y hy => ⟨(h.next x y hy).1, Nat.lt_succ_of_lt (h.next x y hy).2⟩, h.prev⟩
  | setLabels n ls => cases hs; exact h
  | setNodeProp n k v => obtain ⟨ixs, rfl⟩ := setNodeProp_frame hs; exact h
  | removeNodeProp n k => obtain ⟨ixs, rfl⟩ := removeNodeProp_frame hs; exact h
  | detach n =>
    obtain ⟨p0, p1, p2, im, om, ae, ix, rfl⟩ := detachNode_frame hs
    exact h
  | detachRemove n =>
    simp only [LPG.step, State.detachRemoveNode] at hs
    split at hs
    · cases hs
    · rename_i s1 h1
      obtain ⟨p0, p1, p2, im, om, ae, ix, rfl⟩ := detachNode_frame h1
      split at hs
      · cases hs
      · cases hs
        exact h.remove (by rw [c.next]; exact c.nLt n hv)
  | setEdgeLabel e l =>
    simp only [LPG.step, State.setEdgeLabel] at hs
    split at hs
    · cases hs; exact h
    · obtain ⟨p1, p2, im, om, rfl⟩ := connect_frame hs
      exact h
  | setEdgeProp n k v => obtain ⟨ixs, rfl⟩ := setEdgeProp_frame hs; exact h
  | removeEdgeProp n k => obtain ⟨ixs, rfl⟩ := removeEdgeProp_frame hs; exact h
  | removeEdge e => cases hs; exact h
  | addNodeIndex k t => obtain ⟨ixs, rfl⟩ := addNodeIndex_frame hs; exact h
  | addEdgeIndex k t => obtain ⟨ixs, rfl⟩ := addEdgeIndex_frame hs; exact h

theorem Mono.runFrom {ops : List Op} : ∀ {s s' : State} {σ : Spec}, Core s σ → Mono s.nptr s.allNodes s.idBase →
    σ.ValidFrom ops → LPG.runFrom s ops = some s' → Mono s'.nptr s'.allNodes s'.idBase := by
  induction ops with
  | nil => intro s s' σ _ h _ hs; simp [LPG.runFrom] at hs; subst hs; exact h
  | cons op ops ih =>
    intro s s' σ c h hv hs
    rw [LPG.runFrom] at hs
    split at hs
    · cases hs
    · rename_i s1 h1
      exact ih (c.step hv.1 h1) (h.step c hv.1 h1) hv.2 hs

/-- following increasing pointers below a bound ends, with a strictly increasing list -/
theorem walk_increasing {next : Nat → Option Nat} {b : Nat} (h : ∀ x y, next x = some y → x < y ∧ y < b) :
    ∀ (fuel : Nat) (o : Option Nat), (∀ x, o = some x → x < b ∧ b ≤ x + fuel) →
      ∃ xs, walk next fuel o = some xs ∧ xs.Pairwise (· < ·) ∧ ∀ z ∈ xs, (∀ x, o = some x → x ≤ z) ∧ z < b := by
  intro fuel
  induction fuel with
  | zero =>
    intro o ho
    cases o with
    | none => exact ⟨[], rfl, List.Pairwise.nil, by simp⟩
    | some x => have := ho x rfl; omega
  | succ fuel ih =>
    intro o ho
    cases o with
    | none => exact ⟨[], rfl, List.Pairwise.nil, by simp⟩
    | some x =>
      obtain ⟨hx1, hx2⟩ := ho x rfl
      obtain ⟨xs, h1, h2, h3⟩ := ih (next x) (fun y hy => by have := h x y hy; omega)
      have hgt : ∀ z ∈ xs, x < z := by
        intro z hz
        cases hn : next x with
        | none => rw [hn] at h1; cases fuel <;> (simp [walk] at h1; subst h1; simp at hz)
        | some y => have := (h3 z hz).1 y hn; have := h x y hn; omega
      refine ⟨x :: xs, by simp [walk, h1], List.pairwise_cons.2 ⟨hgt, h2⟩, ?_⟩
      intro z hz
      rcases List.mem_cons.1 hz with rfl | hz
      · exact ⟨fun y hy => by cases hy; exact Nat.le_refl _, hx1⟩
      · exact ⟨fun y hy => by cases hy; exact Nat.le_of_lt (hgt z hz), (h3 z hz).2⟩

theorem Mono.getNodes {s : State} (h : Mono s.nptr s.allNodes s.idBase) :
    ∃ xs, s.getNodes = some xs ∧ xs.Pairwise (· < ·) ∧ ∀ z ∈ xs, z < s.idBase := by
  obtain ⟨xs, h1, h2, h3⟩ := walk_increasing h.next s.idBase s.allNodes.head
    (fun x hx => ⟨h.head x hx, by omega⟩)
  exact ⟨xs, h1, h2, fun z hz => (h3 z hz).2⟩

end LPG
