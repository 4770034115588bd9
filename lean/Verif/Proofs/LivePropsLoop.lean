import Verif.Proofs.LivePropsEdges
/-!
# Loops over the list of a hash index
-/
namespace LPG
open State

/-- Between two calls: `P` are the cells left to visit, `Y` the objects visited, `K` those that must be visited. -/
def CellInv (K : Nat → Prop) (E : List (Nat × Nat)) (it : Option (Nat × Nat)) (Y : List Nat) : Prop :=
  ∃ P, it = P.head? ∧ (P ≠ [] → ∃ A, E = A ++ P) ∧ (∀ c ∈ P, c.2 ∉ Y) ∧ ∀ n, K n → n ∈ Y ∨ n ∈ P.map Prod.snd

theorem CellInv.start (E : List (Nat × Nat)) : CellInv (fun n => n ∈ E.map Prod.snd) E E.head? [] :=
  ⟨E, rfl, fun _ => ⟨[], rfl⟩, by simp, fun n hn => .inr hn⟩

theorem CellInv.item {K : Nat → Prop} {E : List (Nat × Nat)} {c : Nat × Nat} {Y : List Nat} (h : CellInv K E (some c) Y)
    (hk : (AMap.keys E).Nodup) (hi : (E.map Prod.snd).Nodup) :
    c.2 ∉ Y ∧ c ∈ E ∧ CellInv K E (LState.cellsAfter c.1 E).head? (Y ++ [c.2]) := by
  obtain ⟨P, h1, h2, h3, h4⟩ := h
  cases P with
  | nil => cases h1
  | cons d P =>
    cases h1
    obtain ⟨A, rfl⟩ := h2 (by simp)
    rw [cellsAfter_append hk]
    refine ⟨h3 c (by simp), by simp, P, rfl, fun _ => ⟨A ++ [c], by simp⟩, ?_, ?_⟩
    · intro d hd hY
      rcases List.mem_append.1 hY with hY | hY
      · exact h3 d (by simp [hd]) hY
      · rw [List.map_append, List.map_cons, List.nodup_append, List.nodup_cons] at hi
        have : d.2 = c.2 := by simpa using hY
        exact hi.2.1.1 (by rw [← this]; exact List.mem_map_of_mem hd)
    · intro n hn
      rcases h4 n hn with h | h
      · exact .inl (List.mem_append_left _ h)
      · simp only [List.map_cons, List.mem_cons] at h
        rcases h with h | h
        · exact .inl (by simp [h])
        · exact .inr h

theorem CellInv.last {K : Nat → Prop} {E : List (Nat × Nat)} {Y : List Nat} (h : CellInv K E none Y) : ∀ x, K x → x ∈ Y := by
  obtain ⟨P, h1, h2, h3, h4⟩ := h
  cases P with
  | nil => exact fun x hx => (h4 x hx).elim id (by simp)
  | cons d P => cases h1

theorem CellInv.op {K : Nat → Prop} {E E' : List (Nat × Nat)} {it : Option (Nat × Nat)} {Y N : List Nat} {L : Nat → Prop}
    (h : CellInv K E it Y) (m : Moves L N E E') (hL : ∀ x ∈ E.map Prod.snd, L x → x ∈ Y) (hN : ∀ x ∈ N, x ∉ Y) :
    CellInv K E' it Y := by
  obtain ⟨P, h1, h2, h3, h4⟩ := h
  obtain ⟨keep, c, rfl, m2⟩ := m
  cases P with
  | nil => exact ⟨[], h1, by simp, by simp, h4⟩
  | cons d P =>
    obtain ⟨A, rfl⟩ := h2 (by simp)
    have hP : (d :: P).filter (fun d => keep d.2) = d :: P := by
      rw [List.filter_eq_self]
      intro e he
      cases hk : keep e.2 with
      | true => rfl
      | false =>
        exact absurd (hL e.2 (List.mem_map_of_mem (List.mem_append_right _ he)) (m2 _ hk)) (h3 e he)
    refine ⟨d :: P ++ N.map (fun n => (c, n)), by rw [h1]; rfl, fun _ => ⟨A.filter (fun d => keep d.2), ?_⟩, ?_, ?_⟩
    · rw [List.filter_append, hP, List.append_assoc]
    · intro e he
      rcases List.mem_append.1 he with he | he
      · exact h3 e he
      · obtain ⟨n, hn, rfl⟩ := List.mem_map.1 he
        exact hN n hn
    · intro n hn
      rcases h4 n hn with h | h
      · exact .inl h
      · exact .inr (by rw [List.map_append]; exact List.mem_append_left _ h)

/-! ## Nodes -/

structure NHashInv (k : String) (K : Nat → Prop) (s : State) (σ : Spec) (it : Option (Nat × Nat)) (Y : List Nat) : Prop where
  core : Core s σ
  lt : ∀ y ∈ Y, y < σ.next
  list : ∃ E, KRep k s.nodeIx (s.nval σ k) E ∧ CellInv K E it Y

theorem nval_has {s : State} {σ : Spec} (c : Core s σ) {k : String} {n : Nat} : s.nval σ k n ≠ none ↔ σ.NHas k n := by
  simp only [State.nval, Spec.NHas]
  by_cases hn : n ∈ σ.nodes
  · rw [if_pos hn, (c.nprops n hn).2 k]; simp [hn]
  · rw [if_neg hn]; simp [hn]

theorem next_le {σ : Spec} {op : Op} : σ.next ≤ (σ.step op).next := by
  cases op <;> simp [Spec.step, Spec.detach, Spec.dropEdge]

theorem NHashInv.adv {k : String} {K : Nat → Prop} {s : State} {σ : Spec} {it : Option (Nat × Nat)} {Y : List Nat}
    (hi : NHashInv k K s σ it Y) : ∃ r it', advCells State.nodeIx k s it = some (r, it') ∧
      (∀ x, r = some x → x ∉ Y ∧ σ.NHas k x ∧ NHashInv k K s σ it' (Y ++ [x])) ∧
      (r = none → (∀ x, K x → x ∈ Y) ∧ NHashInv k K s σ it' Y) := by
  obtain ⟨c, hlt, E, r, ci⟩ := hi
  cases it with
  | none => exact ⟨none, none, rfl, by simp, fun _ => ⟨ci.last, c, hlt, E, r, ci⟩⟩
  | some d =>
    refine ⟨some d.2, _, by simp only [advCells, r.cells]; rfl, ?_, by simp⟩
    rintro x hx
    cases hx
    obtain ⟨h1, h2, h3⟩ := ci.item r.keys r.ids
    have hh := (nval_has c).1 ((r.mem d.2).1 (List.mem_map_of_mem h2))
    refine ⟨h1, hh, c, ?_, E, r, h3⟩
    intro y hy
    rcases List.mem_append.1 hy with hy | hy
    · exact hlt y hy
    · have : y = d.2 := by simpa using hy
      rw [this]; exact c.nLt _ hh.1

theorem NHashInv.op {k : String} {K : Nat → Prop} {s s' : State} {σ : Spec} {it : Option (Nat × Nat)} {Y : List Nat} {op : Op}
    (hi : NHashInv k K s σ it Y) (hv : σ.Valid op) (hg : σ.GentleNProp k Y op) (hs : step s op = some s') :
    NHashInv k K s' (σ.step op) it Y := by
  obtain ⟨c, hlt, E, r, ci⟩ := hi
  obtain ⟨E', r', m⟩ := nodeHash_step c r hv hs
  refine ⟨c.step hv hs, fun y hy => Nat.lt_of_lt_of_le (hlt y hy) next_le, E', r', ci.op m ?_ ?_⟩
  · intro x hx hL
    have hp : σ.nprop x k ≠ none := ((nval_has c).1 ((r.mem x).1 hx)).2
    cases op <;> simp only [Op.nLeaves] at hL
    case setNodeProp => obtain ⟨rfl, rfl⟩ := hL; exact absurd (hg rfl).2 hp
    case removeNodeProp => obtain ⟨rfl, rfl⟩ := hL; exact (hg rfl).resolve_right hp
    case detachRemove => subst hL; exact Or.resolve_right hg hp
  · intro x hx hY
    cases op <;> simp only [Spec.nEnters, List.not_mem_nil] at hx
    case newNode =>
      split at hx
      · simp at hx
      · have : x = σ.next := by simpa using hx
        exact Nat.lt_irrefl _ (this ▸ hlt x hY)
    case setNodeProp =>
      split at hx
      · rename_i hk
        rw [List.mem_singleton.1 hx] at hY
        exact (hg hk).1 hY
      · simp at hx

/-! ## Edges -/

structure EHashInv (k : String) (K : Nat → Prop) (s : State) (σ : Spec) (it : Option (Nat × Nat)) (Y : List Nat) : Prop where
  core : Core s σ
  lt : ∀ y ∈ Y, y < σ.next
  list : ∃ E Z, (∀ z ∈ Z, z ∉ σ.edges ∧ z ∈ Y) ∧ KRep k s.edgeIx (s.zval σ Z k) E ∧ CellInv K E it Y

theorem zval_has {s : State} {σ : Spec} (c : Core s σ) {Z : List Nat} {k : String} {n : Nat} (h : s.zval σ Z k n ≠ none) :
    σ.EHas k n ∨ n ∈ Z := by
  simp only [State.zval, Spec.EHas] at *
  by_cases hn : n ∈ σ.edges
  · rw [if_pos (.inl hn), (c.eprops n hn).2 k] at h; exact .inl ⟨hn, h⟩
  · by_cases hz : n ∈ Z
    · exact .inr hz
    · simp [hn, hz] at h

theorem EHashInv.adv {k : String} {K : Nat → Prop} {s : State} {σ : Spec} {it : Option (Nat × Nat)} {Y : List Nat}
    (hi : EHashInv k K s σ it Y) : ∃ r it', advCells State.edgeIx k s it = some (r, it') ∧
      (∀ x, r = some x → x ∉ Y ∧ σ.EHas k x ∧ EHashInv k K s σ it' (Y ++ [x])) ∧
      (r = none → (∀ x, K x → x ∈ Y) ∧ EHashInv k K s σ it' Y) := by
  obtain ⟨c, hlt, E, Z, hZ, r, ci⟩ := hi
  cases it with
  | none => exact ⟨none, none, rfl, by simp, fun _ => ⟨ci.last, c, hlt, E, Z, hZ, r, ci⟩⟩
  | some d =>
    refine ⟨some d.2, _, by simp only [advCells, r.cells]; rfl, ?_, by simp⟩
    rintro x hx
    cases hx
    obtain ⟨h1, h2, h3⟩ := ci.item r.keys r.ids
    have hh : σ.EHas k d.2 := (zval_has c ((r.mem d.2).1 (List.mem_map_of_mem h2))).resolve_right
      (fun hz => h1 (hZ _ hz).2)
    refine ⟨h1, hh, c, ?_, E, Z, fun z hz => ⟨(hZ z hz).1, List.mem_append_left _ (hZ z hz).2⟩, r, h3⟩
    intro y hy
    rcases List.mem_append.1 hy with hy | hy
    · exact hlt y hy
    · have : y = d.2 := by simpa using hy
      rw [this]; exact c.eLt _ hh.1

theorem edges_step {σ : Spec} {op : Op} {z : Nat} (hz : z ∉ σ.edges) (hn : z < σ.next) : z ∉ (σ.step op).edges := by
  cases op <;> simp only [Spec.step, Spec.detach, Spec.dropEdge] <;> try exact hz
  case newEdge =>
    intro h
    rcases List.mem_append.1 h with h | h
    · exact hz h
    · have : z = σ.next := by simpa using h
      omega
  all_goals exact fun h => hz (List.mem_filter.1 h).1

theorem EHashInv.op {k : String} {K : Nat → Prop} {s s' : State} {σ : Spec} {it : Option (Nat × Nat)} {Y : List Nat} {op : Op}
    (hi : EHashInv k K s σ it Y) (hv : σ.Valid op) (hg : σ.GentleEProp k Y op) (hs : step s op = some s') :
    EHashInv k K s' (σ.step op) it Y := by
  obtain ⟨c, hlt, E, Z, hZ, r, ci⟩ := hi
  obtain ⟨E', r', m⟩ := edgeHash_step c (fun z hz => (hZ z hz).1) (fun z hz => hlt z (hZ z hz).2) r hv hs
  refine ⟨c.step hv hs, fun y hy => Nat.lt_of_lt_of_le (hlt y hy) next_le, E', _, ?_, r', ci.op m ?_ ?_⟩
  · have old : ∀ z ∈ Z, z ∉ (σ.step op).edges ∧ z ∈ Y :=
      fun z hz => ⟨edges_step (hZ z hz).1 (hlt z (hZ z hz).2), (hZ z hz).2⟩
    intro z hz
    cases op <;> simp only [Spec.eStays] at hz <;> try exact old z hz
    case removeEdge e =>
      split at hz
      · exact old z hz
      · rename_i hn
        rcases List.mem_cons.1 hz with rfl | hz
        · exact ⟨by simp [Spec.step, Spec.dropEdge], Or.resolve_right hg hn⟩
        · exact old z hz
  · intro x hx hL
    rcases zval_has c ((r.mem x).1 hx) with ⟨hp1, hp⟩ | hz
    · cases op <;> simp only [Spec.eLeaves] at hL
      case setEdgeProp => obtain ⟨rfl, rfl⟩ := hL; exact absurd (hg rfl).2 hp
      case removeEdgeProp => obtain ⟨rfl, rfl⟩ := hL; exact (hg rfl).resolve_right hp
      case detachRemove => exact Or.resolve_right (hg x hL.1 hL.2) hp
      case detach => exact Or.resolve_right (hg x hL.1 hL.2) hp
    · exact (hZ x hz).2
  · intro x hx hY
    cases op <;> simp only [Spec.eEnters, List.not_mem_nil] at hx
    case newEdge =>
      split at hx
      · simp at hx
      · have : x = σ.next := by simpa using hx
        exact Nat.lt_irrefl _ (this ▸ hlt x hY)
    case setEdgeProp =>
      split at hx
      · rename_i hk
        rw [List.mem_singleton.1 hx] at hY
        exact (hg hk).1 hY
      · simp at hx

end LPG
