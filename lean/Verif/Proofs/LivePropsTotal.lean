import Verif.Proofs.LivePropsLoop
import Verif.Proofs.LiveEach
/-!
# Calls that change an indexed property return
-/
namespace LPG
open State

variable {k : String} {ixs : Indexes} {val : Nat → Option Value} {E : List (Nat × Nat)} {v : Value} {id : Nat}

theorem KRep.remove_total (r : KRep k ixs val E) (hv : val id = some v) : ∃ ixs', Indexes.remove ixs k v id = some ixs' := by
  obtain ⟨h, h1, h2, -⟩ := r
  obtain ⟨hk, fs, c, h3, h4, h5⟩ := h2.full id v hv
  simp only [Indexes.remove, h1, Index.remove, HashIx.remove, h3, h4, h5]
  split <;> exact ⟨_, rfl⟩

theorem KRep.add_total (r : KRep k ixs val E) (hv : hkey (unwrap1 v) ≠ none) : ∃ ixs', Indexes.add ixs k v id = some ixs' := by
  obtain ⟨h, h1, h2, -⟩ := r
  simp only [Indexes.add, h1, Index.add, HashIx.add]
  cases hh : hkey (unwrap1 v) with
  | none => exact absurd hh hv
  | some x => exact ⟨_, rfl⟩

variable {s : State} {σ : Spec} {Z : List Nat} {n : Nat}

theorem nodeHash_set_total (r : KRep k s.nodeIx (s.nval σ k) E) (hn : n ∈ σ.nodes) (hv : hkey (unwrap1 v) ≠ none) :
    ∃ s', LPG.step s (.setNodeProp n k v) = some s' := by
  have hval : s.nval σ k n = (s.nProps n).get k := by simp only [State.nval]; rw [if_pos hn]
  simp only [LPG.step, State.setNodeProp]
  cases ho : AMap.get (s.nProps n) k with
  | none =>
    obtain ⟨ixs', h⟩ := r.add_total (id := n) hv
    simp only [h]
    exact ⟨_, rfl⟩
  | some old =>
    obtain ⟨ixs1, h1⟩ := r.remove_total (hval.trans ho)
    obtain ⟨ixs', h⟩ := (r.remove (hval.trans ho) h1).add_total (id := n) hv
    simp only [h1, h]
    exact ⟨_, rfl⟩

theorem nodeHash_unset_total (r : KRep k s.nodeIx (s.nval σ k) E) (hn : n ∈ σ.nodes) :
    ∃ s', LPG.step s (.removeNodeProp n k) = some s' := by
  have hval : s.nval σ k n = (s.nProps n).get k := by simp only [State.nval]; rw [if_pos hn]
  simp only [LPG.step, State.removeNodeProp]
  cases ho : AMap.get (s.nProps n) k with
  | none => exact ⟨_, rfl⟩
  | some old =>
    obtain ⟨ixs1, h1⟩ := r.remove_total (hval.trans ho)
    simp only [h1]
    exact ⟨_, rfl⟩

theorem edgeHash_set_total (r : KRep k s.edgeIx (s.zval σ Z k) E) (hn : n ∈ σ.edges) (hv : hkey (unwrap1 v) ≠ none) :
    ∃ s', LPG.step s (.setEdgeProp n k v) = some s' := by
  have hval : s.zval σ Z k n = (s.eProps n).get k := by simp only [State.zval]; rw [if_pos (.inl hn)]
  simp only [LPG.step, State.setEdgeProp]
  cases ho : AMap.get (s.eProps n) k with
  | none =>
    obtain ⟨ixs', h⟩ := r.add_total (id := n) hv
    simp only [h]
    exact ⟨_, rfl⟩
  | some old =>
    obtain ⟨ixs1, h1⟩ := r.remove_total (hval.trans ho)
    obtain ⟨ixs', h⟩ := (r.remove (hval.trans ho) h1).add_total (id := n) hv
    simp only [h1, h]
    exact ⟨_, rfl⟩

theorem edgeHash_unset_total (r : KRep k s.edgeIx (s.zval σ Z k) E) (hn : n ∈ σ.edges) :
    ∃ s', LPG.step s (.removeEdgeProp n k) = some s' := by
  have hval : s.zval σ Z k n = (s.eProps n).get k := by simp only [State.zval]; rw [if_pos (.inl hn)]
  simp only [LPG.step, State.removeEdgeProp]
  cases ho : AMap.get (s.eProps n) k with
  | none => exact ⟨_, rfl⟩
  | some old =>
    obtain ⟨ixs1, h1⟩ := r.remove_total (hval.trans ho)
    simp only [h1]
    exact ⟨_, rfl⟩

/-! ## Loops that set the property again -/

/-- The next cell is followed by another one. -/
def TwoLeft (E : List (Nat × Nat)) (it : Option (Nat × Nat)) : Prop := ∃ A c d B, E = A ++ c :: d :: B ∧ it = some c

theorem TwoLeft.round {E : List (Nat × Nat)} {it : Option (Nat × Nat)} (h : TwoLeft E it) (hk : (AMap.keys E).Nodup)
    (hi : (E.map Prod.snd).Nodup) : ∃ c, it = some c ∧ c ∈ E ∧
      ∀ c', TwoLeft (E.filter (fun d => d.2 ≠ c.2) ++ [(c', c.2)]) (LState.cellsAfter c.1 E).head? := by
  obtain ⟨A, c, d, B, rfl, rfl⟩ := h
  refine ⟨c, rfl, by simp, fun c' => ?_⟩
  rw [cellsAfter_append hk]
  have hB : (d :: B).filter (fun d => d.2 ≠ c.2) = d :: B := by
    rw [List.filter_eq_self]
    intro e he
    rw [List.map_append, List.map_cons, List.nodup_append, List.nodup_cons] at hi
    have : e.2 ≠ c.2 := fun h => hi.2.1.1 (by rw [← h]; exact List.mem_map_of_mem he)
    simpa using this
  have e : (A ++ c :: d :: B).filter (fun d => d.2 ≠ c.2) = A.filter (fun d => d.2 ≠ c.2) ++ d :: B := by
    rw [List.filter_append, List.filter_cons_of_neg (by simp), hB]
  rw [e]
  cases B with
  | nil => exact ⟨A.filter (fun d => d.2 ≠ c.2), d, (c', c.2), [], by simp, rfl⟩
  | cons b B => exact ⟨_, d, b, B ++ [(c', c.2)], by simp; rfl, rfl⟩

theorem TwoLeft.start {E : List (Nat × Nat)} (h : 2 ≤ E.length) : TwoLeft E E.head? := by
  match E, h with
  | c :: d :: B, _ => exact ⟨[], c, d, B, rfl, rfl⟩

theorem nodeHash_forever {f : Nat → Value} (hf : ∀ n, hkey (unwrap1 (f n)) ≠ none) (c : Core s σ)
    (r : KRep k s.nodeIx (s.nval σ k) E) (h2 : 2 ≤ E.length) (m : Nat) :
    ∃ xs s' it', xs.length = m ∧ live LPG.step (advCells State.nodeIx k) s E.head? (someRounds (fun n => .setNodeProp n k (f n)) xs) =
      some (someLog (fun n => .setNodeProp n k (f n)) xs, s', it') := by
  refine live_rounds (Inv := fun s σ it => Core s σ ∧ ∃ E, KRep k s.nodeIx (s.nval σ k) E ∧ TwoLeft E it) ?_ m
    ⟨c, E, r, TwoLeft.start h2⟩
  rintro s σ it ⟨c, E, r, ht⟩
  obtain ⟨d, rfl, h1, h2⟩ := ht.round r.keys r.ids
  have hn : d.2 ∈ σ.nodes := ((nval_has c).1 ((r.mem d.2).1 (List.mem_map_of_mem h1))).1
  obtain ⟨s', hs⟩ := nodeHash_set_total r hn (hf d.2)
  obtain ⟨c', r'⟩ := nodeHash_set hn r hs
  exact ⟨d.2, _, s', by simp only [advCells, r.cells], hs, c.step (op := .setNodeProp d.2 k (f d.2)) hn hs, _, r', h2 c'⟩

theorem edgeHash_forever {f : Nat → Value} (hf : ∀ n, hkey (unwrap1 (f n)) ≠ none) (c : Core s σ)
    (r : KRep k s.edgeIx (s.zval σ [] k) E) (h2 : 2 ≤ E.length) (m : Nat) :
    ∃ xs s' it', xs.length = m ∧ live LPG.step (advCells State.edgeIx k) s E.head? (someRounds (fun n => .setEdgeProp n k (f n)) xs) =
      some (someLog (fun n => .setEdgeProp n k (f n)) xs, s', it') := by
  refine live_rounds (Inv := fun s σ it => Core s σ ∧ ∃ E, KRep k s.edgeIx (s.zval σ [] k) E ∧ TwoLeft E it) ?_ m
    ⟨c, E, r, TwoLeft.start h2⟩
  rintro s σ it ⟨c, E, r, ht⟩
  obtain ⟨d, rfl, h1, h2⟩ := ht.round r.keys r.ids
  have hn : d.2 ∈ σ.edges := ((zval_has c ((r.mem d.2).1 (List.mem_map_of_mem h1))).resolve_right (by simp)).1
  obtain ⟨s', hs⟩ := edgeHash_set_total r hn (hf d.2)
  obtain ⟨c', r'⟩ := edgeHash_set hn r hs
  exact ⟨d.2, _, s', by simp only [advCells, r.cells], hs, c.step (op := .setEdgeProp d.2 k (f d.2)) hn hs, _, r', h2 c'⟩

end LPG
