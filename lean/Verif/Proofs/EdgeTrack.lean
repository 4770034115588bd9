import Verif.Spec.EdgeTrack
import Verif.Proofs.IndexTrack
/-!
# The index of one property of edges over a history
-/
namespace LPG
open State

/-- a cell of a set of the index is in its list -/
theorem without_remove_only {h h' : HashIx} {val : Nat → Option Value} {v : Value} {id : Nat} {O : List Nat}
    (hr : HRep (h.without O) val) (ha : h.remove v id = some h') : h'.only O = h.only O := by
  unfold HashIx.remove at ha
  split at ha
  · cases ha; rfl
  · split at ha
    · cases ha
    · rename_i k hk
      split at ha
      · cases ha; rfl
      · rename_i fs hg
        split at ha
        · cases ha; rfl
        · rename_i c hc
          cases ha
          have hno : c ∉ O := by
            intro ho
            have hm := AMap.get_mem (hr.sets k fs id c hg hc).1
            have := (List.mem_filter.1 hm).2
            simp [ho] at this
          simp only [HashIx.only, List.filter_filter]
          apply List.filter_congr
          intro p _
          by_cases hp : p.1 ∈ O
          · have : p.1 ≠ c := fun e => hno (e ▸ hp)
            simp [hp, this]
          · simp [hp]

/-- the index has the objects with a value in `val` and, if it is a hash index, lists the objects `D` once more -/
def DRep (D : List Nat) : Index → (Nat → Option Value) → Prop
  | .btree t, val => BRep t val
  | .hash h, val => ∃ O : List Nat, HRep (h.without O) val ∧ (∀ c ∈ O, c < h.nextCell) ∧ (h.only O).map Prod.snd = D

theorem DRep.new (t : IndexType) : DRep [] (Index.new t) (fun _ => none) := by
  cases t with
  | btree => exact BRep.empty
  | hash =>
    refine ⟨[], ?_, by simp, by simp [HashIx.only]⟩
    have : HashIx.empty.without [] = HashIx.empty := by simp [HashIx.without]
    show HRep (HashIx.empty.without []) _
    rw [this]
    exact HRep.empty

theorem closed_DRep (D : List Nat) : RepClosed (DRep D) where
  add := by
    intro ix ix' val v id h hid ha
    cases ix with
    | btree t =>
      simp only [Index.add, Option.map_eq_some_iff] at ha
      obtain ⟨t', ha, rfl⟩ := ha
      exact BRep.add h hid ha
    | hash t =>
      simp only [Index.add, Option.map_eq_some_iff] at ha
      obtain ⟨t', ha, rfl⟩ := ha
      obtain ⟨O, h1, h2, h3⟩ := h
      obtain ⟨g1, g2, g3, _⟩ := without_add (fun hm => Nat.lt_irrefl _ (h2 _ hm)) ha
      exact ⟨O, h1.add hid g1, fun c hc => by have := h2 c hc; omega, by rw [g2]; exact h3⟩
  remove := by
    intro ix ix' val v id h hid ha
    cases ix with
    | btree t =>
      simp only [Index.remove, Option.map_eq_some_iff] at ha
      obtain ⟨t', ha, rfl⟩ := ha
      exact BRep.remove h hid ha
    | hash t =>
      simp only [Index.remove, Option.map_eq_some_iff] at ha
      obtain ⟨t', ha, rfl⟩ := ha
      obtain ⟨O, h1, h2, h3⟩ := h
      obtain ⟨g1, _, g3, _⟩ := without_remove O ha
      exact ⟨O, h1.remove hid g1, fun c hc => by rw [g3]; exact h2 c hc, by rw [without_remove_only h1 ha]; exact h3⟩
  absent := by
    intro ix ix' val v id h hid ha
    cases ix with
    | btree t =>
      simp only [Index.remove, Option.map_eq_some_iff] at ha
      obtain ⟨t', ha, rfl⟩ := ha
      have := BRep.remove_absent h hid ha
      subst this; exact h
    | hash t =>
      simp only [Index.remove, Option.map_eq_some_iff] at ha
      obtain ⟨t', ha, rfl⟩ := ha
      obtain ⟨O, h1, h2, h3⟩ := h
      obtain ⟨g1, _, g3, _⟩ := without_remove O ha
      have := h1.remove_absent hid g1
      exact ⟨O, this ▸ h1, fun c hc => by rw [g3]; exact h2 c hc, by rw [without_remove_only h1 ha]; exact h3⟩

theorem DRep.congr {D : List Nat} {ix : Index} {val val' : Nat → Option Value} (h : DRep D ix val)
    (he : ∀ x, val' x = val x) : DRep D ix val' := by
  have : val' = val := funext he
  rw [this]; exact h

theorem DRep.add_again {D : List Nat} {ix ix' : Index} {val : Nat → Option Value} {v : Value} {id : Nat} (h : DRep D ix val)
    (hid : val id = some v) (ha : ix.add v id = some ix') : DRep (D ++ [id]) ix' val := by
  cases ix with
  | btree t =>
    simp only [Index.add, Option.map_eq_some_iff] at ha
    obtain ⟨t', ha, rfl⟩ := ha
    have := BRep.add_again h hid ha
    subst this
    exact h
  | hash t =>
    simp only [Index.add, Option.map_eq_some_iff] at ha
    obtain ⟨t', ha, rfl⟩ := ha
    obtain ⟨O, h1, h2, h3⟩ := h
    refine ⟨t.nextCell :: O, ?_⟩
    obtain ⟨g1, g2, g3⟩ := HRep.add_again h1 h2 hid ha
    refine ⟨g1, g2, ?_⟩
    rw [g3, List.map_append, h3]
    rfl

/-- the objects that are in the list for a second time -/
def dups (P : Nat → Bool) : List Nat → List Nat → List Nat
  | _, [] => []
  | T, x :: xs => if P x then (if x ∈ T then x :: dups P T xs else dups P (T ++ [x]) xs) else dups P T xs

theorem DRep.addObjects {key : String} {props : Nat → Props} : ∀ {xs : List Nat} {T D : List Nat} {ix ix' : Index},
    DRep D ix (fun x => if x ∈ T then (props x).get key else none) → (∀ x ∈ T, ((props x).get key).isSome) →
    Index.addObjects key props xs ix = some ix' →
    DRep (D ++ dups (fun x => ((props x).get key).isSome) T xs) ix'
      (fun x => if x ∈ T ++ xs.filter (fun x => ((props x).get key).isSome) then (props x).get key else none)
  | [], T, D, ix, ix', h, hT, ha => by
    cases ha
    simpa [dups] using h
  | y :: xs, T, D, ix, ix', h, hT, ha => by
    rw [Index.addObjects] at ha
    split at ha
    · rename_i hg
      have := DRep.addObjects h hT ha
      simpa [dups, hg] using this
    · rename_i v hg
      split at ha
      · cases ha
      · rename_i ix1 h1
        by_cases hy : y ∈ T
        · have a := h.add_again (by rw [if_pos hy]; exact hg) h1
          have := DRep.addObjects a hT ha
          simp only [dups, hg, Option.isSome_some, if_true, if_pos hy]
          rw [List.append_assoc, List.singleton_append] at this
          refine this.congr ?_
          intro x
          have : (x ∈ T ++ List.filter (fun x => ((props x).get key).isSome) (y :: xs)) ↔
              (x ∈ T ++ List.filter (fun x => ((props x).get key).isSome) xs) := by
            simp only [List.mem_append, List.mem_filter, List.mem_cons]
            constructor
            · rintro (h | ⟨rfl | h, h'⟩)
              · exact .inl h
              · exact .inl hy
              · exact .inr ⟨h, h'⟩
            · rintro (h | ⟨h, h'⟩)
              · exact .inl h
              · exact .inr ⟨.inr h, h'⟩
          simp only [this]
        · have a : DRep D ix1 (fun x => if x ∈ T ++ [y] then (props x).get key else none) := by
            refine DRep.congr ((closed_DRep D).add h (if_neg hy) h1) ?_
            intro x
            rw [upd_apply]
            by_cases hx : x = y
            · simp [hx, hg]
            · simp [hx]
          have := DRep.addObjects a (by
            intro x hx
            rcases List.mem_append.1 hx with hx | hx
            · exact hT x hx
            · rw [List.mem_singleton.1 hx, hg]; rfl) ha
          simp only [dups, hg, Option.isSome_some, if_true, if_neg hy]
          rw [List.append_assoc, List.singleton_append] at this
          rw [List.filter_cons_of_pos (by simp [hg])]
          exact this

theorem count_dups {P : Nat → Bool} {e : Nat} : ∀ {xs T : List Nat},
    (dups P T xs).count e = (xs.filter P).count e - (if e ∈ T then 0 else 1)
  | [], T => by simp [dups]
  | y :: xs, T => by
    unfold dups
    by_cases hp : P y = true
    · rw [if_pos hp, List.filter_cons_of_pos hp]
      by_cases hy : y ∈ T
      · rw [if_pos hy, List.count_cons, List.count_cons, count_dups]
        by_cases he : y = e
        · subst he; simp [hy]
        · simp [he]
      · rw [if_neg hy, List.count_cons, count_dups]
        by_cases he : y = e
        · subst he; simp [hy]
        · simp [he, Ne.symm he]
    · rw [if_neg hp, List.filter_cons_of_neg hp, count_dups]

/-- what the index lists -/
theorem DRep.count {D : List Nat} {ix : Index} {val : Nat → Option Value} (h : DRep D ix val) (e : Nat) :
    ix.valueItr.count e = (if (val e).isSome then 1 else 0) +
      (match ix with | .btree _ => 0 | .hash _ => D.count e) := by
  have key : ∀ xs : List Nat, xs.Nodup → (∀ id, id ∈ xs ↔ ∃ v, val id = some v) →
      xs.count e = if (val e).isSome then 1 else 0 := by
    intro xs hn hm
    by_cases he : e ∈ xs
    · rw [if_pos (Option.isSome_iff_exists.2 ((hm e).1 he)), hn.count, if_pos he]
    · rw [if_neg (fun h => he ((hm e).2 (Option.isSome_iff_exists.1 h))), List.count_eq_zero.2 he]
  cases ix with
  | btree t => exact key _ (BRep.ids h) (BRep.mem h)
  | hash t =>
    obtain ⟨O, h1, h2, rfl⟩ := h
    have a := key _ h1.ids h1.mem
    rw [← a]
    simp only [Index.valueItr, HashIx.valueItr, HashIx.without, HashIx.only]
    rw [← List.count_append, ← List.map_append]
    apply List.Perm.count_eq
    apply List.Perm.map
    have := List.filter_append_perm (fun p : Nat × Nat => decide (p.1 ∈ O)) t.elements
    refine this.symm.trans (List.perm_append_comm.trans (List.Perm.of_eq ?_))
    congr 1
    apply List.filter_congr
    intro p _
    simp

/-- The index on `k` has the edges `T`, with their values, and lists `D` once more. -/
structure ETracks (k : String) (D T : List Nat) (s : State) : Prop where
  ix : ∃ ix, AMap.get s.edgeIx k = some ix ∧ DRep D ix (fun e => if e ∈ T then (s.eProps e).get k else none)
  has : ∀ e ∈ T, ((s.eProps e).get k).isSome
  fresh : ∀ x, s.idBase ≤ x → s.eProps x = []

theorem ETracks.congr {k : String} {D T : List Nat} {s s' : State} (h : ETracks k D T s) (h1 : s'.eProps = s.eProps)
    (h2 : s'.edgeIx = s.edgeIx) (h3 : s.idBase ≤ s'.idBase) : ETracks k D T s' := by
  obtain ⟨a, b, c⟩ := h
  exact ⟨by rw [h1, h2]; exact a, by rw [h1]; exact b, fun x hx => by rw [h1]; exact c x (Nat.le_trans h3 hx)⟩

theorem ETracks.set_congr {k : String} {D T T' : List Nat} {s : State} (h : ETracks k D T s) (hT : ∀ e, e ∈ T' ↔ e ∈ T) :
    ETracks k D T' s := by
  obtain ⟨⟨ix, a1, a2⟩, b, c⟩ := h
  refine ⟨⟨ix, a1, a2.congr (fun x => ?_)⟩, fun e he => b e ((hT e).1 he), c⟩
  simp only [hT]

/-- an edge leaves the index with its value -/
theorem DRep.drop {k : String} {D T : List Nat} {ix ix' : Index} {props : Nat → Props} {e : Nat} {old : Value}
    (r : DRep D ix (fun e => if e ∈ T then (props e).get k else none)) (hold : (props e).get k = some old)
    (ha : ix.remove old e = some ix') :
    DRep D ix' (upd (fun e => if e ∈ T then (props e).get k else none) e none) := by
  by_cases he : e ∈ T
  · exact (closed_DRep D).remove r (by rw [if_pos he]; exact hold) ha
  · refine ((closed_DRep D).absent r (if_neg he) ha).congr ?_
    intro x
    rw [upd_apply]
    split
    · rename_i hx; rw [hx, if_neg he]
    · rfl

theorem ETracks.detachEdge {k : String} {D T : List Nat} {s s' : State} {σ : Spec} {e : Nat} (c : Core s σ)
    (h : ETracks k D T s) (he : e ∈ σ.edges) (hs : s.detachEdge e = some s') :
    ETracks k D (T.filter (fun x => x ≠ e)) s' := by
  obtain ⟨⟨ix, hg, r⟩, hhas, hfr⟩ := h
  unfold State.detachEdge at hs
  simp only at hs
  split at hs
  · cases hs
  · rename_i ixs h2
    cases hs
    have h3 : Indexes.removeAll e (s.eProps e) s.edgeIx = some ixs := h2
    have a := Indexes.get_removeAll h3 (c.eprops e he).1 hg
    have r1 : ∃ ix1, AMap.get ixs k = some ix1 ∧
        DRep D ix1 (upd (fun e => if e ∈ T then (s.eProps e).get k else none) e none) := by
      cases hp : AMap.get (s.eProps e) k with
      | none =>
        rw [hp] at a
        refine ⟨ix, a, r.congr ?_⟩
        intro x
        rw [upd_apply]
        split
        · rename_i hx; rw [hx, hp]; simp
        · rfl
      | some old =>
        rw [hp] at a
        obtain ⟨ix1, a1, a2⟩ := a
        exact ⟨ix1, a2, r.drop hp a1⟩
    obtain ⟨ix1, g1, r1⟩ := r1
    refine ⟨⟨ix1, g1, r1.congr ?_⟩, ?_, hfr⟩
    · intro x
      simp only [upd_apply, List.mem_filter, ne_eq, decide_not, Bool.not_eq_true', decide_eq_false_iff_not]
      by_cases hx : x = e
      · simp [hx]
      · simp [hx, State.dropEdge, State.disconnect]
    · intro x hx
      exact hhas x (List.mem_filter.1 hx).1

theorem ETracks.detach {k : String} {D T : List Nat} {s s' : State} {σ : Spec} {n : Nat} (c : Core s σ)
    (h : ETracks k D T s) (hn : n ∈ σ.nodes) (hs : s.detachNode n = some s') :
    ETracks k D (T.filter (fun e => ¬ (e ∈ σ.edges ∧ (σ.src e = n ∨ σ.dst e = n)))) s' := by
  have a := detachNode_ind (Q := fun s τ => (∀ e ∈ τ.edges, e ∈ σ.edges) ∧
      ETracks k D (T.filter (fun e => e ∈ σ.edges → e ∈ τ.edges)) s)
    (good := fun _ => True)
    (fun s s' τ e c h he _ hs => by
      refine ⟨fun x hx => h.1 x (by simp only [Spec.dropEdge, List.mem_filter] at hx; exact hx.1),
        (h.2.detachEdge c he hs).set_congr ?_⟩
      intro x
      have := h.1 e he
      simp only [List.mem_filter, Spec.dropEdge, decide_eq_true_eq, ne_eq, decide_not, Bool.not_eq_true',
        decide_eq_false_iff_not]
      grind)
    (fun _ _ _ _ h => ⟨h.1, h.2.congr rfl rfl (Nat.le_refl _)⟩) c
    ⟨fun _ h => h, h.set_congr (by intro x; simp)⟩ hn (fun _ _ _ => trivial) hs
  refine a.2.set_congr ?_
  intro x
  simp only [List.mem_filter, decide_eq_true_eq, Spec.detach]
  grind

theorem ETracks.step {k : String} {D T : List Nat} {s s' : State} {σ : Spec} {op : Op} (c : Core s σ) (h : ETracks k D T s)
    (hv : σ.Valid op) (hs : LPG.step s op = some s') : ETracks k D (op.etracks σ k T) s' := by
  have hlt : ∀ n ∈ σ.edges, n < s.idBase := fun n hn => by rw [c.next]; exact c.eLt n hn
  have h0 := h
  obtain ⟨⟨ix, hg, r⟩, hhas, hfr⟩ := h
  have hT : ∀ n ∈ T, n ≠ s.idBase := fun n hn e => by
    have := hhas n hn
    rw [hfr n (by omega)] at this
    cases this
  cases op with
  | newNode ls ps =>
    obtain ⟨ixs, hix, rfl⟩ := newNode_frame hs
    exact h0.congr rfl rfl (Nat.le_succ _)
  | newEdge a b l ps =>
    obtain ⟨_, _, h3, _, _, _, _, h8, _, _, _, hix⟩ := newEdge_frame hs
    have hval : (fun n => if n ∈ T then (s.eProps n).get k else none) s.idBase = none := by
      dsimp only
      rw [if_neg (fun hm => hT _ hm rfl)]
    have a := Indexes.get_addAll hix hv.2.2 hg
    have hfr' : ∀ x, s'.idBase ≤ x → s'.eProps x = [] := by
      intro x hx
      rw [h3] at hx
      rw [h8, upd_other _ _ (by omega)]
      exact hfr x (by omega)
    simp only [Op.etracks]
    cases hp : AMap.get ps k with
    | none =>
      rw [hp] at a
      simp only [Option.isSome_none, Bool.false_eq_true, if_false]
      refine ⟨⟨ix, a, r.congr ?_⟩, ?_, hfr'⟩
      · intro x
        rw [h8]
        by_cases hx : x ∈ T
        · rw [if_pos hx, if_pos hx, upd_other _ _ (hT x hx)]
        · rw [if_neg hx, if_neg hx]
      · intro n hn
        rw [h8, upd_other _ _ (hT n hn)]; exact hhas n hn
    | some v =>
      rw [hp] at a
      obtain ⟨ix', a1, a2⟩ := a
      simp only [Option.isSome_some, if_true]
      have hnx := c.next
      refine ⟨⟨ix', a2, ((closed_DRep D).add r hval a1).congr ?_⟩, ?_, hfr'⟩
      · intro x
        rw [h8]
        simp only [upd_apply, List.mem_append, List.mem_singleton, ← hnx]
        by_cases hx : x = s.idBase
        · simp [hx, hp]
        · simp [hx]
      · intro n hn
        rw [List.mem_append, List.mem_singleton, ← hnx] at hn
        rw [h8]
        rcases hn with hn | rfl
        · rw [upd_other _ _ (hT n hn)]
          exact hhas n hn
        · rw [upd_same, hp]; rfl
  | setLabels n ls => cases hs; exact h0.congr rfl rfl (Nat.le_refl _)
  | setNodeProp n k v => obtain ⟨ixs, rfl⟩ := setNodeProp_frame hs; exact h0.congr rfl rfl (Nat.le_refl _)
  | removeNodeProp n k => obtain ⟨ixs, rfl⟩ := removeNodeProp_frame hs; exact h0.congr rfl rfl (Nat.le_refl _)
  | detach n => exact h0.detach c hv hs
  | detachRemove n =>
    simp only [LPG.step, State.detachRemoveNode] at hs
    split at hs
    · cases hs
    · rename_i s1 h1
      have a := h0.detach c hv h1
      split at hs
      · cases hs
      · cases hs; exact a.congr rfl rfl (Nat.le_refl _)
  | setEdgeLabel e l =>
    simp only [LPG.step, State.setEdgeLabel] at hs
    split at hs
    · cases hs; exact h0
    · obtain ⟨p1, p2, im, om, rfl⟩ := connect_frame hs
      exact h0.congr rfl rfl (Nat.le_refl _)
  | setEdgeProp n k' v =>
    have hn := hlt n hv
    simp only [LPG.step, State.setEdgeProp] at hs
    split at hs
    · cases hs
    · rename_i ixs1 h1
      split at hs
      · cases hs
      · rename_i ixs2 h2
        cases hs
        have hfr' : ∀ x, s.idBase ≤ x → upd s.eProps n (AMap.set (s.eProps n) k' v) x = [] := by
          intro x hx
          rw [upd_other _ _ (by omega)]; exact hfr x hx
        simp only [Op.etracks]
        by_cases hk : k' = k
        · subst hk
          have key : ∃ ix1, AMap.get ixs1 k' = some ix1 ∧
              DRep D ix1 (upd (fun n => if n ∈ T then (s.eProps n).get k' else none) n none) := by
            cases hp : AMap.get (s.eProps n) k' with
            | none =>
              rw [hp] at h1
              cases h1
              refine ⟨ix, hg, r.congr ?_⟩
              intro x
              rw [upd_apply]
              split
              · rename_i hx; rw [hx]; simp [hp]
              · rfl
            | some old =>
              rw [hp] at h1
              have a := Indexes.get_remove h1 hg
              rw [if_pos rfl] at a
              obtain ⟨ix1, a1, a2⟩ := a
              exact ⟨ix1, a2, r.drop hp a1⟩
          obtain ⟨ix1, g1, r1⟩ := key
          have a := Indexes.get_add h2 g1
          rw [if_pos rfl] at a
          obtain ⟨ix2, a1, a2⟩ := a
          have r2 := (closed_DRep D).add r1 (upd_same _ _ _) a1
          have hmem : ∀ x, x ∈ (if k' = k' ∧ n ∉ T then T ++ [n] else T) ↔ x ∈ T ∨ x = n := by
            intro x
            split
            · simp
            · rename_i hc
              have : n ∈ T := Classical.byContradiction fun h => hc ⟨rfl, h⟩
              constructor
              · exact Or.inl
              · rintro (h | rfl) <;> assumption
          revert hmem
          generalize (if k' = k' ∧ n ∉ T then T ++ [n] else T) = T'
          intro hmem
          refine ⟨⟨ix2, a2, r2.congr ?_⟩, ?_, hfr'⟩
          · intro x
            simp only [hmem, upd_apply]
            by_cases hx : x = n
            · simp [hx, AMap.get_set]
            · simp [hx]
          · intro x hx
            rw [hmem] at hx
            dsimp only
            by_cases hxn : x = n
            · rw [hxn, upd_same, AMap.get_set, if_pos rfl]; rfl
            · rw [upd_other _ _ hxn]; exact hhas x (hx.resolve_right hxn)
        · rw [if_neg (fun h => hk h.1)]
          have g1 : AMap.get ixs1 k = some ix := by
            split at h1
            · cases h1; exact hg
            · have a := Indexes.get_remove h1 hg
              rw [if_neg hk] at a; exact a
          have a := Indexes.get_add h2 g1
          rw [if_neg hk] at a
          have hp : ∀ x, AMap.get (upd s.eProps n (AMap.set (s.eProps n) k' v) x) k = AMap.get (s.eProps x) k := by
            intro x
            rw [upd_apply]
            split
            · rename_i hx; rw [hx, AMap.get_set_other _ _ (Ne.symm hk)]
            · rfl
          refine ⟨⟨ix, a, r.congr ?_⟩, ?_, hfr'⟩
          · intro x; dsimp only; rw [hp x]
          · intro x hx; dsimp only; rw [hp x]; exact hhas x hx
  | removeEdgeProp n k' =>
    have hn := hlt n hv
    simp only [LPG.step, State.removeEdgeProp] at hs
    simp only [Op.etracks]
    split at hs
    · rename_i hold
      cases hs
      split
      · rename_i hk
        subst hk
        have : n ∉ T := fun hm => by have := hhas n hm; rw [hold] at this; cases this
        rw [List.filter_eq_self.2 (fun x hx => by
          simp only [ne_eq, decide_not, Bool.not_eq_true', decide_eq_false_iff_not]
          rintro rfl; exact this hx)]
        exact h0
      · exact h0
    · rename_i old hold
      split at hs
      · cases hs
      · rename_i ixs1 h1
        cases hs
        have hfr' : ∀ x, s.idBase ≤ x → upd s.eProps n (AMap.del (s.eProps n) k') x = [] := by
          intro x hx
          rw [upd_other _ _ (by omega)]; exact hfr x hx
        have a := Indexes.get_remove h1 hg
        by_cases hk : k' = k
        · subst hk
          rw [if_pos rfl] at a ⊢
          obtain ⟨ix1, a1, a2⟩ := a
          refine ⟨⟨ix1, a2, (r.drop hold a1).congr ?_⟩, ?_, hfr'⟩
          · intro x
            simp only [upd_apply, List.mem_filter, ne_eq, decide_not, Bool.not_eq_true', decide_eq_false_iff_not]
            by_cases hx : x = n
            · simp [hx]
            · simp [hx]
          · intro x hx
            simp only [List.mem_filter, ne_eq, decide_not, Bool.not_eq_true', decide_eq_false_iff_not] at hx
            dsimp only
            rw [upd_other _ _ hx.2]; exact hhas x hx.1
        · rw [if_neg hk] at a ⊢
          have hp : ∀ x, AMap.get (upd s.eProps n (AMap.del (s.eProps n) k') x) k = AMap.get (s.eProps x) k := by
            intro x
            rw [upd_apply]
            split
            · rename_i hx; rw [hx, AMap.get_del, if_neg (Ne.symm hk)]
            · rfl
          refine ⟨⟨ix, a, r.congr ?_⟩, ?_, hfr'⟩
          · intro x; dsimp only; rw [hp x]
          · intro x hx; dsimp only; rw [hp x]; exact hhas x hx
  | removeEdge e => cases hs; exact h0.congr rfl rfl (Nat.le_refl _)
  | addNodeIndex k t => obtain ⟨ixs, rfl⟩ := addNodeIndex_frame hs; exact h0.congr rfl rfl (Nat.le_refl _)
  | addEdgeIndex k' t =>
    simp only [LPG.step, State.addEdgeIndex] at hs
    simp only [Op.etracks]
    split at hs
    · cases hs; exact h0
    · rename_i hnone
      split at hs
      · cases hs
      · split at hs
        · cases hs
        · cases hs
          have hne : k ≠ k' := by rintro rfl; rw [hg] at hnone; cases hnone
          exact ⟨⟨ix, by dsimp only; rw [AMap.get_set_other _ _ hne]; exact hg, r⟩, hhas, hfr⟩

theorem ETracks.runFrom {k : String} {D : List Nat} {ops : List Op} : ∀ {s s' : State} {σ : Spec} {T : List Nat}, Core s σ →
    ETracks k D T s → σ.ValidFrom ops → LPG.runFrom s ops = some s' → ETracks k D (σ.etracksFrom k T ops) s' := by
  induction ops with
  | nil => intro s s' σ T _ h _ hs; simp [LPG.runFrom] at hs; subst hs; exact h
  | cons op ops ih =>
    intro s s' σ T c h hv hs
    rw [LPG.runFrom] at hs
    split at hs
    · cases hs
    · rename_i s1 h1
      exact ih (c.step hv.1 h1) (h.step c hv.1 h1) hv.2 hs

end LPG
