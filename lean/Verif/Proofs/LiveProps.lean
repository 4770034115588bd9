import Verif.Model.LiveProps
import Verif.Spec.LiveProps
import Verif.Proofs.Find
import Verif.Proofs.LiveLabels
import Verif.Proofs.LiveAnyLoop
/-!
# The list of a hash index in a graph that changes
-/
namespace LPG
open State

/-- The hash index of the key `k` has the objects `x` with `val x = some v`; `E` is its list. -/
def KRep (k : String) (ixs : Indexes) (val : Nat → Option Value) (E : List (Nat × Nat)) : Prop :=
  ∃ h, AMap.get ixs k = some (.hash h) ∧ HRep h val ∧ h.elements = E

namespace KRep

variable {k k' : String} {ixs ixs' : Indexes} {val : Nat → Option Value} {E : List (Nat × Nat)} {v : Value} {id : Nat}

theorem cells (r : KRep k ixs val E) : hashCells ixs k = some E := by
  obtain ⟨h, h1, h2, rfl⟩ := r
  simp only [hashCells, h1]
  cases hi : h.init with
  | true => rfl
  | false =>
    have : ∀ id, id ∉ h.valueItr := by
      intro id hid
      obtain ⟨v, hv⟩ := (h2.mem id).1 hid
      rw [h2.init hi id] at hv; cases hv
    have : h.elements = [] := by
      cases he : h.elements with
      | nil => rfl
      | cons c l => exact absurd (by simp [HashIx.valueItr, he]) (this c.2)
    simp [this]

theorem keys (r : KRep k ixs val E) : (AMap.keys E).Nodup := by
  obtain ⟨h, h1, h2, rfl⟩ := r
  exact h2.cells

theorem ids (r : KRep k ixs val E) : (E.map Prod.snd).Nodup := by
  obtain ⟨h, h1, h2, rfl⟩ := r
  exact h2.ids

theorem mem (r : KRep k ixs val E) (id : Nat) : id ∈ E.map Prod.snd ↔ val id ≠ none := by
  obtain ⟨h, h1, h2, rfl⟩ := r
  rw [show h.elements.map Prod.snd = h.valueItr from rfl, h2.mem]
  cases val id <;> simp

theorem congr (r : KRep k ixs val E) {val' : Nat → Option Value} (he : ∀ x, val' x = val x) : KRep k ixs val' E := by
  have : val' = val := funext he
  rw [this]; exact r

theorem add_other (r : KRep k ixs val E) (hk : k' ≠ k) (ha : Indexes.add ixs k' v id = some ixs') : KRep k ixs' val E := by
  obtain ⟨h, h1, h2, h3⟩ := r
  unfold Indexes.add at ha
  split at ha
  · cases ha; exact ⟨h, h1, h2, h3⟩
  · simp only [Option.map_eq_some_iff] at ha
    obtain ⟨ix', -, rfl⟩ := ha
    exact ⟨h, by rw [AMap.get_set, if_neg (Ne.symm hk)]; exact h1, h2, h3⟩

theorem remove_other (r : KRep k ixs val E) (hk : k' ≠ k) (ha : Indexes.remove ixs k' v id = some ixs') :
    KRep k ixs' val E := by
  obtain ⟨h, h1, h2, h3⟩ := r
  unfold Indexes.remove at ha
  split at ha
  · cases ha; exact ⟨h, h1, h2, h3⟩
  · simp only [Option.map_eq_some_iff] at ha
    obtain ⟨ix', -, rfl⟩ := ha
    exact ⟨h, by rw [AMap.get_set, if_neg (Ne.symm hk)]; exact h1, h2, h3⟩

theorem add (r : KRep k ixs val E) (hid : val id = none) (ha : Indexes.add ixs k v id = some ixs') :
    ∃ c, KRep k ixs' (upd val id (some v)) (E ++ [(c, id)]) := by
  obtain ⟨h, h1, h2, rfl⟩ := r
  simp only [Indexes.add, h1, Index.add, Option.map_map, Option.map_eq_some_iff, Function.comp] at ha
  obtain ⟨h', h3, rfl⟩ := ha
  refine ⟨h.nextCell, h', by rw [AMap.get_set, if_pos rfl], h2.add hid h3, ?_⟩
  unfold HashIx.add at h3
  split at h3
  · cases h3
  · cases h3; rfl

theorem remove (r : KRep k ixs val E) (hid : val id = some v) (ha : Indexes.remove ixs k v id = some ixs') :
    KRep k ixs' (upd val id none) (E.filter (fun c => c.2 ≠ id)) := by
  have r0 := r
  obtain ⟨h, h1, h2, rfl⟩ := r
  simp only [Indexes.remove, h1, Index.remove, Option.map_map, Option.map_eq_some_iff, Function.comp] at ha
  obtain ⟨h', h3, rfl⟩ := ha
  refine ⟨h', by rw [AMap.get_set, if_pos rfl], h2.remove hid h3, ?_⟩
  obtain ⟨k0, fs, c, b1, b2, b3⟩ := h2.full id v hid
  have hinit : h.init = true := by
    cases hi : h.init with
    | true => rfl
    | false => rw [h2.init hi id] at hid; cases hid
  simp only [HashIx.remove, hinit, b1, b2, b3, Bool.not_true, Bool.false_eq_true, if_false, Option.some.injEq] at h3
  subst h3
  apply List.filter_congr
  intro d hd
  have hc := (h2.sets k0 fs id c b2 b3).1
  have : d.1 = c ↔ d.2 = id := by
    constructor
    · intro e
      have := AMap.get_of_mem h2.cells (show (d.1, d.2) ∈ h.elements from hd)
      rw [e, hc] at this
      cases this; rfl
    · intro e
      have hm := AMap.mem_of_get hc
      have hn := r0.ids
      refine Classical.byContradiction fun hne => ?_
      obtain ⟨A, B, hAB⟩ := List.append_of_mem hd
      rw [hAB] at hn hm
      rw [List.map_append, List.map_cons, List.nodup_append, List.nodup_cons] at hn
      rcases List.mem_append.1 hm with hm | hm
      · exact hn.2.2 id (List.mem_map_of_mem (f := Prod.snd) hm) d.2 (by simp) e.symm
      · rcases List.mem_cons.1 hm with hm | hm
        · exact hne (by rw [← hm])
        · exact hn.2.1.1 (by rw [e]; exact List.mem_map_of_mem (f := Prod.snd) hm)
  simp only [ne_eq, this]

theorem addAll : ∀ {ps : Props} {ixs ixs' : Indexes} {val : Nat → Option Value} {E : List (Nat × Nat)},
    KRep k ixs val E → (AMap.keys ps).Nodup → val id = none → Indexes.addAll id ps ixs = some ixs' →
    (ps.get k = none ∧ KRep k ixs' val E) ∨
      ∃ v c, ps.get k = some v ∧ KRep k ixs' (upd val id (some v)) (E ++ [(c, id)])
  | [], ixs, ixs', val, E, r, _, _, ha => by cases ha; exact .inl ⟨rfl, r⟩
  | (k0, v0) :: ps, ixs, ixs', val, E, r, hn, hv, ha => by
    rw [Indexes.addAll] at ha
    split at ha
    · cases ha
    · rename_i ixs1 h1
      have hn' : k0 ∉ AMap.keys ps ∧ (AMap.keys ps).Nodup := List.nodup_cons.1 hn
      by_cases hk : k0 = k
      · subst hk
        obtain ⟨c, r1⟩ := r.add hv h1
        right
        refine ⟨v0, c, by simp [AMap.get], ?_⟩
        have key : ∀ {ps : Props} {ixs ixs' : Indexes} {val : Nat → Option Value} {E : List (Nat × Nat)},
            KRep k0 ixs val E → k0 ∉ AMap.keys ps → Indexes.addAll id ps ixs = some ixs' → KRep k0 ixs' val E := by
          intro ps
          induction ps with
          | nil => intro ixs ixs' val E r _ ha; cases ha; exact r
          | cons p ps ih =>
            intro ixs ixs' val E r hk ha
            rw [Indexes.addAll] at ha
            split at ha
            · cases ha
            · rename_i ixs2 h2
              simp only [AMap.keys, List.map_cons, List.mem_cons, not_or] at hk
              exact ih (r.add_other (Ne.symm hk.1) h2) hk.2 ha
        exact key r1 hn'.1 ha
      · rcases addAll (r.add_other hk h1) hn'.2 hv ha with ⟨h2, h3⟩ | ⟨v, c, h2, h3⟩
        · exact .inl ⟨by simp [AMap.get, hk, h2], h3⟩
        · exact .inr ⟨v, c, by simp [AMap.get, hk, h2], h3⟩

theorem removeAll : ∀ {ps : Props} {ixs ixs' : Indexes} {val : Nat → Option Value} {E : List (Nat × Nat)},
    KRep k ixs val E → (AMap.keys ps).Nodup → val id = ps.get k → Indexes.removeAll id ps ixs = some ixs' →
    KRep k ixs' (upd val id none) (E.filter (fun c => c.2 ≠ id))
  | [], ixs, ixs', val, E, r, _, hv, ha => by
    cases ha
    have h0 : val id = none := hv
    have e : E.filter (fun c => c.2 ≠ id) = E := by
      rw [List.filter_eq_self]
      intro c hc
      have : c.2 ≠ id := fun e => ((r.mem c.2).1 (List.mem_map_of_mem hc)) (by rw [e]; exact h0)
      simpa using this
    rw [e]
    refine r.congr (fun x => ?_)
    rw [upd_apply]
    split
    · rename_i hx; rw [hx, h0]
    · rfl
  | (k0, v0) :: ps, ixs, ixs', val, E, r, hn, hv, ha => by
    rw [Indexes.removeAll] at ha
    split at ha
    · cases ha
    · rename_i ixs1 h1
      have hn' : k0 ∉ AMap.keys ps ∧ (AMap.keys ps).Nodup := List.nodup_cons.1 hn
      by_cases hk : k0 = k
      · rw [hk] at h1 hn'
        have r1 := r.remove (by rw [hv]; simp [AMap.get, hk]) h1
        have r2 := removeAll r1 hn'.2 (by rw [upd_same]; exact (AMap.not_mem_keys.1 hn'.1).symm) ha
        rw [List.filter_filter] at r2
        simp only [Bool.and_self] at r2
        refine r2.congr (fun x => ?_)
        simp only [upd_apply]
        split <;> rfl
      · exact removeAll (r.remove_other hk h1) hn'.2 (by rw [hv]; simp [AMap.get, hk]) ha

end KRep

theorem IxsRep.krep {ixs : Indexes} {val : String → Nat → Option Value} (h : IxsRep ixs val) {k : String}
    {l : List (Nat × Nat)} (hc : hashCells ixs k = some l) : KRep k ixs (val k) l := by
  unfold hashCells at hc
  split at hc
  · rename_i hx hg
    have r : KRep k ixs (val k) hx.elements := ⟨hx, hg, by simpa [IRep] using h k _ hg, rfl⟩
    have := r.cells
    simp only [hashCells, hg, Option.some.injEq] at this hc
    rw [← hc, this]
    exact r
  · cases hc

/-- setting a property: the object leaves its cell and gets one at the end of the list -/
theorem KRep.set {k : String} {ixs ixs1 ixs' : Indexes} {val : Nat → Option Value} {E : List (Nat × Nat)} {v : Value} {id : Nat}
    (r : KRep k ixs val E)
    (h1 : (match val id with | none => some ixs | some old => Indexes.remove ixs k old id) = some ixs1)
    (h2 : Indexes.add ixs1 k v id = some ixs') :
    ∃ c, KRep k ixs' (upd val id (some v)) (E.filter (fun d => d.2 ≠ id) ++ [(c, id)]) := by
  cases hv : val id with
  | none =>
    rw [hv] at h1
    cases h1
    have e : E.filter (fun c => c.2 ≠ id) = E := by
      rw [List.filter_eq_self]
      intro c hc
      have : c.2 ≠ id := fun e => ((r.mem c.2).1 (List.mem_map_of_mem hc)) (by rw [e]; exact hv)
      simpa using this
    rw [e]
    exact r.add hv h2
  | some old =>
    rw [hv] at h1
    obtain ⟨c, r2⟩ := (r.remove hv h1).add (upd_same _ _ _) h2
    refine ⟨c, r2.congr (fun x => ?_)⟩
    simp only [upd_apply]
    split <;> rfl

/-- What an operation does to the list of an index: the objects in `L` may leave it, those in `N` are put at the end. -/
def Moves (L : Nat → Prop) (N : List Nat) (E E' : List (Nat × Nat)) : Prop :=
  ∃ (keep : Nat → Bool) (c : Nat), E' = E.filter (fun d => keep d.2) ++ N.map (fun n => (c, n)) ∧ ∀ x, keep x = false → L x

theorem Moves.refl {L : Nat → Prop} {E : List (Nat × Nat)} : Moves L [] E E := 
  ⟨fun _ => true, 0, by rw [List.filter_eq_self.2 (by simp)]; simp, by simp⟩

/-- the nodes that leave the list of the key `k` -/
def Op.nLeaves (k : String) (n : Nat) : Op → Prop
  | .setNodeProp m k' _ => n = m ∧ k' = k
  | .removeNodeProp m k' => n = m ∧ k' = k
  | .detachRemove m => n = m
  | _ => False

/-- the nodes that are put at its end -/
def Spec.nEnters (σ : Spec) (k : String) : Op → List Nat
  | .newNode _ ps => if ps.get k = none then [] else [σ.next]
  | .setNodeProp m k' _ => if k' = k then [m] else []
  | _ => []

theorem nodeHash_set {s s' : State} {σ : Spec} {k : String} {n : Nat} {v : Value} {E : List (Nat × Nat)} (hn : n ∈ σ.nodes)
    (r : KRep k s.nodeIx (s.nval σ k) E) (hs : LPG.step s (.setNodeProp n k v) = some s') :
    ∃ c, KRep k s'.nodeIx (s'.nval (σ.step (.setNodeProp n k v)) k) (E.filter (fun d => d.2 ≠ n) ++ [(c, n)]) := by
  simp only [LPG.step, State.setNodeProp] at hs
  split at hs
  · cases hs
  · rename_i ixs1 h1
    split at hs
    · cases hs
    · rename_i ixs2 h2
      cases hs
      have hval : s.nval σ k n = (s.nProps n).get k := by simp only [State.nval]; rw [if_pos hn]
      have h1' : (match s.nval σ k n with | none => some s.nodeIx | some old => Indexes.remove s.nodeIx k old n) =
          some ixs1 := by
        rw [hval]
        revert h1
        cases AMap.get (s.nProps n) k <;> exact id
      obtain ⟨c, r1⟩ := r.set h1' h2
      refine ⟨c, r1.congr (fun x => ?_)⟩
      simp only [State.nval, Spec.step, upd_apply]
      by_cases hx : x = n
      · subst hx; simp [hn, AMap.get_set]
      · simp [hx]

theorem nval_same {s s' : State} {σ σ' : Spec} {k : String} {E : List (Nat × Nat)} (r : KRep k s.nodeIx (s.nval σ k) E)
    (h1 : s'.nProps = s.nProps) (h2 : σ'.nodes = σ.nodes) (h3 : s'.nodeIx = s.nodeIx) :
    ∃ E', KRep k s'.nodeIx (s'.nval σ' k) E' ∧ Moves (fun _ => False) [] E E' := by
  refine ⟨E, ?_, Moves.refl⟩
  rw [h3]
  exact r.congr (fun x => by simp only [State.nval, h1, h2])

theorem Moves.weaken {L L' : Nat → Prop} {N : List Nat} {E E' : List (Nat × Nat)} (h : Moves L N E E')
    (hl : ∀ x, L x → L' x) : Moves L' N E E' := by
  obtain ⟨keep, c, h1, h2⟩ := h
  exact ⟨keep, c, h1, fun x hx => hl x (h2 x hx)⟩

theorem nodeHash_step {s s' : State} {σ : Spec} {op : Op} {k : String} {E : List (Nat × Nat)} (c : Core s σ)
    (r : KRep k s.nodeIx (s.nval σ k) E) (hv : σ.Valid op) (hs : LPG.step s op = some s') :
    ∃ E', KRep k s'.nodeIx (s'.nval (σ.step op) k) E' ∧ Moves (fun n => op.nLeaves k n) (σ.nEnters k op) E E' := by
  cases op with
  | newNode ls ps =>
    obtain ⟨ixs, hix, rfl⟩ := newNode_frame hs
    have hnx := c.next
    have hnn : σ.next ∉ σ.nodes := fun hh => Nat.lt_irrefl _ (c.nLt _ hh)
    have h0 : s.nval σ k s.idBase = none := by simp only [State.nval]; rw [if_neg]; rw [hnx]; exact hnn
    rcases r.addAll hv h0 hix with ⟨h1, r1⟩ | ⟨v, cl, h1, r1⟩
    · refine ⟨E, r1.congr ?_, ?_⟩
      · intro x
        simp only [State.nval, Spec.step, List.mem_append, List.mem_singleton, upd_apply]
        by_cases hx : x = s.idBase
        · subst hx
          simp [hnx, hnn, h1]
        · have : x ≠ σ.next := by rw [← hnx]; exact hx
          simp [hx, this]
      · simp only [Spec.nEnters, h1, if_true]
        exact Moves.refl
    · refine ⟨_, r1.congr ?_, ?_⟩
      · intro x
        simp only [State.nval, Spec.step, List.mem_append, List.mem_singleton, upd_apply]
        by_cases hx : x = s.idBase
        · subst hx
          simp [hnx, h1]
        · have : x ≠ σ.next := by rw [← hnx]; exact hx
          simp [hx, this]
      · simp only [Spec.nEnters, h1]
        exact ⟨fun _ => true, cl, by rw [List.filter_eq_self.2 (by simp)]; simp [hnx], by simp⟩
  | newEdge a b l ps =>
    obtain ⟨h1, h2, h3, h4, h5, h6, h7, _⟩ := newEdge_frame hs
    exact nval_same r h5 rfl h7
  | setLabels n ls => cases hs; exact nval_same r rfl rfl rfl
  | setNodeProp n k' v =>
    by_cases hk : k' = k
    · subst hk
      obtain ⟨cl, r1⟩ := nodeHash_set hv r hs
      refine ⟨_, r1, fun x => decide (x ≠ n), cl, ?_, ?_⟩
      · simp [Spec.nEnters]
      · intro x hx
        simp only [ne_eq, decide_not, Bool.not_eq_false', decide_eq_true_eq] at hx
        exact ⟨hx, rfl⟩
    · refine ⟨E, ?_, by simp only [Spec.nEnters, if_neg hk]; exact Moves.refl⟩
      simp only [LPG.step, State.setNodeProp] at hs
      split at hs
      · cases hs
      · rename_i ixs1 h1
        split at hs
        · cases hs
        · rename_i ixs2 h2
          cases hs
          have r1 : KRep k ixs1 (s.nval σ k) E := by
            split at h1
            · cases h1; exact r
            · exact r.remove_other hk h1
          refine (r1.add_other hk h2).congr (fun x => ?_)
          simp only [State.nval, Spec.step, upd_apply]
          by_cases hx : x = n
          · subst hx; simp [AMap.get_set, Ne.symm hk]
          · simp [hx]
  | removeNodeProp n k' =>
    simp only [LPG.step, State.removeNodeProp] at hs
    have hn : n ∈ σ.nodes := hv
    split at hs
    · cases hs
      obtain ⟨E', h1, h2⟩ := nval_same (s' := s) (σ' := σ.step (.removeNodeProp n k')) r rfl rfl rfl
      exact ⟨E', h1, h2.weaken (by simp)⟩
    · rename_i old hold
      split at hs
      · cases hs
      · rename_i ixs1 h1
        cases hs
        by_cases hk : k' = k
        · subst hk
          refine ⟨_, (r.remove (v := old) (by simp only [State.nval]; rw [if_pos hn]; exact hold) h1).congr ?_,
            fun x => decide (x ≠ n), 0, by simp [Spec.nEnters], ?_⟩
          · intro x
            simp only [State.nval, Spec.step, upd_apply]
            by_cases hx : x = n
            · subst hx; simp [AMap.get_del]
            · simp [hx]
          · intro x hx
            simp only [ne_eq, decide_not, Bool.not_eq_false', decide_eq_true_eq] at hx
            exact ⟨hx, rfl⟩
        · refine ⟨E, (r.remove_other hk h1).congr ?_, Moves.refl⟩
          intro x
          simp only [State.nval, Spec.step, upd_apply]
          by_cases hx : x = n
          · subst hx; simp [AMap.get_del, Ne.symm hk]
          · simp [hx]
  | detach n =>
    obtain ⟨p0, p1, p2, im, om, ae, ix, rfl⟩ := detachNode_frame hs
    exact nval_same r rfl rfl rfl
  | detachRemove n =>
    simp only [LPG.step, State.detachRemoveNode] at hs
    have hn : n ∈ σ.nodes := hv
    split at hs
    · cases hs
    · rename_i s1 h1
      obtain ⟨p0, p1, p2, im, om, ae, ix, rfl⟩ := detachNode_frame h1
      split at hs
      · cases hs
      · rename_i ixs2 h2
        cases hs
        have a := r.removeAll (c.nprops n hn).1 (by simp only [State.nval]; rw [if_pos hn]) h2
        refine ⟨_, a.congr ?_, fun x => decide (x ≠ n), 0, by simp [Spec.nEnters], ?_⟩
        · intro x
          simp only [State.nval, Spec.step, List.mem_filter, State.withEdges, upd_apply]
          by_cases hx : x = n
          · subst hx; simp
          · simp [hx]
        · intro x hx
          simp only [ne_eq, decide_not, Bool.not_eq_false', decide_eq_true_eq] at hx
          exact hx
  | setEdgeLabel e l =>
    simp only [LPG.step, State.setEdgeLabel] at hs
    split at hs
    · cases hs; exact nval_same r rfl rfl rfl
    · obtain ⟨p1, p2, im, om, rfl⟩ := connect_frame hs
      exact nval_same r rfl rfl rfl
  | setEdgeProp n k v => obtain ⟨ixs, rfl⟩ := setEdgeProp_frame hs; exact nval_same r rfl rfl rfl
  | removeEdgeProp n k => obtain ⟨ixs, rfl⟩ := removeEdgeProp_frame hs; exact nval_same r rfl rfl rfl
  | removeEdge e => cases hs; exact nval_same r rfl rfl rfl
  | addNodeIndex k' t =>
    simp only [LPG.step, State.addNodeIndex] at hs
    split at hs
    · cases hs; exact nval_same r rfl rfl rfl
    · rename_i hg
      split at hs
      · cases hs
      · split at hs
        · cases hs
        · rename_i ix hix
          cases hs
          obtain ⟨h, h1, h2, h3⟩ := r
          have hne : k ≠ k' := by rintro rfl; rw [hg] at h1; cases h1
          exact ⟨E, ⟨h, by rw [AMap.get_set, if_neg hne]; exact h1, h2, h3⟩, Moves.refl⟩
  | addEdgeIndex k t => obtain ⟨ixs, rfl⟩ := addEdgeIndex_frame hs; exact nval_same r rfl rfl rfl

end LPG
