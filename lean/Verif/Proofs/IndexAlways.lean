import Verif.Proofs.Indexes
import Verif.Proofs.Mono
import Verif.Proofs.ValueOrder
/-!
# What the property indexes satisfy after every history

Also in the histories that damage the lists of nodes or edges: an index holds some objects, each under the value of
the property that the object has now.
-/
namespace LPG
open State

theorem HRep.remove_absent {ix ix' : HashIx} {val : Nat → Option Value} {v : Value} {id : Nat} (h : HRep ix val)
    (hid : val id = none) (ha : ix.remove v id = some ix') : ix' = ix := by
  unfold HashIx.remove at ha
  split at ha
  · cases ha; rfl
  · split at ha
    · cases ha
    · rename_i k hk
      split at ha
      · cases ha; rfl
      · rename_i fs hg
        split at ha
        · cases ha; rfl
        · rename_i c hc
          obtain ⟨_, w, hw, _⟩ := h.sets k fs id c hg hc
          rw [hid] at hw; cases hw

theorem update_self {t : SetTree} {k : Value} {e0 : Value × FSet Nat}
    (hu : ∀ e ∈ t, cmp k e.1 = some 0 → e = e0) : SetTree.update t k e0.2 = t := by
  unfold SetTree.update
  conv => rhs; rw [← List.map_id t]
  apply List.map_congr_left
  intro e he
  split
  · rename_i hc; rw [hu e he hc]; rfl
  · rfl

theorem BRep.remove_absent {t t' : SetTree} {val : Nat → Option Value} {v : Value} {id : Nat} (h : BRep t val)
    (hid : val id = none) (ha : SetTree.remove t v id = some t') : t' = t := by
  unfold SetTree.remove at ha
  split at ha
  · cases ha
  · cases ha; rfl
  · rename_i s hg
    obtain ⟨_, e0, h0, hk, rfl⟩ := get_some hg
    have hu : ∀ e ∈ t, cmp v e.1 = some 0 → e = e0 := fun e he hc => h.same he h0 (Or.inr hc) (Or.inr hk)
    have hno : id ∉ AMap.keys e0.2 := fun hx => by
      obtain ⟨w, hw, _⟩ := h.sound e0 h0 id hx
      rw [hid] at hw; cases hw
    have hrem : FSet.remove e0.2 id = e0.2 := by
      unfold FSet.remove
      exact AMap.del_of_not_mem (AMap.not_mem_keys.1 hno)
    simp only [hrem] at ha
    split at ha
    · rename_i hl
      exact absurd (List.length_eq_zero_iff.1 hl) (h.ok e0 h0).2
    · cases ha; exact update_self hu

/-- adding an object again under its value changes nothing -/
theorem BRep.add_again {t t' : SetTree} {val : Nat → Option Value} {v : Value} {id : Nat} (h : BRep t val)
    (hid : val id = some v) (ha : SetTree.add t v id = some t') : t' = t := by
  obtain ⟨e1, he1, hide⟩ := h.full id v hid
  have hlike : Like v e1.1 := by
    obtain ⟨w, hw, hl⟩ := h.sound e1 he1 id hide
    rw [hid] at hw; cases hw; exact hl
  unfold SetTree.add at ha
  split at ha
  · cases ha
  · rename_i hg
    exfalso
    have hd := get_none hg e1 he1
    have := hlike.defined (by rcases hd with h' | h' <;> rw [h'] <;> simp)
    rw [this] at hd
    simp at hd
  · rename_i s hg
    cases ha
    obtain ⟨_, e0, h0, hk, rfl⟩ := get_some hg
    have e01 : e0 = e1 := h.same h0 he1 (Or.inr hk) hlike
    subst e01
    have hu : ∀ e ∈ t, cmp v e.1 = some 0 → e = e0 := fun e he hc => h.same he h0 (Or.inr hc) (Or.inr hk)
    obtain ⟨c, hc⟩ := AMap.mem_keys.1 hide
    have : FSet.add e0.2 id id = e0.2 := by simp [FSet.add, hc]
    rw [this]; exact update_self hu

/-- The order of a btree lookup. -/
theorem BRep.ordered_ser {t : SetTree} {val : Nat → Option Value} (h : BRep t val) :
    (SetTree.valueItr t).Pairwise (fun a b => ∃ v w, val a = some v ∧ val b = some w ∧ ser v ≤ ser w) := by
  have like : ∀ v k, Like v k → ser v = ser k := by
    rintro v k (rfl | h)
    · rfl
    · exact (cmp_ser h).1.1 rfl
  unfold SetTree.valueItr
  rw [List.pairwise_flatten]
  constructor
  · intro l hl
    obtain ⟨e, he, rfl⟩ := List.mem_map.1 hl
    rw [(h.ok e he).1.items]
    refine (List.pairwise_of_forall (R := fun _ _ => True) (fun _ _ => trivial)).imp_of_mem ?_
    intro a b ha hb _
    obtain ⟨v, hv, l1⟩ := h.sound e he a ha
    obtain ⟨w, hw, l2⟩ := h.sound e he b hb
    exact ⟨v, w, hv, hw, le_of_eq ((like _ _ l1).trans (like _ _ l2).symm)⟩
  · rw [List.pairwise_map]
    refine h.sorted.imp_of_mem ?_
    intro e f he hf hlt a ha b hb
    rw [(h.ok e he).1.items] at ha
    rw [(h.ok f hf).1.items] at hb
    obtain ⟨v, hv, l1⟩ := h.sound e he a ha
    obtain ⟨w, hw, l2⟩ := h.sound f hf b hb
    refine ⟨v, w, hv, hw, le_of_lt ?_⟩
    rw [like _ _ l1, like _ _ l2]
    exact (cmp_ser hlt).2.1.1 rfl

/-! ## Sets of indexes -/

/-- what is needed of a representation of an index -/
structure RepClosed (R : Index → (Nat → Option Value) → Prop) : Prop where
  add : ∀ {ix ix' val v id}, R ix val → val id = none → ix.add v id = some ix' → R ix' (upd val id (some v))
  remove : ∀ {ix ix' val v id}, R ix val → val id = some v → ix.remove v id = some ix' → R ix' (upd val id none)
  absent : ∀ {ix ix' val v id}, R ix val → val id = none → ix.remove v id = some ix' → R ix' val

theorem closed_IRep : RepClosed IRep where
  add h h1 h2 := h.add h1 h2
  remove h h1 h2 := h.remove h1 h2
  absent := by
    intro ix ix' val v id h hid ha
    cases ix with
    | btree t =>
      simp only [Index.remove, Option.map_eq_some_iff] at ha
      obtain ⟨t', ha, rfl⟩ := ha
      have := BRep.remove_absent h hid ha
      subst this; exact h
    | hash t =>
      simp only [Index.remove, Option.map_eq_some_iff] at ha
      obtain ⟨t', ha, rfl⟩ := ha
      have := HRep.remove_absent h hid ha
      subst this; exact h

/-- the hash index without some cells of its list -/
def HashIx.without (h : HashIx) (O : List Nat) : HashIx := { h with elements := h.elements.filter (fun p => p.1 ∉ O) }

/-- those cells -/
def HashIx.only (h : HashIx) (O : List Nat) : List (Nat × Nat) := h.elements.filter (fun p => p.1 ∈ O)

theorem without_remove {h h' : HashIx} {v : Value} {id : Nat} (O : List Nat) (ha : h.remove v id = some h') :
    (h.without O).remove v id = some (h'.without O) ∧ (h'.only O).Sublist (h.only O) ∧ h'.nextCell = h.nextCell ∧ h'.init = h.init := by
  unfold HashIx.remove at ha ⊢
  have h1 : (h.without O).init = h.init := rfl
  have h2 : (h.without O).values = h.values := rfl
  rw [h1, h2]
  split at ha
  · rename_i hi
    cases ha
    rw [if_pos hi]
    exact ⟨rfl, .refl _, rfl, rfl⟩
  · rename_i hi
    rw [if_neg hi]
    split at ha
    · cases ha
    · rename_i k hk
      split at ha
      · rename_i hg
        cases ha
        exact ⟨rfl, .refl _, rfl, rfl⟩
      · rename_i fs hg
        split at ha
        · rename_i hc
          cases ha
          exact ⟨rfl, .refl _, rfl, rfl⟩
        · rename_i c hc
          cases ha
          refine ⟨?_, ?_, rfl, rfl⟩
          · simp only [HashIx.without, List.filter_filter]
            congr 2
            apply List.filter_congr
            intro p _
            exact Bool.and_comm _ _
          · simp only [HashIx.only, List.filter_filter]
            have : (h.elements.filter (fun p => decide (p.1 ∈ O) && decide (p.1 ≠ c))) =
                (h.elements.filter (fun p => decide (p.1 ∈ O))).filter (fun p => decide (p.1 ≠ c)) := by
              rw [List.filter_filter]
              congr 1
              funext p
              exact Bool.and_comm _ _
            rw [this]
            exact List.filter_sublist

theorem without_add {h h' : HashIx} {v : Value} {id : Nat} {O : List Nat} (ho : h.nextCell ∉ O) (ha : h.add v id = some h') :
    (h.without O).add v id = some (h'.without O) ∧ h'.only O = h.only O ∧ h'.nextCell = h.nextCell + 1 ∧ h'.init = true := by
  unfold HashIx.add at ha ⊢
  split at ha
  · cases ha
  · rename_i k hk
    cases ha
    simp only [hk]
    refine ⟨?_, ?_, by trivial, by trivial⟩
    · simp [HashIx.without, List.filter_append, ho]
    · simp [HashIx.only, List.filter_append, ho]

theorem AMap.get_mem {α β : Type} [DecidableEq α] {k : α} {v : β} : ∀ {m : AMap α β}, AMap.get m k = some v → (k, v) ∈ m
  | [], h => by cases h
  | (k0, v0) :: m, h => by
    unfold AMap.get at h
    split at h
    · rename_i he
      cases h
      subst he
      exact List.mem_cons_self
    · exact List.mem_cons_of_mem _ (AMap.get_mem h)

theorem get_filter {l : List (Nat × Nat)} {P : Nat → Bool} {c : Nat} (hp : P c = true) :
    AMap.get (l.filter (fun p => P p.1)) c = AMap.get l c := by
  induction l with
  | nil => rfl
  | cons p l ih =>
    obtain ⟨c0, x⟩ := p
    by_cases he : c0 = c
    · subst he
      rw [List.filter_cons_of_pos (by exact hp)]
      simp [AMap.get]
    · by_cases h0 : P c0 = true
      · rw [List.filter_cons_of_pos (by exact h0)]
        simp only [AMap.get, if_neg he]
        exact ih
      · rw [List.filter_cons_of_neg (by exact h0)]
        simp only [AMap.get, if_neg he]
        exact ih

theorem without_find {h : HashIx} {val : Nat → Option Value} {v : Value} {xs : List Nat} {m : Int} {O : List Nat}
    (h1 : HRep (h.without O) val) (hf : h.find v = some (xs, m)) : (h.without O).find v = some (xs, m) := by
  unfold HashIx.find at hf ⊢
  have e1 : (h.without O).init = h.init := rfl
  have e2 : (h.without O).values = h.values := rfl
  rw [e1, e2]
  split at hf
  · rename_i hi; rw [if_pos hi]; exact hf
  · rename_i hi
    rw [if_neg hi]
    split at hf
    · cases hf
    · rename_i k hk
      split at hf
      · exact hf
      · rename_i fs hg
        cases hf
        simp only [Option.some.injEq, Prod.mk.injEq, and_true]
        refine List.filterMap_congr ?_
        intro c hc
        obtain ⟨p, hp, rfl⟩ := List.mem_map.1 hc
        have hn := h1.keysN k fs hg
        have hgp : AMap.get fs p.1 = some p.2 := AMap.get_of_mem hn hp
        obtain ⟨hel, _⟩ := h1.sets k fs p.1 p.2 hg hgp
        have hno : p.2 ∉ O := by
          intro ho
          have hm := AMap.get_mem hel
          have := (List.mem_filter.1 hm).2
          simp [ho] at this
        exact get_filter (P := fun c => decide (c ∉ O)) (by simpa using hno)

/-- a hash index whose list may hold more cells, which are in no set -/
def WRep (h : HashIx) (val : Nat → Option Value) : Prop :=
  ∃ O : List Nat, HRep (h.without O) val ∧ ∀ c ∈ O, c < h.nextCell

theorem WRep.of {h : HashIx} {val : Nat → Option Value} (hr : HRep h val) : WRep h val := by
  refine ⟨[], ?_, by simp⟩
  have : h.without [] = h := by simp [HashIx.without]
  rw [this]
  exact hr

theorem WRep.add {h h' : HashIx} {val : Nat → Option Value} {v : Value} {id : Nat} (hr : WRep h val) (hid : val id = none)
    (ha : h.add v id = some h') : WRep h' (upd val id (some v)) := by
  obtain ⟨O, h1, h2⟩ := hr
  obtain ⟨g1, _, g3, _⟩ := without_add (fun hm => Nat.lt_irrefl _ (h2 _ hm)) ha
  exact ⟨O, h1.add hid g1, fun c hc => by have := h2 c hc; omega⟩

theorem WRep.remove {h h' : HashIx} {val : Nat → Option Value} {v : Value} {id : Nat} (hr : WRep h val) (hid : val id = some v)
    (ha : h.remove v id = some h') : WRep h' (upd val id none) := by
  obtain ⟨O, h1, h2⟩ := hr
  obtain ⟨g1, _, g3, _⟩ := without_remove O ha
  exact ⟨O, h1.remove hid g1, fun c hc => by rw [g3]; exact h2 c hc⟩

theorem WRep.remove_absent {h h' : HashIx} {val : Nat → Option Value} {v : Value} {id : Nat} (hr : WRep h val)
    (hid : val id = none) (ha : h.remove v id = some h') : WRep h' val := by
  obtain ⟨O, h1, h2⟩ := hr
  obtain ⟨g1, _, g3, _⟩ := without_remove O ha
  have := h1.remove_absent hid g1
  exact ⟨O, this ▸ h1, fun c hc => by rw [g3]; exact h2 c hc⟩

/-- an object that is there already: its set is as before, its cell is one more in the list -/
theorem HRep.add_again {h h' : HashIx} {val : Nat → Option Value} {v : Value} {id : Nat} {O : List Nat}
    (h1 : HRep (h.without O) val) (h2 : ∀ c ∈ O, c < h.nextCell) (hid : val id = some v) (ha : h.add v id = some h') :
    HRep (h'.without (h.nextCell :: O)) val ∧ (∀ c ∈ h.nextCell :: O, c < h'.nextCell) ∧
      h'.only (h.nextCell :: O) = h.only O ++ [(h.nextCell, id)] := by
  obtain ⟨k, fs, c, d1, d2, d3⟩ := h1.full id v hid
  have d2 : h.values.get k = some fs := d2
  unfold HashIx.add at ha
  rw [d1] at ha
  simp only [Option.some.injEq] at ha
  have hfs : FSet.add fs id h.nextCell = fs := by simp [FSet.add, d3]
  rw [d2, Option.getD_some, hfs] at ha
  subst ha
  have hget : ∀ k', (AMap.set h.values k fs).get k' = h.values.get k' := by
    intro k'
    rw [AMap.get_set]
    split
    · rename_i hk; rw [hk, d2]
    · rfl
  have hel : (List.filter (fun p => decide (p.1 ∉ h.nextCell :: O)) (h.elements ++ [(h.nextCell, id)])) =
      (h.without O).elements := by
    rw [List.filter_append]
    have hlast : List.filter (fun p => decide (p.1 ∉ h.nextCell :: O)) [(h.nextCell, id)] = [] := by simp
    rw [hlast, List.append_nil]
    apply List.filter_congr
    intro p hp
    by_cases hO : p.1 ∈ O
    · simp [hO]
    · have : p.1 ≠ h.nextCell := by
        intro he
        have := h1.lt p.1 (List.mem_map.2 ⟨p, List.mem_filter.2 ⟨hp, by simpa using hO⟩, rfl⟩)
        rw [he] at this
        exact Nat.lt_irrefl _ this
      simp [hO, this]
  refine ⟨?_, ?_, ?_⟩
  · constructor
    · simp only [HashIx.without]; rw [hel]; exact h1.cells
    · simp only [HashIx.without]; rw [hel]; exact fun c hc => Nat.lt_succ_of_lt (h1.lt c hc)
    · simp only [HashIx.without]; intro k' fs' hk'; rw [hget] at hk'; exact h1.keysN k' fs' hk'
    · simp only [HashIx.without]; rw [hel]; intro k' fs' i c' hk'; rw [hget] at hk'; exact h1.sets k' fs' i c' hk'
    · simp only [HashIx.without]; intro i w hw
      obtain ⟨k', fs', c', e1, e2, e3⟩ := h1.full i w hw
      exact ⟨k', fs', c', e1, by rw [hget]; exact e2, e3⟩
    · simp only [HashIx.without]; rw [hel]; intro c' i hc
      obtain ⟨k', fs', e1, e2⟩ := h1.back c' i hc
      exact ⟨k', fs', by rw [hget]; exact e1, e2⟩
    · intro hh; cases hh
  · intro c' hc
    rcases List.mem_cons.1 hc with rfl | hc
    · exact Nat.lt_succ_self _
    · exact Nat.lt_succ_of_lt (h2 c' hc)
  · have hf : h.elements.filter (fun p => decide (p.1 ∈ h.nextCell :: O)) = h.elements.filter (fun p => decide (p.1 ∈ O)) := by
      apply List.filter_congr
      intro p hp
      by_cases hO : p.1 ∈ O
      · simp [hO]
      · have : p.1 ≠ h.nextCell := by
          intro he
          have := h1.lt p.1 (List.mem_map.2 ⟨p, List.mem_filter.2 ⟨hp, by simpa using hO⟩, rfl⟩)
          rw [he] at this
          exact Nat.lt_irrefl _ this
        simp [hO, this]
    simp only [HashIx.only, List.filter_append, hf]
    simp

theorem WRep.add_again {h h' : HashIx} {val : Nat → Option Value} {v : Value} {id : Nat} (hr : WRep h val)
    (hid : val id = some v) (ha : h.add v id = some h') : WRep h' val := by
  obtain ⟨O, h1, h2⟩ := hr
  obtain ⟨g1, g2, _⟩ := h1.add_again h2 hid ha
  exact ⟨_, g1, g2⟩

/-- a representation of the indexes of objects whose list may have had repetitions -/
def TRep : Index → (Nat → Option Value) → Prop
  | .btree t, val => BRep t val
  | .hash t, val => WRep t val

theorem TRep.of {ix : Index} {val : Nat → Option Value} (h : IRep ix val) : TRep ix val := by
  cases ix
  · exact h
  · exact WRep.of h

theorem closed_TRep : RepClosed TRep where
  add := by
    intro ix ix' val v id h hid ha
    cases ix with
    | btree t => exact TRep.of (closed_IRep.add (ix := .btree t) h hid ha)
    | hash t =>
      simp only [Index.add, Option.map_eq_some_iff] at ha
      obtain ⟨t', ha, rfl⟩ := ha
      exact WRep.add h hid ha
  remove := by
    intro ix ix' val v id h hid ha
    cases ix with
    | btree t => exact TRep.of (closed_IRep.remove (ix := .btree t) h hid ha)
    | hash t =>
      simp only [Index.remove, Option.map_eq_some_iff] at ha
      obtain ⟨t', ha, rfl⟩ := ha
      exact WRep.remove h hid ha
  absent := by
    intro ix ix' val v id h hid ha
    cases ix with
    | btree t => exact TRep.of (closed_IRep.absent (ix := .btree t) h hid ha)
    | hash t =>
      simp only [Index.remove, Option.map_eq_some_iff] at ha
      obtain ⟨t', ha, rfl⟩ := ha
      exact WRep.remove_absent h hid ha

/-- the index holds objects with their values in `P`, perhaps not all -/
def Sub (R : Index → (Nat → Option Value) → Prop) (ix : Index) (P : Nat → Option Value) : Prop :=
  ∃ val, R ix val ∧ ∀ x v, val x = some v → P x = some v

def IxsSub (R : Index → (Nat → Option Value) → Prop) (ixs : Indexes) (P : String → Nat → Option Value) : Prop :=
  ∀ k ix, AMap.get ixs k = some ix → Sub R ix (P k)

variable {R : Index → (Nat → Option Value) → Prop}

theorem Sub.add {ix ix' : Index} {P : Nat → Option Value} {v : Value} {id : Nat} (hR : RepClosed R) (h : Sub R ix P)
    (hid : P id = none) (ha : ix.add v id = some ix') : Sub R ix' (upd P id (some v)) := by
  obtain ⟨val, h1, h2⟩ := h
  have hn : val id = none := by
    cases hv : val id with
    | none => rfl
    | some w => rw [h2 id w hv] at hid; cases hid
  refine ⟨_, hR.add h1 hn ha, ?_⟩
  intro x w hx
  rw [upd_apply] at hx ⊢
  split
  · rename_i hxi; rw [if_pos hxi] at hx; exact hx
  · rename_i hxi; rw [if_neg hxi] at hx; exact h2 x w hx

theorem Sub.remove {ix ix' : Index} {P : Nat → Option Value} {v : Value} {id : Nat} (hR : RepClosed R) (h : Sub R ix P)
    (hid : P id = some v) (ha : ix.remove v id = some ix') : Sub R ix' (upd P id none) := by
  obtain ⟨val, h1, h2⟩ := h
  cases hv : val id with
  | none =>
    refine ⟨_, hR.absent h1 hv ha, ?_⟩
    intro x w hx
    rw [upd_apply]
    split
    · rename_i hxi; rw [hxi, hv] at hx; cases hx
    · exact h2 x w hx
  | some w0 =>
    have := h2 id w0 hv
    rw [hid] at this
    cases this
    refine ⟨_, hR.remove h1 hv ha, ?_⟩
    intro x w hx
    rw [upd_apply] at hx ⊢
    split
    · rename_i hxi; rw [if_pos hxi] at hx; cases hx
    · rename_i hxi; rw [if_neg hxi] at hx; exact h2 x w hx

theorem Sub.mono {ix : Index} {P Q : Nat → Option Value} (h : Sub R ix P) (hPQ : ∀ x v, P x = some v → Q x = some v) :
    Sub R ix Q := by
  obtain ⟨val, h1, h2⟩ := h
  exact ⟨val, h1, fun x v hx => hPQ x v (h2 x v hx)⟩

theorem IxsSub.mono {ixs : Indexes} {P Q : String → Nat → Option Value} (h : IxsSub R ixs P)
    (hPQ : ∀ k x v, P k x = some v → Q k x = some v) : IxsSub R ixs Q :=
  fun k ix hk => (h k ix hk).mono (hPQ k)

theorem IxsSub.add {ixs ixs' : Indexes} {P : String → Nat → Option Value} {key : String} {v : Value} {id : Nat}
    (hR : RepClosed R) (h : IxsSub R ixs P) (hid : P key id = none) (ha : Indexes.add ixs key v id = some ixs') :
    IxsSub R ixs' (fun k x => if k = key ∧ x = id then some v else P k x) := by
  unfold Indexes.add at ha
  split at ha
  · rename_i hg
    cases ha
    intro k ix hk
    have hne : k ≠ key := by rintro rfl; rw [hg] at hk; cases hk
    have := h k ix hk
    simpa [hne] using this
  · rename_i ix hg
    simp only [Option.map_eq_some_iff] at ha
    obtain ⟨ix', h1, rfl⟩ := ha
    intro k jx hk
    rw [AMap.get_set] at hk
    split at hk
    · rename_i hkk
      cases hk
      subst hkk
      refine ((h k ix hg).add hR hid h1).mono ?_
      intro x w hw
      simpa [upd] using hw
    · rename_i hne
      have := h k jx hk
      simpa [hne] using this

theorem IxsSub.remove {ixs ixs' : Indexes} {P : String → Nat → Option Value} {key : String} {v : Value} {id : Nat}
    (hR : RepClosed R) (h : IxsSub R ixs P) (hid : P key id = some v) (ha : Indexes.remove ixs key v id = some ixs') :
    IxsSub R ixs' (fun k x => if k = key ∧ x = id then none else P k x) := by
  unfold Indexes.remove at ha
  split at ha
  · rename_i hg
    cases ha
    intro k ix hk
    have hne : k ≠ key := by rintro rfl; rw [hg] at hk; cases hk
    have := h k ix hk
    simpa [hne] using this
  · rename_i ix hg
    simp only [Option.map_eq_some_iff] at ha
    obtain ⟨ix', h1, rfl⟩ := ha
    intro k jx hk
    rw [AMap.get_set] at hk
    split at hk
    · rename_i hkk
      cases hk
      subst hkk
      refine ((h k ix hg).remove hR hid h1).mono ?_
      intro x w hw
      simpa [upd] using hw
    · rename_i hne
      have := h k jx hk
      simpa [hne] using this

theorem IxsSub.addAll {id : Nat} (hR : RepClosed R) : ∀ {ps : Props} {ixs ixs' : Indexes} {P : String → Nat → Option Value},
    IxsSub R ixs P → (AMap.keys ps).Nodup → (∀ k ∈ AMap.keys ps, P k id = none) →
    Indexes.addAll id ps ixs = some ixs' →
    IxsSub R ixs' (fun k x => if x = id then (match ps.get k with | some v => some v | none => P k x) else P k x)
  | [], ixs, ixs', P, h, _, _, ha => by
    cases ha
    exact h.mono (by intro k x; simp)
  | (k0, v0) :: ps, ixs, ixs', P, h, hn, hv, ha => by
    rw [Indexes.addAll] at ha
    split at ha
    · cases ha
    · rename_i ixs1 h1
      have hn' : k0 ∉ AMap.keys ps ∧ (AMap.keys ps).Nodup := List.nodup_cons.1 hn
      have a1 := h.add hR (hv k0 (by simp [AMap.keys])) h1
      have a2 := IxsSub.addAll hR a1 hn'.2 (by
        intro k hk
        have hne : k ≠ k0 := by rintro rfl; exact hn'.1 hk
        simp only [hne, false_and, if_false]
        exact hv k (by simp only [AMap.keys, List.map_cons, List.mem_cons]; exact Or.inr hk)) ha
      refine a2.mono ?_
      intro k x w
      by_cases hx : x = id
      · by_cases hk : k = k0
        · subst hk
          have : AMap.get ps k = none := AMap.not_mem_keys.1 hn'.1
          simp [hx, AMap.get, this]
        · simp [hx, AMap.get, hk, Ne.symm hk]
      · simp [hx]

theorem IxsSub.removeAll {id : Nat} (hR : RepClosed R) : ∀ {ps : Props} {ixs ixs' : Indexes} {P : String → Nat → Option Value},
    IxsSub R ixs P → (AMap.keys ps).Nodup → (∀ k v, ps.get k = some v → P k id = some v) →
    Indexes.removeAll id ps ixs = some ixs' → IxsSub R ixs' P
  | [], ixs, ixs', P, h, _, _, ha => by cases ha; exact h
  | (k0, v0) :: ps, ixs, ixs', P, h, hn, hv, ha => by
    rw [Indexes.removeAll] at ha
    split at ha
    · cases ha
    · rename_i ixs1 h1
      have hn' : k0 ∉ AMap.keys ps ∧ (AMap.keys ps).Nodup := List.nodup_cons.1 hn
      have a1 := h.remove hR (hv k0 v0 (by simp [AMap.get])) h1
      refine IxsSub.removeAll hR (a1.mono ?_) hn'.2 (by
        intro k v hk
        have hne : k ≠ k0 := by rintro rfl; exact hn'.1 (AMap.mem_keys.2 ⟨v, hk⟩)
        exact hv k v (by simp [AMap.get, Ne.symm hne, hk])) ha
      intro k x w hw
      split at hw
      · cases hw
      · exact hw

/-- `SetProperty` on an object -/
theorem IxsSub.setProp {ixs ixs1 ixs' : Indexes} {P : String → Nat → Option Value} {key : String} {v : Value} {id : Nat}
    (hR : RepClosed R) (h : IxsSub R ixs P)
    (h1 : (match P key id with | none => some ixs | some old => Indexes.remove ixs key old id) = some ixs1)
    (h2 : Indexes.add ixs1 key v id = some ixs') :
    IxsSub R ixs' (fun k x => if k = key ∧ x = id then some v else P k x) := by
  cases hv : P key id with
  | none =>
    rw [hv] at h1
    cases h1
    exact h.add hR hv h2
  | some old =>
    rw [hv] at h1
    have a1 := h.remove hR hv h1
    have a2 := a1.add hR (by simp) h2
    refine a2.mono ?_
    intro k x w
    by_cases hk : k = key ∧ x = id <;> simp [hk]

/-- an index of a list of objects that may have repetitions: btree -/
theorem BRep.addObjects {key : String} {props : Nat → Props} : ∀ {xs : List Nat} {t : SetTree} {ix' : Index}
    {val : Nat → Option Value}, BRep t val → (∀ x v, val x = some v → (props x).get key = some v) →
    Index.addObjects key props xs (.btree t) = some ix' → Sub TRep ix' (fun x => (props x).get key)
  | [], t, ix', val, h, hv, ha => by cases ha; exact ⟨val, h, hv⟩
  | y :: xs, t, ix', val, h, hv, ha => by
    rw [Index.addObjects] at ha
    split at ha
    · exact BRep.addObjects h hv ha
    · rename_i v hg
      split at ha
      · cases ha
      · rename_i ix1 h1
        simp only [Index.add, Option.map_eq_some_iff] at h1
        obtain ⟨t1, h1, rfl⟩ := h1
        cases hy : val y with
        | none =>
          refine BRep.addObjects (h.add hy h1) ?_ ha
          intro x w hx
          rw [upd_apply] at hx
          split at hx
          · rename_i hxy; rw [hxy, hg]; exact hx
          · exact hv x w hx
        | some w0 =>
          have := hv y w0 hy
          rw [hg] at this; cases this
          have := h.add_again hy h1
          subst this
          exact BRep.addObjects h hv ha

theorem WRep.addObjects {key : String} {props : Nat → Props} : ∀ {xs : List Nat} {t : HashIx} {ix' : Index}
    {val : Nat → Option Value}, WRep t val → (∀ x v, val x = some v → (props x).get key = some v) →
    Index.addObjects key props xs (.hash t) = some ix' → Sub TRep ix' (fun x => (props x).get key)
  | [], t, ix', val, h, hv, ha => by cases ha; exact ⟨val, h, hv⟩
  | y :: xs, t, ix', val, h, hv, ha => by
    rw [Index.addObjects] at ha
    split at ha
    · exact WRep.addObjects h hv ha
    · rename_i v hg
      split at ha
      · cases ha
      · rename_i ix1 h1
        simp only [Index.add, Option.map_eq_some_iff] at h1
        obtain ⟨t1, h1, rfl⟩ := h1
        cases hy : val y with
        | none =>
          refine WRep.addObjects (h.add hy h1) ?_ ha
          intro x w hx
          rw [upd_apply] at hx
          split at hx
          · rename_i hxy; rw [hxy, hg]; exact hx
          · exact hv x w hx
        | some w0 =>
          have := hv y w0 hy
          rw [hg] at this; cases this
          exact WRep.addObjects (h.add_again hy h1) hv ha

/-! ## Nodes -/

/-- the value of a property of a node in memory, live or removed -/
def State.nmem (s : State) (k : String) (n : Nat) : Option Value :=
  if n < s.idBase then (s.nProps n).get k else none

theorem nmem_mono {s s' : State} (h1 : s'.nProps = s.nProps) (h2 : s.idBase ≤ s'.idBase)
    (h : IxsSub R s.nodeIx s.nmem) (h3 : s'.nodeIx = s.nodeIx) : IxsSub R s'.nodeIx s'.nmem := by
  rw [h3]
  refine h.mono ?_
  intro k x v hx
  simp only [State.nmem] at hx ⊢
  split at hx
  · rw [if_pos (by omega), h1]; exact hx
  · cases hx

theorem nodeSub_step {s s' : State} {σ : Spec} {op : Op} (c : Core s σ) (m : Mono s.nptr s.allNodes s.idBase)
    (h : IxsSub IRep s.nodeIx s.nmem) (hv : σ.Valid op) (hs : LPG.step s op = some s') :
    IxsSub IRep s'.nodeIx s'.nmem := by
  have hR := closed_IRep
  have hlt : ∀ n ∈ σ.nodes, n < s.idBase := fun n hn => by rw [c.next]; exact c.nLt n hn
  cases op with
  | newNode ls ps =>
    obtain ⟨ixs, hix, rfl⟩ := newNode_frame hs
    have a := h.addAll hR hv (by intro k _; simp [State.nmem]) hix
    refine IxsSub.mono a ?_
    intro k x w hw
    simp only [State.nmem, upd_apply] at hw ⊢
    by_cases hx : x = s.idBase
    · subst hx
      simp only [if_true, Nat.lt_irrefl, if_false] at hw
      simp only [if_true, Nat.lt_succ_self]
      cases hg : AMap.get ps k <;> rw [hg] at hw <;> exact hw
    · simp only [hx, if_false] at hw ⊢
      split at hw
      · rw [if_pos (by omega)]; exact hw
      · cases hw
  | newEdge a b l ps =>
    obtain ⟨h1, h2, h3, h4, h5, h6, h7, _⟩ := newEdge_frame hs
    exact nmem_mono h5 (by omega) h h7
  | setLabels n ls => cases hs; exact h
  | setNodeProp n k v =>
    simp only [LPG.step, State.setNodeProp] at hs
    split at hs
    · cases hs
    · rename_i ixs1 h1
      split at hs
      · cases hs
      · rename_i ixs2 h2
        cases hs
        have hn := hlt n hv
        have hval : s.nmem k n = (s.nProps n).get k := by
          simp only [State.nmem]; rw [if_pos hn]
        have h1' : (match s.nmem k n with | none => some s.nodeIx | some old => Indexes.remove s.nodeIx k old n) =
            some ixs1 := by
          rw [hval]
          revert h1
          cases AMap.get (s.nProps n) k <;> exact id
        refine (h.setProp hR h1' h2).mono ?_
        intro k' x w
        simp only [State.nmem, upd_apply]
        by_cases hx : x = n
        · subst hx
          simp only [hn, if_true, and_true, AMap.get_set]
          exact id
        · simp [hx]
  | removeNodeProp n k =>
    simp only [LPG.step, State.removeNodeProp] at hs
    have hn := hlt n hv
    split at hs
    · cases hs; exact h
    · rename_i old hold
      split at hs
      · cases hs
      · rename_i ixs1 h1
        cases hs
        have hval : s.nmem k n = some old := by
          simp only [State.nmem]; rw [if_pos hn]; exact hold
        refine (h.remove hR hval h1).mono ?_
        intro k' x w
        simp only [State.nmem, upd_apply]
        by_cases hx : x = n
        · subst hx
          simp only [hn, if_true, and_true, AMap.get_del]
          exact id
        · simp [hx]
  | detach n =>
    obtain ⟨p0, p1, p2, im, om, ae, ix, rfl⟩ := detachNode_frame hs
    exact h
  | detachRemove n =>
    simp only [LPG.step, State.detachRemoveNode] at hs
    have hn := hlt n hv
    split at hs
    · cases hs
    · rename_i s1 h1
      obtain ⟨p0, p1, p2, im, om, ae, ix, rfl⟩ := detachNode_frame h1
      split at hs
      · cases hs
      · rename_i ixs2 h2
        cases hs
        exact h.removeAll hR (c.nprops n hv).1 (by
          intro k v hk; simp only [State.nmem]; rw [if_pos hn]; exact hk) h2
  | setEdgeLabel e l =>
    simp only [LPG.step, State.setEdgeLabel] at hs
    split at hs
    · cases hs; exact h
    · obtain ⟨p1, p2, im, om, rfl⟩ := connect_frame hs
      exact h
  | setEdgeProp n k v => obtain ⟨ixs, rfl⟩ := setEdgeProp_frame hs; exact h
  | removeEdgeProp n k => obtain ⟨ixs, rfl⟩ := removeEdgeProp_frame hs; exact h
  | removeEdge e => cases hs; exact h
  | addNodeIndex k t =>
    obtain ⟨ns, hg, hinc, hb⟩ := m.getNodes
    simp only [LPG.step, State.addNodeIndex] at hs
    split at hs
    · cases hs; exact h
    · rw [hg] at hs
      simp only at hs
      split at hs
      · cases hs
      · rename_i ix hix
        cases hs
        intro k' jx hk
        rw [AMap.get_set] at hk
        split at hk
        · rename_i hkk
          cases hk
          subst hkk
          refine ⟨_, (IRep.new t).addObjects (hinc.imp (fun h => Nat.ne_of_lt h)) (by simp) hix, ?_⟩
          intro x v hx
          simp only [State.nmem]
          split at hx
          · rename_i hm; rw [if_pos (hb x hm)]; exact hx
          · cases hx
        · exact h k' jx hk
  | addEdgeIndex k t => obtain ⟨ixs, rfl⟩ := addEdgeIndex_frame hs; exact h

theorem nodeSub_runFrom {ops : List Op} : ∀ {s s' : State} {σ : Spec}, Core s σ → Mono s.nptr s.allNodes s.idBase →
    IxsSub IRep s.nodeIx s.nmem → σ.ValidFrom ops → LPG.runFrom s ops = some s' → IxsSub IRep s'.nodeIx s'.nmem := by
  induction ops with
  | nil => intro s s' σ _ _ h _ hs; simp [LPG.runFrom] at hs; subst hs; exact h
  | cons op ops ih =>
    intro s s' σ c m h hv hs
    rw [LPG.runFrom] at hs
    split at hs
    · cases hs
    · rename_i s1 h1
      exact ih (c.step hv.1 h1) (m.step c hv.1 h1) (nodeSub_step c m h hv.1 h1) hv.2 hs

/-- After every history: a node index holds nodes, under the values they have. -/
theorem nodeSub_run {ops : List Op} {s : State} (hv : Spec.ValidHistory ops) (hs : run ops = some s) :
    IxsSub IRep s.nodeIx (fun k n => (s.nProps n).get k) := by
  refine (nodeSub_runFrom Core.init Mono.init (by intro k ix h; simp [State.new, AMap.get] at h) hv hs).mono ?_
  intro k x v hx
  simp only [State.nmem] at hx
  split at hx
  · exact hx
  · cases hx

/-! ## Edges -/

/-- the value of a property of an edge in memory, live or removed -/
def State.emem (s : State) (k : String) (e : Nat) : Option Value := (s.eProps e).get k

theorem edgeSub_detachEdge {s s' : State} {σ : Spec} {e : Nat} (c : Core s σ)
    (h : IxsSub TRep s.edgeIx s.emem ∧ ∀ x, s.idBase ≤ x → s.eProps x = [])
    (he : e ∈ σ.edges) (hs : s.detachEdge e = some s') :
    IxsSub TRep s'.edgeIx s'.emem ∧ ∀ x, s'.idBase ≤ x → s'.eProps x = [] := by
  unfold State.detachEdge at hs
  simp only at hs
  split at hs
  · cases hs
  · rename_i ixs h2
    cases hs
    exact ⟨h.1.removeAll closed_TRep (c.eprops e he).1 (fun k v hk => hk) h2, h.2⟩

theorem edgeSub_detach {s s' : State} {σ : Spec} {n : Nat} (c : Core s σ)
    (h : IxsSub TRep s.edgeIx s.emem ∧ ∀ x, s.idBase ≤ x → s.eProps x = [])
    (hn : n ∈ σ.nodes) (hs : s.detachNode n = some s') :
    IxsSub TRep s'.edgeIx s'.emem ∧ ∀ x, s'.idBase ≤ x → s'.eProps x = [] :=
  detachNode_ind (Q := fun s _ => IxsSub TRep s.edgeIx s.emem ∧ ∀ x, s.idBase ≤ x → s.eProps x = [])
    (good := fun _ => True)
    (fun _ _ _ _ c h he _ hs => edgeSub_detachEdge c h he hs) (fun _ _ _ _ h => h) c h hn (fun _ _ _ => trivial) hs

theorem edgeSub_step {s s' : State} {σ : Spec} {op : Op} (c : Core s σ)
    (h : IxsSub TRep s.edgeIx s.emem ∧ ∀ x, s.idBase ≤ x → s.eProps x = [])
    (hv : σ.Valid op) (hs : LPG.step s op = some s') :
    IxsSub TRep s'.edgeIx s'.emem ∧ ∀ x, s'.idBase ≤ x → s'.eProps x = [] := by
  have hR := closed_TRep
  have hlt : ∀ n ∈ σ.edges, n < s.idBase := fun n hn => by rw [c.next]; exact c.eLt n hn
  cases op with
  | newNode ls ps =>
    obtain ⟨ixs, hix, rfl⟩ := newNode_frame hs
    exact ⟨h.1, fun x hx => h.2 x (Nat.le_of_succ_le hx)⟩
  | newEdge a b l ps =>
    obtain ⟨_, _, h3, _, _, _, _, h8, _, _, _, hix⟩ := newEdge_frame hs
    constructor
    · have a := h.1.addAll hR hv.2.2 (by intro k _; simp only [State.emem]; rw [h.2 _ (Nat.le_refl _)]; rfl) hix
      refine IxsSub.mono a ?_
      intro k x w hw
      simp only [State.emem, h8, upd_apply] at hw ⊢
      by_cases hx : x = s.idBase
      · subst hx
        rw [h.2 _ (Nat.le_refl _)] at hw
        simp only [if_true] at hw ⊢
        cases hg : AMap.get ps k <;> rw [hg] at hw <;> exact hw
      · simp only [hx, if_false] at hw ⊢
        exact hw
    · intro x hx
      rw [h3] at hx
      rw [h8, upd_other _ _ (by omega)]
      exact h.2 x (by omega)
  | setLabels n ls => cases hs; exact h
  | setNodeProp n k v => obtain ⟨ixs, rfl⟩ := setNodeProp_frame hs; exact h
  | removeNodeProp n k => obtain ⟨ixs, rfl⟩ := removeNodeProp_frame hs; exact h
  | detach n => exact edgeSub_detach c h hv hs
  | detachRemove n =>
    simp only [LPG.step, State.detachRemoveNode] at hs
    split at hs
    · cases hs
    · rename_i s1 h1
      have a := edgeSub_detach c h hv h1
      split at hs
      · cases hs
      · cases hs; exact a
  | setEdgeLabel e l =>
    simp only [LPG.step, State.setEdgeLabel] at hs
    split at hs
    · cases hs; exact h
    · obtain ⟨p1, p2, im, om, rfl⟩ := connect_frame hs
      exact h
  | setEdgeProp n k v =>
    simp only [LPG.step, State.setEdgeProp] at hs
    split at hs
    · cases hs
    · rename_i ixs1 h1
      split at hs
      · cases hs
      · rename_i ixs2 h2
        cases hs
        have hn := hlt n hv
        have h1' : (match s.emem k n with | none => some s.edgeIx | some old => Indexes.remove s.edgeIx k old n) =
            some ixs1 := by
          revert h1
          simp only [State.emem]
          cases AMap.get (s.eProps n) k <;> exact id
        refine ⟨(h.1.setProp hR h1' h2).mono ?_, ?_⟩
        · intro k' x w
          simp only [State.emem, upd_apply]
          by_cases hx : x = n
          · subst hx
            simp only [if_true, and_true, AMap.get_set]
            exact id
          · simp [hx]
        · intro x hx
          dsimp only at hx ⊢
          rw [upd_other _ _ (by omega)]; exact h.2 x hx
  | removeEdgeProp n k =>
    simp only [LPG.step, State.removeEdgeProp] at hs
    have hn := hlt n hv
    split at hs
    · cases hs; exact h
    · rename_i old hold
      split at hs
      · cases hs
      · rename_i ixs1 h1
        cases hs
        refine ⟨(h.1.remove hR (show s.emem k n = some old from hold) h1).mono ?_, ?_⟩
        · intro k' x w
          simp only [State.emem, upd_apply]
          by_cases hx : x = n
          · subst hx
            simp only [if_true, and_true, AMap.get_del]
            exact id
          · simp [hx]
        · intro x hx
          dsimp only at hx ⊢
          rw [upd_other _ _ (by omega)]; exact h.2 x hx
  | removeEdge e => cases hs; exact h
  | addNodeIndex k t => obtain ⟨ixs, rfl⟩ := addNodeIndex_frame hs; exact h
  | addEdgeIndex k t =>
    simp only [LPG.step, State.addEdgeIndex] at hs
    split at hs
    · cases hs; exact h
    · split at hs
      · cases hs
      · split at hs
        · cases hs
        · rename_i ix hix
          cases hs
          refine ⟨?_, h.2⟩
          intro k' jx hk
          rw [AMap.get_set] at hk
          split at hk
          · rename_i hkk
            cases hk
            subst hkk
            cases t with
            | btree => exact BRep.addObjects BRep.empty (by simp) hix
            | hash => exact WRep.addObjects (WRep.of HRep.empty) (by simp) hix
          · exact h.1 k' jx hk

theorem edgeSub_runFrom {ops : List Op} : ∀ {s s' : State} {σ : Spec}, Core s σ →
    (IxsSub TRep s.edgeIx s.emem ∧ ∀ x, s.idBase ≤ x → s.eProps x = []) → σ.ValidFrom ops →
    LPG.runFrom s ops = some s' →
    IxsSub TRep s'.edgeIx s'.emem ∧ ∀ x, s'.idBase ≤ x → s'.eProps x = [] := by
  induction ops with
  | nil => intro s s' σ _ h _ hs; simp [LPG.runFrom] at hs; subst hs; exact h
  | cons op ops ih =>
    intro s s' σ c h hv hs
    rw [LPG.runFrom] at hs
    split at hs
    · cases hs
    · rename_i s1 h1
      exact ih (c.step hv.1 h1) (edgeSub_step c h hv.1 h1) hv.2 hs

/-- After every history: an index of edges holds edges, under the values they have. -/
theorem edgeSub_run {ops : List Op} {s : State} (hv : Spec.ValidHistory ops) (hs : run ops = some s) :
    IxsSub TRep s.edgeIx (fun k n => (s.eProps n).get k) :=
  (edgeSub_runFrom Core.init ⟨by intro k ix h; simp [State.new, AMap.get] at h, by intro x _; rfl⟩ hv hs).1

/-- what is not an edge yet has no properties -/
theorem edgeFresh_run {ops : List Op} {s : State} (hv : Spec.ValidHistory ops) (hs : run ops = some s) :
    ∀ x, s.idBase ≤ x → s.eProps x = [] :=
  (edgeSub_runFrom Core.init ⟨by intro k ix h; simp [State.new, AMap.get] at h, by intro x _; rfl⟩ hv hs).2

end LPG
