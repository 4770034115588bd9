import Verif.Proofs.RecoverStuck
import Verif.Proofs.IndexAlways
/-!
# What a node index holds when panics are recovered
-/
namespace LPG

variable {o : MapOrder}
open State

/-- a value that the index can hold, or nothing -/
def keyed (o : Option Value) : Option Value :=
  match o with
  | none => none
  | some v => match hkey (unwrap1 v) with
    | none => none
    | some _ => some v

theorem keyed_some {o : Option Value} {v : Value} : keyed o = some v ↔ o = some v ∧ hkey (unwrap1 v) ≠ none := by
  cases o with
  | none => simp [keyed]
  | some w =>
    simp only [keyed]
    cases hk : hkey (unwrap1 w) with
    | none =>
      constructor
      · intro h; cases h
      · rintro ⟨h, h2⟩; cases h; exact (h2 hk).elim
    | some k =>
      constructor
      · intro h; cases h; exact ⟨rfl, by rw [hk]; simp⟩
      · rintro ⟨h, _⟩; cases h; rfl

theorem keyed_bad {v : Value} (h : hkey (unwrap1 v) = none) : keyed (some v) = none := by
  simp only [keyed, h]

theorem keyed_upd (val : Nat → Option Value) (id : Nat) (o : Option Value) :
    (fun x => keyed (upd val id o x)) = upd (fun x => keyed (val x)) id (keyed o) := by
  funext x
  rw [upd_apply, upd_apply]
  split <;> rfl

/-- a hash index, whose list also holds objects with values that it cannot hold -/
def ORep (h : HashIx) (val : Nat → Option Value) : Prop := ∃ O : List Nat, HRep (h.without O) (fun id => keyed (val id)) ∧
  (∀ c ∈ O, c < h.nextCell) ∧ ((h.only O).map Prod.snd).Nodup ∧
  (∀ p ∈ h.only O, ∃ v, val p.2 = some v ∧ hkey (unwrap1 v) = none) ∧ (h.init = false → ∀ id, val id = none)

/-- the rest of `ORep` when the cells of the list that are in no set remain or are fewer -/
theorem ORep.of {h h' : HashIx} {val val' : Nat → Option Value} {O : List Nat} (hr : HRep (h'.without O) (fun id => keyed (val' id)))
    (ho : ∀ c ∈ O, c < h.nextCell) (hn : ((h.only O).map Prod.snd).Nodup)
    (hb : ∀ p ∈ h.only O, ∃ v, val p.2 = some v ∧ hkey (unwrap1 v) = none) (hc : h.nextCell ≤ h'.nextCell)
    (hs : (h'.only O).Sublist (h.only O)) (hk : ∀ id v, val id = some v → hkey (unwrap1 v) = none → val' id = some v)
    (hi : h'.init = false → ∀ id, val' id = none) : ORep h' val' := by
  refine ⟨O, hr, fun c h => Nat.lt_of_lt_of_le (ho c h) hc, List.Nodup.sublist (hs.map _) hn, ?_, hi⟩
  intro p hp
  obtain ⟨v, h1, h2⟩ := hb p (hs.subset hp)
  exact ⟨v, hk _ _ h1 h2, h2⟩

theorem ORep.add {h h' : HashIx} {val : Nat → Option Value} {v : Value} {id : Nat} (hr : ORep h val) (hid : val id = none)
    (ha : h.add v id = some h') : ORep h' (upd val id (some v)) := by
  obtain ⟨O, h1, h2, h3, h4, h5⟩ := hr
  obtain ⟨g1, g2, g3, g4⟩ := without_add (fun hm => Nat.lt_irrefl _ (h2 _ hm)) ha
  have hk : keyed (some v) = some v := by
    unfold HashIx.add at ha
    split at ha
    · cases ha
    · rename_i k hk
      simp only [keyed, hk]
  refine ORep.of (O := O) ?_ h2 h3 h4 (by omega) (g2 ▸ .refl _) ?_ (fun h => by rw [g4] at h; cases h)
  · rw [keyed_upd, hk]
    refine HRep.add h1 ?_ g1
    show keyed (val id) = none
    rw [hid]
    rfl
  · intro x w hx hw
    rw [upd_other _ _ (by rintro rfl; rw [hid] at hx; cases hx)]
    exact hx

theorem ORep.remove {h h' : HashIx} {val : Nat → Option Value} {v : Value} {id : Nat} (hr : ORep h val) (hid : val id = some v)
    (ha : h.remove v id = some h') : ORep h' (upd val id none) := by
  obtain ⟨O, h1, h2, h3, h4, h5⟩ := hr
  obtain ⟨g1, g2, g3, g4⟩ := without_remove O ha
  have hk : hkey (unwrap1 v) ≠ none := by
    unfold HashIx.remove at ha
    split at ha
    · rename_i hi
      rw [h5 (by simpa using hi) id] at hid
      cases hid
    · split at ha
      · cases ha
      · rename_i k hk
        rw [hk]
        simp
  refine ORep.of (O := O) ?_ h2 h3 h4 (by omega) g2 ?_ ?_
  · rw [keyed_upd]
    exact HRep.remove h1 (keyed_some.2 ⟨hid, hk⟩) g1
  · intro x w hx hw
    rw [upd_other _ _ (by rintro rfl; rw [hid] at hx; cases hx; exact hk hw)]
    exact hx
  · intro hi x
    rw [upd_apply]
    split
    · rfl
    · exact h5 (g4 ▸ hi) x

theorem ORep.absent {h h' : HashIx} {val : Nat → Option Value} {v : Value} {id : Nat} (hr : ORep h val) (hid : val id = none)
    (ha : h.remove v id = some h') : ORep h' val := by
  obtain ⟨O, h1, h2, h3, h4, h5⟩ := hr
  obtain ⟨g1, g2, g3, g4⟩ := without_remove O ha
  refine ORep.of (O := O) ?_ h2 h3 h4 (by omega) g2 (fun _ _ h _ => h) (fun hi => h5 (g4 ▸ hi))
  have : h'.without O = h.without O := HRep.remove_absent (id := id) h1 (by show keyed (val id) = none; rw [hid]; rfl) g1
  rw [this]
  exact h1

theorem HRep.later {h : HashIx} {val : Nat → Option Value} (hr : HRep h val) : HRep { h with init := true, nextCell := h.nextCell + 1 } val :=
  ⟨hr.cells, fun c hc => Nat.lt_succ_of_lt (hr.lt c hc), hr.keysN, hr.sets, hr.full, hr.back, fun hi => by cases hi⟩

/-- the panic of an addition -/
theorem ORep.panic {h : HashIx} {val : Nat → Option Value} {v : Value} {id : Nat} (hr : ORep h val) (hid : val id = none)
    (hv : hkey (unwrap1 v) = none) :
    ORep { h with init := true, elements := h.elements ++ [(h.nextCell, id)], nextCell := h.nextCell + 1 } (upd val id (some v)) := by
  obtain ⟨O, h1, h2, h3, h4, h5⟩ := hr
  have hlt : ∀ p ∈ h.elements, p.1 < h.nextCell := by
    intro p hp
    by_cases ho : p.1 ∈ O
    · exact h2 _ ho
    · exact h1.lt p.1 (List.mem_map.2 ⟨p, List.mem_filter.2 ⟨hp, by simpa using ho⟩, rfl⟩)
  have e1 : h.elements.filter (fun p => decide (p.1 ∉ h.nextCell :: O)) = h.elements.filter (fun p => decide (p.1 ∉ O)) := by
    apply List.filter_congr
    intro p hp
    have := hlt p hp
    have hne : p.1 ≠ h.nextCell := Nat.ne_of_lt this
    simp [hne]
  have e2 : h.elements.filter (fun p => decide (p.1 ∈ h.nextCell :: O)) = h.elements.filter (fun p => decide (p.1 ∈ O)) := by
    apply List.filter_congr
    intro p hp
    have := hlt p hp
    have hne : p.1 ≠ h.nextCell := Nat.ne_of_lt this
    simp [hne]
  refine ⟨h.nextCell :: O, ?_, ?_, ?_, ?_, fun hi => by cases hi⟩
  · rw [keyed_upd, keyed_bad hv]
    have : upd (fun x => keyed (val x)) id none = fun x => keyed (val x) := by
      funext x
      rw [upd_apply]
      split
      · rename_i hx
        subst hx
        rw [hid]
        rfl
      · rfl
    rw [this]
    have h1' := HRep.later h1
    unfold HashIx.without at h1' ⊢
    simp only [List.filter_append, e1]
    simpa using h1'
  · intro c hc
    rcases List.mem_cons.1 hc with rfl | hc
    · exact Nat.lt_succ_self _
    · exact Nat.lt_succ_of_lt (h2 c hc)
  · unfold HashIx.only
    simp only [List.filter_append, e2, List.map_append]
    rw [List.nodup_append]
    refine ⟨h3, by simp, ?_⟩
    intro a ha b hb
    obtain ⟨p, hp, rfl⟩ := List.mem_map.1 ha
    obtain ⟨w, hw, _⟩ := h4 p hp
    simp at hb
    rw [hb]
    intro he
    rw [he, hid] at hw
    cases hw
  · intro p hp
    unfold HashIx.only at hp
    simp only [List.filter_append, e2] at hp
    rcases List.mem_append.1 hp with hp | hp
    · obtain ⟨w, hw, hb⟩ := h4 p hp
      refine ⟨w, ?_, hb⟩
      rw [upd_other _ _ (by intro he; rw [he, hid] at hw; cases hw)]
      exact hw
    · simp at hp
      rw [hp]
      exact ⟨v, upd_same .., hv⟩

/-! ## What is read from it -/

theorem ORep.mem {h : HashIx} {val : Nat → Option Value} (hr : ORep h val) : h.valueItr.Nodup ∧
    ∀ id ∈ h.valueItr, ∃ v, val id = some v := by
  obtain ⟨O, h1, h2, h3, h4, h5⟩ := hr
  have hp : (h.only O ++ (h.without O).elements).Perm h.elements := by
    have := List.filter_append_perm (fun p : Nat × Nat => decide (p.1 ∈ O)) h.elements
    refine List.Perm.trans (List.Perm.of_eq ?_) this
    unfold HashIx.only HashIx.without
    congr 1
    apply List.filter_congr
    intro p _
    simp
  have hp' := hp.map Prod.snd
  rw [List.map_append] at hp'
  have hw : ∀ id ∈ (h.without O).valueItr, ∃ v, val id = some v ∧ hkey (unwrap1 v) ≠ none := by
    intro id hid
    obtain ⟨v, hv⟩ := (h1.mem id).1 hid
    exact ⟨v, keyed_some.1 hv⟩
  constructor
  · refine hp'.nodup_iff.1 ?_
    rw [List.nodup_append]
    refine ⟨h3, h1.ids, ?_⟩
    intro a ha b hb hab
    subst hab
    obtain ⟨p, hp, rfl⟩ := List.mem_map.1 ha
    obtain ⟨v, hv, hk⟩ := h4 p hp
    obtain ⟨w, hw1, hw2⟩ := hw _ hb
    rw [hv] at hw1
    cases hw1
    exact hw2 hk
  · intro id hid
    rcases List.mem_append.1 (hp'.symm.subset hid) with hh | hh
    · obtain ⟨p, hp, rfl⟩ := List.mem_map.1 hh
      obtain ⟨v, hv, _⟩ := h4 p hp
      exact ⟨v, hv⟩
    · obtain ⟨v, hv, _⟩ := hw id hh
      exact ⟨v, hv⟩

/-- every object with a value that the index can hold is in the list -/
theorem ORep.keyed_mem {h : HashIx} {val : Nat → Option Value} (hr : ORep h val) {id : Nat} {v : Value} (hv : val id = some v)
    (hk : hkey (unwrap1 v) ≠ none) : id ∈ h.valueItr := by
  obtain ⟨O, h1, _⟩ := hr
  have hm := (h1.mem id).2 ⟨v, keyed_some.2 ⟨hv, hk⟩⟩
  unfold HashIx.valueItr at hm ⊢
  obtain ⟨p, hp, he⟩ := List.mem_map.1 hm
  exact List.mem_map.2 ⟨p, (List.mem_filter.1 hp).1, he⟩

theorem ORep.find {h : HashIx} {val : Nat → Option Value} {v : Value} {xs : List Nat} {m : Int} (hr : ORep h val)
    (hf : h.find v = some (xs, m)) : xs.Nodup ∧ (xs.length : Int) = m ∧
      ∀ id, id ∈ xs ↔ ∃ w, val id = some w ∧ hkey (unwrap1 w) ≠ none ∧ hkey (unwrap1 w) = hkey (unwrap1 v) := by
  obtain ⟨O, h1, h2, h3, h4, h5⟩ := hr
  obtain ⟨a1, a2, a3⟩ := h1.find (without_find h1 hf)
  refine ⟨a1, a2, ?_⟩
  intro id
  rw [a3]
  constructor
  · rintro ⟨w, hw, he⟩
    obtain ⟨b1, b2⟩ := keyed_some.1 hw
    exact ⟨w, b1, b2, he⟩
  · rintro ⟨w, b1, b2, he⟩
    exact ⟨w, keyed_some.2 ⟨b1, b2⟩, he⟩

/-! ## All indexes -/

def TryRep : Index → (Nat → Option Value) → Prop
  | .btree t, val => BRep t val
  | .hash h, val => ORep h val

theorem TryRep.new (t : IndexType) : TryRep (Index.new t) (fun _ => none) := by
  cases t with
  | btree => exact BRep.empty
  | hash => exact ⟨[], HRep.empty, by simp, by simp [HashIx.only], by simp [HashIx.only], fun _ _ => rfl⟩

theorem closed_TryRep : RepClosed TryRep where
  add := by
    intro ix ix' val v id h hid ha
    cases ix with
    | btree t =>
      have := closed_IRep.add (ix := .btree t) h hid ha
      simp only [Index.add, Option.map_eq_some_iff] at ha
      obtain ⟨t', _, rfl⟩ := ha
      exact this
    | hash t =>
      simp only [Index.add, Option.map_eq_some_iff] at ha
      obtain ⟨t', ha, rfl⟩ := ha
      exact ORep.add h hid ha
  remove := by
    intro ix ix' val v id h hid ha
    cases ix with
    | btree t =>
      have := closed_IRep.remove (ix := .btree t) h hid ha
      simp only [Index.remove, Option.map_eq_some_iff] at ha
      obtain ⟨t', _, rfl⟩ := ha
      exact this
    | hash t =>
      simp only [Index.remove, Option.map_eq_some_iff] at ha
      obtain ⟨t', ha, rfl⟩ := ha
      exact ORep.remove h hid ha
  absent := by
    intro ix ix' val v id h hid ha
    cases ix with
    | btree t =>
      have := closed_IRep.absent (ix := .btree t) h hid ha
      simp only [Index.remove, Option.map_eq_some_iff] at ha
      obtain ⟨t', _, rfl⟩ := ha
      exact this
    | hash t =>
      simp only [Index.remove, Option.map_eq_some_iff] at ha
      obtain ⟨t', ha, rfl⟩ := ha
      exact ORep.absent h hid ha

theorem Sub.tryAdd {ix : Index} {P : Nat → Option Value} {v : Value} {id : Nat} (h : Sub TryRep ix P) (hid : P id = none) :
    Sub TryRep (ix.tryAdd v id).1 (upd P id (some v)) := by
  cases ha : ix.add v id with
  | some ix' =>
    rw [Index.tryAdd_ok.1 ha]
    exact h.add closed_TryRep hid ha
  | none =>
    obtain ⟨val, h1, h2⟩ := h
    have hn : val id = none := by
      cases hv : val id with
      | none => rfl
      | some w => rw [h2 id w hv] at hid; cases hid
    cases ix with
    | btree t =>
      simp only [Index.add, Option.map_eq_none_iff] at ha
      simp only [Index.tryAdd, ha]
      refine ⟨val, h1, ?_⟩
      intro x w hx
      rw [upd_other _ _ (by rintro rfl; rw [hn] at hx; cases hx)]
      exact h2 x w hx
    | hash t =>
      simp only [Index.add, Option.map_eq_none_iff] at ha
      simp only [Index.tryAdd, ha]
      have hk : hkey (unwrap1 v) = none := by
        unfold HashIx.add at ha
        split at ha
        · assumption
        · cases ha
      refine ⟨_, ORep.panic h1 hn hk, ?_⟩
      intro x w hx
      rw [upd_apply] at hx ⊢
      split
      · rename_i hxi; rw [if_pos hxi] at hx; exact hx
      · rename_i hxi; rw [if_neg hxi] at hx; exact h2 x w hx

/-- a representation of indexes that panics respect -/
structure TryClosed (R : Index → (Nat → Option Value) → Prop) : Prop extends RepClosed R where
  tryAdd : ∀ {ix : Index} {P : Nat → Option Value} {v : Value} {id : Nat}, Sub R ix P → P id = none →
    Sub R (ix.tryAdd v id).1 (upd P id (some v))

theorem tryClosed_TryRep : TryClosed TryRep := ⟨closed_TryRep, Sub.tryAdd⟩

variable {R : Index → (Nat → Option Value) → Prop}

theorem IxsSub.tryAdd {ixs : Indexes} {P : String → Nat → Option Value} {key : String} {v : Value} {id : Nat}
    (hR : TryClosed R) (h : IxsSub R ixs P) (hid : P key id = none) :
    IxsSub R (Indexes.tryAdd ixs key v id).1 (fun k x => if k = key ∧ x = id then some v else P k x) := by
  unfold Indexes.tryAdd
  cases hg : AMap.get ixs key with
  | none =>
    intro k ix hk
    have hne : k ≠ key := by rintro rfl; simp only at hk; rw [hg] at hk; cases hk
    have := h k ix hk
    simpa [hne] using this
  | some ix =>
    intro k jx hk
    simp only at hk
    rw [AMap.get_set] at hk
    split at hk
    · rename_i hkk
      cases hk
      subst hkk
      refine (hR.tryAdd (h k ix hg) hid).mono ?_
      intro x w hw
      simpa [upd] using hw
    · rename_i hne
      have := h k jx hk
      simpa [hne] using this

theorem IxsSub.tryAddAll {id : Nat} (hR : TryClosed R) : ∀ {ps : Props} {ixs : Indexes} {P : String → Nat → Option Value},
    IxsSub R ixs P → (AMap.keys ps).Nodup → (∀ k ∈ AMap.keys ps, P k id = none) →
    IxsSub R (Indexes.tryAddAll id ps ixs).1
      (fun k x => if x = id then (match ps.get k with | some v => some v | none => P k x) else P k x)
  | [], ixs, P, h, _, _ => h.mono (by intro k x; simp)
  | (k0, v0) :: ps, ixs, P, h, hn, hv => by
    have hn' : k0 ∉ AMap.keys ps ∧ (AMap.keys ps).Nodup := List.nodup_cons.1 hn
    have a1 := h.tryAdd hR (v := v0) (hv k0 (by simp [AMap.keys]))
    rw [Indexes.tryAddAll]
    split
    · refine a1.mono ?_
      intro k x w hw
      split at hw
      · rename_i hk
        obtain ⟨rfl, rfl⟩ := hk
        simpa [AMap.get] using hw
      · rename_i hk
        by_cases hx : x = id
        · subst hx
          have hk' : ¬ k0 = k := fun e => hk ⟨e.symm, rfl⟩
          simp only [if_true, AMap.get, if_neg hk']
          cases hg : AMap.get ps k with
          | none => exact hw
          | some u =>
            have := hv k (by
              simp only [AMap.keys, List.map_cons, List.mem_cons]
              exact Or.inr (AMap.mem_keys.2 ⟨u, hg⟩))
            rw [this] at hw
            cases hw
        · rw [if_neg hx]; exact hw
    · have a2 := IxsSub.tryAddAll hR a1 hn'.2 (by
        intro k hk
        have hne : k ≠ k0 := by rintro rfl; exact hn'.1 hk
        simp only [hne, false_and, if_false]
        exact hv k (by simp only [AMap.keys, List.map_cons, List.mem_cons]; exact Or.inr hk))
      refine a2.mono ?_
      intro k x w
      by_cases hx : x = id
      · by_cases hk : k = k0
        · subst hk
          have : AMap.get ps k = none := AMap.not_mem_keys.1 hn'.1
          simp [hx, AMap.get, this]
        · simp [hx, AMap.get, hk, Ne.symm hk]
      · simp [hx]

theorem IxsSub.tryRemoveAll {id : Nat} (hR : TryClosed R) : ∀ {ps : Props} {ixs : Indexes} {P : String → Nat → Option Value},
    IxsSub R ixs P → (AMap.keys ps).Nodup → (∀ k v, ps.get k = some v → P k id = some v) →
    IxsSub R (Indexes.tryRemoveAll id ps ixs).1 P
  | [], ixs, P, h, _, _ => h
  | (k0, v0) :: ps, ixs, P, h, hn, hv => by
    rw [Indexes.tryRemoveAll]
    split
    · exact h
    · rename_i ixs1 h1
      have hn' : k0 ∉ AMap.keys ps ∧ (AMap.keys ps).Nodup := List.nodup_cons.1 hn
      have a1 := h.remove hR.toRepClosed (hv k0 v0 (by simp [AMap.get])) h1
      have a2 : IxsSub R ixs1 P := a1.mono (by
        intro k x w hw
        split at hw
        · cases hw
        · exact hw)
      refine IxsSub.tryRemoveAll hR a2 hn'.2 ?_
      intro k v hk
      have hne : k ≠ k0 := by rintro rfl; exact hn'.1 (AMap.mem_keys.2 ⟨v, hk⟩)
      exact hv k v (by simp [AMap.get, Ne.symm hne, hk])

theorem Sub.tryAddObjects {key : String} {props : Nat → Props} {P : Nat → Option Value} : ∀ {xs : List Nat} {ix : Index}
    {Q : Nat → Option Value}, Sub TryRep ix Q → xs.Nodup → (∀ x ∈ xs, Q x = none) → (∀ x ∈ xs, P x = (props x).get key) →
    (∀ x v, Q x = some v → P x = some v) → Sub TryRep (Index.tryAddObjects key props xs ix).1 P
  | [], ix, Q, h, _, _, _, hq => h.mono hq
  | x :: xs, ix, Q, h, hn, h1, h2, hq => by
    obtain ⟨hx, hn'⟩ := List.nodup_cons.1 hn
    rw [Index.tryAddObjects]
    split
    · exact Sub.tryAddObjects h hn' (fun y hy => h1 y (List.mem_cons_of_mem _ hy))
        (fun y hy => h2 y (List.mem_cons_of_mem _ hy)) hq
    · rename_i v hg
      have a1 := h.tryAdd (v := v) (h1 x List.mem_cons_self)
      have hq' : ∀ y w, upd Q x (some v) y = some w → P y = some w := by
        intro y w hy
        rw [upd_apply] at hy
        split at hy
        · rename_i he
          rw [he, h2 x List.mem_cons_self, hg]
          exact hy
        · exact hq y w hy
      simp only
      split
      · exact a1.mono hq'
      · refine Sub.tryAddObjects a1 hn' ?_ (fun y hy => h2 y (List.mem_cons_of_mem _ hy)) hq'
        intro y hy
        rw [upd_other _ _ (by rintro rfl; exact hx hy)]
        exact h1 y (List.mem_cons_of_mem _ hy)

/-- One call, returning or panicking: the node indexes hold nodes, under the values they have. -/
theorem tryNodeSub_step {s s' : State} {σ : Spec} {op : Op} {b : Bool} (c : Core s.bare σ) (m : Mono s.nptr s.allNodes s.idBase)
    (h : IxsSub TryRep s.nodeIx s.nmem) (hv : σ.Valid op) (hs : tryStep o s op = some (s', b)) :
    IxsSub TryRep s'.nodeIx s'.nmem := by
  have hT := tryClosed_TryRep
  have hR := hT.toRepClosed
  have hlt : ∀ n ∈ σ.nodes, n < s.idBase := fun n hn => by
    have := c.nLt n hn
    rw [← c.next] at this
    exact this
  have same : PropFrame s s' → s'.nodeIx = s.nodeIx → IxsSub TryRep s'.nodeIx s'.nmem := by
    intro f he
    rw [he]
    refine h.mono ?_
    intro k x v hx
    simp only [State.nmem] at hx ⊢
    split at hx
    · rename_i hl
      have := f.id
      rw [if_pos (by omega), f.np x hl]
      exact hx
    · cases hx
  cases op with
  | newNode ls ps =>
    cases Option.some.inj hs
    have a := h.tryAddAll hT (id := s.idBase) (ps := ps) hv (by intro k _; simp [State.nmem])
    refine IxsSub.mono a ?_
    intro k x w hw
    show (State.nmem _ k x) = some w
    simp only [State.nmem] at hw ⊢
    show (if x < s.idBase + 1 then AMap.get (upd s.nProps s.idBase ps x) k else none) = some w
    rw [upd_apply]
    by_cases hx : x = s.idBase
    · subst hx
      simp only [if_true, Nat.lt_irrefl, if_false] at hw
      simp only [if_true, Nat.lt_succ_self]
      cases hg : AMap.get ps k <;> rw [hg] at hw <;> exact hw
    · simp only [hx, if_false] at hw ⊢
      split at hw
      · rw [if_pos (by omega)]; exact hw
      · cases hw
  | newEdge x y l ps =>
    refine same (tryStep_frame hs (by simp) (by simp) (by simp) (by simp)) ?_
    simp only [tryStep, State.tryNewEdge] at hs
    split at hs
    · cases hs
    · split at hs
      · cases hs
      · rename_i s2 hc
        obtain ⟨_, _, _, c4, _⟩ := connect_props hc
        cases Option.some.inj hs
        exact c4
  | setLabels n ls => cases Option.some.inj hs; exact h
  | setNodeProp n k v =>
    have hs := Option.some.inj hs
    have hn := hlt n hv
    have hval : s.nmem k n = (s.nProps n).get k := by
      simp only [State.nmem]; rw [if_pos hn]
    unfold State.trySetNodeProp at hs
    simp only at hs
    have fin : ∀ ixs, IxsSub TryRep ixs (fun k' x => if k' = k ∧ x = n then some v else s.nmem k' x) →
        IxsSub TryRep ixs (({ s with nProps := upd s.nProps n ((s.nProps n).set k v), nodeIx := ixs } : State)).nmem := by
      intro ixs hi
      refine hi.mono ?_
      intro k' x w
      simp only [State.nmem, upd_apply]
      by_cases hx : x = n
      · subst hx
        simp only [hn, if_true, and_true, AMap.get_set]
        exact id
      · simp [hx]
    cases hg : AMap.get (s.nProps n) k with
    | none =>
      rw [hg] at hs
      simp only at hs
      cases hs
      exact fin _ (h.tryAdd hT (by rw [hval, hg]))
    | some old =>
      rw [hg] at hs
      simp only at hs
      split at hs
      · cases hs; exact h
      · rename_i ixs1 h1
        cases hs
        have a1 := h.remove hR (hval.trans hg) h1
        have a2 := a1.tryAdd hT (v := v) (key := k) (id := n) (by simp)
        refine fin _ (a2.mono ?_)
        intro k' x w
        by_cases hk : k' = k ∧ x = n <;> simp [hk]
  | removeNodeProp n k =>
    have hs := Option.some.inj hs
    have hn := hlt n hv
    unfold State.tryRemoveNodeProp at hs
    split at hs
    · cases hs; exact h
    · rename_i s1 hr
      cases hs
      unfold State.removeNodeProp at hr
      split at hr
      · cases hr; exact h
      · rename_i old hold
        split at hr
        · cases hr
        · rename_i ixs1 h1
          cases hr
          have hval : s.nmem k n = some old := by
            simp only [State.nmem]; rw [if_pos hn]; exact hold
          refine (h.remove hR hval h1).mono ?_
          intro k' x w
          simp only [State.nmem, upd_apply]
          by_cases hx : x = n
          · subst hx
            simp only [hn, if_true, and_true, AMap.get_del]
            exact id
          · simp [hx]
  | detach n =>
    refine same (tryStep_frame hs (by simp) (by simp) (by simp) (by simp)) ?_
    exact (tryDetachNode_frame hs).2.2.2.1
  | detachRemove n =>
    have hn := hlt n hv
    simp only [tryStep, State.tryDetachRemoveNode] at hs
    split at hs
    · cases hs
    · rename_i s1 hd
      obtain ⟨g1, g2, g3, g4, g5⟩ := tryDetachNode_frame hd
      cases Option.some.inj hs
      refine same ⟨Nat.le_of_eq g1.symm, fun _ _ => by rw [g2], fun _ _ => by rw [g3], by rw [g4]; exact .refl _, g5⟩ g4
    · rename_i s1 hd
      obtain ⟨g1, g2, g3, g4, g5⟩ := tryDetachNode_frame hd
      cases Option.some.inj hs
      show IxsSub TryRep (Indexes.tryRemoveAll n (o.order n (s1.nProps n)) s1.nodeIx).1 (fun k x => if x < s1.idBase then AMap.get (s1.nProps x) k else none)
      rw [g1, g2, g4]
      have hnd : (AMap.keys (s.nProps n)).Nodup := (c.nprops n hv).1
      have hnd' := ((o.perm n (s.nProps n)).map Prod.fst).nodup_iff.2 hnd
      refine h.tryRemoveAll hT hnd' ?_
      intro k v hk
      simp only [State.nmem]
      rw [if_pos hn]
      exact AMap.get_of_mem hnd ((o.perm n _).mem_iff.1 (AMap.get_mem hk))
  | setEdgeLabel e l =>
    refine same (tryStep_frame hs (by simp) (by simp) (by simp) (by simp)) ?_
    simp only [tryStep, Option.map_eq_some_iff] at hs
    obtain ⟨s1, hs1, hh⟩ := hs
    cases hh
    unfold State.setEdgeLabel at hs1
    split at hs1
    · cases hs1; rfl
    · exact (connect_props hs1).2.2.2.1
  | setEdgeProp n k v =>
    have hs := congrArg Prod.fst (Option.some.inj hs)
    simp only at hs
    obtain ⟨h1, h2, h3⟩ := trySetEdgeProp_other s n k v
    rw [hs] at h1 h2 h3
    rw [h1]
    refine h.mono ?_
    intro k' x w hw
    simp only [State.nmem, h2, h3] at hw ⊢
    exact hw
  | removeEdgeProp n k =>
    have hs := congrArg Prod.fst (Option.some.inj hs)
    simp only at hs
    obtain ⟨h1, h2, h3⟩ := tryRemoveEdgeProp_other s n k
    rw [hs] at h1 h2 h3
    rw [h1]
    refine h.mono ?_
    intro k' x w hw
    simp only [State.nmem, h2, h3] at hw ⊢
    exact hw
  | removeEdge e => cases Option.some.inj hs; exact h
  | addNodeIndex k t =>
    obtain ⟨ns, hg, hinc, hb⟩ := m.getNodes
    simp only [tryStep, State.tryAddNodeIndex] at hs
    split at hs
    · cases hs; exact h
    · rw [hg] at hs
      cases Option.some.inj hs
      intro k' jx hk
      simp only at hk
      rw [AMap.get_set] at hk
      split at hk
      · rename_i hkk
        cases hk
        subst hkk
        refine Sub.tryAddObjects ⟨_, TryRep.new t, fun _ _ h => h⟩ (hinc.imp (fun h => Nat.ne_of_lt h)) (fun _ _ => rfl) ?_
          (fun _ _ h => by cases h)
        intro x hx
        simp only [State.nmem]
        rw [if_pos (hb x hx)]
      · exact h k' jx hk
  | addEdgeIndex k t =>
    simp only [tryStep, State.tryAddEdgeIndex] at hs
    split at hs
    · cases hs; exact h
    · split at hs
      · cases hs
      · cases hs; exact h

end LPG
