import Verif.Proofs.PropIndex
/-!
# B-tree index
-/
namespace LPG

theorem pairwise_mem {α : Type} {R : α → α → Prop} {l : List α} (h : l.Pairwise R) {a b : α} (ha : a ∈ l) (hb : b ∈ l) :
    a = b ∨ R a b ∨ R b a := by
  induction l with
  | nil => simp at ha
  | cons x l ih =>
    rw [List.pairwise_cons] at h
    rcases List.mem_cons.1 ha with ha' | ha'
    · rcases List.mem_cons.1 hb with hb' | hb'
      · exact Or.inl (ha'.trans hb'.symm)
      · exact Or.inr (Or.inl (ha' ▸ h.1 b hb'))
    · rcases List.mem_cons.1 hb with hb' | hb'
      · exact Or.inr (Or.inr (hb' ▸ h.1 a ha'))
      · exact ih h.2 ha' hb'

theorem cmp_zero_symm {a b : Value} (h : cmp a b = some 0) : cmp b a = some 0 := by
  rw [cmp_symm, h]; rfl

theorem cmp_refl_some {a : Value} {r : Int} (h : cmp a a = some r) : r = 0 := by
  have h2 := cmp_symm a a
  rw [h] at h2
  simp at h2
  omega

/-- the value is filed under this key -/
def Like (v k : Value) : Prop := v = k ∨ cmp v k = some 0

theorem Like.unique {v k k' : Value} (h : Like v k) (h' : Like v k') (hlt : cmp k k' = some (-1)) : False := by
  rcases h with rfl | h
  · rcases h' with rfl | h'
    · have := cmp_refl_some hlt; omega
    · rw [hlt] at h'; simp at h'
  · rcases h' with rfl | h'
    · rw [cmp_zero_symm h] at hlt; simp at hlt
    · have := cmp_trans (cmp_zero_symm h) h' hlt (by omega) (by omega)
      omega

theorem Like.defined {v k : Value} (h : Like v k) (hd : cmp v k ≠ none) : cmp v k = some 0 := by
  rcases h with rfl | h
  · cases hc : cmp v v with
    | none => exact absurd hc hd
    | some r => rw [cmp_refl_some hc]
  · exact h

structure BRep (t : SetTree) (val : Nat → Option Value) : Prop where
  sorted : t.Pairwise (fun a b => cmp a.1 b.1 = some (-1))
  ok : ∀ e ∈ t, FSet.Ok e.2 ∧ e.2 ≠ []
  sound : ∀ e ∈ t, ∀ id ∈ AMap.keys e.2, ∃ v, val id = some v ∧ Like v e.1
  full : ∀ id v, val id = some v → ∃ e ∈ t, id ∈ AMap.keys e.2

theorem BRep.empty : BRep [] (fun _ => none) := by
  constructor <;> simp

theorem BRep.same {t : SetTree} {val : Nat → Option Value} (h : BRep t val) {a b : Value × FSet Nat}
    (ha : a ∈ t) (hb : b ∈ t) {v : Value} (h1 : Like v a.1) (h2 : Like v b.1) : a = b := by
  rcases pairwise_mem h.sorted ha hb with h' | h' | h'
  · exact h'
  · exact (h1.unique h2 h').elim
  · exact (h2.unique h1 h').elim

theorem get_none {t : SetTree} {k : Value} (h : SetTree.get t k = some none) :
    ∀ e ∈ t, cmp k e.1 = some (-1) ∨ cmp k e.1 = some 1 := by
  unfold SetTree.get at h
  split at h
  · cases h
  · rename_i hany
    simp only [Option.some.injEq, Option.map_eq_none_iff, List.find?_eq_none, decide_eq_true_eq] at h
    intro e he
    have h1 : (cmp k e.1).isNone = false := by
      cases hc : (cmp k e.1).isNone with
      | false => rfl
      | true => exact absurd (List.any_eq_true.2 ⟨e, he, hc⟩) hany
    cases hc : cmp k e.1 with
    | none => rw [hc] at h1; simp at h1
    | some r =>
      rcases cmp_range _ _ _ hc with rfl | rfl | rfl
      · exact Or.inl rfl
      · exact absurd hc (h e he)
      · exact Or.inr rfl

theorem get_some {t : SetTree} {k : Value} {s : FSet Nat} (h : SetTree.get t k = some (some s)) :
    (∀ e ∈ t, cmp k e.1 ≠ none) ∧ ∃ e ∈ t, cmp k e.1 = some 0 ∧ e.2 = s := by
  unfold SetTree.get at h
  split at h
  · cases h
  · rename_i hany
    simp only [Option.some.injEq, Option.map_eq_some_iff] at h
    obtain ⟨e, he, hs⟩ := h
    refine ⟨?_, e, List.mem_of_find?_eq_some he, by simpa using List.find?_some he, hs⟩
    intro x hx hc
    exact hany (List.any_eq_true.2 ⟨x, hx, by rw [hc]; rfl⟩)

theorem mem_update {t : SetTree} {k : Value} {s : FSet Nat} {e0 : Value × FSet Nat} (h0 : e0 ∈ t)
    (hk : cmp k e0.1 = some 0) (hu : ∀ e ∈ t, cmp k e.1 = some 0 → e = e0) (x : Value × FSet Nat) :
    x ∈ SetTree.update t k s ↔ x = (e0.1, s) ∨ (x ∈ t ∧ x ≠ e0) := by
  unfold SetTree.update
  rw [List.mem_map]
  constructor
  · rintro ⟨e, he, rfl⟩
    by_cases hc : cmp k e.1 = some 0
    · left; rw [if_pos hc, hu e he hc]
    · right
      rw [if_neg hc]
      exact ⟨he, by rintro rfl; exact hc hk⟩
  · rintro (rfl | ⟨hx, hne⟩)
    · exact ⟨e0, h0, by rw [if_pos hk]⟩
    · exact ⟨x, hx, if_neg (fun hc => hne (hu x hx hc))⟩

theorem sorted_update {t : SetTree} (h : t.Pairwise (fun a b => cmp a.1 b.1 = some (-1))) (k : Value) (s : FSet Nat) :
    (SetTree.update t k s).Pairwise (fun a b => cmp a.1 b.1 = some (-1)) := by
  unfold SetTree.update
  rw [List.pairwise_map]
  refine h.imp ?_
  intro a b hab
  have e : ∀ x : Value × FSet Nat, (if cmp k x.1 = some 0 then (x.1, s) else x).1 = x.1 := by
    intro x; split <;> rfl
  rw [e, e]; exact hab

theorem mem_put (t : SetTree) (k : Value) (s : FSet Nat) (x : Value × FSet Nat) :
    x ∈ SetTree.put t k s ↔ x = (k, s) ∨ x ∈ t := by
  induction t with
  | nil => simp [SetTree.put]
  | cons e t ih =>
    rw [SetTree.put]
    split
    · simp
    · rw [List.mem_cons, ih, List.mem_cons]; grind

theorem sorted_put {t : SetTree} (h : t.Pairwise (fun a b => cmp a.1 b.1 = some (-1))) {k : Value} (s : FSet Nat)
    (hk : ∀ e ∈ t, cmp k e.1 = some (-1) ∨ cmp k e.1 = some 1) :
    (SetTree.put t k s).Pairwise (fun a b => cmp a.1 b.1 = some (-1)) := by
  induction t with
  | nil => simp [SetTree.put]
  | cons e t ih =>
    rw [List.pairwise_cons] at h
    rw [SetTree.put]
    split
    · rename_i hlt
      rw [List.pairwise_cons]
      refine ⟨?_, List.pairwise_cons.2 h⟩
      intro x hx
      rcases List.mem_cons.1 hx with rfl | hx
      · exact hlt
      · rcases hk x (by simp [hx]) with h' | h'
        · exact h'
        · have := cmp_trans hlt (h.1 x hx) h' (by omega) (by omega)
          omega
    · rename_i hlt
      rw [List.pairwise_cons]
      refine ⟨?_, ih h.2 (fun x hx => hk x (by simp [hx]))⟩
      intro x hx
      rcases (mem_put t k s x).1 hx with rfl | hx
      · rcases hk e (by simp) with h' | h'
        · exact absurd h' hlt
        · simp only; rw [cmp_symm, h']; rfl
      · exact h.1 x hx

theorem BRep.add {t t' : SetTree} {val : Nat → Option Value} {v : Value} {id : Nat} (h : BRep t val)
    (hid : val id = none) (ha : SetTree.add t v id = some t') : BRep t' (upd val id (some v)) := by
  have hnew : ∀ e ∈ t, ∀ x ∈ AMap.keys e.2, x ≠ id := by
    rintro e he x hx rfl
    obtain ⟨w, hw, _⟩ := h.sound e he x hx
    rw [hid] at hw; cases hw
  unfold SetTree.add at ha
  split at ha
  · cases ha
  · rename_i hg
    cases ha
    refine ⟨sorted_put h.sorted _ (get_none hg), ?_, ?_, ?_⟩
    · intro e he
      rcases (mem_put _ _ _ _).1 he with rfl | he
      · exact ⟨FSet.Ok.nil.add id, NodeMap.fadd_ne_nil [] id⟩
      · exact h.ok e he
    · intro e he x hx
      rcases (mem_put _ _ _ _).1 he with rfl | he
      · rw [FSet.mem_keys_add] at hx
        simp only [AMap.keys, List.map_nil, List.not_mem_nil, false_or] at hx
        subst hx
        exact ⟨v, upd_same _ _ _, Or.inl rfl⟩
      · rw [upd_other _ _ (hnew e he x hx)]
        exact h.sound e he x hx
    · intro x w hw
      by_cases hx : x = id
      · subst hx
        exact ⟨_, (mem_put _ _ _ _).2 (Or.inl rfl), (FSet.mem_keys_add [] x x x).2 (Or.inr rfl)⟩
      · rw [upd_other _ _ hx] at hw
        obtain ⟨e, he, hxe⟩ := h.full x w hw
        exact ⟨e, (mem_put _ _ _ _).2 (Or.inr he), hxe⟩
  · rename_i s hg
    cases ha
    obtain ⟨_, e0, h0, hk, rfl⟩ := get_some hg
    have hu : ∀ e ∈ t, cmp v e.1 = some 0 → e = e0 := fun e he hc => h.same he h0 (Or.inr hc) (Or.inr hk)
    have hm := mem_update (s := FSet.add e0.2 id id) h0 hk hu
    refine ⟨sorted_update h.sorted _ _, ?_, ?_, ?_⟩
    · intro e he
      rcases (hm e).1 he with rfl | he
      · exact ⟨(h.ok _ h0).1.add id, NodeMap.fadd_ne_nil _ _⟩
      · exact h.ok e he.1
    · intro e he x hx
      rcases (hm e).1 he with rfl | he
      · rw [FSet.mem_keys_add] at hx
        by_cases hxi : x = id
        · subst hxi
          exact ⟨v, upd_same _ _ _, Or.inr hk⟩
        · rw [upd_other _ _ hxi]
          rcases hx with hx | hx
          · exact h.sound e0 h0 x hx
          · exact absurd hx hxi
      · rw [upd_other _ _ (hnew e he.1 x hx)]
        exact h.sound e he.1 x hx
    · intro x w hw
      by_cases hx : x = id
      · subst hx
        exact ⟨_, (hm _).2 (Or.inl rfl), (FSet.mem_keys_add _ _ _ _).2 (Or.inr rfl)⟩
      · rw [upd_other _ _ hx] at hw
        obtain ⟨e, he, hxe⟩ := h.full x w hw
        by_cases hee : e = e0
        · subst hee
          exact ⟨_, (hm _).2 (Or.inl rfl), (FSet.mem_keys_add _ _ _ _).2 (Or.inl hxe)⟩
        · exact ⟨e, (hm _).2 (Or.inr ⟨he, hee⟩), hxe⟩

theorem BRep.remove {t t' : SetTree} {val : Nat → Option Value} {v : Value} {id : Nat} (h : BRep t val)
    (hid : val id = some v) (ha : SetTree.remove t v id = some t') : BRep t' (upd val id none) := by
  obtain ⟨e1, he1, hide⟩ := h.full id v hid
  have hlike : Like v e1.1 := by
    obtain ⟨w, hw, hl⟩ := h.sound e1 he1 id hide
    rw [hid] at hw; cases hw; exact hl
  have hother : ∀ e ∈ t, id ∈ AMap.keys e.2 → e = e1 := by
    intro e he hx
    obtain ⟨w, hw, hl⟩ := h.sound e he id hx
    rw [hid] at hw; cases hw
    exact h.same he he1 hl hlike
  unfold SetTree.remove at ha
  split at ha
  · cases ha
  · rename_i hg
    exfalso
    have hd := get_none hg e1 he1
    have := hlike.defined (by rcases hd with h' | h' <;> rw [h'] <;> simp)
    rw [this] at hd
    simp at hd
  · rename_i s hg
    obtain ⟨hdef, e0, h0, hk, rfl⟩ := get_some hg
    have e01 : e0 = e1 := h.same h0 he1 (Or.inr hk) hlike
    subst e01
    have hu : ∀ e ∈ t, cmp v e.1 = some 0 → e = e0 := fun e he hc => h.same he h0 (Or.inr hc) (Or.inr hk)
    simp only at ha
    split at ha
    · rename_i hempty
      rw [List.length_eq_zero_iff] at hempty
      cases ha
      have hm : ∀ e, e ∈ SetTree.delete t v ↔ e ∈ t ∧ e ≠ e0 := by
        intro e
        unfold SetTree.delete
        rw [List.mem_filter]
        simp only [decide_eq_true_eq]
        constructor
        · rintro ⟨a, b⟩; exact ⟨a, by rintro rfl; exact b hk⟩
        · rintro ⟨a, b⟩; exact ⟨a, fun hc => b (hu e a hc)⟩
      refine ⟨h.sorted.sublist List.filter_sublist, ?_, ?_, ?_⟩
      · intro e he; exact h.ok e ((hm e).1 he).1
      · intro e he x hx
        have hee := (hm e).1 he
        have hxi : x ≠ id := by rintro rfl; exact hee.2 (hother e hee.1 hx)
        rw [upd_other _ _ hxi]
        exact h.sound e hee.1 x hx
      · intro x w hw
        have hxi : x ≠ id := by rintro rfl; rw [upd_same] at hw; cases hw
        rw [upd_other _ _ hxi] at hw
        obtain ⟨e, he, hxe⟩ := h.full x w hw
        refine ⟨e, (hm e).2 ⟨he, ?_⟩, hxe⟩
        rintro rfl
        have : x ∈ AMap.keys (FSet.remove e.2 id) := (AMap.mem_keys_del _ _ _).2 ⟨hxe, hxi⟩
        rw [hempty] at this; simp [AMap.keys] at this
    · rename_i hne
      rw [List.length_eq_zero_iff] at hne
      cases ha
      have hm := mem_update (s := FSet.remove e0.2 id) h0 hk hu
      refine ⟨sorted_update h.sorted _ _, ?_, ?_, ?_⟩
      · intro e he
        rcases (hm e).1 he with rfl | he
        · exact ⟨(h.ok _ h0).1.remove id, hne⟩
        · exact h.ok e he.1
      · intro e he x hx
        rcases (hm e).1 he with rfl | he'
        · simp only [FSet.remove] at hx
          rw [AMap.mem_keys_del] at hx
          rw [upd_other _ _ hx.2]
          exact h.sound e0 h0 x hx.1
        · have hxi : x ≠ id := by rintro rfl; exact he'.2 (hother e he'.1 hx)
          rw [upd_other _ _ hxi]
          exact h.sound e he'.1 x hx
      · intro x w hw
        have hxi : x ≠ id := by rintro rfl; rw [upd_same] at hw; cases hw
        rw [upd_other _ _ hxi] at hw
        obtain ⟨e, he, hxe⟩ := h.full x w hw
        by_cases hee : e = e0
        · subst hee
          exact ⟨_, (hm _).2 (Or.inl rfl), (AMap.mem_keys_del _ _ _).2 ⟨hxe, hxi⟩⟩
        · exact ⟨e, (hm _).2 (Or.inr ⟨he, hee⟩), hxe⟩

theorem BRep.mem {t : SetTree} {val : Nat → Option Value} (h : BRep t val) (id : Nat) :
    id ∈ SetTree.valueItr t ↔ ∃ v, val id = some v := by
  unfold SetTree.valueItr
  simp only [List.mem_flatten, List.mem_map]
  constructor
  · rintro ⟨l, ⟨e, he, rfl⟩, hx⟩
    rw [(h.ok e he).1.items] at hx
    obtain ⟨v, hv, _⟩ := h.sound e he id hx
    exact ⟨v, hv⟩
  · rintro ⟨v, hv⟩
    obtain ⟨e, he, hx⟩ := h.full id v hv
    exact ⟨_, ⟨e, he, rfl⟩, by rw [(h.ok e he).1.items]; exact hx⟩

theorem BRep.ids {t : SetTree} {val : Nat → Option Value} (h : BRep t val) : (SetTree.valueItr t).Nodup := by
  unfold SetTree.valueItr
  unfold List.Nodup
  rw [List.pairwise_flatten]
  constructor
  · intro l hl
    obtain ⟨e, he, rfl⟩ := List.mem_map.1 hl
    rw [(h.ok e he).1.items]; exact (h.ok e he).1.nodup
  · rw [List.pairwise_map]
    refine h.sorted.imp_of_mem ?_
    intro a b ha hb hlt
    rintro x hxa _ hxb rfl
    rw [(h.ok a ha).1.items] at hxa
    rw [(h.ok b hb).1.items] at hxb
    obtain ⟨v, hv, hl⟩ := h.sound a ha x hxa
    obtain ⟨v', hv', hl'⟩ := h.sound b hb x hxb
    rw [hv] at hv'; cases hv'
    exact hl.unique hl' hlt

/-- What `find` returns contains every object whose value compares equal. -/
theorem BRep.find {t : SetTree} {val : Nat → Option Value} {v : Value} {xs : List Nat} {m : Int} (h : BRep t val)
    (hf : SetTree.find t v = some (xs, m)) : xs.Nodup ∧ (xs.length : Int) = m ∧
      (∀ id ∈ xs, ∃ w, val id = some w) ∧
      ∀ id w, val id = some w → cmp v w = some 0 → id ∈ xs := by
  unfold SetTree.find at hf
  split at hf
  · cases hf
  · rename_i hg
    cases hf
    refine ⟨by simp, rfl, by simp, ?_⟩
    intro id w hw hc
    obtain ⟨e, he, hx⟩ := h.full id w hw
    obtain ⟨w', hw', hl⟩ := h.sound e he id hx
    rw [hw] at hw'; cases hw'
    have hd := get_none hg e he
    exfalso
    rcases hl with rfl | hl
    · rw [hc] at hd; simp at hd
    · rcases hd with hd | hd
      · have := cmp_trans hc hl hd (by omega) (by omega); omega
      · have := cmp_trans hc hl hd (by omega) (by omega); omega
  · rename_i s hg
    simp only [Option.some.injEq, Prod.mk.injEq] at hf
    obtain ⟨h1, h2⟩ := hf
    obtain ⟨hdef, e0, h0, hk, rfl⟩ := get_some hg
    have ok := (h.ok e0 h0).1
    rw [ok.items] at h1
    subst h1 h2
    refine ⟨ok.nodup, by simp [AMap.keys], ?_, ?_⟩
    · intro id hx
      obtain ⟨w, hw, _⟩ := h.sound e0 h0 id hx
      exact ⟨w, hw⟩
    · intro id w hw hc
      obtain ⟨e, he, hx⟩ := h.full id w hw
      obtain ⟨w', hw', hl⟩ := h.sound e he id hx
      rw [hw] at hw'; cases hw'
      have hve : cmp v e.1 = some 0 := by
        rcases hl with rfl | hl
        · exact hc
        · cases hd : cmp v e.1 with
          | none => exact absurd hd (hdef e he)
          | some r =>
            have := cmp_trans hc hl hd (by omega) (by omega)
            congr 1
            exact this.2.2 ⟨rfl, rfl⟩
      rw [h.same h0 he (Or.inr hk) (Or.inr hve)]
      exact hx

/-! ## Either index -/

def IRep : Index → (Nat → Option Value) → Prop
  | .btree t, val => BRep t val
  | .hash h, val => HRep h val

theorem IRep.new (t : IndexType) : IRep (Index.new t) (fun _ => none) := by
  cases t
  · exact BRep.empty
  · exact HRep.empty

theorem IRep.add {ix ix' : Index} {val : Nat → Option Value} {v : Value} {id : Nat} (h : IRep ix val)
    (hid : val id = none) (ha : ix.add v id = some ix') : IRep ix' (upd val id (some v)) := by
  cases ix with
  | btree t =>
    simp only [Index.add, Option.map_eq_some_iff] at ha
    obtain ⟨t', ha, rfl⟩ := ha
    exact BRep.add h hid ha
  | hash t =>
    simp only [Index.add, Option.map_eq_some_iff] at ha
    obtain ⟨t', ha, rfl⟩ := ha
    exact HRep.add h hid ha

theorem IRep.remove {ix ix' : Index} {val : Nat → Option Value} {v : Value} {id : Nat} (h : IRep ix val)
    (hid : val id = some v) (ha : ix.remove v id = some ix') : IRep ix' (upd val id none) := by
  cases ix with
  | btree t =>
    simp only [Index.remove, Option.map_eq_some_iff] at ha
    obtain ⟨t', ha, rfl⟩ := ha
    exact BRep.remove h hid ha
  | hash t =>
    simp only [Index.remove, Option.map_eq_some_iff] at ha
    obtain ⟨t', ha, rfl⟩ := ha
    exact HRep.remove h hid ha

theorem IRep.ids {ix : Index} {val : Nat → Option Value} (h : IRep ix val) : ix.valueItr.Nodup := by
  cases ix with
  | btree t => exact BRep.ids h
  | hash t => exact HRep.ids h

theorem IRep.mem {ix : Index} {val : Nat → Option Value} (h : IRep ix val) (id : Nat) :
    id ∈ ix.valueItr ↔ ∃ v, val id = some v := by
  cases ix with
  | btree t => exact BRep.mem h id
  | hash t => exact HRep.mem h id

end LPG
