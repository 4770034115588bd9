import Verif.Proofs.LabelIndex
import Verif.Proofs.Value
/-!
# Property indexes: what an index contains

`IRep ix val`: the index contains exactly the objects `x` with `val x = some v`, under the value `v`.
-/
namespace LPG

/-! ## Hash index -/

structure HRep (ix : HashIx) (val : Nat → Option Value) : Prop where
  cells : (AMap.keys ix.elements).Nodup
  lt : ∀ c ∈ AMap.keys ix.elements, c < ix.nextCell
  keysN : ∀ k fs, ix.values.get k = some fs → (AMap.keys fs).Nodup
  sets : ∀ k fs id c, ix.values.get k = some fs → AMap.get fs id = some c →
    AMap.get ix.elements c = some id ∧ ∃ v, val id = some v ∧ hkey (unwrap1 v) = some k
  full : ∀ id v, val id = some v → ∃ k fs c, hkey (unwrap1 v) = some k ∧ ix.values.get k = some fs ∧
    AMap.get fs id = some c
  back : ∀ c id, AMap.get ix.elements c = some id → ∃ k fs, ix.values.get k = some fs ∧ AMap.get fs id = some c
  init : ix.init = false → ∀ id, val id = none

theorem HRep.empty : HRep HashIx.empty (fun _ => none) := by
  constructor <;> simp [HashIx.empty, AMap.keys]

theorem HRep.ids {ix : HashIx} {val : Nat → Option Value} (h : HRep ix val) : ix.valueItr.Nodup := by
  unfold HashIx.valueItr
  have key : ∀ c c' id, AMap.get ix.elements c = some id → AMap.get ix.elements c' = some id → c = c' := by
    intro c c' id h1 h2
    obtain ⟨k, fs, a1, a2⟩ := h.back c id h1
    obtain ⟨k', fs', b1, b2⟩ := h.back c' id h2
    obtain ⟨_, v, hv, hk⟩ := h.sets k fs id c a1 a2
    obtain ⟨_, v', hv', hk'⟩ := h.sets k' fs' id c' b1 b2
    rw [hv] at hv'; cases hv'
    rw [hk] at hk'; cases hk'
    rw [a1] at b1; cases b1
    rw [a2] at b2; cases b2
    rfl
  have hc := h.cells
  revert key hc
  generalize ix.elements = l
  intro key hc
  have : l.Pairwise (fun a b => a.2 ≠ b.2) := by
    have h1 : l.Pairwise (fun a b => a.1 ≠ b.1) := by
      simpa [AMap.keys, List.Nodup, List.pairwise_map] using hc
    refine h1.imp_of_mem ?_
    intro a b ha hb hab heq
    obtain ⟨c, id⟩ := a
    obtain ⟨c', id'⟩ := b
    simp only at heq hab
    subst heq
    exact hab (key c c' id (AMap.get_of_mem hc ha) (AMap.get_of_mem hc hb))
  simpa [List.Nodup, List.pairwise_map] using this

theorem HRep.mem {ix : HashIx} {val : Nat → Option Value} (h : HRep ix val) (id : Nat) :
    id ∈ ix.valueItr ↔ ∃ v, val id = some v := by
  unfold HashIx.valueItr
  rw [List.mem_map]
  constructor
  · rintro ⟨⟨c, id'⟩, hm, rfl⟩
    obtain ⟨k, fs, a1, a2⟩ := h.back c id' (AMap.get_of_mem h.cells hm)
    obtain ⟨_, v, hv, _⟩ := h.sets k fs id' c a1 a2
    exact ⟨v, hv⟩
  · rintro ⟨v, hv⟩
    obtain ⟨k, fs, c, a1, a2, a3⟩ := h.full id v hv
    exact ⟨(c, id), AMap.mem_of_get (h.sets k fs id c a2 a3).1, rfl⟩

theorem HRep.add {ix ix' : HashIx} {val : Nat → Option Value} {v : Value} {id : Nat} (h : HRep ix val)
    (hid : val id = none) (ha : ix.add v id = some ix') : HRep ix' (upd val id (some v)) := by
  unfold HashIx.add at ha
  split at ha
  · cases ha
  · rename_i k hk
    simp only [Option.some.injEq] at ha
    subst ha
    -- the set found under `k`
    have hfs : ∃ fs : FSet Nat, (ix.values.get k).getD [] = fs ∧ (AMap.keys fs).Nodup ∧
        AMap.get fs id = none ∧ (∀ x c, AMap.get fs x = some c → ix.values.get k = some fs) ∧
        (∀ fs', ix.values.get k = some fs' → fs' = fs) := by
      cases hg : ix.values.get k with
      | none => exact ⟨[], rfl, by simp [AMap.keys], rfl, by simp, by simp⟩
      | some fs =>
        refine ⟨fs, rfl, h.keysN k fs hg, ?_, fun _ _ _ => rfl, by simp⟩
        cases hgc : AMap.get fs id with
        | none => rfl
        | some c =>
          obtain ⟨_, w, hw, _⟩ := h.sets k fs id c hg hgc
          rw [hid] at hw; cases hw
    obtain ⟨fs, hfs1, hfs2, hfs3, hfs4, hfs5⟩ := hfs
    rw [hfs1]
    have hcn : AMap.get ix.elements ix.nextCell = none := by
      rw [← AMap.not_mem_keys]; intro hc; exact Nat.lt_irrefl _ (h.lt _ hc)
    have hel : ix.elements ++ [(ix.nextCell, id)] = AMap.set ix.elements ix.nextCell id :=
      (AMap.set_of_not_mem hcn id).symm
    have hget : ∀ c, AMap.get (ix.elements ++ [(ix.nextCell, id)]) c =
        if c = ix.nextCell then some id else AMap.get ix.elements c := by
      intro c; rw [hel, AMap.get_set]
    have hclt : ∀ c x, AMap.get ix.elements c = some x → c ≠ ix.nextCell := by
      rintro c x hc rfl; rw [hcn] at hc; cases hc
    have hadd : ∀ x, AMap.get (FSet.add fs id ix.nextCell) x = if x = id then some ix.nextCell else AMap.get fs x := by
      intro x; rw [FSet.get_add, hfs3]; rfl
    refine ⟨?_, ?_, ?_, ?_, ?_, ?_, ?_⟩
    · simp only; rw [hel]; exact AMap.nodup_set h.cells _ _
    · intro c hc
      simp only at hc ⊢
      rw [hel, AMap.keys_set] at hc
      split at hc
      · exact Nat.lt_succ_of_lt (h.lt c hc)
      · rcases List.mem_append.1 hc with hc | hc
        · exact Nat.lt_succ_of_lt (h.lt c hc)
        · simp at hc; omega
    · intro k' fs' hg
      simp only [AMap.get_set] at hg
      split at hg
      · cases hg; exact FSet.nodup_add hfs2 _ _
      · exact h.keysN _ _ hg
    · intro k' fs' x c hg hc
      simp only [AMap.get_set] at hg
      simp only [hget]
      split at hg
      · rename_i hkk
        cases hg
        rw [hadd] at hc
        split at hc
        · rename_i hx
          cases hc
          refine ⟨by simp [hx], v, by simp [hx], by rw [hkk]; exact hk⟩
        · rename_i hx
          obtain ⟨b1, w, b2, b3⟩ := h.sets k fs x c (hfs4 x c hc) hc
          refine ⟨by rw [if_neg (hclt _ _ b1)]; exact b1, w, by rw [upd_other _ _ hx]; exact b2, by rw [hkk]; exact b3⟩
      · obtain ⟨b1, w, b2, b3⟩ := h.sets k' fs' x c hg hc
        have hx : x ≠ id := by rintro rfl; rw [hid] at b2; cases b2
        exact ⟨by rw [if_neg (hclt _ _ b1)]; exact b1, w, by rw [upd_other _ _ hx]; exact b2, b3⟩
    · intro x w hw
      by_cases hx : x = id
      · subst hx
        rw [upd_same] at hw; cases hw
        exact ⟨k, _, ix.nextCell, hk, AMap.get_set_same _ _ _, by rw [hadd]; simp⟩
      · rw [upd_other _ _ hx] at hw
        obtain ⟨k', fs', c, b1, b2, b3⟩ := h.full x w hw
        by_cases hkk : k' = k
        · subst hkk
          refine ⟨k', _, c, b1, AMap.get_set_same _ _ _, ?_⟩
          rw [hadd, if_neg hx, ← hfs5 _ b2]; exact b3
        · exact ⟨k', fs', c, b1, by simp only [AMap.get_set_other _ _ hkk]; exact b2, b3⟩
    · intro c x hc
      simp only [hget] at hc
      split at hc
      · rename_i hcc
        cases hc
        exact ⟨k, _, AMap.get_set_same _ _ _, by rw [hadd]; simp [hcc]⟩
      · obtain ⟨k', fs', b1, b2⟩ := h.back c x hc
        by_cases hkk : k' = k
        · subst hkk
          have hx : x ≠ id := by
            rintro rfl
            have := hfs5 _ b1
            subst this
            rw [hfs3] at b2; cases b2
          refine ⟨k', _, AMap.get_set_same _ _ _, ?_⟩
          rw [hadd, if_neg hx, ← hfs5 _ b1]; exact b2
        · exact ⟨k', fs', by simp only [AMap.get_set_other _ _ hkk]; exact b1, b2⟩
    · intro hi; cases hi

theorem filterMap_some {α β : Type} {f : α → Option β} {g : α → β} : ∀ {l : List α}, (∀ p ∈ l, f p = some (g p)) →
    l.filterMap f = l.map g
  | [], _ => rfl
  | a :: l, h => by
    rw [List.filterMap_cons, h a (by simp), List.map_cons, filterMap_some (fun p hp => h p (by simp [hp]))]

theorem get_filter_ne {β : Type} (l : AMap Nat β) (c x : Nat) :
    AMap.get (l.filter (fun p => p.1 ≠ c)) x = if x = c then none else AMap.get l x := by
  induction l with
  | nil => simp
  | cons p l ih =>
    obtain ⟨k, v⟩ := p
    rw [List.filter_cons]
    by_cases h : k = c
    · simp only [h, ne_eq, not_true, decide_false, Bool.false_eq_true, if_false]
      rw [ih]
      by_cases hx : x = c
      · simp [hx]
      · simp [AMap.get, hx, Ne.symm hx]
    · simp only [ne_eq, h, not_false_iff, decide_true, if_true, AMap.get]
      rw [ih]
      by_cases hx : k = x
      · subst hx; simp [h]
      · simp [hx]

theorem HRep.remove {ix ix' : HashIx} {val : Nat → Option Value} {v : Value} {id : Nat} (h : HRep ix val)
    (hid : val id = some v) (ha : ix.remove v id = some ix') : HRep ix' (upd val id none) := by
  obtain ⟨k, fs, c, b1, b2, b3⟩ := h.full id v hid
  have hinit : ix.init = true := by
    cases hi : ix.init with
    | true => rfl
    | false => rw [h.init hi id] at hid; cases hid
  simp only [HashIx.remove, hinit, b1, b2, b3, Bool.not_true, Bool.false_eq_true, if_false, Option.some.injEq] at ha
  subst ha
  have hc := (h.sets k fs id c b2 b3).1
  -- the cell belongs to this id only
  have huniq : ∀ k' fs' x, ix.values.get k' = some fs' → AMap.get fs' x = some c → x = id := by
    intro k' fs' x hg hx
    have := (h.sets k' fs' x c hg hx).1
    rw [hc] at this; cases this; rfl
  have hval : ∀ k' fs' c', ix.values.get k' = some fs' → AMap.get fs' id = some c' → k' = k := by
    intro k' fs' c' hg hx
    obtain ⟨_, w, hw, hkw⟩ := h.sets k' fs' id c' hg hx
    rw [hid] at hw; cases hw
    rw [b1] at hkw; cases hkw; rfl
  refine ⟨?_, ?_, ?_, ?_, ?_, ?_, ?_⟩
  · exact List.Nodup.sublist (List.Sublist.map _ List.filter_sublist) h.cells
  · intro x hx
    exact h.lt x ((List.Sublist.map _ List.filter_sublist).subset hx)
  · intro k' fs' hg
    simp only [AMap.get_set] at hg
    split at hg
    · cases hg; exact AMap.nodup_del (h.keysN _ _ b2) _
    · exact h.keysN _ _ hg
  · intro k' fs' x c' hg hx
    simp only [AMap.get_set] at hg
    simp only [get_filter_ne]
    have main : ∀ k2 fs2, ix.values.get k2 = some fs2 → AMap.get fs2 x = some c' → x ≠ id →
        (if c' = c then none else AMap.get ix.elements c') = some x ∧
        ∃ w, upd val id none x = some w ∧ hkey (unwrap1 w) = some k2 := by
      intro k2 fs2 hg2 hx2 hne
      obtain ⟨d1, w, d2, d3⟩ := h.sets k2 fs2 x c' hg2 hx2
      have hcc : c' ≠ c := by rintro rfl; exact hne (huniq k2 fs2 x hg2 hx2)
      exact ⟨by rw [if_neg hcc]; exact d1, w, by rw [upd_other _ _ hne]; exact d2, d3⟩
    split at hg
    · rename_i hkk
      cases hg
      simp only [FSet.remove, AMap.get_del] at hx
      split at hx
      · cases hx
      · rename_i hne
        rw [hkk]
        exact main k fs b2 hx hne
    · rename_i hkk
      have hne : x ≠ id := by rintro rfl; exact hkk (hval k' fs' c' hg hx)
      exact main k' fs' hg hx hne
  · intro x w hw
    have hx : x ≠ id := by rintro rfl; rw [upd_same] at hw; cases hw
    rw [upd_other _ _ hx] at hw
    obtain ⟨k', fs', c', d1, d2, d3⟩ := h.full x w hw
    by_cases hkk : k' = k
    · subst hkk
      rw [b2] at d2; cases d2
      exact ⟨k', _, c', d1, AMap.get_set_same _ _ _, by
        simp only [FSet.remove, AMap.get_del, if_neg hx]; exact d3⟩
    · exact ⟨k', fs', c', d1, by simp only [AMap.get_set_other _ _ hkk]; exact d2, d3⟩
  · intro c' x hx
    simp only [get_filter_ne] at hx
    split at hx
    · cases hx
    · rename_i hcc
      obtain ⟨k', fs', d1, d2⟩ := h.back c' x hx
      have hne : x ≠ id := by
        rintro rfl
        have := hval k' fs' c' d1 d2
        subst this
        rw [b2] at d1; cases d1
        rw [b3] at d2; cases d2
        exact hcc rfl
      by_cases hkk : k' = k
      · subst hkk
        rw [b2] at d1; cases d1
        exact ⟨k', _, AMap.get_set_same _ _ _, by
          simp only [FSet.remove, AMap.get_del, if_neg hne]; exact d2⟩
      · exact ⟨k', fs', by simp only [AMap.get_set_other _ _ hkk]; exact d1, d2⟩
  · intro hi; simp only [hinit] at hi; cases hi

theorem HRep.find {ix : HashIx} {val : Nat → Option Value} {v : Value} {xs : List Nat} {m : Int} (h : HRep ix val)
    (hf : ix.find v = some (xs, m)) : xs.Nodup ∧ (xs.length : Int) = m ∧
      ∀ id, id ∈ xs ↔ ∃ w, val id = some w ∧ hkey (unwrap1 w) = hkey (unwrap1 v) := by
  unfold HashIx.find at hf
  split at hf
  · rename_i hi
    cases hf
    refine ⟨by simp, rfl, ?_⟩
    intro id
    have := h.init (by simpa using hi) id
    simp [this]
  · split at hf
    · cases hf
    · rename_i k hk
      split at hf
      · rename_i hg
        cases hf
        refine ⟨by simp, rfl, ?_⟩
        intro id
        simp only [List.not_mem_nil, false_iff]
        rintro ⟨w, hw, hkw⟩
        obtain ⟨k', fs, c, d1, d2, _⟩ := h.full id w hw
        rw [hkw, hk] at d1; cases d1
        rw [hg] at d2; cases d2
      · rename_i fs hg
        simp only [Option.some.injEq, Prod.mk.injEq] at hf
        obtain ⟨h1, h2⟩ := hf
        have hkn := h.keysN k fs hg
        -- the list is the list of keys of the set
        have hmap : fs.items.filterMap (fun c => AMap.get ix.elements c) = AMap.keys fs := by
          unfold FSet.items AMap.keys
          rw [List.filterMap_map]
          apply filterMap_some
          rintro ⟨id, c⟩ hp
          exact (h.sets k fs id c hg (AMap.get_of_mem hkn hp)).1
        rw [hmap] at h1
        subst h1 h2
        refine ⟨hkn, by simp [AMap.keys], ?_⟩
        intro id
        rw [AMap.mem_keys]
        constructor
        · rintro ⟨c, hc⟩
          obtain ⟨_, w, hw, hkw⟩ := h.sets k fs id c hg hc
          exact ⟨w, hw, by rw [hkw, hk]⟩
        · rintro ⟨w, hw, hkw⟩
          obtain ⟨k', fs', c, d1, d2, d3⟩ := h.full id w hw
          rw [hkw, hk] at d1; cases d1
          rw [hg] at d2; cases d2
          exact ⟨c, d3⟩

end LPG
