import Verif.Proofs.EdgeMono
import Verif.Proofs.Closed
import Verif.Proofs.LabelIndex
/-! Removing an edge that is filed under a label it no longer has, while there is a list for its label. -/
namespace LPG
open State

theorem EList.remove_slot (P : Slot) (l l' : EList) (e : Nat) : (l.remove P e).1 = (l'.remove P e).1 := by
  unfold EList.remove
  cases hp : (P e).prev with
  | none => cases hn : (P e).next <;> simp [hn]
  | some p => dsimp only; split <;> rfl

theorem EList.remove_n (P : Slot) (l : EList) (e : Nat) : (l.remove P e).2.n = l.n - 1 := by
  unfold EList.remove
  cases hp : (P e).prev with
  | none => cases hn : (P e).next <;> simp [hn]
  | some p => dsimp only; split <;> rfl

theorem EList.remove_head {P : Slot} {e p : Nat} (hp : (P e).prev = some p) (l : EList) : (l.remove P e).2.head = l.head := by
  unfold EList.remove
  rw [hp]
  dsimp only; split <;> rfl

theorem EList.remove_self (P : Slot) (l : EList) (e : Nat) : (l.remove P e).1 e = ⟨none, none⟩ := by
  unfold EList.remove
  exact upd_same _ _ _

theorem Seg.sorted {P : Slot} {b : Nat} (hm : SMono P b) : ∀ {xs : List Nat} {prev : Option Nat}, Seg P prev xs none →
    xs.Pairwise (· < ·)
  | [], _, _ => List.Pairwise.nil
  | [x], _, _ => by simp
  | x :: y :: xs, prev, h => by
    obtain ⟨_, h2, h3⟩ := h
    have h4 := Seg.sorted hm h3
    have hxy : x < y := (hm.next x y (by simpa using h2)).1
    refine List.pairwise_cons.2 ⟨?_, h4⟩
    intro z hz
    rcases List.mem_cons.1 hz with rfl | hz
    · exact hxy
    · exact Nat.lt_trans hxy ((List.pairwise_cons.1 h4).1 z hz)

theorem concatOpt_has : ∀ {l : List (Option (List Nat))} {xs : List Nat}, concatOpt l = some xs → ∀ ys, some ys ∈ l →
    ∀ y ∈ ys, y ∈ xs
  | [], _, _, _, h, _, _ => by cases h
  | none :: _, _, h, _, _, _, _ => by simp [concatOpt] at h
  | some ys :: r, xs, h, ws, hw, y, hy => by
    rw [concatOpt] at h
    split at h
    · cases h
    · rename_i zs hz
      cases h
      rcases List.mem_cons.1 hw with hw | hw
      · cases hw; exact List.mem_append_left _ hy
      · exact List.mem_append_right _ (concatOpt_has hz ws hw y hy)

/-- When the enumeration is right after the removal. -/
theorem EdgeMap.remove_misfiled {P : Slot} {f label : Nat → String} {em : EdgeMap} {xs : List Nat} {e b fuel : Nat}
    (h : EMRep P f em xs) (hm : SMono P b) (he : e ∈ xs) (hne : f e ≠ label e) (h2 : 2 ≤ xs.length)
    (hf : xs.length ≤ fuel) {el : EList} (hg : em.lists.get (label e) = some el) :
    (em.remove P label e).2.n = xs.length - 1 ∧
    ((∃ ys, (em.remove P label e).2.enum (em.remove P label e).1 fuel = some ys ∧ ys.Perm (xs.erase e)) ↔
      (∃ y ∈ xs, y < e ∧ f y = f e) ∧ 2 ≤ (xs.filter (fun x => f x = label e)).length) := by
  have hn0 : ¬ em.n = 0 := by rw [h.n]; omega
  have hn1 : ¬ em.n = 1 := by rw [h.n]; omega
  have hnn := h.n
  obtain ⟨hl1, hl2⟩ := h.getSome h2 _ _ hg
  have hln := hl2.n
  have hlpos : 1 ≤ (xs.filter (fun x => f x = label e)).length := List.length_pos_iff.2 hl1
  -- the list that the edge is in
  obtain ⟨eL, hgL⟩ : ∃ eL, em.lists.get (f e) = some eL := by
    cases hgL : em.lists.get (f e) with
    | some eL => exact ⟨eL, rfl⟩
    | none =>
      have := h.getNone h2 _ hgL
      rw [List.filter_eq_nil_iff] at this
      exact absurd (by simp) (this e he)
  obtain ⟨_, hL2⟩ := h.getSome h2 _ _ hgL
  have heL : e ∈ xs.filter (fun x => f x = f e) := List.mem_filter.2 ⟨he, by simp⟩
  obtain ⟨as, bs, hab⟩ := List.append_of_mem heL
  have hndL : (as ++ e :: bs).Nodup := by rw [← hab]; exact h.nodup.filter _
  have hsorted := hL2.seg.sorted hm
  rw [hab] at hL2 hsorted
  obtain ⟨hd', hfr⟩ := EList.remove_spec hL2 hndL
  have hP : (el.remove P e).1 = (eL.remove P e).1 := EList.remove_slot P el eL e
  have hearly : (∃ y ∈ xs, y < e ∧ f y = f e) ↔ as ≠ [] := by
    constructor
    · rintro ⟨y, hy, hlt, hfy⟩ rfl
      have hy' : y ∈ xs.filter (fun x => f x = f e) := List.mem_filter.2 ⟨hy, by simpa using hfy⟩
      rw [hab] at hy'
      rcases List.mem_cons.1 hy' with rfl | hy'
      · omega
      · have := (List.pairwise_cons.1 hsorted).1 y hy'; omega
    · intro hne'
      obtain ⟨y, ys, rfl⟩ := List.exists_cons_of_ne_nil hne'
      have hy' : y ∈ xs.filter (fun x => f x = f e) := by rw [hab]; simp
      refine ⟨y, (List.mem_filter.1 hy').1, ?_, by simpa using (List.mem_filter.1 hy').2⟩
      exact (List.pairwise_append.1 hsorted).2.2 y (by simp) e (by simp)
  -- what the other lists have
  have hother : ∀ k v, em.lists.get k = some v → k ≠ f e →
      LPG.walk (fun x => ((eL.remove P e).1 x).next) fuel v.head = some (xs.filter (fun x => f x = k)) := by
    intro k v hk hkn
    have d := (h.getSome h2 _ _ hk).2
    have d' : DLL (eL.remove P e).1 v (xs.filter (fun x => f x = k)) := by
      refine d.congr ?_
      intro x hx
      apply hfr
      rw [← hab]
      intro hx'
      have h3 := (List.mem_filter.1 hx).2
      have h4 := (List.mem_filter.1 hx').2
      simp at h3 h4
      exact hkn (h3.symm.trans h4)
    exact d'.walk (Nat.le_trans (List.length_filter_le _ _) hf)
  have hnl := EList.remove_n P el e
  rw [hln] at hnl
  have hznotL : ∀ z, z ∈ xs.filter (fun x => f x = label e) → z ≠ e := by
    rintro z hz rfl
    have := (List.mem_filter.1 hz).2
    simp at this
    exact hne this
  have hnotin : e ∉ xs.erase e := by rw [h.nodup.mem_erase_iff]; simp
  have hlen : (xs.filter (fun x => f x = f e)).length + (xs.filter (fun x => f x = label e)).length ≤ xs.length := by
    have : ∀ ys : List Nat, (ys.filter (fun x => f x = f e)).length + (ys.filter (fun x => f x = label e)).length ≤ ys.length := by
      intro ys
      induction ys with
      | nil => simp
      | cons y ys ih =>
        by_cases h1 : f y = f e
        · have h2 : ¬ f y = label e := fun hh => hne (h1.symm.trans hh)
          simp only [List.filter_cons, h1, List.length_cons, decide_true, if_true]
          have h3 : ¬ f e = label e := hne
          simp only [h3, decide_false]
          simp; omega
        · by_cases h2 : f y = label e
          · simp only [List.filter_cons, h2, List.length_cons, decide_true, if_true]
            have h3 : ¬ label e = f e := fun hh => hne hh.symm
            simp only [h3, decide_false]
            simp; omega
          · simp only [List.filter_cons, h1, h2, List.length_cons, decide_false]
            simp; omega
    exact this xs
  have hLlen : (xs.filter (fun x => f x = f e)).length = as.length + 1 + bs.length := by
    rw [hab]; simp; omega
  by_cases hone : (xs.filter (fun x => f x = label e)).length = 1
  · -- the list of the label is dropped
    have h0 : (el.remove P e).2.n = 0 := by omega
    have hmemL : (f e, eL) ∈ em.lists.del (label e) := by
      apply AMap.mem_of_get
      rw [AMap.get_del, if_neg hne]; exact hgL
    by_cases hx2 : xs.length = 2
    · -- only one edge is left
      have h1 : em.n - 1 = 1 := by rw [hnn]; omega
      have hasbs : as = [] ∧ bs = [] := by
        constructor <;> apply List.length_eq_zero_iff.1 <;> omega
      obtain ⟨rfl, rfl⟩ := hasbs
      cases hlast : (em.lists.del (label e)).getLast? with
      | none => rw [List.getLast?_eq_none_iff] at hlast; rw [hlast] at hmemL; cases hmemL
      | some p =>
        obtain ⟨k, v⟩ := p
        have hpm := List.mem_of_getLast? hlast
        have hkn : (AMap.keys (em.lists.del (label e))).Nodup := by rw [AMap.keys_del]; exact h.keys.filter _
        have hgk := AMap.get_of_mem hkn hpm
        rw [AMap.get_del] at hgk
        split at hgk
        · cases hgk
        · rename_i hkl
          have hkf : k = f e := by
            apply Classical.byContradiction
            intro hkf
            obtain ⟨q1, _⟩ := h.getSome h2 _ _ hgk
            obtain ⟨y, ys, hy⟩ := List.exists_cons_of_ne_nil q1
            have hy1 : y ∈ xs.filter (fun x => f x = k) := by rw [hy]; simp
            obtain ⟨hyx, hyk⟩ := List.mem_filter.1 hy1
            simp at hyk
            obtain ⟨z, zs, hz⟩ := List.exists_cons_of_ne_nil hl1
            have hz1 : z ∈ xs.filter (fun x => f x = label e) := by rw [hz]; simp
            obtain ⟨hzx, hzk⟩ := List.mem_filter.1 hz1
            simp at hzk
            have hye : y ≠ e := by rintro rfl; exact hkf hyk.symm
            have hze : z ≠ e := hznotL z hz1
            have hyz : y ≠ z := by rintro rfl; exact hkl (hyk.symm.trans hzk)
            have : [e, y, z].Subperm xs := by
              apply List.subperm_of_subset
              · simp [hye.symm, hze.symm, hyz]
              · intro w hw; simp at hw; rcases hw with rfl | rfl | rfl <;> assumption
            have := this.length_le
            simp at this; omega
          subst hkf
          rw [hgL] at hgk; cases hgk
          have hrem : em.remove P label e = ((eL.remove P e).1, { lists := [], only := eL.head, n := em.n - 1 }) := by
            unfold EdgeMap.remove
            rw [if_neg hn0, if_neg hn1, hg]
            dsimp only
            rw [hP, if_pos h0]
            dsimp only
            rw [if_pos h1, hlast]
          have hhead : eL.head = some e := by rw [hL2.head]; rfl
          rw [hrem, hhead]
          refine ⟨by dsimp only; rw [h1]; omega, ?_⟩
          rw [hearly]
          constructor
          · rintro ⟨ys, hys, hp⟩
            exfalso
            unfold EdgeMap.enum at hys
            dsimp only at hys
            rw [h1, if_neg (by decide), if_pos rfl] at hys
            simp at hys
            subst hys
            exact hnotin (hp.mem_iff.1 (by simp))
          · rintro ⟨h3, _⟩; exact absurd rfl h3
    · have h1 : ¬ em.n - 1 = 1 := by rw [hnn]; omega
      have hrem : em.remove P label e =
          ((eL.remove P e).1, { lists := em.lists.del (label e), only := em.only, n := em.n - 1 }) := by
        unfold EdgeMap.remove
        rw [if_neg hn0, if_neg hn1, hg]
        dsimp only
        rw [hP, if_pos h0]
        dsimp only
        rw [if_neg h1]
      rw [hrem]
      refine ⟨by dsimp only; rw [hnn], ?_⟩
      constructor
      · rintro ⟨ys, hys, hp⟩
        exfalso
        unfold EdgeMap.enum at hys
        dsimp only at hys
        rw [if_neg (by rw [hnn]; omega), if_neg h1] at hys
        obtain ⟨z, zs, hz⟩ := List.exists_cons_of_ne_nil hl1
        have hz1 : z ∈ xs.filter (fun x => f x = label e) := by rw [hz]; simp
        obtain ⟨hzx, hzk⟩ := List.mem_filter.1 hz1
        simp at hzk
        have hzy : z ∈ ys := hp.mem_iff.2 ((h.nodup.mem_erase_iff).2 ⟨hznotL z hz1, hzx⟩)
        by_cases has : as = []
        · -- the removed edge is still the head of its list
          subst has
          have hhead : eL.head = some e := by rw [hL2.head]; rfl
          have hw : LPG.walk (fun x => ((eL.remove P e).1 x).next) fuel eL.head = some [e] := by
            rw [hhead]
            obtain ⟨n, rfl⟩ : ∃ n, fuel = n + 1 := ⟨fuel - 1, by omega⟩
            simp [LPG.walk, EList.remove_self]
          exact hnotin (hp.mem_iff.1 (concatOpt_has hys [e] (List.mem_map.2 ⟨_, hmemL, hw⟩) e (by simp)))
        · obtain ⟨ws, hws, hzw⟩ := concatOpt_mem hys z hzy
          obtain ⟨⟨k, v⟩, hkv, hwv⟩ := List.mem_map.1 hws
          have hkn : (AMap.keys (em.lists.del (label e))).Nodup := by rw [AMap.keys_del]; exact h.keys.filter _
          have hgk := AMap.get_of_mem hkn hkv
          rw [AMap.get_del] at hgk
          split at hgk
          · cases hgk
          · rename_i hkl
            by_cases hkf : k = f e
            · subst hkf
              rw [hgL] at hgk; cases hgk
              have hw : LPG.walk (fun x => ((eL.remove P e).1 x).next) fuel eL.head = some (as ++ bs) := by
                have : eL.head = (eL.remove P e).2.head := by
                  rw [hd'.head, hL2.head]
                  obtain ⟨a, as', rfl⟩ := List.exists_cons_of_ne_nil has
                  rfl
                rw [this]
                refine hd'.walk ?_
                simp; omega
              dsimp only at hwv
              rw [hw] at hwv
              cases hwv
              have : z ∈ xs.filter (fun x => f x = f e) := by
                rw [hab]; simp at hzw ⊢; rcases hzw with h | h <;> simp [h]
              have := (List.mem_filter.1 this).2
              simp at this
              exact hne (this.symm.trans hzk)
            · dsimp only at hwv
              rw [hother k v hgk hkf] at hwv
              cases hwv
              have := (List.mem_filter.1 hzw).2
              simp at this
              exact hkl (this.symm.trans hzk)
      · rintro ⟨_, h3⟩; omega
  · -- the list of the label stays
    have h0 : ¬ (el.remove P e).2.n = 0 := by omega
    have h1 : ¬ em.n - 1 = 1 := by rw [hnn]; omega
    have hrem : em.remove P label e = ((eL.remove P e).1,
        { lists := em.lists.set (label e) (el.remove P e).2, only := em.only, n := em.n - 1 }) := by
      unfold EdgeMap.remove
      rw [if_neg hn0, if_neg hn1, hg]
      dsimp only
      rw [if_neg h0]
      dsimp only
      rw [if_neg h1, hP]
    rw [hrem]
    refine ⟨by dsimp only; rw [hnn], ?_⟩
    have hmemL : (f e, eL) ∈ em.lists.set (label e) (el.remove P e).2 := by
      apply AMap.mem_of_get
      rw [AMap.get_set_other _ _ hne]; exact hgL
    rw [hearly]
    constructor
    · rintro ⟨ys, hys, hp⟩
      refine ⟨?_, by omega⟩
      rintro rfl
      unfold EdgeMap.enum at hys
      dsimp only at hys
      rw [if_neg (by rw [hnn]; omega), if_neg h1] at hys
      have hhead : eL.head = some e := by rw [hL2.head]; rfl
      have hw : LPG.walk (fun x => ((eL.remove P e).1 x).next) fuel eL.head = some [e] := by
        rw [hhead]
        obtain ⟨n, rfl⟩ : ∃ n, fuel = n + 1 := ⟨fuel - 1, by omega⟩
        simp [LPG.walk, EList.remove_self]
      exact hnotin (hp.mem_iff.1 (concatOpt_has hys [e] (List.mem_map.2 ⟨_, hmemL, hw⟩) e (by simp)))
    · rintro ⟨has, _⟩
      have hkeys : AMap.keys (em.lists.set (label e) (el.remove P e).2) = AMap.keys em.lists := by
        rw [AMap.keys_set, if_pos]
        exact List.mem_map.2 ⟨_, AMap.mem_of_get hg, rfl⟩
      have hprev : ∃ p, (P e).prev = some p := by
        have := hL2.seg
        rw [seg_append] at this
        obtain ⟨_, hpe, _⟩ := this
        rw [hpe, Option.or_none]
        cases hla : as.getLast? with
        | none => rw [List.getLast?_eq_none_iff] at hla; exact absurd hla has
        | some p => exact ⟨p, rfl⟩
      obtain ⟨p, hprev⟩ := hprev
      refine ⟨((AMap.keys em.lists).map (fun l => (xs.erase e).filter (fun x => f x = l))).flatten, ?_, ?_⟩
      · unfold EdgeMap.enum
        dsimp only
        rw [if_neg (by rw [hnn]; omega), if_neg h1, ← concatOpt_some, ← hkeys]
        congr 1
        rw [AMap.keys, List.map_map, List.map_map]
        apply List.map_congr_left
        rintro ⟨k, v⟩ hkv
        have hkn : (AMap.keys (em.lists.set (label e) (el.remove P e).2)).Nodup := by rw [hkeys]; exact h.keys
        have hgk := AMap.get_of_mem hkn hkv
        rw [AMap.get_set] at hgk
        dsimp only [Function.comp]
        have hoff : k ≠ f e → (xs.erase e).filter (fun x => f x = k) = xs.filter (fun x => f x = k) := by
          intro hkf
          rw [List.Nodup.erase_eq_filter h.nodup, List.filter_filter]
          apply List.filter_congr
          intro x _
          by_cases hx : x = e
          · subst hx; simp [Ne.symm hkf]
          · simp [hx]
        split at hgk
        · rename_i hkl
          subst hkl
          cases hgk
          rw [EList.remove_head hprev, hother _ el hg (fun hh => hne hh.symm), hoff (fun hh => hne hh.symm)]
        · by_cases hkf : k = f e
          · subst hkf
            rw [hgL] at hgk; cases hgk
            have hw : LPG.walk (fun x => ((eL.remove P e).1 x).next) fuel eL.head = some (as ++ bs) := by
              rw [← EList.remove_head hprev eL]
              refine hd'.walk ?_
              simp; omega
            rw [hw]
            congr 1
            have h3 : (xs.erase e).filter (fun x => f x = f e) = (xs.filter (fun x => f x = f e)).erase e := by
              rw [List.Nodup.erase_eq_filter h.nodup, List.Nodup.erase_eq_filter (h.nodup.filter _), List.filter_filter,
                List.filter_filter]
              apply List.filter_congr
              intro x _
              exact Bool.and_comm _ _
            rw [h3, hab]
            have hea : e ∉ as := by
              intro hh
              exact (List.nodup_append.1 hndL).2.2 e hh e (by simp) rfl
            rw [List.erase_append_right _ hea]
            simp
          · rw [hother k v hgk hkf, hoff hkf]
      · apply perm_flatten_filter _ _ h.keys
        intro x hx
        have hx' : x ∈ xs := List.mem_of_mem_erase hx
        apply Classical.byContradiction
        intro hc
        have hgn : em.lists.get (f x) = none := by
          cases hh : em.lists.get (f x) with
          | none => rfl
          | some v => exact absurd (List.mem_map.2 ⟨_, AMap.mem_of_get hh, rfl⟩) hc
        have := h.getNone h2 _ hgn
        rw [List.filter_eq_nil_iff] at this
        exact absurd (by simp) (this x hx')

end LPG
